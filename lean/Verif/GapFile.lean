import Verif.BigCount
/-!
# A file whose internals are longer than estimated
-/

namespace Brunsli

open JM

/-! ## Many codes in a segment -/

/-- What `dhtCode` makes of the segment from `p` to `stop`. -/
def Codes (d : List Nat) (stop : Nat) : Nat → List HuffCode → Prop
  | p, [] => p = stop
  | p, h :: hs => p < stop ∧ ∃ p', dhtCode stop d p = .ok (h, p') ∧ Codes d stop p' hs

theorem dhtLoop_codes {d : List Nat} (hd : Bytes d) {stop : Nat} (codes : List HuffCode) : ∀ {p fuel : Nat} {hs : List HuffCode} {lut : HSlot → JMem} {T : HSlot → CodeTable},
    Tabs lut T → Codes d stop p codes → codes.length < fuel →
    ∃ lut', dhtLoop stop fuel hs lut d p = .ok ((hs ++ codes, lut'), stop) ∧ ∀ s, (∀ h ∈ codes, h.slot ≠ s) → lut' s = lut s := by
  induction codes with
  | nil =>
    intro p fuel hs lut T _ hc hf
    obtain ⟨f, rfl⟩ : ∃ f, fuel = f + 1 := ⟨fuel - 1, by have : 0 < fuel := hf; omega⟩
    have hc : p = stop := hc
    subst hc
    refine ⟨lut, ?_, fun _ _ => rfl⟩
    show (if p < p then _ else pure (hs, lut) : JM _) d p = _
    rw [if_neg (by omega), List.append_nil]; rfl
  | cons h codes ih =>
    intro p fuel hs lut T hT hc hf
    obtain ⟨f, rfl⟩ : ∃ f, fuel = f + 1 := ⟨fuel - 1, by rw [List.length_cons] at hf; omega⟩
    obtain ⟨hlt, p', h1, h2⟩ := hc
    have ok : h.Ok := by
      have := dhtCode_wp hd stop p
      unfold JM.Wp at this
      rw [h1] at this
      exact this.2.2.1
    obtain ⟨m, t, hm, ht, hmt⟩ := slotMatch_dht (hT h.slot) ok
    obtain ⟨lut', e1, e2⟩ := ih (fuel := f) (hs := hs ++ [h]) (tabs_put hT (s0 := h.slot) hmt) h2 (by rw [List.length_cons] at hf; omega)
    refine ⟨lut', ?_, fun s hs => ?_⟩
    · show (if p < stop then dhtCode stop >>= fun h => (match dhtLut (lut h.slot) h with
        | none => JM.broken
        | some m => dhtLoop stop f (hs ++ [h]) fun s => if s = h.slot then m else lut s) else pure (hs, lut) : JM _) d p = _
      rw [if_pos hlt]
      show (dhtCode stop d p).bind _ = _
      rw [h1]
      dsimp only [Run.bind]
      rw [hm]
      dsimp only
      rw [e1, List.append_assoc]
      rfl
    · rw [e2 s fun x hx => hs x (List.mem_cons_of_mem _ hx), if_neg (fun e => hs h List.mem_cons_self e.symm)]

/-! ## Codes elsewhere -/

/-- `m` after the bytes `a` does what `m'` does. -/
def JM.Shift {α : Type} (a : List Nat) (m m' : JM α) : Prop := ∀ b p r p', m' b p = .ok (r, p') → m (a ++ b) (a.length + p) = .ok (r, a.length + p')

theorem byteOf_shift (a b : List Nat) (p : Nat) : byteOf (a ++ b) (a.length + p) = byteOf b p := by
  unfold byteOf
  rw [List.getD_eq_getElem?_getD, List.getD_eq_getElem?_getD, List.getElem?_append_right (by omega), Nat.add_sub_cancel_left]

namespace JM

theorem Shift.pure {α : Type} {a : List Nat} (x : α) : Shift a (Pure.pure x : JM α) (Pure.pure x) := by
  intro b p r p' h
  have h : Run.ok (x, p) = .ok (r, p') := h
  cases h; rfl

theorem Shift.bind {α β : Type} {a : List Nat} {m m' : JM α} {f f' : α → JM β} (h : Shift a m m') (hf : ∀ x, Shift a (f x) (f' x)) : Shift a (m >>= f) (m' >>= f') := by
  intro b p r p' e
  have e : (m' b p).bind (fun q => f' q.1 b q.2) = .ok (r, p') := e
  show (m (a ++ b) (a.length + p)).bind (fun q => f q.1 (a ++ b) q.2) = .ok (r, a.length + p')
  cases hm : m' b p with
  | ok q =>
    obtain ⟨x, p1⟩ := q
    rw [hm] at e
    rw [h b p x p1 hm]
    exact hf x b p1 r p' e
  | fail => rw [hm] at e; cases e
  | ub => rw [hm] at e; cases e

theorem Shift.check {a : List Nat} (c : Bool) : Shift a (JM.check c) (JM.check c) := by
  intro b p r p' h
  unfold JM.check at h ⊢
  split at h
  · rename_i hc; cases h; rw [if_pos hc]
  · cases h

theorem Shift.need {a : List Nat} (n : Nat) : Shift a (JM.need n) (JM.need n) := by
  intro b p r p' h
  unfold JM.need at h ⊢
  split at h
  · cases h
  · cases h; rw [if_neg (by rw [List.length_append]; omega)]

theorem Shift.u8 {a : List Nat} : Shift a JM.u8 JM.u8 := by
  intro b p r p' h
  unfold JM.u8 at h ⊢
  split at h
  · cases h; rw [if_pos (by rw [List.length_append]; omega), byteOf_shift]; rfl
  · cases h

end JM

theorem u8s_shift {a : List Nat} (n : Nat) : Shift a (u8s n) (u8s n) := by
  induction n with
  | zero => exact Shift.pure _
  | succ n ih => rw [u8s]; exact Shift.u8.bind fun _ => ih.bind fun _ => Shift.pure _

theorem dhtValues_shift {a : List Nat} (bound n : Nat) : ∀ seen, Shift a (dhtValues bound n seen) (dhtValues bound n seen) := by
  induction n with
  | zero => intro seen; exact Shift.pure _
  | succ n ih =>
    intro seen
    rw [dhtValues]
    exact Shift.u8.bind fun _ => (Shift.check _).bind fun _ => (Shift.check _).bind fun _ => (ih _).bind fun _ => Shift.pure _

theorem dhtCode_shift {a : List Nat} (stop : Nat) : Shift a (dhtCode (a.length + stop)) (dhtCode stop) := by
  unfold dhtCode
  refine (Shift.need _).bind fun _ => Shift.u8.bind fun _ => (Shift.check _).bind fun _ => (u8s_shift _).bind fun _ => (Shift.check _).bind fun _ => (Shift.need _).bind fun _ =>
    (dhtValues_shift _ _ _).bind fun _ => (Shift.check _).bind fun _ => ?_
  intro b p r p' h
  have h : Run.ok (_, p) = .ok (r, p') := h
  cases h
  show Run.ok (_, _) = .ok _
  rw [show decide (a.length + p = a.length + stop) = decide (p = stop) by simp]

/-- The same with another end of the segment. -/
theorem bind_same {α β : Type} {m : JM α} {f f' : α → JM β} {g : β → Nat → β} (hf : ∀ x d p r p', f x d p = .ok (r, p') → f' x d p = .ok (g r p', p')) :
    ∀ d p r p', (m >>= f) d p = .ok (r, p') → (m >>= f') d p = .ok (g r p', p') := by
  intro d p r p' e
  have e : (m d p).bind (fun q => f q.1 d q.2) = .ok (r, p') := e
  show (m d p).bind (fun q => f' q.1 d q.2) = .ok (g r p', p')
  cases hm : m d p with
  | ok q => rw [hm] at e; exact hf q.1 d q.2 r p' e
  | fail => rw [hm] at e; cases e
  | ub => rw [hm] at e; cases e

theorem dhtCode_stop (s s' : Nat) : ∀ d p h p', dhtCode s d p = .ok (h, p') → dhtCode s' d p = .ok ({ h with isLast := decide (p' = s') }, p') := by
  unfold dhtCode
  refine bind_same (g := fun (h : HuffCode) p' => { h with isLast := decide (p' = s') }) fun _ => bind_same fun _ => bind_same fun _ => bind_same fun _ => bind_same fun _ => bind_same fun _ => bind_same fun _ => bind_same fun _ => ?_
  intro d p h p' e
  have e : Run.ok (_, p) = .ok (h, p') := e
  cases e
  rfl

/-! ## The file -/

/-- An AC code with 256 symbols, in descending order. -/
def fatCode : List Nat := [0x11, 0, 0, 0, 0, 0, 0, 0, 0, 128, 128, 0, 0, 0, 0, 0, 0] ++ (List.range 256).map (255 - ·)

/-- The code as the reader keeps it. -/
def fatHuff (last : Bool) : HuffCode := ⟨[0, 0, 0, 0, 0, 0, 0, 0, 0, 128, 129, 0, 0, 0, 0, 0, 0], (List.range 256).map (255 - ·) ++ [256], 0x11, last⟩

theorem fatCode_read (stop : Nat) : dhtCode stop fatCode 0 = .ok (fatHuff (decide (273 = stop)), 273) := by
  have h : dhtCode 0 fatCode 0 = .ok (fatHuff false, 273) := by decide +kernel
  exact dhtCode_stop 0 stop _ _ _ _ h

/-- The segments up to the codes: quantisation table of ones; 8 by 8 pixels, one component; the two codes of `bigHead`; the head of a segment. -/
def gapPre : List Nat :=
  [0xFF, 0xD8] ++ [0xFF, 0xDB, 0, 67, 0] ++ List.replicate 64 1 ++ [0xFF, 0xC0, 0, 11, 8, 0, 8, 0, 8, 1, 1, 0x11, 0] ++
  [0xFF, 0xC4, 0, 38, 0x00, 0, 0, 0, 0, 0, 0, 0, 1, 0, 0, 0, 0, 0, 0, 0, 0, 0x00, 0x10, 0, 0, 0, 0, 1, 0, 0, 0, 0, 0, 0, 0, 0, 0, 0, 0, 0x0B] ++
  [0xFF, 0xC4, 8, 138]

/-- `n` codes. -/
def fatBytes (n : Nat) : List Nat := (List.replicate n fatCode).flatten

/-- Eight more codes, and a scan. -/
def gapHead : List Nat := gapPre ++ (fatBytes 8 ++ [0xFF, 0xDA, 0, 8, 1, 1, 0x00, 0, 63, 0])

def gapState1 : RJ := stateOf (segAt RJ.init 0xdb gapHead 2)
def gapState2 : RJ := stateOf (segAt gapState1 0xc0 gapHead 71)
def gapState3 : RJ := stateOf (segAt gapState2 0xc4 gapHead 84)

theorem gapState1_eq : segAt RJ.init 0xdb gapHead 2 = .ok (gapState1, 71) := stateOf_spec (by decide +kernel)
theorem gapState2_eq : segAt gapState1 0xc0 gapHead 71 = .ok (gapState2, 84) := stateOf_spec (by decide +kernel)
theorem gapState3_eq : segAt gapState2 0xc4 gapHead 84 = .ok (gapState3, 124) := stateOf_spec (by decide +kernel)

theorem gapState3_facts : gapState3.width = 8 ∧ gapState3.height = 8 ∧ gapState3.ri = 0 ∧ gapState3.app = [] ∧ gapState3.com = [] ∧
    gapState3.comps = [⟨1, 1, 1, 0, 1, 1, []⟩] ∧ gapState3.scans = [] ∧ gapState3.order = [0xdb, 0xc0, 0xc4] ∧ gapState3.inter = [] ∧ gapState3.pads = [] ∧
    gapState3.prog = false ∧ gapState3.sof = true ∧ gapState3.quant.length = 1 ∧ gapState3.quant.map QuantTable.index = [0] ∧ gapState3.huffman.length = 2 := by decide +kernel

theorem gapState3_dc : gapState3.lut (false, 0) 0 = ⟨8, 0⟩ := by decide +kernel
theorem gapState3_ac : ∀ i < 8, gapState3.lut (true, 0) i = ⟨5, 0x0B⟩ := by decide +kernel
theorem gapState3_masks : (markScan (scanParams false bigScan) [0] gapState3.masks).isSome = true := by decide +kernel




theorem fatBytes_length (n : Nat) : (fatBytes n).length = 273 * n := by
  unfold fatBytes
  rw [List.length_flatten, List.map_replicate, List.sum_replicate]
  rw [show fatCode.length = 273 by decide +kernel]
  simp [Nat.mul_comm]

/-- `n` codes, the last one being marked. -/
def fatList (n : Nat) : List HuffCode := (List.range n).map fun i => fatHuff (decide (i + 1 = n))

theorem fatList_succ (n : Nat) : fatList (n + 1) = fatHuff (decide (n = 0)) :: fatList n := by
  unfold fatList
  rw [List.range_succ_eq_map, List.map_cons, List.map_map]
  congr 1
  · congr 1; simp [eq_comm]
  · refine List.map_congr_left fun i _ => ?_
    simp

theorem fat_codes (tail : List Nat) (n : Nat) : ∀ a : List Nat, Codes (a ++ (fatBytes n ++ tail)) (a.length + 273 * n) a.length (fatList n) := by
  induction n with
  | zero => intro a; exact rfl
  | succ n ih =>
    intro a
    rw [fatList_succ]
    refine ⟨by omega, a.length + 273, ?_, ?_⟩
    · have h1 := dhtCode_stable _ fatCode (fatBytes n ++ tail) 0 _ _ (fatCode_read (273 * (n + 1)))
      have h2 := dhtCode_shift (a := a) _ _ _ _ _ h1
      have e : fatBytes (n + 1) ++ tail = fatCode ++ (fatBytes n ++ tail) := by
        unfold fatBytes
        rw [List.replicate_succ, List.flatten_cons, List.append_assoc]
      rw [e]
      rw [show decide (273 = 273 * (n + 1)) = decide (n = 0) by
        rw [decide_eq_decide]; omega] at h2
      exact h2
    · have := ih (a ++ fatCode)
      rw [List.length_append, show fatCode.length = 273 by decide +kernel] at this
      have e : a ++ (fatBytes (n + 1) ++ tail) = a ++ fatCode ++ (fatBytes n ++ tail) := by
        unfold fatBytes
        rw [List.replicate_succ, List.flatten_cons, List.append_assoc, List.append_assoc]
      rw [e, show a.length + 273 * (n + 1) = a.length + 273 + 273 * n by omega]
      exact this

theorem fats_codes : Codes gapHead 2312 128 (fatList 8) := by
  have := fat_codes [0xFF, 0xDA, 0, 8, 1, 1, 0x00, 0, 63, 0] 8 gapPre
  rw [show gapPre.length = 128 by decide +kernel] at this
  exact this

theorem gapHead_bytes : Bytes gapHead := by
  have : gapHead.all (· < 256) = true := by decide +kernel
  intro b hb
  simpa using List.all_eq_true.mp this b hb

theorem gapHead_length : gapHead.length = 2322 := by decide +kernel

theorem segAt_lut {st st' : RJ} {m : Nat} (hm : m = 0xc0 ∨ m = 0xdb) {d : List Nat} {p p' : Nat} (h : segAt st m d p = .ok (st', p')) : st'.lut = st.lut := by
  refine gives_bind (Q := fun _ => True) (P := fun s : RJ => s.lut = st.lut) (fun _ _ _ _ _ => trivial) (fun _ _ => ?_) d p st' p' h
  refine gives_bind (Q := fun _ => True) (fun _ _ _ _ _ => trivial) (fun _ _ => ?_)
  refine gives_bind (Q := fun s : RJ => s.lut = st.lut) ?_ (fun s hs => gives_pure hs)
  rcases hm with rfl | rfl
  · exact gives_bind (Q := fun _ => True) (fun _ _ _ _ _ => trivial) fun _ _ => gives_pure rfl
  · exact gives_bind (Q := fun _ => True) (fun _ _ _ _ _ => trivial) fun _ _ => gives_pure rfl

theorem segAt_tabs {st st' : RJ} {d : List Nat} (hd : Bytes d) {T : HSlot → CodeTable} (hT : Tabs st.lut T) {p p' p1 : Nat} (hm : expectMarker d p = .ok (0xc4, p1))
    (h1 : p1 ≤ d.length) (h : segAt st 0xc4 d p = .ok (st', p')) : ∃ T, Tabs st'.lut T := by
  have e : segAt st 0xc4 d p = (expectMarker d p).bind (fun q => (check (decide (q.1 = 0xc4)) d q.2).bind fun r => (processDHT st.huffman st.lut d r.2).bind fun s =>
    .ok ({ st with huffman := s.1.1, lut := s.1.2, order := st.order ++ [0xc4] }, s.2)) := by
    show (expectMarker d p).bind (fun q => (check (decide (q.1 = 0xc4)) d q.2).bind fun r =>
      ((processDHT st.huffman st.lut d r.2).bind fun s => .ok ({ st with huffman := s.1.1, lut := s.1.2 }, s.2)).bind fun s =>
        .ok ({ s.1 with order := s.1.order ++ [0xc4] }, s.2)) = _
    congr 1
    funext q
    congr 1
    funext r
    cases processDHT st.huffman st.lut d r.2 <;> rfl
  rw [e, hm] at h
  dsimp only [Run.bind, check] at h
  simp only [decide_true, if_true] at h
  have hw := processDHT_wp hd (hs := st.huffman) hT p1 h1
  unfold JM.Wp at hw
  cases hp : processDHT st.huffman st.lut d p1 with
  | ok r =>
    rw [hp] at h hw
    cases h
    obtain ⟨_, _, new, _, _, _, hT, _⟩ := hw
    exact hT
  | fail => rw [hp] at h; cases h
  | ub => rw [hp] at h; cases h

theorem gapState3_tabs : ∃ T, Tabs gapState3.lut T := by
  refine segAt_tabs gapHead_bytes (T := fun _ => ⟨fun _ => 0, fun _ => 0⟩) ?_ (p1 := 86) (by decide +kernel) (by rw [gapHead_length]; decide) gapState3_eq
  rw [segAt_lut (.inl rfl) gapState2_eq, segAt_lut (.inr rfl) gapState1_eq]
  exact fun _ => slotMatch_init _

theorem processDHT_intro {hs hs' : List HuffCode} {lut lut' : HSlot → JMem} {d : List Nat} {p len : Nat} (h0 : need 2 d p = .ok ((), p)) (h1 : u16 d p = .ok (len, p + 2)) (h2 : len ≠ 2)
    (h3 : dhtLoop (p + len) (len + 1) hs lut d (p + 2) = .ok ((hs', lut'), p + len)) : processDHT hs lut d p = .ok ((hs', lut'), p + len) := by
  show (need 2 d p).bind (fun q => (u16 d q.2).bind fun r => (check (decide (r.1 ≠ 2)) d r.2).bind fun s =>
    (dhtLoop (p + r.1) (r.1 + 1) hs lut d s.2).bind fun t => (endsAt (p + r.1) d t.2).bind fun u => .ok (t.1, u.2)) = _
  rw [h0]
  dsimp only [Run.bind]
  rw [h1]
  dsimp only [Run.bind, check]
  rw [if_pos (by simpa using h2)]
  dsimp only
  rw [h3]
  dsimp only [endsAt]
  rw [if_pos rfl]

theorem segAt_dht {st : RJ} {hs' : List HuffCode} {lut' : HSlot → JMem} {d : List Nat} {p p1 p2 : Nat} (hm : expectMarker d p = .ok (0xc4, p1))
    (hp : processDHT st.huffman st.lut d p1 = .ok ((hs', lut'), p2)) :
    segAt st 0xc4 d p = .ok ({ st with huffman := hs', lut := lut', order := st.order ++ [0xc4] }, p2) := by
  show (expectMarker d p).bind (fun q => (check (decide (q.1 = 0xc4)) d q.2).bind fun r =>
    ((processDHT st.huffman st.lut d r.2).bind fun s => .ok ({ st with huffman := s.1.1, lut := s.1.2 }, s.2)).bind fun s =>
      .ok ({ s.1 with order := s.1.order ++ [0xc4] }, s.2)) = _
  rw [hm]
  dsimp only [Run.bind, check]
  simp only [decide_true, if_true]
  rw [hp]

/-- The state after the long segment. -/
theorem gapState4_eq : ∃ lut, segAt gapState3 0xc4 gapHead 124 = .ok ({ gapState3 with huffman := gapState3.huffman ++ fatList 8, lut := lut, order := gapState3.order ++ [0xc4] }, 2312) ∧
    lut (false, 0) = gapState3.lut (false, 0) ∧ lut (true, 0) = gapState3.lut (true, 0) := by
  obtain ⟨T, hT⟩ := gapState3_tabs
  obtain ⟨lut, h1, h2⟩ := dhtLoop_codes gapHead_bytes (fatList 8) (hs := gapState3.huffman) (fuel := 2187) hT fats_codes (by decide)
  refine ⟨lut, ?_, h2 _ (by decide +kernel), h2 _ (by decide +kernel)⟩
  have hm : expectMarker gapHead 124 = .ok (0xc4, 126) := by decide +kernel
  have hn : need 2 gapHead 126 = .ok ((), 126) := by decide +kernel
  have hu : u16 gapHead 126 = .ok (2186, 128) := by decide +kernel
  exact segAt_dht hm (processDHT_intro hn hu (by decide) h1)

theorem gapSoi : expectMarker gapHead 0 = .ok (0xd8, 2) := by decide +kernel
theorem gapSos : expectMarker gapHead 2312 = .ok (0xda, 2314) := by decide +kernel

theorem gapScan_eq : processSOS [⟨1, 1, 1, 0, 1, 1, []⟩] (gapState3.huffman ++ fatList 8) gapHead 2314 = .ok (bigScan, 2322) := by decide +kernel

theorem gapHuffman_bits : ((encHuffCodes (gapState3.huffman ++ fatList 8)).any fun b => decide (22072 ≤ b.length)) = true := by decide +kernel

/-! ## The data after the scan -/

theorem findMarker_skip {d : List Nat} {q : Nat} (hq : byteOf d q = 0xff) (hm : isMarker (byteOf d (q + 1)) = true) (hl : q + 1 < d.length) (n : Nat) :
    ∀ p fuel, p + n = q → n ≤ fuel → (∀ i, p ≤ i → i < q → byteOf d i ≠ 0xff) → findMarker d fuel p = q := by
  induction n with
  | zero => intro p fuel hp _ _; obtain rfl : p = q := hp; exact findMarker_here hq hm _
  | succ n ih =>
    intro p fuel hp hf hb
    obtain ⟨f, rfl⟩ : ∃ f, fuel = f + 1 := ⟨fuel - 1, by omega⟩
    rw [findMarker, if_pos ⟨by omega, .inl (hb p (by omega) (by omega))⟩]
    exact ih (p + 1) f (by omega) (by omega) fun i h1 h2 => hb i (by omega) h2

/-- Bytes without markers, then the end marker. -/
theorem readLoop_gap {st : RJ} {data : List Nat} {p q : Nat} (h1 : byteOf data q = 0xff) (h2 : byteOf data (q + 1) = 0xd9) (hq : q + 2 ≤ data.length) (hp : p < q)
    (hb : ∀ i, p ≤ i → i < q → byteOf data i ≠ 0xff) (k : Nat) :
    readLoop (k + 1) st data p = .ok ({ st with order := st.order ++ [0xff] ++ [0xd9], inter := st.inter ++ [slice data p q] }, q + 2) := by
  have hsk : skipData st data p = .ok ({ st with order := st.order ++ [0xff], inter := st.inter ++ [slice data p q] }, q) := by
    unfold skipData
    dsimp only
    rw [findMarker_skip h1 (by rw [h2]; decide) (by omega) (q - p) p data.length (by omega) (by omega) hb, if_pos hp]
  have hex : expectMarker data q = .ok (0xd9, q + 2) := by
    unfold expectMarker
    rw [h1, h2, if_neg (by omega)]
  have : readLoop (k + 1) st data p = ((skipData st data p).bind fun q => (expectMarker data q.2).bind fun r =>
    (readSegment q.1 r.1 data r.2).bind fun s => .ok ((({ s.1 with order := s.1.order ++ [r.1] } : RJ), r.1), s.2)).bind
    (fun q => (if q.1.2 = 0xd9 then pure q.1.1 else readLoop k q.1.1 : JM RJ) data q.2) := rfl
  rw [this, hsk]
  dsimp only [Run.bind]
  rw [hex]
  rfl

/-- The file: the head, a block of zeros, `g` bytes between the segments, the end marker. -/
def gapFile (g : Nat) : List Nat := gapHead ++ (List.replicate (127 + g) 0 ++ [0xFF, 0xD9])

theorem gapFile_length (g : Nat) : (gapFile g).length = 2322 + 127 + g + 2 := by
  unfold gapFile
  rw [List.length_append, List.length_append, gapHead_length, List.length_replicate]
  simp only [List.length_cons, List.length_nil]; omega

theorem gapFile_zero {g j : Nat} (hj : j < 127 + g) : byteOf (gapFile g) (2322 + j) = 0 := by
  unfold byteOf gapFile
  rw [List.getD_eq_getElem?_getD, List.getElem?_append_right (by rw [gapHead_length]; omega), gapHead_length, Nat.add_sub_cancel_left,
    List.getElem?_append_left (by rw [List.length_replicate]; exact hj), List.getElem?_replicate, if_pos hj]
  rfl

theorem gapFile_end (g : Nat) : byteOf (gapFile g) (2322 + 127 + g) = 0xff ∧ byteOf (gapFile g) (2322 + 127 + g + 1) = 0xd9 := by
  have hl : (gapHead ++ List.replicate (127 + g) 0).length = 2322 + 127 + g := by
    rw [List.length_append, gapHead_length, List.length_replicate]; omega
  unfold gapFile
  rw [← List.append_assoc]
  unfold byteOf
  rw [List.getD_eq_getElem?_getD, List.getD_eq_getElem?_getD, List.getElem?_append_right (by omega), List.getElem?_append_right (by omega), hl]
  simp

theorem gapFile_bytes (g : Nat) : Bytes (gapFile g) := by
  refine gapHead_bytes.append (Bytes.append ?_ (by unfold Bytes; decide))
  intro b hb
  rw [(List.mem_replicate.mp hb).2]; decide

theorem gapFile_data (g : Nat) : BigData (gapFile g) 2322 1 := by
  have hlen := gapFile_length g
  refine ⟨gapFile_bytes g, by omega, ?_, ?_, ?_⟩
  · intro i h1 h2
    obtain ⟨j, rfl⟩ : ∃ j, i = 2322 + j := ⟨i - 2322, by omega⟩
    rw [gapFile_zero (by omega)]; decide
  · intro i hi
    rw [gapFile_zero (by omega)]
  · intro i hi j hj
    rw [gapFile_zero (by omega)]; decide

attribute [local irreducible] gapHead gapState1 gapState2 gapState3

/-- What is known of the reader's state after the scan. -/
structure GapState (st : RJ) : Prop where
  width : st.width = 8
  height : st.height = 8
  app : st.app = []
  com : st.com = []
  comps : st.comps = [⟨1, 1, 1, 0, 1, 1, []⟩]
  scans : st.scans = [bigScan]
  order : st.order = [0xdb, 0xc0, 0xc4, 0xc4]
  inter : st.inter = []
  pads : st.pads = []
  sof : st.sof = true
  quant : st.quant = gapState3.quant
  huffman : st.huffman = gapState3.huffman ++ fatList 8
  dc : ∀ c b, st.coefs c b 0 = 0

theorem processScan_gap {data : List Nat} (hb : BigData data 2322 1) {st : RJ} {lut : HSlot → JMem} (hst : st = { gapState3 with huffman := gapState3.huffman ++ fatList 8, lut := lut, order := gapState3.order ++ [0xc4] })
    (hl1 : lut (false, 0) = gapState3.lut (false, 0)) (hl2 : lut (true, 0) = gapState3.lut (true, 0))
    (hsos : processSOS [⟨1, 1, 1, 0, 1, 1, []⟩] (gapState3.huffman ++ fatList 8) data 2314 = .ok (bigScan, 2322)) :
    ∃ st', processScan st data 2314 = .ok (st', 2322 + 127 * 1) ∧ GapState st' := by
  obtain ⟨f1, f2, f3, f4, f5, f6, f7, f8, f9, f10, f11, f12, f13, f14, f15⟩ := gapState3_facts
  obtain ⟨masks, hmask⟩ := Option.isSome_iff_exists.mp gapState3_masks
  have hc0 : ∀ c b, gapState3.coefs c b 0 = 0 := by
    intro c b
    rw [segAt_coefs (.inr (.inl rfl)) gapState3_eq, segAt_coefs (.inl rfl) gapState2_eq, segAt_coefs (.inr (.inr rfl)) gapState1_eq]
    rfl
  have hg : mcuGrid (dimsOf [⟨1, 1, 1, 0, 1, 1, []⟩]) [⟨0, 0, 0⟩] 1 1 = [[bigVisit 0]] := by decide +kernel
  obtain ⟨rs, r1, r2, r3, r4, r5⟩ := readScanData_big hb (lut := lut) (by rw [hl1]; exact gapState3_dc) (by rw [hl2]; exact gapState3_ac) (ms := [[bigVisit 0]])
    (fun m h => ⟨0, by simpa using h⟩) rfl (by decide) hc0
  have hw : st.width = 8 := by rw [hst]; exact f1
  have hh : st.height = 8 := by rw [hst]; exact f2
  have hcomps : st.comps = [⟨1, 1, 1, 0, 1, 1, []⟩] := by rw [hst]; exact f6
  have hprog : st.prog = false := by rw [hst]; exact f11
  have hr : readerMcus st.width st.height st.comps bigScan = (1, 1) := by rw [hw, hh, hcomps]; decide +kernel
  have hc : bigScan.comps = [⟨0, 0, 0⟩] := rfl
  have hmasks : st.masks = gapState3.masks := by rw [hst]
  have hri : st.ri = 0 := by rw [hst]; exact f3
  have hlut : st.lut = lut := by rw [hst]
  have hcoefs : st.coefs = gapState3.coefs := by rw [hst]
  have hpads : st.pads = [] := by rw [hst]; exact f10
  have hhuff : st.huffman = gapState3.huffman ++ fatList 8 := by rw [hst]
  refine ⟨_, processScan_ok (s := bigScan) (p' := 2322) (by rw [hcomps, hhuff]; exact hsos) (masks := masks) (by rw [hprog, hmasks]; exact hmask) hr (by rw [hcomps, hc])
    (by rw [hcomps]; decide) (by rw [hlut, hprog, hri, hcoefs, hpads]; exact r1), ?_⟩
  have hscans : st.scans ++ [{ bigScan with resetPoints := rs.resets, extraZeroRuns := rs.runs }] = [bigScan] := by
    rw [show st.scans = [] by rw [hst]; exact f7, r2, r3]; rfl
  have horder : st.order = [0xdb, 0xc0, 0xc4, 0xc4] := by
    rw [hst]
    show gapState3.order ++ [0xc4] = _
    rw [f8]; rfl
  exact ⟨hw, hh, by rw [hst]; exact f4, by rw [hst]; exact f5, hcomps, hscans, horder, by rw [hst]; exact f9, r4, by rw [hst]; exact f12, by rw [hst], hhuff, r5⟩

/-- What is known of the result. -/
structure GapJpeg (g : Nat) (jpg : JpegData) : Prop where
  width : jpg.width = 8
  height : jpg.height = 8
  comps : ∃ c : Component, jpg.components = [c] ∧ c.width = 1 ∧ c.height = 1 ∧ ∀ i, c.coeffs.getD (64 * i) 0 = 0
  app : jpg.appData = []
  com : jpg.comData = []
  tail : jpg.tailData = []
  inter : ∃ s, jpg.interMarker = [s] ∧ s.length = g
  scans : jpg.scans = [bigScan]
  order : jpg.markerOrder = [0xdb, 0xc0, 0xc4, 0xc4, 0xda, 0xff, 0xd9]
  pad : jpg.hasZeroPaddingBit = false
  huffman : jpg.huffman = gapState3.huffman ++ fatList 8

theorem gapJpeg_result {st : RJ} (h : GapState st) {data s : List Nat} {p g : Nat} (hp : p = data.length) (hs : s.length = g) {x : Component} (hx1 : x.width = 1) (hx2 : x.height = 1) :
    GapJpeg g (RJ.result { st with order := st.order ++ [0xda] ++ [0xff] ++ [0xd9], inter := st.inter ++ [s] } [x] (slice data p data.length)) where
  width := h.width
  height := h.height
  comps := ⟨_, rfl, hx1, hx2, fun i => coefList_dc (h.dc 0) _ i⟩
  app := h.app
  com := h.com
  tail := by subst hp; exact slice_nil _ (Nat.le_refl _)
  inter := ⟨s, by show st.inter ++ [s] = _; rw [h.inter]; rfl, hs⟩
  scans := h.scans
  order := by
    show st.order ++ [0xda] ++ [0xff] ++ [0xd9] = _
    rw [h.order]; rfl
  pad := by
    show st.pads.any (!·) = false
    rw [h.pads]; rfl
  huffman := h.huffman

theorem readJpeg_gap {g : Nat} (hg : 0 < g) : ∃ jpg, readJpeg (gapFile g) = .ok jpg ∧ GapJpeg g jpg := by
  have hb := gapFile_data g
  have hlen := gapFile_length g
  have hend := gapFile_end g
  have hz := @gapFile_zero g
  have hs1 := segAt_stable RJ.init (m := 0xdb) (by simp) _ (List.replicate (127 + g) 0 ++ [0xFF, 0xD9]) _ _ _ gapState1_eq
  have hs2 := segAt_stable gapState1 (m := 0xc0) (by simp) _ (List.replicate (127 + g) 0 ++ [0xFF, 0xD9]) _ _ _ gapState2_eq
  have hs3 := segAt_stable gapState2 (m := 0xc4) (by simp) _ (List.replicate (127 + g) 0 ++ [0xFF, 0xD9]) _ _ _ gapState3_eq
  obtain ⟨lut, e4, hl1, hl2⟩ := gapState4_eq
  have hs4 := segAt_stable gapState3 (m := 0xc4) (by simp) _ (List.replicate (127 + g) 0 ++ [0xFF, 0xD9]) _ _ _ e4
  have hsos := processSOS_stable _ _ _ (List.replicate (127 + g) 0 ++ [0xFF, 0xD9]) _ _ _ gapScan_eq
  have hm : expectMarker (gapHead ++ (List.replicate (127 + g) 0 ++ [0xFF, 0xD9])) 0 = .ok (0xd8, 2) := expectMarker_stable gapHead _ _ _ _ gapSoi
  have hm5 : expectMarker (gapHead ++ (List.replicate (127 + g) 0 ++ [0xFF, 0xD9])) 2312 = .ok (0xda, 2314) := expectMarker_stable gapHead _ _ _ _ gapSos
  rw [show gapHead ++ (List.replicate (127 + g) 0 ++ [0xFF, 0xD9]) = gapFile g from rfl] at *
  generalize gapFile g = data at *
  obtain ⟨st5, hscan, hst⟩ := processScan_gap hb rfl hl1 hl2 hsos
  have h5 := segAt_scan hm5 hscan
  obtain ⟨k, hk⟩ : ∃ k, data.length = k + 5 := ⟨data.length - 5, by omega⟩
  have hloop : readLoop (data.length + 1) RJ.init data 2 = .ok ({ st5 with order := st5.order ++ [0xda] ++ [0xff] ++ [0xd9], inter := st5.inter ++ [slice data (2322 + 127 * 1) (2322 + 127 + g)] },
      2322 + 127 + g + 2) := by
    rw [show data.length + 1 = k + 1 + 1 + 1 + 1 + 1 + 1 by omega, readLoop_seg (by decide) (by decide) hs1, readLoop_seg (by decide) (by decide) hs2,
      readLoop_seg (by decide) (by decide) hs3, readLoop_seg (by decide) (by decide) hs4, readLoop_seg (by decide) (by decide) h5,
      readLoop_gap hend.1 hend.2 (by omega) (by omega) (fun i h1 h2 => by
        obtain ⟨j, rfl⟩ : ∃ j, i = 2322 + j := ⟨i - 2322, by omega⟩
        rw [hz (by omega)]; decide)]
  obtain ⟨f1, f2, f3, f4, f5, f6, f7, f8, f9, f10, f11, f12, f13, f14, f15⟩ := gapState3_facts
  have hfix : fixupIndexes st5.quant st5.comps = some [⟨1, 1, 1, 0, 1, 1, []⟩] := by
    rw [hst.quant, hst.comps]
    match hq : gapState3.quant, f13, f14 with
    | [q], _, h =>
      have : q.index = 0 := by simpa using h
      simp [fixupIndexes, fixupIndex, List.findIdx_cons, this]
  have hh : st5.huffman.length = 10 := by rw [hst.huffman, List.length_append, f15]; rfl
  refine ⟨_, readJpeg_intro hm hloop hst.sof hfix ?_ ?_, gapJpeg_result hst (by omega) ?_ rfl rfl⟩
  · intro h
    have h : st5.huffman = [] := h
    rw [h] at hh; exact absurd hh (by decide)
  · show st5.huffman.length < _
    rw [hh]; decide
  · rw [slice_length]; omega

/-! ## The encoder on the file -/

theorem encodeBase128_size {g : Nat} (h : 128 ≤ g) : 2 ≤ (encodeBase128 g).length := by
  rw [encodeBase128_length, base128Size, if_neg (by omega)]
  have := base128Size_pos (g / 128)
  omega

theorem GapJpeg.estimate {g : Nat} {jpg : JpegData} (h : GapJpeg g jpg) : estimateAuxDataSize jpg = 2760 + g := by
  obtain ⟨s, hs, hl⟩ := h.inter
  obtain ⟨_, _, _, _, _, _, _, _, _, _, _, _, _, _, f15⟩ := gapState3_facts
  have hh : jpg.huffman.length = 10 := by rw [h.huffman, List.length_append, f15]; rfl
  unfold estimateAuxDataSize
  rw [h.order, hh, h.scans, h.pad, hs, if_neg (by decide)]
  simp [hl, bigScan]
  omega

theorem GapJpeg.internals {g : Nat} (hg : 128 ≤ g) {jpg : JpegData} (h : GapJpeg g jpg) {limit : Nat} {inner : List Nat} (hi : encodeInternals limit jpg.internals = some inner) :
    2761 + g ≤ inner.length := by
  obtain ⟨s, hs, hl⟩ := h.inter
  unfold encodeInternals at hi
  obtain ⟨b, hb, rfl⟩ := Option.map_eq_some_iff.mp hi
  have hbl : 22072 ≤ b.length := by
    unfold encInternalsBits at hb
    split at hb
    · cases hb
    split at hb
    · cases hb
    split at hb
    · cases hb
    split at hb
    · cases hb
    split at hb
    · rename_i x q hx hq
      have hx : encHuffCodes jpg.huffman = some x := hx
      rw [h.huffman] at hx
      have := gapHuffman_bits
      rw [hx] at this
      have : 22072 ≤ x.length := of_decide_eq_true this
      cases hb
      simp only [List.length_append]
      omega
    · cases hb
  rw [List.length_append, packBits_length _ _ (Nat.le_refl _)]
  rw [show jpg.internals.interMarker = [s] from hs]
  have h2 := encodeBase128_size hg
  have hp : b.length ≤ (padByte b).length := by unfold padByte; simp
  simp only [List.flatMap_cons, List.flatMap_nil, List.append_nil, List.length_append, hl]
  omega

theorem encodeSection_long {tag k : Nat} {p : List Nat} (h : 2 ^ (7 * k) ≤ p.length) : encodeSection tag k (some p) = none := by
  unfold encodeSection
  dsimp only
  rw [if_pos (Nat.div_pos h (Nat.two_pow_pos _))]

/-- When the section of internals is too long for its length field the encoder does not succeed, however large the buffer is. -/
theorem encodeJpeg_field_not_ok {par : Codec} {cap : Nat} {jpg : JpegData} (hlong : ∀ inner, encodeInternals (paddingBitsLimit jpg.width jpg.height jpg.components.length)
    jpg.internals = some inner → 2 ^ (7 * base128Size (estimateAuxDataSize jpg)) ≤ inner.length) (out : List Nat) : encodeJpeg par cap jpg ≠ .ok out := by
  intro h
  obtain ⟨x, ok⟩ := encodeJpeg_parts h
  have h1 := hlong _ ok.inner
  rw [← ok.k4] at h1
  have h2 := ok.file
  unfold encodeFile at h2
  split at h2
  · cases h2
  unfold Parts.sections at h2
  rw [encodeSections, encodeSection_long h1] at h2
  cases h2

/-- In the buffer `EncodeBrunsli` allocates, it reports failure. -/
theorem encodeJpeg_field_fail {par : Codec} (hcl : par.Clusters) (hw : par.Works) {cap : Nat} {jpg : JpegData} (hv : jpg.Valid) (hp : jpg.Predictable)
    (hb : 64 * jpg.blocks ≤ 100000000) {inner : List Nat}
    (hi : encodeInternals (paddingBitsLimit jpg.width jpg.height jpg.components.length) jpg.internals = some inner)
    (hlong : 2 ^ (7 * base128Size (estimateAuxDataSize jpg)) ≤ inner.length) (hk : base128Size (estimateAuxDataSize jpg) ≤ 9) (hcap : inner.length + 200 ≤ cap) :
    encodeJpeg par cap jpg = .fail := by
  obtain ⟨s, ok⟩ := encodeCoefs_ok hcl hw hv hp hb
  obtain ⟨hs, hh, -⟩ := C22_header_roundtrip jpg.header [] hv.header.version hv.header.width hv.header.height hv.header.ncomp hv.header.factors hv.header.blocks
  obtain ⟨p1, hp1⟩ := encodeHeader_some hv.header
  have hp1l : p1.length < 2 ^ (7 * 1) := by
    unfold encodeHeaderSection encodeSection at hh
    rw [hp1] at hh
    dsimp only at hh
    split at hh
    · cases hh
    · rename_i hd
      exact (Nat.div_eq_zero_iff_lt (by decide)).mp (by omega)
  have hp1l' : p1.length < 128 := hp1l
  unfold encodeJpeg
  rw [ok.coefs]
  dsimp only [Run.bind]
  unfold brunsliSerialize
  rw [if_neg (show ¬ cap < 6 by omega)]
  have hsig : kBrunsliSignature.length = 6 := rfl
  generalize kBrunsliSignature = o0 at *
  rcases putSection_run (cap := cap) (tag := 2) (k := 1) (slack := 0) (fn := fun _ => Run.orFail (encodeHeader jpg.header)) (out := o0) (p := p1)
    (fun _ => by rw [hp1]; rfl) (fun _ => hp1l) with ⟨s1, e1, l1⟩ | ⟨c1, e1⟩
  swap
  · omega
  rw [e1]
  dsimp only [Run.bind]
  have L1 : (o0 ++ s1).length = 8 + p1.length := by rw [List.length_append]; omega
  generalize o0 ++ s1 = o1 at *
  rw [show putSection cap 4 (base128Size (estimateAuxDataSize jpg)) 8 (fun _ => Run.orFail (encodeInternals
      (paddingBitsLimit jpg.width jpg.height jpg.components.length) jpg.internals)) o1 = .fail by
    unfold putSection
    rw [if_neg (by omega), hi]
    dsimp only [Run.bind, Run.orFail]
    rw [if_neg (by omega), encodeSection_long hlong]]

theorem gapFile_fails : ∃ jpg, readJpeg (gapFile 13623) = .ok jpg ∧ jpg.width = 8 ∧ jpg.height = 8 ∧ (∀ (par : Codec) (cap : Nat) (out : List Nat), encodeJpeg par cap jpg ≠ .ok out) ∧
    (∀ par : Codec, par.Clusters → par.Works → encodeData par (gapFile 13623) = .fail) ∧
    ∃ inner, encodeInternals (paddingBitsLimit jpg.width jpg.height jpg.components.length) jpg.internals = some inner ∧ estimateAuxDataSize jpg < inner.length := by
  obtain ⟨jpg, hj, h⟩ := readJpeg_gap (g := 13623) (by decide)
  have hv := readJpeg_valid (gapFile_bytes 13623) hj
  have hest : estimateAuxDataSize jpg = 16383 := h.estimate
  have hk : base128Size 16383 = 2 := by rw [base128Size, if_neg (by decide), base128Size, if_pos (by decide)]
  obtain ⟨inner, hi⟩ := hv.internals_some (by
    intro h1
    rw [h.pad] at h1; cases h1)
  have hl := h.internals (by decide) hi
  have hlong : 2 ^ (7 * base128Size (estimateAuxDataSize jpg)) ≤ inner.length := by
    rw [hest, hk]
    exact Nat.le_trans (by decide) hl
  have hs := internals_size hv (by
    obtain ⟨s, hs, hsl⟩ := h.inter
    rw [hs]
    intro x hx
    obtain rfl : x = s := by simpa using hx
    rw [hsl]; decide) hi
  have hp : jpg.Predictable := by
    obtain ⟨c, hc, h1, h2, h3⟩ := h.comps
    intro x hx
    obtain rfl : x = c := by rw [hc] at hx; simpa using hx
    exact predictDCCoeffs_zero (hv.size x (by rw [hc]; simp)) h3
  refine ⟨jpg, hj, h.width, h.height, fun par cap out => encodeJpeg_field_not_ok (fun inner' hi' => ?_) out, fun par hcl hw => ?_, inner, hi, by rw [hest]; exact Nat.le_trans (by decide) hl⟩
  · rw [hi] at hi'
    cases hi'
    exact hlong
  unfold encodeData
  rw [hj]
  dsimp only [Run.bind]
  have hmax : maxEncodedSize jpg = 84 + (2 ^ 20 + 16383) := by
    obtain ⟨c, hc, h1, h2, h3⟩ := h.comps
    unfold maxEncodedSize
    rw [hc, h.app, h.com, h.tail, hest]
    simp [h1, h2]
  rw [if_neg (by rw [hmax]; decide)]
  obtain ⟨_, _, _, _, _, _, _, _, _, _, _, _, _, _, f15⟩ := gapState3_facts
  have hh : jpg.huffman.length = 10 := by rw [h.huffman, List.length_append, f15]; rfl
  have hr : jpg.runCount = 0 := by unfold JpegData.runCount; rw [h.scans]; rfl
  rw [hest, hh, hr] at hs
  have hb : 64 * jpg.blocks ≤ 100000000 := by
    obtain ⟨c, hc, h1, h2, h3⟩ := h.comps
    unfold JpegData.blocks
    simp [hc, h1, h2]
  exact encodeJpeg_field_fail hcl hw hv hp hb hi hlong (by rw [hest, hk]; decide) (by rw [hmax]; omega)

end Brunsli
