import Verif.StreamOutSpec
/-!
# Writing a JPEG is well defined

The serializer (c/dec/jpeg_data_writer.cc) on JPEG data it was not given by the reader: conditions on the data under which none of its steps has undefined behaviour,
whether or not the steps succeed.
-/

namespace Brunsli

/-! ## Outcomes -/

/-- The behaviour is defined, and `post` holds of a result. -/
def Run.Safe {α : Type} (post : α → Prop) : Run α → Prop
  | .ok a => post a
  | .fail => True
  | .ub => False

theorem Run.Safe.bind {α β : Type} {p : α → Prop} {q : β → Prop} {r : Run α} {f : α → Run β} (h : r.Safe p) (hf : ∀ a, p a → (f a).Safe q) : (r.bind f).Safe q := by
  cases r with
  | ok a => exact hf a h
  | fail => trivial
  | ub => exact h.elim

theorem Run.Safe.mono {α : Type} {p q : α → Prop} {r : Run α} (h : r.Safe p) (hq : ∀ a, p a → q a) : r.Safe q := by
  cases r with
  | ok a => exact hq a h
  | fail => trivial
  | ub => exact h.elim

theorem Run.Safe.ne_ub {α : Type} {p : α → Prop} {r : Run α} (h : r.Safe p) : r ≠ .ub := by
  rintro rfl
  exact h

/-! ## The bit writer -/

/-- Between calls there is room for 16 bits in the buffer, and the chunk is not overfull. -/
structure BW.Room (w : BW) : Prop where
  left : 16 < w.left ∧ w.left ≤ 64
  size : w.data.length ≤ kBitWriterChunkSize

theorem BW.init_room (q : List (List Nat)) : (BW.init q).Room := ⟨by simp [BW.init], by simp [BW.init]⟩

theorem BW.reserve_room (w : BW) {n : Nat} (hn : n ≤ kBitWriterChunkSize) : (w.reserve n).left = w.left ∧ (w.reserve n).data.length + n ≤ kBitWriterChunkSize := by
  obtain ⟨w', rfl, _, _, h1, _, h2⟩ := BW.reserve_spec (w := w) hn
  exact ⟨h1, h2⟩

theorem BW.discharge_room {w : BW} (h : w.left ≤ 16) : w.discharge.Safe BW.Room := by
  obtain ⟨h1, h2⟩ := w.reserve_room (n := 12) (by decide)
  unfold BW.discharge
  refine Run.Safe.bind (p := fun v : BW => v.left = w.left ∧ v.data.length ≤ kBitWriterChunkSize) ?_ fun v hv => ⟨⟨by dsimp only; omega, by dsimp only; omega⟩, hv.2⟩
  split
  · rw [BW.emitBytes_spec _ (by simp only [List.length_cons, List.length_nil]; omega)]
    refine ⟨h1, ?_⟩
    dsimp only
    rw [List.length_append]
    have := stuff_length_le [byteAt (w.reserve 12).buf 56, byteAt (w.reserve 12).buf 48, byteAt (w.reserve 12).buf 40, byteAt (w.reserve 12).buf 32,
      byteAt (w.reserve 12).buf 24, byteAt (w.reserve 12).buf 16]
    simp only [List.length_cons, List.length_nil] at this
    omega
  · rw [BW.push_spec (by simp only [List.length_cons, List.length_nil]; omega)]
    refine ⟨h1, ?_⟩
    dsimp only
    simp only [List.length_append, List.length_cons, List.length_nil]
    omega

theorem BW.writeBits_room {w : BW} {n v : Nat} (h : w.Room) (hn : n ≤ 16) : (w.writeBits n v).Safe BW.Room := by
  obtain ⟨⟨h1, h2⟩, h3⟩ := h
  unfold BW.writeBits
  split
  · exact ⟨⟨h1, h2⟩, h3⟩
  rw [if_neg (by omega)]
  dsimp only
  split
  · exact BW.discharge_room (by assumption)
  · exact ⟨⟨by dsimp only; omega, by dsimp only; omega⟩, h3⟩

theorem BW.flushBytes_room (fuel : Nat) : ∀ {w : BW}, w.left ≤ 64 → w.data.length + 2 * ((64 - w.left) / 8) + 2 ≤ kBitWriterChunkSize →
    (w.flushBytes fuel).Safe fun v => v.data.length + 2 ≤ kBitWriterChunkSize := by
  induction fuel with
  | zero => intro w _ h; show _ ≤ _; omega
  | succ fuel ih =>
    intro w hl h
    rw [BW.flushBytes]
    split
    · rename_i h56
      rw [BW.emitByte_spec (by omega)]
      refine ih (by dsimp only; omega) ?_
      dsimp only
      rw [List.length_append]
      have : (stuff [byteAt w.buf 56]).length ≤ 2 := stuff_length_le _
      omega
    · show _ ≤ _; omega

theorem BW.jump_room {w : BW} {pads : Pads} (h : w.Room) : (w.jump pads).Safe fun r => r.1.Room := by
  unfold BW.jump
  refine Run.Safe.bind (p := fun _ => True) ?_ fun pp _ => ?_
  · unfold padPattern
    split
    · trivial
    · split <;> trivial
  obtain ⟨h1, h2⟩ := w.reserve_room (n := 16) (by decide)
  have hl := h.left
  refine Run.Safe.bind (BW.flushBytes_room 8 (by omega) (by omega)) fun v hv => ?_
  refine Run.Safe.bind (p := fun u : BW => u.data.length ≤ kBitWriterChunkSize) ?_ fun u hu => ⟨⟨by dsimp only; omega, by dsimp only; omega⟩, hu⟩
  split
  · rw [BW.emitByte_spec hv]
    show List.length (_ ++ _) ≤ _
    rw [List.length_append]
    have := stuff_length_le [((v.buf / 2 ^ 56) &&& (0xFF - 0xFF / 2 ^ (64 - v.left))) ||| pp.1]
    simp only [List.length_cons, List.length_nil] at this
    omega
  · show _ ≤ _; omega

theorem BW.emitMarker_room {w : BW} {m : Nat} (h : w.Room) : (w.emitMarker m).Safe BW.Room := by
  obtain ⟨h1, h2⟩ := w.reserve_room (n := 2) (by decide)
  have := h.left
  unfold BW.emitMarker
  rw [BW.push_spec (by simp only [List.length_cons, List.length_nil]; omega)]
  refine ⟨⟨by dsimp only; omega, by dsimp only; omega⟩, ?_⟩
  dsimp only
  simp only [List.length_append, List.length_cons, List.length_nil]
  omega

/-- At most 16 bits. -/
def Act.Ok : Act → Prop
  | .bits n _ => n ≤ 16
  | .restart _ => True

theorem BW.acts_room : ∀ (as : List Act) {w : BW} {pads : Pads}, w.Room → (∀ a ∈ as, a.Ok) → (w.acts pads as).Safe fun r => r.1.Room
  | [], _, _, h, _ => h
  | .bits n v :: as, w, pads, h, ha => by
    rw [BW.acts]
    exact Run.Safe.bind (BW.writeBits_room h (ha (.bits n v) List.mem_cons_self)) fun w' h' => BW.acts_room as h' fun a x => ha a (List.mem_cons_of_mem _ x)
  | .restart m :: as, w, pads, h, ha => by
    rw [BW.acts]
    exact Run.Safe.bind (BW.jump_room h) fun r hr => Run.Safe.bind (BW.emitMarker_room hr) fun w' h' => BW.acts_room as h' fun a x => ha a (List.mem_cons_of_mem _ x)

/-! ## Requests -/

/-- Tables with codes of at most 16 bits. -/
def Depths (T : HSlot → CodeTable) : Prop := ∀ t s, (T t).depth s ≤ 16

def WAct.Ok : WAct → Prop
  | .req r => r.Ok
  | .restart _ => True

theorem toAct_ok {T : HSlot → CodeTable} (hT : Depths T) {a : WAct} (h : a.Ok) : (a.toAct T).Ok := by
  cases a with
  | restart m => trivial
  | req r =>
    cases r with
    | bits n v => exact h.2.1
    | sym t v =>
      show ((T t).word v).1 ≤ 16
      unfold CodeTable.word
      rw [if_pos (show v < 256 from h)]
      exact hT t v

/-- A DC coefficient of at most 15 bits. -/
def DcFits (x : Int) : Prop := -16384 ≤ x ∧ x < 16384

/-- A block whose coefficients can be coded. -/
def Blk.Calm (F : Blk) : Prop := F.Small ∧ DcFits (F 0)

theorem DcFits.diff {a b : Int} (ha : DcFits a) (hb : DcFits b) (dc : HSlot) : ReqsOk (dcReqs dc (i16 (a - b))) := by
  obtain ⟨h1, h2⟩ := ha
  obtain ⟨h3, h4⟩ := hb
  rw [i16_of_range (by omega) (by omega)]
  exact dcReqs_ok (by omega) (by omega)

theorem DcFits.shift {a : Int} (h : DcFits a) (n : Nat) : DcFits (i16 (a / 2 ^ n)) := by
  obtain ⟨h1, h2⟩ := h
  have hp : (0 : Int) < 2 ^ n := Int.pow_pos (by decide)
  have h5 : -16384 ≤ a / 2 ^ n := by
    rw [Int.le_ediv_iff_mul_le hp]
    generalize (2 : Int) ^ n = m at hp
    omega
  have h6 : a / 2 ^ n < 16384 := by
    rw [Int.ediv_lt_iff_lt_mul hp]
    generalize (2 : Int) ^ n = m at hp
    omega
  rw [i16_of_range (by omega) (by omega)]
  exact ⟨h5, h6⟩

/-- The variables of a scan. -/
structure WS.Ok (ws : WS) : Prop where
  fit : ws.cs.Fit
  last : ∀ c, DcFits (ws.last c)

theorem encBlock_safe {prog : Bool} {P : SP} {v : Visit} {nzr : Nat} {last : Int} {F : Blk} {cs : CS} {q : List WReq × Int × CS} (hP : P.se ≤ 63) (hF : F.Calm)
    (hl : DcFits last) (hc : cs.Fit) (h : encBlock prog P v nzr last F cs = some q) : ReqsOk q.1 ∧ DcFits q.2.1 ∧ q.2.2.Fit := by
  unfold encBlock at h
  split at h
  · cases h
    exact ⟨encSeq_ok hF.1 (hF.2.diff hl _), hF.2, hc⟩
  split at h
  · cases h
    obtain ⟨h1, h2⟩ := encProg_ok (dc := v.dc) (ac := v.ac) (Ss := P.ss) (Se := P.se) (Al := P.al) (nzr := nzr) (last := last) hF.1 hc fun _ => (hF.2.shift _).diff hl _
    refine ⟨h1, ?_, h2⟩
    unfold encProg
    split
    · exact hF.2.shift _
    · exact hl
  · cases he : encRefine v.ac P.ss P.se P.al F cs with
    | none => rw [he] at h; cases h
    | some p =>
      rw [he] at h; cases h
      obtain ⟨h1, h2⟩ := encRefine_ok hP hc he
      exact ⟨h1, hl, h2⟩

theorem writeBlk_safe {prog : Bool} {P : SP} {F : Coefs} {v : Visit} {ws : WS} {q : List WReq × WS} (hP : P.se ≤ 63) (hF : (F v.comp v.blk).Calm) (hw : ws.Ok)
    (h : writeBlk prog P F v ws = some q) : ReqsOk q.1 ∧ q.2.Ok := by
  have hr : ReqsOk (takeReset ws).1 ∧ (takeReset ws).2.Ok := by
    unfold takeReset
    split
    · obtain ⟨h1, h2⟩ := hw.fit.flush
      exact ⟨h1, h2, hw.last⟩
    · exact ⟨ReqsOk.nil, hw⟩
  unfold writeBlk at h
  dsimp only at h
  generalize takeReset ws = r at h hr
  cases he : encBlock prog P v (takeRuns r.2).1 (r.2.last v.comp) (F v.comp v.blk) r.2.cs with
  | none => rw [he] at h; cases h
  | some p =>
    rw [he] at h; cases h
    obtain ⟨h1, h2, h3⟩ := encBlock_safe hP hF (hr.2.last _) hr.2.fit he
    refine ⟨hr.1.append h1, h3, fun c => ?_⟩
    dsimp only
    split
    · exact h2
    · exact hr.2.last c

theorem writeMcu_safe {prog : Bool} {P : SP} {F : Coefs} (hP : P.se ≤ 63) (hF : ∀ c b, (F c b).Calm) : ∀ (m : List Visit) {ws : WS} {q : List WReq × WS}, ws.Ok →
    writeMcu prog P F m ws = some q → ReqsOk q.1 ∧ q.2.Ok
  | [], ws, q, hw, h => by cases h; exact ⟨ReqsOk.nil, hw⟩
  | v :: m, ws, q, hw, h => by
    rw [writeMcu] at h
    cases h1 : writeBlk prog P F v ws with
    | none => rw [h1] at h; cases h
    | some p =>
      rw [h1, Option.bind_some] at h
      obtain ⟨a1, a2⟩ := writeBlk_safe hP (hF _ _) hw h1
      cases h2 : writeMcu prog P F m p.2 with
      | none => rw [h2] at h; cases h
      | some r =>
        rw [h2] at h; cases h
        obtain ⟨b1, b2⟩ := writeMcu_safe hP hF m a2 h2
        exact ⟨a1.append b1, b2⟩

theorem ReqsOk.acts {l : List WReq} (h : ReqsOk l) : ∀ a ∈ l.map WAct.req, a.Ok := by
  intro a ha
  obtain ⟨r, hr, rfl⟩ := List.mem_map.mp ha
  exact h r hr

theorem dcFits_zero : DcFits 0 := ⟨by decide, by decide⟩

theorem writeMcus_safe {prog : Bool} {P : SP} {ri : Nat} {F : Coefs} (hP : P.se ≤ 63) (hF : ∀ c b, (F c b).Calm) : ∀ (ms : List (List Visit)) {ws : WS} {q : List WAct × WS},
    ws.Ok → writeMcus prog P ri F ms ws = some q → (∀ a ∈ q.1, a.Ok) ∧ q.2.Ok
  | [], ws, q, hw, h => by cases h; exact ⟨(fun _ h => by cases h), hw⟩
  | m :: ms, ws, q, hw, h => by
    rw [writeMcus] at h
    dsimp only at h
    have hh : (∀ a ∈ (writeMcuHead ri ws).1, a.Ok) ∧ (writeMcuHead ri ws).2.Ok := by
      unfold writeMcuHead
      split
      · obtain ⟨f1, f2⟩ := hw.fit.flush
        refine ⟨fun a ha => ?_, f2, fun _ => dcFits_zero⟩
        rcases List.mem_append.mp ha with ha | ha
        · exact f1.acts a ha
        · rw [List.mem_singleton.mp ha]; trivial
      · exact ⟨(fun _ h => by cases h), hw⟩
    generalize writeMcuHead ri ws = hd at h hh
    cases h1 : writeMcu prog P F m hd.2 with
    | none => rw [h1] at h; cases h
    | some p =>
      rw [h1, Option.bind_some] at h
      obtain ⟨a1, a2⟩ := writeMcu_safe hP hF m hh.2 h1
      cases h2 : writeMcus prog P ri F ms { p.2 with toGo := p.2.toGo - 1 } with
      | none => rw [h2] at h; cases h
      | some r =>
        rw [h2] at h; cases h
        obtain ⟨b1, b2⟩ := writeMcus_safe hP hF ms (ws := { p.2 with toGo := p.2.toGo - 1 }) ⟨a2.fit, a2.last⟩ h2
        refine ⟨fun a ha => ?_, b2⟩
        rcases List.mem_append.mp ha with ha | ha
        · rcases List.mem_append.mp ha with ha | ha
          · exact hh.1 a ha
          · exact a1.acts a ha
        · exact b1 a ha

theorem CS.init_fit : CS.init.Fit := by
  refine ⟨?_, ?_, ?_, ?_, ?_⟩ <;> simp [CS.init, CS.Wf]

theorem WS.start_ok (ri : Nat) (resets : List Nat) (runs : List (Nat × Nat)) : (WS.start ri resets runs).Ok := ⟨CS.init_fit, fun _ => dcFits_zero⟩

/-! ## Scans -/

/-- A scan in the middle. -/
structure WScan.Ok (w : WScan) : Prop where
  ws : w.ws.Ok
  room : w.bw.Room

theorem chunkOf_safe {n : Nat} {bs : List Nat} (h : bs.length ≤ n) : (chunkOf n bs).Safe fun _ => True := by
  unfold chunkOf
  rw [if_pos h]
  trivial

theorem sosBytes_length {cs : List Component} : ∀ {ss : List ScanComp} {bs : List Nat}, sosBytes cs ss = some bs → bs.length = 2 * ss.length ∧ ∀ s ∈ ss, s.compIdx < cs.length
  | [], bs, h => by cases h; simp
  | s :: ss, bs, h => by
    rw [sosBytes] at h
    cases hc : cs[s.compIdx]? with
    | none => rw [hc] at h; cases h
    | some c =>
      rw [hc] at h
      dsimp only at h
      cases hr : sosBytes cs ss with
      | none => rw [hr] at h; cases h
      | some r =>
        rw [hr] at h; cases h
        obtain ⟨h1, h2⟩ := sosBytes_length hr
        refine ⟨by simp only [List.length_cons, h1]; omega, fun x hx => ?_⟩
        rcases List.mem_cons.mp hx with rfl | hx
        · exact (List.getElem?_eq_some_iff.mp hc).1
        · exact h2 x hx

/-- The components of a scan exist if its header has been written. -/
theorem encodeSOS_safe (jpg : JpegData) (s : ScanInfo) : (encodeSOS jpg s).Safe fun _ => ∀ c ∈ s.comps, c.compIdx < jpg.components.length := by
  unfold encodeSOS
  dsimp only
  split
  · trivial
  · rename_i bs hb
    obtain ⟨h1, h2⟩ := sosBytes_length hb
    refine (chunkOf_safe (?_)).mono fun _ _ => h2
    simp [be16, h1]
    omega

theorem scanHead_safe {jpg : JpegData} {s : ScanInfo} {a : WJ} {w : Option WScan} (h : ∀ x, w = some x → x.Ok ∧ ∀ c ∈ s.comps, c.compIdx < jpg.components.length) :
    (scanHead jpg s a w).Safe fun x => x.Ok ∧ ∀ c ∈ s.comps, c.compIdx < jpg.components.length := by
  cases w with
  | some w => exact h w rfl
  | none => exact Run.Safe.bind (encodeSOS_safe jpg s) fun sos hs => ⟨⟨WS.start_ok _ _ _, BW.init_room _⟩, hs⟩

theorem scanEnd_safe {T : HSlot → CodeTable} (hT : Depths T) {ws : WS} {bw : BW} (pads : Pads) (hw : ws.Ok) (hb : bw.Room) : (scanEnd T ws bw pads).Safe fun _ => True := by
  unfold scanEnd
  refine Run.Safe.bind (BW.acts_room _ hb fun a ha => ?_) fun r hr => Run.Safe.bind (BW.jump_room hr) fun r' _ => ?_
  · obtain ⟨x, hx, rfl⟩ := List.mem_map.mp ha
    exact toAct_ok hT (hw.fit.flush.1.acts x hx)
  · dsimp only
    split <;> trivial

/-- Conditions on a scan. -/
structure ScanInfo.Sane (s : ScanInfo) : Prop where
  some : s.comps ≠ []
  tables : ∀ c ∈ s.comps, c.dcTbl < 4 ∧ c.acTbl < 4
  se : s.se ≤ 63

theorem scanParams_se {s : ScanInfo} (h : s.Sane) (prog : Bool) : (scanParams prog s).se ≤ 63 := by
  unfold scanParams
  split
  · exact h.se
  · exact Nat.le_refl _

/-- All blocks of the scan that can be written exist. -/
def View.Holds (v : View) (s : ScanInfo) : Prop := ∀ prog y last, lastRow v prog s = some last →
  ∀ x ∈ (mcuRange (dimsOf v.jpg.components) s.comps y last (writerMcus v.jpg s).2).flatten, ∃ c, v.jpg.components[x.comp]? = some c ∧ 64 * x.blk + 64 ≤ c.coeffs.length

theorem outOfRange_false {v : View} {s : ScanInfo} (hs : s.Sane) (hv : v.Holds s) {prog : Bool} {y last : Nat} (h : lastRow v prog s = some last) :
    outOfRange v.jpg s (mcuRange (dimsOf v.jpg.components) s.comps y last (writerMcus v.jpg s).2) = false := by
  unfold outOfRange
  rw [Bool.or_eq_false_iff, List.any_eq_false, List.any_eq_false]
  constructor
  · intro c hc
    have := hs.tables c hc
    simp only [Bool.or_eq_true, decide_eq_true_eq]
    omega
  · intro x hx
    obtain ⟨c, h1, h2⟩ := hv prog y last h x hx
    rw [h1]
    simp only [Option.map_some, Option.getD_some, decide_eq_true_eq]
    omega

theorem scanRows_safe {v : View} {s : ScanInfo} {a : WJ} {w : WScan} (hs : s.Sane) (hv : v.Holds s) (hF : ∀ c b, (v.jpg.coefs c b).Calm) (hT : Depths a.T) (hw : w.Ok) :
    (scanRows v s a w).Safe fun o => ∀ x, o.scan = some x → x.Ok := by
  unfold scanRows
  split
  · intro x hx
    cases hx
    exact ⟨hw.ws, ⟨hw.room.left, hw.room.size⟩⟩
  rename_i last hl
  dsimp only
  rw [outOfRange_false hs hv hl]
  rw [if_neg (by decide)]
  split
  · trivial
  rename_i as ws hws
  obtain ⟨h1, h2⟩ := writeMcus_safe (scanParams_se hs _) hF _ hw.ws hws
  refine Run.Safe.bind (BW.acts_room _ hw.room fun x hx => ?_) fun r hr => ?_
  · obtain ⟨y, hy, rfl⟩ := List.mem_map.mp hx
    exact toAct_ok hT (h1 y hy)
  split
  · split
    · intro x hx
      cases hx
      exact ⟨h2, ⟨hr.left, hr.size⟩⟩
    · trivial
  · refine Run.Safe.bind (scanEnd_safe hT _ h2 hr) fun q _ x hx => ?_
    cases hx

/-! ## Segments -/

/-- Conditions on a Huffman code: a slot that exists, the code that is not used, symbols of a byte. -/
structure HuffCode.Sane (h : HuffCode) : Prop where
  slot : h.slot.2 < 4
  counts : 1 ≤ h.counts.sum
  symbols : ∀ p ∈ h.code.dropLast, p.2 < 256

theorem mem_zip_dropLast {α β : Type} : ∀ {a : List α} {b : List β} {p : α × β}, p ∈ (a.zip b).dropLast → p.1 ∈ a ∧ p.2 ∈ b.take (a.length - 1)
  | [], _, _, h => by simp at h
  | _ :: _, [], _, h => by simp at h
  | [x], [y], _, h => by simp at h
  | [x], y :: z :: b, _, h => by simp at h
  | x :: x' :: a, [y], _, h => by simp at h
  | x :: x' :: a, y :: y' :: b, p, h => by
    rw [List.zip_cons_cons, List.zip_cons_cons, List.dropLast_cons₂] at h
    rcases List.mem_cons.mp h with rfl | h
    · exact ⟨List.mem_cons_self, by simp⟩
    · rw [← List.zip_cons_cons] at h
      obtain ⟨h1, h2⟩ := mem_zip_dropLast (a := x' :: a) (b := y' :: b) h
      refine ⟨List.mem_cons_of_mem _ h1, ?_⟩
      simp only [List.length_cons, Nat.add_sub_cancel] at h2 ⊢
      rw [List.take_succ_cons]
      exact List.mem_cons_of_mem _ h2

theorem mem_lens {h : HuffCode} {l : Nat} (hl : l ∈ h.lens) : l ≤ 16 := by
  unfold HuffCode.lens at hl
  obtain ⟨i, hi, hl⟩ := List.mem_flatMap.mp hl
  rw [(List.mem_replicate.mp hl).2]
  have := List.mem_range'_1.mp hi
  omega

theorem HuffCode.Decoded.sane {h : HuffCode} (d : h.Decoded) : h.Sane := by
  refine ⟨?_, d.total, fun p hp => ?_⟩
  · have h1 := d.slot
    have : ∀ n : _root_.Fin 32, n.val % 16 < 4 → (if n.val &&& 0x10 ≠ 0 then (true, n.val - 0x10) else (false, n.val) : HSlot).2 < 4 := by decide +kernel
    exact this ⟨h.slotId, by omega⟩ h1.1
  · obtain ⟨_, h2⟩ := mem_zip_dropLast hp
    rw [HuffCode.lens_length d.countsLength d.zero] at h2
    have h3 := d.bound p.2 h2
    split at h3 <;> omega

theorem jcodes_depth : ∀ (L : List (Nat × Nat)) (code si : Nat), ∀ e ∈ jcodes code si L, ∃ p ∈ L, e.2.1 = p.1
  | [], _, _, e, h => by cases h
  | p :: L, code, si, e, h => by
    rw [jcodes] at h
    rcases List.mem_cons.mp h with rfl | h
    · exact ⟨p, List.mem_cons_self, rfl⟩
    · obtain ⟨q, hq, h⟩ := jcodes_depth L _ _ e h
      exact ⟨q, List.mem_cons_of_mem _ hq, h⟩

theorem put_depth : ∀ (es : List (Nat × Nat × Nat)) (t : CodeTable), (∀ s, t.depth s ≤ 16) → (∀ e ∈ es, e.2.1 ≤ 16) → ∀ s, (es.foldl CodeTable.put t).depth s ≤ 16
  | [], _, ht, _ => ht
  | e :: es, t, ht, he => by
    rw [List.foldl_cons]
    refine put_depth es _ (fun s => ?_) fun x hx => he x (List.mem_cons_of_mem _ hx)
    unfold CodeTable.put
    dsimp only
    split
    · exact he e List.mem_cons_self
    · exact ht s

theorem buildCodeTable_safe {t : CodeTable} {h : HuffCode} (hs : h.Sane) (ht : ∀ s, t.depth s ≤ 16) : (buildCodeTable t h).Safe fun u => ∀ s, u.depth s ≤ 16 := by
  unfold buildCodeTable
  split
  · trivial
  split
  · exact ht
  dsimp only
  rw [if_pos (by simpa [List.all_eq_true] using hs.symbols)]
  refine put_depth _ _ ht fun e he => ?_
  obtain ⟨p, hp, h1⟩ := jcodes_depth _ _ _ e he
  rw [h1]
  exact mem_lens (mem_zip_dropLast hp).1

theorem dhtBytes_length (h : HuffCode) (hs : 1 ≤ h.counts.sum) : (dhtBytes h).length ≤ 16 + h.counts.sum := by
  unfold dhtBytes
  simp only [List.length_append, List.length_cons, List.length_map, List.length_range', List.length_take]
  omega

theorem dhtWrite_safe : ∀ (hs : List HuffCode) {T : HSlot → CodeTable}, (∀ h ∈ hs, h.Sane) → Depths T → (dhtWrite hs T).Safe fun r => r.1.length ≤ dhtLength hs ∧ Depths r.2.2
  | [], _, _, _ => trivial
  | h :: hs, T, ok, hT => by
    obtain ⟨h1, h2, h3⟩ := ok h List.mem_cons_self
    rw [dhtWrite, if_neg (by omega)]
    refine Run.Safe.bind (buildCodeTable_safe ⟨h1, h2, h3⟩ (hT _)) fun t ht => ?_
    have hT' : Depths fun s => if s = h.slot then t else T s := by
      intro s x
      dsimp only
      split
      · exact ht x
      · exact hT s x
    have hl := dhtBytes_length h h2
    dsimp only
    rw [dhtLength]
    split
    · exact ⟨by dsimp only; omega, hT'⟩
    · refine Run.Safe.bind (dhtWrite_safe hs (fun x hx => ok x (List.mem_cons_of_mem _ hx)) hT') fun r hr => ⟨?_, hr.2⟩
      dsimp only
      rw [List.length_append]
      have := hr.1
      omega

theorem encodeDHT_safe {jpg : JpegData} {idx : Nat} {T : HSlot → CodeTable} (ok : ∀ h ∈ jpg.huffman, h.Sane) (hT : Depths T) : (encodeDHT jpg idx T).Safe fun r => Depths r.2.2 := by
  unfold encodeDHT
  dsimp only
  refine Run.Safe.bind (dhtWrite_safe _ (fun h hh => ok h (List.mem_of_mem_drop hh)) hT) fun r hr => Run.Safe.bind (chunkOf_safe ?_) fun c _ => hr.2
  simp only [List.length_cons, List.length_append, be16, List.length_nil]
  have := hr.1
  omega

theorem dqtBytes_length (q : QuantTable) : (dqtBytes q).length = 1 + (if q.precision ≠ 0 then 2 else 1) * 64 := by
  unfold dqtBytes
  rw [List.length_cons]
  have : ∀ l : List Nat, (l.flatMap fun j => (if q.precision ≠ 0 then [q.values.getD j 0 / 256 % 256] else []) ++ [q.values.getD j 0 % 256]).length =
      (if q.precision ≠ 0 then 2 else 1) * l.length := by
    intro l
    induction l with
    | nil => simp
    | cons a l ih =>
      rw [List.flatMap_cons, List.length_append, ih]
      split <;> simp <;> omega
  rw [this, show naturalOrder.length = 64 by decide +kernel]
  omega

theorem dqtWrite_safe : ∀ qs : List QuantTable, (dqtWrite qs).Safe fun r => r.1.length ≤ dqtLength qs
  | [] => trivial
  | q :: qs => by
    have hl := dqtBytes_length q
    rw [dqtWrite, dqtLength]
    generalize (if q.precision ≠ 0 then 2 else 1) * 64 = k at hl
    split
    · show List.length (dqtBytes q) ≤ _
      omega
    · refine Run.Safe.bind (dqtWrite_safe qs) fun r hr => ?_
      show List.length (_ ++ _) ≤ _
      rw [List.length_append]
      omega

theorem encodeDQT_safe (jpg : JpegData) (idx : Nat) : (encodeDQT jpg idx).Safe fun _ => True := by
  unfold encodeDQT
  dsimp only
  refine Run.Safe.bind (dqtWrite_safe _) fun r hr => Run.Safe.bind (chunkOf_safe ?_) fun c _ => trivial
  simp only [List.length_cons, List.length_append, be16, List.length_nil]
  omega

theorem sofBytes_length {q : List QuantTable} : ∀ {cs : List Component} {bs : List Nat}, sofBytes q cs = some bs → bs.length = 3 * cs.length
  | [], bs, h => by cases h; rfl
  | c :: cs, bs, h => by
    rw [sofBytes] at h
    split at h
    · cases h
    cases hr : sofBytes q cs with
    | none => rw [hr] at h; cases h
    | some r =>
      rw [hr] at h; cases h
      simp only [List.length_cons, sofBytes_length hr]
      omega

theorem encodeSOF_safe (jpg : JpegData) (m : Nat) : (encodeSOF jpg m).Safe fun _ => True := by
  unfold encodeSOF
  dsimp only
  split
  · trivial
  · rename_i bs hb
    refine chunkOf_safe ?_
    simp only [List.length_cons, List.length_append, be16, List.length_nil, sofBytes_length hb]
    omega

/-- All segments but scans. -/
theorem writeMarker_safe {jpg : JpegData} {ws : WJ} {m : Nat} (ok : ∀ h ∈ jpg.huffman, h.Sane) (hT : Depths ws.T) (hm : m ≠ 0xDA) :
    (writeMarker jpg ws m).Safe fun r => Depths r.2.T ∧ r.2.scan = ws.scan := by
  unfold writeMarker
  split
  · exact Run.Safe.bind (encodeSOF_safe _ _) fun c _ => ⟨hT, rfl⟩
  split
  · exact Run.Safe.bind (encodeDHT_safe ok hT) fun r hr => ⟨hr, rfl⟩
  split
  · exact ⟨hT, rfl⟩
  split
  · exact ⟨hT, rfl⟩
  split
  · exact Run.Safe.bind (encodeDQT_safe _ _) fun c _ => ⟨hT, rfl⟩
  split
  · exact ⟨hT, rfl⟩
  split
  · split
    · trivial
    · exact ⟨hT, rfl⟩
  split
  · split
    · trivial
    · exact ⟨hT, rfl⟩
  split
  · split
    · trivial
    · exact ⟨hT, rfl⟩
  · trivial

/-! ## A segment -/

/-- What the writer may assume of the data it is shown. -/
structure View.Sane (v : View) : Prop where
  huffman : ∀ h ∈ v.jpg.huffman, h.Sane
  scans : ∀ s ∈ v.jpg.scans, s.Sane
  holds : ∀ s ∈ v.jpg.scans, (∀ c ∈ s.comps, c.compIdx < v.jpg.components.length) → v.Holds s
  calm : ∀ c b, (v.jpg.coefs c b).Calm

/-- The variables of the writer, `n` scans being still to come. -/
structure WJS.Ok (a : WJS) (jpg : JpegData) (n : Nat) : Prop where
  sound : a.broken = false
  tables : Depths a.base.T
  scans : a.base.scan + n = jpg.scans.length
  scan : ∀ w, a.scan = some w → w.Ok ∧ ∀ s, jpg.scans[a.base.scan]? = some s → ∀ c ∈ s.comps, c.compIdx < jpg.components.length

/-- A scan in progress belongs to a segment that is being written. -/
theorem streamMarker_safe {v : View} {a : WJS} {m n : Nat} (hv : v.Sane) (ha : a.Ok v.jpg (n + if m = 0xDA then 1 else 0)) (hs : m ≠ 0xDA → a.scan = none) :
    (streamMarker v a m).Safe fun r => if r.2.2 then r.1.Ok v.jpg n ∧ r.1.scan = none else m = 0xDA ∧ r.1.Ok v.jpg (n + 1) := by
  unfold streamMarker
  split
  · rename_i hm
    rw [if_pos hm] at ha
    cases hg : v.jpg.scans[a.base.scan]? with
    | none =>
      have := List.getElem?_eq_none_iff.mp hg
      have := ha.scans
      omega
    | some s =>
      have hmem := List.mem_of_getElem? hg
      refine Run.Safe.bind (p := fun o => ∀ x, o.scan = some x → x.Ok ∧ ∀ c ∈ s.comps, c.compIdx < v.jpg.components.length) ?_ fun o ho => ?_
      · refine Run.Safe.bind (scanHead_safe fun x hx => ⟨(ha.scan x hx).1, (ha.scan x hx).2 s hg⟩) fun w hw => ?_
        exact (scanRows_safe (hv.scans s hmem) (hv.holds s hmem hw.2) hv.calm ha.tables hw.1).mono fun o ho x hx => ⟨ho x hx, hw.2⟩
      · show if o.scan.isNone then _ else _
        cases hsc : o.scan with
        | none =>
          refine ⟨⟨ha.sound, ha.tables, ?_, fun w hw => by cases hw⟩, rfl⟩
          have := ha.scans
          simp only [Option.isSome_none, Bool.false_eq_true, if_false]
          omega
        | some x =>
          refine ⟨hm, ha.sound, ha.tables, ?_, fun w hw => ?_⟩
          · have := ha.scans
            simp only [Option.isSome_some, if_true]
            omega
          · cases hw
            refine ⟨(ho x hsc).1, fun s' hs' => ?_⟩
            simp only [Option.isSome_some, if_true] at hs'
            rw [hg] at hs'
            cases hs'
            exact (ho x hsc).2
  · rename_i hm
    rw [if_neg hm] at ha
    refine Run.Safe.bind (writeMarker_safe hv.huffman ha.tables hm) fun r hr => ?_
    refine ⟨⟨ha.sound, hr.1, ?_, fun w hw => ?_⟩, hs hm⟩
    · have := ha.scans
      rw [hr.2]
      omega
    · rw [show a.scan = _ from hw] at hs
      cases hs hm

end Brunsli
