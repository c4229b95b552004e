import Verif.JFile
import Verif.JHoare
/-!
# A family of large JPEG files

JPEG files of 1024 by 1024 blocks whose entropy-coded data are nearly arbitrary: each block is a zero byte for the DC coefficient and two bytes for every AC
coefficient, the first below 8, the second below 255.  The reader accepts all of them.
-/

namespace Brunsli

open JM

/-! ## Readers that succeed whatever follows -/

/-- Success does not depend on what follows the input. -/
def JM.Stable {α : Type} (m : JM α) : Prop := ∀ d t p a p', m d p = .ok (a, p') → m (d ++ t) p = .ok (a, p')

theorem byteOf_append {d : List Nat} (t : List Nat) {p : Nat} (h : p < d.length) : byteOf (d ++ t) p = byteOf d p := by
  unfold byteOf
  rw [List.getD_eq_getElem?_getD, List.getD_eq_getElem?_getD, List.getElem?_append_left h]

namespace JM

theorem Stable.pure {α : Type} (a : α) : (Pure.pure a : JM α).Stable := fun _ _ _ _ _ h => h

theorem Stable.bind {α β : Type} {m : JM α} {f : α → JM β} (h : m.Stable) (hf : ∀ a, (f a).Stable) : (m >>= f).Stable := by
  intro d t p b p' e
  have e : (m d p).bind (fun q => f q.1 d q.2) = .ok (b, p') := e
  show (m (d ++ t) p).bind (fun q => f q.1 (d ++ t) q.2) = .ok (b, p')
  cases hm : m d p with
  | ok q =>
    obtain ⟨a, p1⟩ := q
    rw [hm] at e
    rw [h d t p a p1 hm]
    exact hf a d t p1 b p' e
  | fail => rw [hm] at e; cases e
  | ub => rw [hm] at e; cases e

theorem Stable.pos : JM.pos.Stable := fun _ _ _ _ _ h => h

theorem Stable.check (c : Bool) : (JM.check c).Stable := fun _ _ _ _ _ h => h

theorem Stable.failed {α : Type} : (JM.failed : JM α).Stable := fun _ _ _ _ _ h => nomatch h

theorem Stable.broken {α : Type} : (JM.broken : JM α).Stable := fun _ _ _ _ _ h => nomatch h

theorem Stable.endsAt (e : Nat) : (JM.endsAt e).Stable := fun _ _ _ _ _ h => h

theorem Stable.need (n : Nat) : (JM.need n).Stable := by
  intro d t p a p' h
  unfold JM.need at h ⊢
  split at h
  · cases h
  · rw [if_neg (by rw [List.length_append]; omega)]; exact h

theorem Stable.u8 : JM.u8.Stable := by
  intro d t p a p' h
  unfold JM.u8 at h ⊢
  split at h
  · rw [if_pos (by rw [List.length_append]; omega), byteOf_append _ (by omega)]; exact h
  · cases h

theorem Stable.u16 : JM.u16.Stable := by
  intro d t p a p' h
  unfold JM.u16 at h ⊢
  split at h
  · rw [if_pos (by rw [List.length_append]; omega), byteOf_append _ (by omega), byteOf_append _ (by omega)]; exact h
  · cases h

end JM

theorem expectMarker_stable : expectMarker.Stable := by
  intro d t p a p' h
  unfold expectMarker at h ⊢
  split at h
  · cases h
  · rename_i hc
    rw [if_neg (by rw [List.length_append, byteOf_append _ (by omega)]; omega), byteOf_append _ (by omega)]; exact h

theorem sofComps_stable (n : Nat) : ∀ seen, (sofComps n seen).Stable := by
  induction n with
  | zero => intro seen; exact Stable.pure _
  | succ n ih =>
    intro seen
    rw [sofComps]
    exact Stable.u8.bind fun _ => (Stable.check _).bind fun _ => Stable.u8.bind fun _ => (Stable.check _).bind fun _ => (Stable.check _).bind fun _ =>
      Stable.u8.bind fun _ => (ih _).bind fun _ => Stable.pure _

theorem processSOF_stable (w : Nat) : (processSOF w).Stable := by
  unfold processSOF
  exact (Stable.check _).bind fun _ => Stable.pos.bind fun _ => (Stable.need _).bind fun _ => Stable.u16.bind fun _ => Stable.u8.bind fun _ => Stable.u16.bind fun _ =>
    Stable.u16.bind fun _ => Stable.u8.bind fun _ => (Stable.check _).bind fun _ => (Stable.check _).bind fun _ => (Stable.check _).bind fun _ =>
    (Stable.check _).bind fun _ => (Stable.need _).bind fun _ => (sofComps_stable _ _).bind fun _ => (Stable.check _).bind fun _ => (Stable.endsAt _).bind fun _ => Stable.pure _

theorem sosComps_stable (comps : List Component) (n : Nat) : ∀ seen, (sosComps comps n seen).Stable := by
  induction n with
  | zero => intro seen; exact Stable.pure _
  | succ n ih =>
    intro seen
    rw [sosComps]
    refine Stable.u8.bind fun id => (Stable.check _).bind fun _ => ?_
    split
    · exact Stable.failed
    · exact Stable.u8.bind fun _ => (Stable.check _).bind fun _ => (Stable.check _).bind fun _ => (ih _).bind fun _ => Stable.pure _

theorem processSOS_stable (comps : List Component) (hs : List HuffCode) : (processSOS comps hs).Stable := by
  unfold processSOS
  exact Stable.pos.bind fun _ => (Stable.need _).bind fun _ => Stable.u16.bind fun _ => Stable.u8.bind fun _ => (Stable.check _).bind fun _ => (Stable.need _).bind fun _ =>
    (sosComps_stable _ _ _).bind fun _ => (Stable.need _).bind fun _ => Stable.u8.bind fun _ => Stable.u8.bind fun _ => (Stable.check _).bind fun _ => (Stable.check _).bind fun _ =>
    Stable.u8.bind fun _ => (Stable.check _).bind fun _ => (Stable.endsAt _).bind fun _ => Stable.pure _

theorem u8s_stable (n : Nat) : (u8s n).Stable := by
  induction n with
  | zero => exact Stable.pure _
  | succ n ih => rw [u8s]; exact Stable.u8.bind fun _ => ih.bind fun _ => Stable.pure _

theorem dhtValues_stable (bound n : Nat) : ∀ seen, (dhtValues bound n seen).Stable := by
  induction n with
  | zero => intro seen; exact Stable.pure _
  | succ n ih =>
    intro seen
    rw [dhtValues]
    exact Stable.u8.bind fun _ => (Stable.check _).bind fun _ => (Stable.check _).bind fun _ => (ih _).bind fun _ => Stable.pure _

theorem dhtCode_stable (stop : Nat) : (dhtCode stop).Stable := by
  unfold dhtCode
  exact (Stable.need _).bind fun _ => Stable.u8.bind fun _ => (Stable.check _).bind fun _ => (u8s_stable _).bind fun _ => (Stable.check _).bind fun _ => (Stable.need _).bind fun _ =>
    (dhtValues_stable _ _ _).bind fun _ => (Stable.check _).bind fun _ => Stable.pos.bind fun _ => Stable.pure _

theorem dhtLoop_stable (stop n : Nat) : ∀ hs lut, (dhtLoop stop n hs lut).Stable := by
  induction n with
  | zero => intro _ _; exact Stable.broken
  | succ n ih =>
    intro hs lut
    rw [dhtLoop]
    refine Stable.pos.bind fun p => ?_
    split
    · refine (dhtCode_stable _).bind fun h => ?_
      split
      · exact Stable.broken
      · exact ih _ _
    · exact Stable.pure _

theorem processDHT_stable (hs : List HuffCode) (lut : HSlot → JMem) : (processDHT hs lut).Stable := by
  unfold processDHT
  exact Stable.pos.bind fun _ => (Stable.need _).bind fun _ => Stable.u16.bind fun _ => (Stable.check _).bind fun _ => (dhtLoop_stable _ _ _ _).bind fun _ =>
    (Stable.endsAt _).bind fun _ => Stable.pure _

theorem dqtValues_stable (precision n : Nat) : (dqtValues precision n).Stable := by
  induction n with
  | zero => exact Stable.pure _
  | succ n ih =>
    rw [dqtValues]
    split
    · exact Stable.u8.bind fun _ => (Stable.check _).bind fun _ => ih.bind fun _ => Stable.pure _
    · exact Stable.u16.bind fun _ => (Stable.check _).bind fun _ => ih.bind fun _ => Stable.pure _

theorem dqtLoop_stable (stop n : Nat) : ∀ qs, (dqtLoop stop n qs).Stable := by
  induction n with
  | zero => intro _; exact Stable.broken
  | succ n ih =>
    intro qs
    rw [dqtLoop]
    refine Stable.pos.bind fun p => ?_
    split
    · refine Stable.bind ?_ fun _ => ih _
      unfold dqtTable
      exact (Stable.need _).bind fun _ => Stable.u8.bind fun _ => (Stable.check _).bind fun _ => (Stable.check _).bind fun _ => (Stable.need _).bind fun _ =>
        (dqtValues_stable _ _).bind fun _ => Stable.pos.bind fun _ => Stable.pure _
    · exact Stable.pure _

theorem processDQT_stable (qs : List QuantTable) : (processDQT qs).Stable := by
  unfold processDQT
  exact Stable.pos.bind fun _ => (Stable.need _).bind fun _ => Stable.u16.bind fun _ => (Stable.check _).bind fun _ => (dqtLoop_stable _ _ _).bind fun _ =>
    (Stable.endsAt _).bind fun _ => Stable.pure _

/-- A marker segment without bytes before it. -/
def segAt (st : RJ) (m : Nat) : JM RJ := do
  let m' ← expectMarker
  check (decide (m' = m))
  let st ← readSegment st m
  pure { st with order := st.order ++ [m] }

theorem segAt_stable (st : RJ) {m : Nat} (hm : m = 0xc0 ∨ m = 0xc4 ∨ m = 0xdb) : (segAt st m).Stable := by
  unfold segAt
  refine expectMarker_stable.bind fun _ => (Stable.check _).bind fun _ => Stable.bind ?_ fun _ => Stable.pure _
  rcases hm with rfl | rfl | rfl
  · exact (processSOF_stable _).bind fun _ => Stable.pure _
  · exact (processDHT_stable _ _).bind fun _ => Stable.pure _
  · exact (processDQT_stable _).bind fun _ => Stable.pure _

theorem findMarker_here {d : List Nat} {p : Nat} (hff : byteOf d p = 0xff) (hm : isMarker (byteOf d (p + 1)) = true) (n : Nat) : findMarker d n p = p := by
  cases n with
  | zero => rfl
  | succ n => rw [findMarker, if_neg (by rw [hff, hm]; simp)]

/-- The loop takes a segment. -/
theorem readLoop_seg {d : List Nat} {p p' : Nat} {st st' : RJ} {m : Nat} (hm : isMarker m = true) (hne : m ≠ 0xd9) (h : segAt st m d p = .ok (st', p')) (n : Nat) :
    readLoop (n + 1) st d p = readLoop n st' d p' := by
  have h : (expectMarker d p).bind (fun q => (check (decide (q.1 = m)) d q.2).bind fun r => (readSegment st m d r.2).bind fun s =>
    .ok ({ s.1 with order := s.1.order ++ [m] }, s.2)) = .ok (st', p') := h
  cases he : expectMarker d p with
  | fail => rw [he] at h; cases h
  | ub => rw [he] at h; cases h
  | ok q =>
    obtain ⟨m', p1⟩ := q
    rw [he] at h
    simp only [Run.bind, check] at h
    by_cases hmm : m' = m
    swap
    · rw [if_neg (by simpa using hmm)] at h; cases h
    subst hmm
    rw [if_pos (by simp)] at h
    dsimp only at h
    unfold expectMarker at he
    split at he
    · cases he
    rename_i hc
    have e1 : byteOf d (p + 1) = m' := by cases he; rfl
    have e2 : p1 = p + 2 := by cases he; rfl
    have hs : skipData st d p = .ok (st, p) := by
      unfold skipData
      simp only
      rw [findMarker_here (by omega) (by rw [e1]; exact hm), if_neg (by omega)]
    show ((skipData st d p).bind fun q => (expectMarker d q.2).bind fun r => (readSegment q.1 r.1 d r.2).bind fun s => .ok ((({ s.1 with order := s.1.order ++ [r.1] } : RJ), r.1), s.2)).bind
      (fun q => (if q.1.2 = 0xd9 then pure q.1.1 else readLoop n q.1.1 : JM RJ) d q.2) = _
    rw [hs]
    dsimp only [Run.bind]
    rw [show expectMarker d p = .ok (m', p1) by unfold expectMarker; rw [if_neg hc, ← e1, e2]]
    dsimp only
    cases hr : readSegment st m' d p1 with
    | fail => rw [hr] at h; cases h
    | ub => rw [hr] at h; cases h
    | ok s =>
      rw [hr] at h
      cases h
      dsimp only
      rw [if_neg hne]

/-! ## The files -/

/-- Quantisation table of ones; 8192 by 8192 pixels, one component; a code of 8 bits for the DC symbol 0, a code of 5 bits for the AC symbol 0x0B; a scan. -/
def bigHead : List Nat :=
  [0xFF, 0xD8] ++ [0xFF, 0xDB, 0, 67, 0] ++ List.replicate 64 1 ++ [0xFF, 0xC0, 0, 11, 8, 0x20, 0, 0x20, 0, 1, 1, 0x11, 0] ++
  [0xFF, 0xC4, 0, 38, 0x00, 0, 0, 0, 0, 0, 0, 0, 1, 0, 0, 0, 0, 0, 0, 0, 0, 0x00, 0x10, 0, 0, 0, 0, 1, 0, 0, 0, 0, 0, 0, 0, 0, 0, 0, 0, 0x0B] ++
  [0xFF, 0xDA, 0, 8, 1, 1, 0x00, 0, 63, 0]

def stateOf (r : Run (RJ × Nat)) : RJ := match r with | .ok q => q.1 | _ => RJ.init

def endsOkAt {α : Type} (r : Run (α × Nat)) (p : Nat) : Bool := match r with | .ok q => decide (q.2 = p) | _ => false

theorem stateOf_spec {r : Run (RJ × Nat)} {p : Nat} (h : endsOkAt r p = true) : r = .ok (stateOf r, p) := by
  unfold endsOkAt at h
  split at h
  · rename_i q
    have := of_decide_eq_true h
    obtain ⟨a, b⟩ := q
    simp only at this
    subst this; rfl
  · cases h

/-- The states after the first three segments. -/
def bigState1 : RJ := stateOf (segAt RJ.init 0xdb bigHead 2)
def bigState2 : RJ := stateOf (segAt bigState1 0xc0 bigHead 71)
def bigState3 : RJ := stateOf (segAt bigState2 0xc4 bigHead 84)

theorem bigState1_eq : segAt RJ.init 0xdb bigHead 2 = .ok (bigState1, 71) := stateOf_spec (by decide +kernel)
theorem bigState2_eq : segAt bigState1 0xc0 bigHead 71 = .ok (bigState2, 84) := stateOf_spec (by decide +kernel)
theorem bigState3_eq : segAt bigState2 0xc4 bigHead 84 = .ok (bigState3, 124) := stateOf_spec (by decide +kernel)

def bigScan : ScanInfo := ⟨0, 63, 0, 0, [⟨0, 0, 0⟩], [], []⟩

theorem bigScan_eq : processSOS bigState3.comps bigState3.huffman bigHead 126 = .ok (bigScan, 134) := by decide +kernel

theorem bigState3_facts : bigState3.width = 8192 ∧ bigState3.height = 8192 ∧ bigState3.ri = 0 ∧ bigState3.app = [] ∧ bigState3.com = [] ∧
    bigState3.comps = [⟨1, 1, 1, 0, 1024, 1024, []⟩] ∧ bigState3.scans = [] ∧ bigState3.order = [0xdb, 0xc0, 0xc4] ∧ bigState3.inter = [] ∧ bigState3.pads = [] ∧
    bigState3.prog = false ∧ bigState3.sof = true ∧ bigState3.quant.length = 1 ∧ bigState3.quant.map QuantTable.index = [0] ∧ bigState3.huffman.length = 2 := by decide +kernel

theorem bigState3_dc : bigState3.lut (false, 0) 0 = ⟨8, 0⟩ := by decide +kernel

theorem bigState3_ac : ∀ i < 8, bigState3.lut (true, 0) i = ⟨5, 0x0B⟩ := by decide +kernel

theorem bigState3_masks : (markScan (scanParams false bigScan) [0] bigState3.masks).isSome = true := by decide +kernel

/-! ## Data without markers -/

/-- No byte from `start` on is 0xFF, except in the last two bytes. -/
def Plain (data : List Nat) (start : Nat) : Prop := ∀ i, start ≤ i → i < data.length - 2 → byteOf data i ≠ 0xff

theorem gst_plain {data : List Nat} {start : Nat} (h : Plain data start) (n : Nat) : gst data start n = (start + n, data.length - 2) := by
  induction n with
  | zero => rfl
  | succ n ih =>
    rw [gst, ih]
    unfold gnext
    simp only
    split
    · rfl
    · rw [if_neg (h _ (by omega) (by omega))]; rfl

theorem gbyte_plain {data : List Nat} {start : Nat} (h : Plain data start) {n : Nat} (hn : start + n < data.length - 2) : gbyte data start n = byteOf data (start + n) := by
  unfold gbyte
  rw [gst_plain h]
  unfold gnext
  simp only
  rw [if_neg (by omega), if_neg (h _ (by omega) hn)]

theorem window_byte {data : List Nat} {start : Nat} (hd : Bytes data) (h : Plain data start) {n : Nat} (hn : start + n < data.length - 2) :
    ofMsb (window data start (8 * n) 8) = byteOf data (start + n) := by
  rw [window_eq (n := n + 1) (by omega), gbits_succ, List.drop_left' (gbits_length _ _ _), List.take_of_length_le (by rw [msb_length]), gbyte_plain h hn]
  exact ofMsb_msb_lt (byteOf_lt hd _)

/-- A symbol with a code of at most 8 bits. -/
theorem readSymbol_short {data : List Nat} {start c : Nat} (hd : Bytes data) {b : JR} (h : b.Rep data start c) {m : JMem} {e : Ent}
    (he : m (ofMsb (window data start c 8)) = e) (h8 : e.bits ≤ 8) :
    (b.readSymbol data m).1 = e.value ∧ (b.readSymbol data m).2.Rep data start (c + e.bits) := by
  obtain ⟨n, h1, h2⟩ := JR.fill_rep hd h
  have p8 := h1.peek (k := 8) (by omega)
  rw [show (2 : Nat) ^ 8 = 256 from rfl] at p8
  unfold JR.readSymbol
  simp only [p8, he]
  rw [if_neg (by omega)]
  exact ⟨rfl, n, h1.advance (by omega)⟩

/-- The AC coefficients of a block. -/
theorem decAC_plain {data : List Nat} {start : Nat} (hd : Bytes data) (h : Plain data start) {lut : HSlot → JMem} (hac : ∀ i < 8, lut (true, 0) i = ⟨5, 0x0B⟩)
    {last e : Int} : ∀ (n k m : Nat) (B : Blk) (br : JR), 1 ≤ k → n + k = 64 → br.Rep data start (8 * m) → start + m + 2 * n ≤ data.length - 2 →
      (∀ j < n, byteOf data (start + (m + 2 * j)) < 8) →
      ∃ B' br', (decAC (true, 0) 1 63 0 false last e n k 0 B).run data lut br = some (⟨B', last, e - 1, false, 0⟩, br') ∧ B' 0 = B 0 ∧ br'.Rep data start (8 * (m + 2 * n)) := by
  intro n
  induction n with
  | zero => intro k m B br _ _ hr _ _; exact ⟨B, br, rfl, rfl, hr⟩
  | succ n ih =>
    intro k m B br hk hkn hr hlen hb
    obtain ⟨s1, s2⟩ := readSymbol_short hd hr (m := lut (true, 0)) (e := ⟨5, 0x0B⟩) (by
      rw [window_byte hd h (by omega)]
      exact hac _ (by have := hb 0 (by omega); simpa using this)) (by decide)
    obtain ⟨b1, b2⟩ := JR.readBits_rep hd s2 (n := 11) (by decide)
    rw [decAC, if_neg (by omega), JProg.run]
    simp only [s1]
    rw [if_pos (by decide)]
    simp only [show 0 < 11 % 16 from by decide, if_true]
    rw [if_neg (by omega), if_neg (by decide), JProg.run]
    obtain ⟨B', br', h1, h2, h3⟩ := ih (k + 1) (m + 2) (B.set (k + 11 / 16) (huffExtend ((br.readSymbol data (lut (true, 0))).2.readBits data 11).1 11 * 2 ^ 0))
      ((br.readSymbol data (lut (true, 0))).2.readBits data 11).2 (by omega) (by omega) (by
        rw [show 8 * (m + 2) = 8 * m + 5 + 11 by omega]; exact b2) (by omega) (fun j hj => by
        have := hb (j + 1) (by omega)
        rwa [show m + 2 * (j + 1) = m + 2 + 2 * j by omega] at this)
    refine ⟨B', br', h1, ?_, by rw [show m + 2 * (n + 1) = m + 2 + 2 * n by omega]; exact h3⟩
    rw [h2, Blk.set, if_neg (by omega)]

/-- What holds before block number `i`. -/
structure BigInv (data : List Nat) (start i : Nat) (st : RS) : Prop where
  rep : st.br.Rep data start (8 * (127 * i))
  eob : st.eob ≤ 0
  last : ∀ c, st.last c = 0
  dc : ∀ c b, st.coefs c b 0 = 0
  resets : st.resets = []
  runs : st.runs = []
  pads : st.pads = []

/-- The bytes of `n` blocks. -/
structure BigData (data : List Nat) (start n : Nat) : Prop where
  bytes : Bytes data
  length : start + 127 * n + 2 ≤ data.length
  plain : Plain data start
  dc : ∀ i < n, byteOf data (start + 127 * i) = 0
  ac : ∀ i < n, ∀ j < 63, byteOf data (start + (127 * i + 1 + 2 * j)) < 8

def bigVisit (i : Nat) : Visit := ⟨0, (false, 0), (true, 0), i⟩

theorem readBlk_big {data : List Nat} {start n : Nat} (hb : BigData data start n) {lut : HSlot → JMem} (hdc : lut (false, 0) 0 = ⟨8, 0⟩)
    (hac : ∀ i < 8, lut (true, 0) i = ⟨5, 0x0B⟩) {i : Nat} (hi : i < n) {st : RS} (hs : BigInv data start i st) (k : Nat) :
    ∃ st', readBlk data lut ⟨0, 63, 0, 0⟩ (bigVisit k) st = some st' ∧ BigInv data start (i + 1) st' := by
  have hlen := hb.length
  have hmul : 127 * i + 127 ≤ 127 * n := by omega
  obtain ⟨s1, s2⟩ := readSymbol_short hb.bytes hs.rep (m := lut (false, 0)) (e := ⟨8, 0⟩) (by
    rw [window_byte hb.bytes hb.plain (by omega), hb.dc i hi]; exact hdc) (by decide)
  obtain ⟨B', br', h1, h2, h3⟩ := decAC_plain hb.bytes hb.plain hac (last := 0) (e := st.eob) 63 1 (127 * i + 1) ((st.coefs 0 k).set 0 0)
    (st.br.readSymbol data (lut (false, 0))).2 (by omega) (by omega) (by rw [show 8 * (127 * i + 1) = 8 * (127 * i) + 8 by omega]; exact s2) (by omega)
    (hb.ac i hi)
  have hrun : (readProg ⟨0, 63, 0, 0⟩ (bigVisit k) (st.last 0) st.eob (st.coefs 0 k)).run data lut st.br = some (⟨B', 0, st.eob - 1, false, 0⟩, br') := by
    unfold readProg decodeBlock bigVisit
    simp only [if_true]
    rw [JProg.run]
    simp only [s1, hs.last]
    rw [if_pos (by decide), if_neg (by decide), if_neg (by decide)]
    rw [if_pos (by decide)]
    unfold decRest
    rw [if_neg (by decide), if_neg (by have := hs.eob; omega)]
    exact h1
  refine ⟨_, by unfold readBlk; rw [show (bigVisit k).comp = 0 from rfl, show (bigVisit k).blk = k from rfl, hrun]; rfl, ?_⟩
  refine ⟨?_, ?_, ?_, ?_, ?_, ?_, hs.pads⟩
  · show br'.Rep _ _ _
    rw [show 127 * (i + 1) = 127 * i + 1 + 2 * 63 by omega]; exact h3
  · show st.eob - 1 ≤ 0
    have := hs.eob; omega
  · intro c
    show (if c = 0 then (0 : Int) else st.last c) = 0
    rw [hs.last]; split <;> rfl
  · intro c b
    show (if c = 0 ∧ b = k then B' else st.coefs c b) 0 = 0
    split
    · rw [h2]; rfl
    · exact hs.dc c b
  · exact hs.resets
  · exact hs.runs

theorem readMcus_big {data : List Nat} {start n : Nat} (hb : BigData data start n) {lut : HSlot → JMem} (hdc : lut (false, 0) 0 = ⟨8, 0⟩)
    (hac : ∀ i < 8, lut (true, 0) i = ⟨5, 0x0B⟩) : ∀ (ms : List (List Visit)) (i : Nat) (st : RS), (∀ m ∈ ms, ∃ k, m = [bigVisit k]) → i + ms.length ≤ n → BigInv data start i st →
      ∃ st', readMcus data lut ⟨0, 63, 0, 0⟩ 0 ms st = some st' ∧ BigInv data start (i + ms.length) st' := by
  intro ms
  induction ms with
  | nil => intro i st _ _ hs; exact ⟨st, rfl, hs⟩
  | cons m ms ih =>
    intro i st hm hi hs
    obtain ⟨k, rfl⟩ := hm _ List.mem_cons_self
    rw [List.length_cons] at hi
    obtain ⟨st1, h1, h2⟩ := readBlk_big hb hdc hac (by omega) hs k
    obtain ⟨st2, h3, h4⟩ := ih (i + 1) st1 (fun m h => hm m (List.mem_cons_of_mem _ h)) (by omega) h2
    refine ⟨st2, ?_, by rw [List.length_cons, show i + (ms.length + 1) = i + 1 + ms.length by omega]; exact h4⟩
    rw [readMcus]
    unfold readMcuHead
    rw [if_neg (by omega)]
    dsimp only
    have hu : st.br.unhealthy = false := by
      obtain ⟨n', r1, r2, r3, r4⟩ := hs.rep
      rw [gst_plain hb.plain] at r3
      unfold JR.unhealthy
      have e1 : st.br.pos = start + n' := congrArg Prod.fst r3
      have e2 : st.br.nm = data.length - 2 := congrArg Prod.snd r3
      have := hb.length
      simp only [decide_eq_false_iff_not]
      omega
    rw [hu]
    simp only [Bool.false_eq_true, if_false]
    rw [readMcu, h1]
    exact h3

theorem giveBack_plain {data : List Nat} {start : Nat} (h : Plain data start) {p : Nat} (hp : start < p) (k : Nat) : giveBack data (data.length - 2) k (p + k) = p := by
  induction k with
  | zero => rfl
  | succ k ih =>
    rw [giveBack]
    have : giveBack1 data (data.length - 2) (p + (k + 1)) = p + k := by
      unfold giveBack1
      simp only
      rw [if_neg]
      · omega
      · rintro ⟨h1, -, h3⟩
        exact h (p + (k + 1) - 1 - 1) (by omega) (by omega) h3
    rw [this, ih]

theorem finish_big {data : List Nat} {start n : Nat} (hb : BigData data start n) (hn : 0 < n) {st : RS} (hs : BigInv data start n st) :
    st.br.finish data = some ([], start + 127 * n) := by
  obtain ⟨n', r1, r2, r3, r4⟩ := hs.rep
  rw [gst_plain hb.plain] at r3
  have e1 : st.br.pos = start + n' := congrArg Prod.fst r3
  have e2 : st.br.nm = data.length - 2 := congrArg Prod.snd r3
  have hl := hb.length
  have h0 : st.br.left % 8 = 0 := by omega
  unfold JR.finish
  simp only
  rw [e1, e2, show start + n' = start + 127 * n + st.br.left / 8 by omega, giveBack_plain hb.plain (by omega), h0, if_neg (by omega)]
  rfl

theorem readScanData_big {data : List Nat} {start n : Nat} (hb : BigData data start n) {lut : HSlot → JMem} (hdc : lut (false, 0) 0 = ⟨8, 0⟩)
    (hac : ∀ i < 8, lut (true, 0) i = ⟨5, 0x0B⟩) {ms : List (List Visit)} (hm : ∀ m ∈ ms, ∃ k, m = [bigVisit k]) (hn : ms.length = n) (h1n : 0 < n) {coefs : Coefs} (hc : ∀ c b, coefs c b 0 = 0) :
    ∃ st, readScanData data lut ⟨0, 63, 0, 0⟩ 0 ms start coefs [] = some (st, start + 127 * n) ∧ st.resets = [] ∧ st.runs = [] ∧ st.pads = [] ∧ ∀ c b, st.coefs c b 0 = 0 := by
  have h0 : BigInv data start 0 (RS.start data 0 start coefs []) := ⟨JR.reset_rep hb.bytes start, show (-1 : Int) ≤ 0 by decide, fun _ => rfl, hc, rfl, rfl, rfl⟩
  obtain ⟨st, h1, h2⟩ := readMcus_big hb hdc hac ms 0 _ hm (by omega) h0
  rw [Nat.zero_add, hn] at h2
  refine ⟨{ st with pads := st.pads ++ [] }, ?_, h2.resets, h2.runs, by show st.pads ++ [] = []; rw [h2.pads]; rfl, h2.dc⟩
  unfold readScanData
  rw [h1]
  dsimp only
  rw [if_neg (by have := h2.eob; omega), finish_big hb h1n h2]
  dsimp only
  rw [if_neg (by have := hb.length; omega)]

theorem gives_bind {α β : Type} {m : JM α} {f : α → JM β} {Q : α → Prop} {P : β → Prop} (hm : ∀ d p a p', m d p = .ok (a, p') → Q a)
    (hf : ∀ a, Q a → ∀ d p b p', f a d p = .ok (b, p') → P b) : ∀ d p b p', (m >>= f) d p = .ok (b, p') → P b := by
  intro d p b p' h
  have h : (m d p).bind (fun q => f q.1 d q.2) = .ok (b, p') := h
  cases he : m d p with
  | ok q => rw [he] at h; exact hf q.1 (hm d p q.1 q.2 he) _ _ _ _ h
  | fail => rw [he] at h; cases h
  | ub => rw [he] at h; cases h

theorem gives_pure {α : Type} {a : α} {P : α → Prop} (h : P a) : ∀ d p b p', (pure a : JM α) d p = .ok (b, p') → P b := by
  intro d p b p' e
  cases e
  exact h

theorem segAt_coefs {st st' : RJ} {m : Nat} (hm : m = 0xc0 ∨ m = 0xc4 ∨ m = 0xdb) {d : List Nat} {p p' : Nat} (h : segAt st m d p = .ok (st', p')) : st'.coefs = st.coefs := by
  refine gives_bind (Q := fun _ => True) (P := fun s : RJ => s.coefs = st.coefs) (fun _ _ _ _ _ => trivial) (fun _ _ => ?_) d p st' p' h
  refine gives_bind (Q := fun _ => True) (fun _ _ _ _ _ => trivial) (fun _ _ => ?_)
  refine gives_bind (Q := fun s : RJ => s.coefs = st.coefs) ?_ (fun s hs => gives_pure hs)
  rcases hm with rfl | rfl | rfl
  · exact gives_bind (Q := fun _ => True) (fun _ _ _ _ _ => trivial) fun _ _ => gives_pure rfl
  · exact gives_bind (Q := fun _ => True) (fun _ _ _ _ _ => trivial) fun _ _ => gives_pure rfl
  · exact gives_bind (Q := fun _ => True) (fun _ _ _ _ _ => trivial) fun _ _ => gives_pure rfl

theorem bigState3_coefs : ∀ c b, bigState3.coefs c b 0 = 0 := by
  intro c b
  rw [segAt_coefs (.inr (.inl rfl)) bigState3_eq, segAt_coefs (.inl rfl) bigState2_eq, segAt_coefs (.inr (.inr rfl)) bigState1_eq]
  rfl

theorem mcuGrid_big : ∀ m ∈ mcuGrid (dimsOf [⟨1, 1, 1, 0, 1024, 1024, []⟩]) [⟨0, 0, 0⟩] 1024 1024, ∃ k, m = [bigVisit k] ∧ k < 1048576 := by
  intro m hm
  unfold mcuGrid at hm
  obtain ⟨my, hy, hm⟩ := List.mem_flatMap.mp hm
  obtain ⟨mx, hx, rfl⟩ := List.mem_map.mp hm
  have hy := List.mem_range.mp hy
  have hx := List.mem_range.mp hx
  refine ⟨my * 1024 + mx, ?_, by omega⟩
  simp [mcuVisits, dimsOf, bigVisit]

theorem mcuGrid_length (dims : Nat → CompDim) (comps : List ScanComp) (rows cols : Nat) : (mcuGrid dims comps rows cols).length = rows * cols := by
  unfold mcuGrid
  rw [List.length_flatMap]
  simp

end Brunsli
