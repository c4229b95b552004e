import Verif.JSafeBlock
import Verif.JOut
import Verif.JValid
/-!
# The checked decoder of scans, and the checked JPEG reader

Both do what the unchecked ones do.
-/

namespace Brunsli

/-- What holds between two blocks of a scan. -/
structure ScanInv (data : List Nat) (start : Nat) (st : RS) : Prop where
  rep : ∃ c, st.br.Rep data start c
  start : 1 ≤ start
  high : st.eob ≤ 32767
  low : -1 - st.idx ≤ st.eob
  last : ∀ c, -32768 ≤ st.last c ∧ st.last c ≤ 32767

/-- A block that a refinement scan finds. -/
def BlkRoom (P : SP) (B : Blk) : Prop := P.ah ≠ 0 → Room P.al (max 1 P.ss) B ∧ (P.ss = 0 → -32768 ≤ B 0 ∧ B 0 + 2 ^ P.al ≤ 32767)

variable {data : List Nat} {lut : HSlot → JMem} {T : HSlot → CodeTable} {P : SP}

theorem readProgC_same {v : Visit} {last e : Int} {B : Blk} (hse : P.se ≤ 63) (hal : P.al ≤ 10) (he : -1073741824 ≤ e ∧ e ≤ 32767)
    (hl : -32768 ≤ last ∧ last ≤ 32767) (hB : BlkRoom P B) : (readProgC P v last e B).Same (BlkPost e) (readProg P v last e B) := by
  unfold readProgC readProg
  by_cases h : P.ah = 0
  · rw [if_pos h, if_pos h]
    exact decodeBlockC_same hse hal he hl
  · rw [if_neg h, if_neg h]
    exact refineBlockC_same hse hal he hl (hB h).1 (hB h).2

theorem readBlkC_ok (hd : Bytes data) (hT : ∀ t, SlotMatch (lut t) (T t)) (hse : P.se ≤ 63) (hal : P.al ≤ 10) {start : Nat} {v : Visit} {st : RS} (hi : ScanInv data start st)
    (hn : st.idx < 2 ^ 23) (hB : BlkRoom P (st.coefs v.comp v.blk)) :
    readBlkC data lut P v st = Run.ofOption (readBlk data lut P v st) ∧
      ∀ st', readBlk data lut P v st = some st' → ScanInv data start st' ∧ st'.idx = st.idx + 1 ∧ ∀ c b, (c, b) ≠ v.key → st'.coefs c b = st.coefs c b := by
  obtain ⟨c, hc⟩ := hi.rep
  have hlow := hi.low
  have hhigh := hi.high
  obtain ⟨h1, h2⟩ := (readProgC_same (P := P) (v := v) (last := st.last v.comp) (e := st.eob) hse hal (by omega) (hi.last _) hB).run hd hT hc
  unfold readBlkC readBlk
  rw [h1, Run.ofOption_map]
  constructor
  · cases (readProg P v (st.last v.comp) st.eob (st.coefs v.comp v.blk)).run data lut st.br with
    | none => rfl
    | some q =>
      show (if _ then _ else _) = _
      rw [if_pos (by omega)]
      rfl
  · intro st' h
    obtain ⟨⟨o, br⟩, hr, rfl⟩ := Option.map_eq_some_iff.mp h
    obtain ⟨hq, hb⟩ := h2 _ _ hr
    refine ⟨⟨hb, hi.start, hq.high, ?_, ?_⟩, rfl, ?_⟩
    · show -1 - ((st.idx + 1 : Nat) : Int) ≤ o.eob
      have := hq.low
      omega
    · intro c
      show -32768 ≤ (if c = v.comp then o.last else st.last c) ∧ (if c = v.comp then o.last else st.last c) ≤ 32767
      split
      · exact hq.last
      · exact hi.last c
    · intro c b hne
      show (if c = v.comp ∧ b = v.blk then o.blk else st.coefs c b) = _
      rw [if_neg fun h => hne (by rw [h.1, h.2]; rfl)]

theorem readMcuC_ok (hd : Bytes data) (hT : ∀ t, SlotMatch (lut t) (T t)) (hse : P.se ≤ 63) (hal : P.al ≤ 10) {start : Nat} (vs : List Visit) : ∀ {st : RS}, ScanInv data start st →
    st.idx + vs.length ≤ 2 ^ 23 → (vs.map Visit.key).Nodup → (∀ v ∈ vs, BlkRoom P (st.coefs v.comp v.blk)) →
    readMcuC data lut P vs st = Run.ofOption (readMcu data lut P vs st) ∧
      ∀ st', readMcu data lut P vs st = some st' → ScanInv data start st' ∧ st'.idx = st.idx + vs.length ∧ ∀ c b, (c, b) ∉ vs.map Visit.key → st'.coefs c b = st.coefs c b := by
  induction vs with
  | nil =>
    intro st hi _ _ _
    exact ⟨rfl, fun st' h => by cases h; exact ⟨hi, rfl, fun _ _ _ => rfl⟩⟩
  | cons v vs ih =>
    intro st hi hn hnd hB
    rw [List.length_cons] at hn
    rw [List.map_cons, List.nodup_cons] at hnd
    obtain ⟨b1, b2⟩ := readBlkC_ok hd hT hse hal hi (by omega) (hB v List.mem_cons_self)
    rw [readMcuC, readMcu, b1, Run.ofOption_bind]
    cases hr : readBlk data lut P v st with
    | none => exact ⟨rfl, nofun⟩
    | some s1 =>
      obtain ⟨i1, i2, i3⟩ := b2 _ hr
      obtain ⟨r1, r2⟩ := ih i1 (by omega) hnd.2 (by
        intro w hw
        rw [i3 w.comp w.blk fun h => hnd.1 (h ▸ List.mem_map_of_mem (f := Visit.key) hw)]
        exact hB w (List.mem_cons_of_mem _ hw))
      refine ⟨r1, fun st' h => ?_⟩
      obtain ⟨j1, j2, j3⟩ := r2 st' h
      refine ⟨j1, by rw [List.length_cons]; omega, fun c b hcb => ?_⟩
      rw [List.map_cons, List.mem_cons, not_or] at hcb
      rw [j3 c b hcb.2, i3 c b hcb.1]

theorem readRestartC_ok (hd : Bytes data) {start ri : Nat} {st : RS} (hi : ScanInv data start st) :
    readRestartC data ri st = Run.ofOption (readRestart data ri st) ∧
      ∀ st', readRestart data ri st = some st' → (∃ start, ScanInv data start st') ∧ st'.idx = st.idx ∧ st'.coefs = st.coefs ∧ st'.toGo = ri := by
  obtain ⟨c, hc⟩ := hi.rep
  obtain ⟨f1, f2⟩ := JR.finishC_ok hi.start hc
  unfold readRestartC readRestart
  rw [f1]
  cases hf : st.br.finish data with
  | none => exact ⟨rfl, nofun⟩
  | some q =>
    obtain ⟨ps, pos⟩ := q
    dsimp only [Run.ofOption, Run.bind]
    by_cases h1 : data.length < pos + 2
    · rw [if_pos h1, if_pos (.inl h1)]; exact ⟨rfl, nofun⟩
    rw [if_neg h1, fetch_ok (by omega)]
    dsimp only
    by_cases h2 : byteOf data pos ≠ 0xff
    · rw [if_pos h2, if_pos (.inr h2)]; exact ⟨rfl, nofun⟩
    rw [if_neg h2, if_neg (not_or.mpr ⟨h1, h2⟩), fetch_ok (by omega)]
    dsimp only
    by_cases h3 : byteOf data (pos + 1) ≠ 0xd0 + st.marker
    · rw [if_pos h3, if_pos h3]; exact ⟨rfl, nofun⟩
    rw [if_neg h3, if_neg h3, JR.resetC_ok (by omega)]
    dsimp only
    by_cases h4 : 0 < st.eob
    · rw [if_pos h4, if_pos h4]; exact ⟨rfl, nofun⟩
    rw [if_neg h4, if_neg h4]
    refine ⟨rfl, fun st' h => ?_⟩
    cases h
    refine ⟨⟨pos + 2, ⟨0, JR.reset_rep hd _⟩, by omega, by show (-1 : Int) ≤ _; omega, by show -1 - (st.idx : Int) ≤ -1; omega, fun _ => by show -32768 ≤ (0 : Int) ∧ (0 : Int) ≤ _; omega⟩, rfl, rfl, rfl⟩

theorem readMcuHeadC_ok (hd : Bytes data) {start ri : Nat} {st : RS} (hi : ScanInv data start st) :
    readMcuHeadC data ri st = Run.ofOption (readMcuHead data ri st) ∧
      ∀ st', readMcuHead data ri st = some st' → (∃ start, ScanInv data start st') ∧ st'.idx = st.idx ∧ st'.coefs = st.coefs := by
  unfold readMcuHeadC readMcuHead
  by_cases h : 0 < ri
  · rw [if_pos h, if_pos h]
    by_cases h0 : st.toGo = 0
    · rw [if_pos h0, if_pos h0]
      obtain ⟨r1, r2⟩ := readRestartC_ok (ri := ri) hd hi
      rw [r1, Run.ofOption_map]
      cases hr : readRestart data ri st with
      | none => exact ⟨rfl, nofun⟩
      | some s1 =>
        obtain ⟨⟨s, i1⟩, i2, i3, i4⟩ := r2 _ hr
        dsimp only [Run.ofOption, Run.bind]
        rw [if_neg (by omega)]
        refine ⟨rfl, fun st' h => ?_⟩
        cases h
        exact ⟨⟨s, i1.rep, i1.start, i1.high, i1.low, i1.last⟩, i2, i3⟩
    · rw [if_neg h0, if_neg h0]
      dsimp only [Run.bind]
      rw [if_neg h0]
      refine ⟨rfl, fun st' h => ?_⟩
      cases h
      exact ⟨⟨start, hi.rep, hi.start, hi.high, hi.low, hi.last⟩, rfl, rfl⟩
  · rw [if_neg h, if_neg h]
    exact ⟨rfl, fun st' h => by cases h; exact ⟨⟨start, hi⟩, rfl, rfl⟩⟩

theorem readMcusC_ok (hd : Bytes data) (hT : ∀ t, SlotMatch (lut t) (T t)) (hse : P.se ≤ 63) (hal : P.al ≤ 10) {ri : Nat} (ms : List (List Visit)) : ∀ {start : Nat} {st : RS},
    ScanInv data start st → st.idx + ms.flatten.length ≤ 2 ^ 23 → (ms.flatten.map Visit.key).Nodup → (∀ v ∈ ms.flatten, BlkRoom P (st.coefs v.comp v.blk)) →
    readMcusC data lut P ri ms st = Run.ofOption (readMcus data lut P ri ms st) ∧
      ∀ st', readMcus data lut P ri ms st = some st' → ∃ start, ScanInv data start st' := by
  induction ms with
  | nil =>
    intro start st hi _ _ _
    exact ⟨rfl, fun st' h => by cases h; exact ⟨start, hi⟩⟩
  | cons m ms ih =>
    intro start st hi hn hnd hB
    rw [List.flatten_cons, List.length_append] at hn
    rw [List.flatten_cons, List.map_append, List.nodup_append] at hnd
    obtain ⟨a1, a2⟩ := readMcuHeadC_ok (ri := ri) hd hi
    rw [readMcusC, readMcus, a1]
    cases hh : readMcuHead data ri st with
    | none => exact ⟨rfl, nofun⟩
    | some s1 =>
      obtain ⟨⟨start1, i1⟩, i2, i3⟩ := a2 _ hh
      dsimp only [Run.ofOption, Run.bind]
      by_cases hu : s1.br.unhealthy = true
      · rw [if_pos hu, if_pos hu]; exact ⟨rfl, nofun⟩
      rw [if_neg hu, if_neg hu]
      obtain ⟨b1, b2⟩ := readMcuC_ok hd hT hse hal m i1 (by omega) hnd.1 (by
        intro v hv
        rw [i3]
        exact hB v (by rw [List.flatten_cons]; exact List.mem_append_left _ hv))
      rw [b1]
      cases hm : readMcu data lut P m s1 with
      | none => exact ⟨rfl, nofun⟩
      | some s2 =>
        obtain ⟨j1, j2, j3⟩ := b2 _ hm
        refine ih j1 (by omega) hnd.2.1 ?_
        intro v hv
        rw [j3, i3]
        · exact hB v (by rw [List.flatten_cons]; exact List.mem_append_right _ hv)
        · intro h
          exact hnd.2.2 _ h _ (List.mem_map_of_mem (f := Visit.key) hv) rfl

/-- **The checked decoder of a scan** does what the unchecked one does. -/
theorem readScanDataC_ok (hd : Bytes data) (hT : ∀ t, SlotMatch (lut t) (T t)) (hse : P.se ≤ 63) (hal : P.al ≤ 10) {ri : Nat} {mcus : List (List Visit)} {pos : Nat} {coefs : Coefs}
    {pads : List Bool} (hpos : 1 ≤ pos) (hlen : 2 ≤ data.length) (hn : mcus.flatten.length ≤ 2 ^ 23) (hnd : (mcus.flatten.map Visit.key).Nodup)
    (hB : ∀ v ∈ mcus.flatten, BlkRoom P (coefs v.comp v.blk)) :
    readScanDataC data lut P ri mcus pos coefs pads = Run.ofOption (readScanData data lut P ri mcus pos coefs pads) := by
  unfold readScanDataC readScanData
  rw [JR.resetC_ok hlen]
  show (readMcusC data lut P ri mcus (RS.start data ri pos coefs pads)).bind _ = _
  have hi : ScanInv data pos (RS.start data ri pos coefs pads) :=
    ⟨⟨0, JR.reset_rep hd _⟩, hpos, by show (-1 : Int) ≤ _; omega, by show -1 - ((0 : Nat) : Int) ≤ -1; omega, fun _ => by show -32768 ≤ (0 : Int) ∧ (0 : Int) ≤ _; omega⟩
  obtain ⟨h1, h2⟩ := readMcusC_ok (ri := ri) hd hT hse hal mcus hi (by show 0 + _ ≤ _; omega) hnd hB
  rw [h1]
  cases hr : readMcus data lut P ri mcus (RS.start data ri pos coefs pads) with
  | none => rfl
  | some st =>
    obtain ⟨start, i⟩ := h2 _ hr
    obtain ⟨c, hc⟩ := i.rep
    obtain ⟨f1, -⟩ := JR.finishC_ok i.start hc
    dsimp only [Run.ofOption, Run.bind]
    by_cases he : 0 < st.eob
    · rw [if_pos he, if_pos he]
    rw [if_neg he, if_neg he, f1]
    cases st.br.finish data with
    | none => rfl
    | some q =>
      obtain ⟨ps, pos'⟩ := q
      dsimp only [Run.ofOption]
      by_cases hx : data.length < pos'
      · rw [if_pos hx, if_pos hx]
      · rw [if_neg hx, if_neg hx]

/-- The blocks a scan finds leave room, by the rules on the order of scans. -/
theorem good_room {m m' : Masks} {cs : List Nat} {C : Coefs} (hg : Good m C) (hn : cs.Nodup) (hmk : markScan P cs m = some m') {c b : Nat} (hc : c ∈ cs) (_hb : P.ss ≤ P.se) :
    BlkRoom P (C c b) := by
  obtain ⟨hal, hmarked, -⟩ := markScan_spec hn hmk
  have hq : 2 ^ P.al ≤ 2 ^ 10 := Nat.pow_le_pow_right (by decide) hal
  intro _
  constructor
  · intro j hj _
    have := (hg.range c b j).2 (by omega)
    omega
  · intro h0
    have hM := hmarked c hc 0 (by omega) (by omega)
    have hv := hg c b 0
    have h3 : ((2 ^ P.al : Nat) : Int) = (2 : Int) ^ P.al := by rw [Int.natCast_pow]; rfl
    by_cases hz : m c 0 = 0
    · rw [hv.zero hz]; omega
    · obtain ⟨-, -, h2⟩ := hv.mul hz (P.al + 1) fun i hi => hM.low i (by omega)
      have h4 := h2 rfl
      rw [Int.pow_succ] at h4
      have := Nat.two_pow_pos P.al
      omega

/-! ## Files -/

open JM

theorem processScanC_ok {d : List Nat} (hd : Bytes d) {st : RJ} (hi : RInv st) {p : Nat} (hp : 1 ≤ p) (hlen : 2 ≤ d.length) : processScanC st d p = processScan st d p := by
  show (processSOS st.comps st.huffman d p).bind _ = (processSOS st.comps st.huffman d p).bind _
  have hw := processSOS_wp hd st.comps st.huffman p
  unfold Wp at hw
  cases hs : processSOS st.comps st.huffman d p with
  | fail => rfl
  | ub => rfl
  | ok q =>
    obtain ⟨s, p1⟩ := q
    rw [hs] at hw
    obtain ⟨e1, -, hh, -⟩ := hw
    show (match markScan (scanParams st.prog s) (s.comps.map ScanComp.compIdx) st.masks with
      | none => JM.failed | some masks => scanBodyC st s masks : JM RJ) d p1 =
      (match markScan (scanParams st.prog s) (s.comps.map ScanComp.compIdx) st.masks with
      | none => JM.failed | some masks => scanBody st s masks : JM RJ) d p1
    cases hmk : markScan (scanParams st.prog s) (s.comps.map ScanComp.compIdx) st.masks with
    | none => rfl
    | some masks =>
      dsimp only
      have hsof : st.sof = true := by
        cases h : st.sof with
        | true => rfl
        | false =>
          have h1 := (hi.noSof h).1
          have h2 := hh.count
          rw [h1, List.length_nil] at h2
          omega
      have hf := hi.frame hsof
      obtain ⟨g1, g2, -, -⟩ := scan_grid hf hh
      have hvb := visits_bound hf hh
      have hP := scanParams_ok hh st.prog
      obtain ⟨T, hT⟩ := hi.tabs
      unfold scanBodyC scanBody
      dsimp only
      generalize hmc : mcuGrid (dimsOf st.comps) s.comps (readerMcus st.width st.height st.comps s).1 (readerMcus st.width st.height st.comps s).2 = mcus at g1 g2 hvb ⊢
      rw [readScanDataC_ok hd hT hP.se (markScan_spec hh.nodup hmk).1 (by omega) hlen hvb g1 fun v hv => good_room hi.good hh.nodup hmk (g2 v hv).1 hP.band]
      cases readScanData d st.lut (scanParams st.prog s) st.ri mcus p1 st.coefs st.pads with
      | none => rfl
      | some r => rfl

theorem readSegmentC_ok {d : List Nat} (hd : Bytes d) {st : RJ} (hi : RInv st) {p : Nat} (hp : 1 ≤ p) (hlen : 2 ≤ d.length) (m : Nat) :
    readSegmentC st m d p = readSegment st m d p := by
  unfold readSegmentC
  by_cases h : m = 0xda
  · rw [if_pos h, processScanC_ok hd hi hp hlen]
    unfold readSegment
    rw [if_neg (by omega), if_neg (by omega), if_neg (by omega), if_neg (by omega), if_pos h]
  · rw [if_neg h]

theorem readMarkerC_ok {d : List Nat} (hd : Bytes d) {st : RJ} (hi : RInv st) {p : Nat} (hp : p ≤ d.length) (hlen : 2 ≤ d.length) :
    readMarkerC st d p = readMarker st d p := by
  show (skipData st d p).bind _ = (skipData st d p).bind _
  obtain ⟨f1, f2, f3⟩ := findMarker_spec (d := d) d.length hp (by omega)
  have hskip : ∃ st1, skipData st d p = .ok (st1, findMarker d d.length p) ∧ RInv st1 := by
    unfold skipData
    dsimp only
    by_cases hlt : p < findMarker d d.length p
    · rw [if_pos hlt]
      exact ⟨_, rfl, ⟨hi.tabs, hi.good, hi.noSof, hi.frame, hi.noDri, hi.ri, hi.huff, hi.quant, hi.quants⟩⟩
    · rw [if_neg hlt]
      exact ⟨st, by rw [show findMarker d d.length p = p by omega], hi⟩
  obtain ⟨st1, h1, hi1⟩ := hskip
  rw [h1]
  show (expectMarker d (findMarker d d.length p)).bind _ = (expectMarker d (findMarker d d.length p)).bind _
  cases hm : expectMarker d (findMarker d d.length p) with
  | fail => rfl
  | ub => rfl
  | ok q =>
    obtain ⟨m, p2⟩ := q
    have hp2 : 1 ≤ p2 := by
      unfold expectMarker at hm
      split at hm
      · cases hm
      · cases hm; omega
    show (readSegmentC st1 m d p2).bind _ = (readSegment st1 m d p2).bind _
    rw [readSegmentC_ok hd hi1 hp2 hlen]

theorem readLoopC_ok {d : List Nat} (hd : Bytes d) (hlen : 2 ≤ d.length) (fuel : Nat) : ∀ {st : RJ} {p : Nat}, RInv st → p ≤ d.length →
    readLoopC fuel st d p = readLoop fuel st d p := by
  induction fuel with
  | zero => intro st p _ _; rfl
  | succ fuel ih =>
    intro st p hi hp
    show (readMarkerC st d p).bind _ = (readMarker st d p).bind _
    rw [readMarkerC_ok hd hi hp hlen]
    have hw := readMarker_wp hd hi hp
    unfold Wp at hw
    cases hr : readMarker st d p with
    | fail => rfl
    | ub => rfl
    | ok q =>
      obtain ⟨r, p1⟩ := q
      rw [hr] at hw
      show (if r.2 = 0xd9 then pure r.1 else readLoopC fuel r.1 : JM RJ) d p1 = (if r.2 = 0xd9 then pure r.1 else readLoop fuel r.1 : JM RJ) d p1
      by_cases h9 : r.2 = 0xd9
      · rw [if_pos h9, if_pos h9]
      · rw [if_neg h9, if_neg h9]
        exact ih hw.2.2.1 hw.2.1

/-- **The checked reader does what the unchecked one does.** -/
theorem readJpegC_eq {d : List Nat} (hd : Bytes d) : readJpegC d = readJpeg d := by
  unfold readJpegC readJpeg
  cases hm : expectMarker d 0 with
  | fail => rfl
  | ub => rfl
  | ok q =>
    obtain ⟨m, p⟩ := q
    have hp : p = 2 ∧ 2 ≤ d.length := by
      unfold expectMarker at hm
      split at hm
      · cases hm
      · cases hm; omega
    dsimp only [Run.bind]
    rw [readLoopC_ok hd hp.2 _ RInv.init (by omega)]
    by_cases h8 : m ≠ 0xd8
    · rw [if_pos h8, if_pos h8]
    · rw [if_neg h8, if_neg h8]
      cases readLoop (d.length + 1) RJ.init d p with
      | fail => rfl
      | ub => rfl
      | ok x =>
        dsimp only
        cases fixupIndexes x.1.quant x.1.comps <;> rfl

end Brunsli
