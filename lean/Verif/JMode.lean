import Verif.JRound
import Verif.E2E
/-!
# The other modes of the JPEG reader

`ReadJpeg` (c/enc/jpeg_data_reader.cc:1021-1164) in the modes `JPEG_READ_HEADER` and `JPEG_READ_TABLES` (c/include/brunsli/jpeg_data_reader.h:17-21), and
`BrunsliEncodeJpegBypass` with the header it finds.
-/

namespace Brunsli

open JM

/-- `JpegReadMode` (c/include/brunsli/jpeg_data_reader.h:17-21). -/
inductive ReadMode where
  | header
  | tables
  | all
deriving DecidableEq, Repr

/-- The loop of `ProcessDHT` without lookup tables (c/enc/jpeg_data_reader.cc:262-333; :328 in modes other than `JPEG_READ_ALL`).  The entries of the lookup tables that
are reset all the same (:320-327) are not used in these modes. -/
def dhtCodes (stop : Nat) : Nat → List HuffCode → JM (List HuffCode)
  | 0, _ => JM.broken
  | fuel + 1, hs => do
    let p ← pos
    if p < stop then do
      let h ← dhtCode stop
      dhtCodes stop fuel (hs ++ [h])
    else pure hs

/-- `ProcessDHT` (c/enc/jpeg_data_reader.cc:249-336) in modes other than `JPEG_READ_ALL`. -/
def processCodes (hs : List HuffCode) : JM (List HuffCode) := do
  let start ← pos
  need 2
  let len ← u16
  check (decide (len ≠ 2))
  let r ← dhtCodes (start + len) (len + 1) hs
  endsAt (start + len)
  pure r

/-- The segment of a marker (c/enc/jpeg_data_reader.cc:1064-1133) in any mode. -/
def readSegmentIn (mode : ReadMode) (st : RJ) (m : Nat) : JM RJ :=
  if 0xc0 ≤ m ∧ m ≤ 0xc2 then do
    let r ← processSOF st.width
    pure { st with prog := decide (m = 0xc2), sof := true, width := r.1, height := r.2.1, comps := r.2.2 }
  else if m = 0xc4 then
    if mode = .all then do
      let r ← processDHT st.huffman st.lut
      pure { st with huffman := r.1, lut := r.2 }
    else do
      let r ← processCodes st.huffman
      pure { st with huffman := r }
  else if 0xd0 ≤ m ∧ m ≤ 0xd7 then pure st
  else if m = 0xd9 then pure st
  else if m = 0xda then if mode = .all then processScan st else pure st
  else if m = 0xdb then do
    let r ← processDQT st.quant
    pure { st with quant := r }
  else if m = 0xdd then do
    let r ← processDRI st.dri
    pure { st with ri := r, dri := true }
  else if 0xe0 ≤ m ∧ m ≤ 0xef then
    if mode ≠ .tables then do
      let r ← processBlob
      pure { st with app := st.app ++ [r] }
    else pure st
  else if m = 0xfe then
    if mode ≠ .tables then do
      let r ← processBlob
      pure { st with com := st.com ++ [r] }
    else pure st
  else JM.failed

/-- One round of the loop (c/enc/jpeg_data_reader.cc:1046-1137). -/
def readMarkerIn (mode : ReadMode) (st : RJ) : JM (RJ × Nat) := do
  let st ← skipData st
  let m ← expectMarker
  let st ← readSegmentIn mode st m
  pure ({ st with order := st.order ++ [m] }, m)

/-- The loop over markers (c/enc/jpeg_data_reader.cc:1046-1141); `fuel` does not run out. -/
def readLoopIn (mode : ReadMode) : Nat → RJ → JM RJ
  | 0, _ => JM.broken
  | fuel + 1, st => do
    let r ← readMarkerIn mode st
    if mode = .header ∧ r.1.sof = true then pure r.1 else if r.2 = 0xd9 then pure r.1 else readLoopIn mode fuel r.1

/-- `ReadJpeg` (c/enc/jpeg_data_reader.cc:1021-1164) in any mode.  Except in `JPEG_READ_ALL` there are no coefficients, and the quantization tables of the components
are still given by their identifiers. -/
def readJpegIn (mode : ReadMode) (data : List Nat) : Run JpegData :=
  (expectMarker data 0).bind fun (m, p) =>
    if m ≠ 0xd8 then .fail
    else (readLoopIn mode (data.length + 1) RJ.init data p).bind fun (st, p) =>
      if ¬ st.sof then .fail
      else if mode = .all then
        match fixupIndexes st.quant st.comps with
        | none => .fail
        | some comps =>
          if st.huffman = [] then .fail
          else if kMaxDHTMarkers ≤ st.huffman.length then .fail
          else .ok (st.result comps (slice data p data.length))
      else .ok { st.result st.comps [] with components := st.comps }

/-- What `BrunsliEncodeJpegBypass` finds in the file (c/enc/brunsli_encode.cc:1556-1564); a failure can leave half a header behind, which is replaced. -/
def foundHeader (data : List Nat) : Option Header :=
  match readJpegIn .header data with
  | .ok jpg => some jpg.header
  | _ => none

/-- `BrunsliEncodeJpegBypass` (c/enc/brunsli_encode.cc:1549-1583). -/
def encodeJpegBypass (cap : Nat) (data : List Nat) : Run (List Nat) :=
  if readJpegIn .header data = .ub then .ub
  else match encodeBypass cap (foundHeader data) data with
    | none => .fail
    | some out => .ok out

/-! ## All is read as before -/

theorem readLoopIn_all (fuel : Nat) : ∀ st, readLoopIn .all fuel st = readLoop fuel st := by
  induction fuel with
  | zero => intro st; rfl
  | succ fuel ih =>
    intro st
    rw [readLoopIn, readLoop]
    have hs : ∀ st m, readSegmentIn .all st m = readSegment st m := fun st m => by
      unfold readSegmentIn readSegment
      simp only [if_true, ne_eq, reduceCtorEq, not_false_eq_true]
    have hm : readMarkerIn .all st = readMarker st := by
      unfold readMarkerIn readMarker
      simp only [hs]
    rw [hm]
    congr 1
    funext r
    rw [if_neg (fun h => absurd h.1 (by decide)), ih]

theorem readJpegIn_all (data : List Nat) : readJpegIn .all data = readJpeg data := by
  unfold readJpegIn readJpeg
  rw [readLoopIn_all]
  rfl

/-! ## The other modes are safe -/

/-- What holds between segments. -/
structure ModeInv (st : RJ) : Prop where
  quants : st.quant.length ≤ 4
  noSof : st.sof = false → st.width = 0 ∧ st.comps = []
  frame : st.sof = true → FrameOk st.width st.height st.comps

theorem ModeInv.init : ModeInv RJ.init := ⟨Nat.zero_le _, fun _ => ⟨rfl, rfl⟩, nofun⟩

theorem dhtCodes_wp {d : List Nat} (hd : Bytes d) {stop : Nat} (fuel : Nat) : ∀ {p : Nat} {hs : List HuffCode}, 1 ≤ fuel → stop + 1 ≤ p + fuel → p ≤ d.length →
    (dhtCodes stop fuel hs).Wp d p fun _ p' => p ≤ p' ∧ p' ≤ d.length := by
  induction fuel with
  | zero => intro p hs h; omega
  | succ fuel ih =>
    intro p hs _ hf hp
    rw [dhtCodes]
    simp only [wp_bind, wp_pos]
    by_cases hlt : p < stop
    · rw [if_pos hlt, wp_bind]
      refine (dhtCode_wp hd stop p).mono fun h p1 hq => ?_
      obtain ⟨e1, e2, -⟩ := hq
      refine (ih (by omega) (by omega) e2).mono fun r p' hr => ⟨by omega, hr.2⟩
    · rw [if_neg hlt, wp_pure]
      exact ⟨Nat.le_refl _, hp⟩

theorem processCodes_wp {d : List Nat} (hd : Bytes d) {hs : List HuffCode} (p : Nat) :
    (processCodes hs).Wp d p fun _ p' => p ≤ p' ∧ p' ≤ d.length := by
  unfold processCodes
  rw [wp_bind, wp_pos, wp_bind, wp_need]
  intro hn
  rw [wp_bind, wp_u16]
  refine ⟨by omega, ?_⟩
  rw [wp_bind, wp_check]
  intro hl
  rw [wp_bind]
  refine (dhtCodes_wp hd _ (by omega) (by omega) (by omega)).mono fun r p' hr => ?_
  rw [wp_bind, wp_endsAt]
  exact fun _ => ⟨by omega, hr.2⟩

theorem segmentIn_wp {mode : ReadMode} (hmode : mode ≠ .all) {d : List Nat} (hd : Bytes d) {st : RJ} (hi : ModeInv st) (m : Nat) {p : Nat} (h1 : 1 ≤ p) (hp : p ≤ d.length) :
    (readSegmentIn mode st m).Wp d p fun st' p' => p ≤ p' ∧ p' ≤ d.length ∧ ModeInv st' := by
  have same : (pure st : JM RJ).Wp d p fun st' p' => p ≤ p' ∧ p' ≤ d.length ∧ ModeInv st' := ⟨Nat.le_refl _, hp, hi⟩
  unfold readSegmentIn
  by_cases c1 : 0xc0 ≤ m ∧ m ≤ 0xc2
  · rw [if_pos c1, wp_bind]
    refine (processSOF_wp hd st.width p).mono fun r p' hr => ?_
    obtain ⟨a1, a2, -, a3, -⟩ := hr
    exact ⟨a1, a2, hi.quants, nofun, fun _ => a3⟩
  rw [if_neg c1]
  by_cases c2 : m = 0xc4
  · rw [if_pos c2, if_neg hmode, wp_bind]
    refine (processCodes_wp hd p).mono fun r p' hr => ⟨hr.1, hr.2, hi.quants, hi.noSof, hi.frame⟩
  rw [if_neg c2]
  by_cases c3 : 0xd0 ≤ m ∧ m ≤ 0xd7
  · rw [if_pos c3]; exact same
  rw [if_neg c3]
  by_cases c4 : m = 0xd9
  · rw [if_pos c4]; exact same
  rw [if_neg c4]
  by_cases c5 : m = 0xda
  · rw [if_pos c5, if_neg hmode]; exact same
  rw [if_neg c5]
  by_cases c6 : m = 0xdb
  · rw [if_pos c6, wp_bind]
    refine (processDQT_wp hd hi.quants p).mono fun r p' hr => ⟨hr.1, hr.2.1, hr.2.2.1, hi.noSof, hi.frame⟩
  rw [if_neg c6]
  by_cases c7 : m = 0xdd
  · rw [if_pos c7, wp_bind]
    refine (processDRI_wp hd st.dri p).mono fun r p' hr => ⟨hr.1, hr.2.1, hi.quants, hi.noSof, hi.frame⟩
  rw [if_neg c7]
  by_cases c8 : 0xe0 ≤ m ∧ m ≤ 0xef
  · rw [if_pos c8]
    by_cases ct : mode ≠ .tables
    · rw [if_pos ct, wp_bind]
      refine (processBlob_wp p h1 hd).mono fun r p' hr => ⟨hr.1, hr.2.1, hi.quants, hi.noSof, hi.frame⟩
    · rw [if_neg ct]; exact same
  rw [if_neg c8]
  by_cases c9 : m = 0xfe
  · rw [if_pos c9]
    by_cases ct : mode ≠ .tables
    · rw [if_pos ct, wp_bind]
      refine (processBlob_wp p h1 hd).mono fun r p' hr => ⟨hr.1, hr.2.1, hi.quants, hi.noSof, hi.frame⟩
    · rw [if_neg ct]; exact same
  rw [if_neg c9]
  trivial

theorem skipData_wp {d : List Nat} {st : RJ} {p : Nat} (hp : p ≤ d.length) :
    (skipData st).Wp d p fun st' p' => p ≤ p' ∧ p' ≤ d.length ∧ (st' = st ∨ ∃ o i, st' = { st with order := o, inter := i }) := by
  obtain ⟨f1, f2, -⟩ := findMarker_spec (d := d) d.length hp (by omega)
  unfold skipData Wp
  dsimp only
  by_cases h : p < findMarker d d.length p
  · rw [if_pos h]
    exact ⟨f1, f2, .inr ⟨_, _, rfl⟩⟩
  · rw [if_neg h]
    exact ⟨Nat.le_refl _, hp, .inl rfl⟩

theorem markerIn_wp {mode : ReadMode} (hmode : mode ≠ .all) {d : List Nat} (hd : Bytes d) {st : RJ} (hi : ModeInv st) {p : Nat} (hp : p ≤ d.length) :
    (readMarkerIn mode st).Wp d p fun r p' => p + 2 ≤ p' ∧ p' ≤ d.length ∧ ModeInv r.1 := by
  unfold readMarkerIn
  rw [wp_bind]
  refine (skipData_wp hp).mono fun st1 q h1 => ?_
  obtain ⟨a1, a2, a3⟩ := h1
  have hi1 : ModeInv st1 := by
    rcases a3 with rfl | ⟨o, i, rfl⟩
    · exact hi
    · exact ⟨hi.quants, hi.noSof, hi.frame⟩
  rw [wp_bind]
  unfold Wp expectMarker
  by_cases hbad : d.length < q + 2 ∨ byteOf d q ≠ 0xff
  · rw [if_pos hbad]; trivial
  rw [if_neg hbad]
  dsimp only
  show Wp _ d (q + 2) _
  rw [wp_bind]
  refine (segmentIn_wp hmode hd hi1 _ (by omega) (by omega)).mono fun st2 p' hr => ?_
  rw [wp_pure]
  exact ⟨by omega, hr.2.1, hr.2.2.quants, hr.2.2.noSof, hr.2.2.frame⟩

theorem loopIn_wp {mode : ReadMode} (hmode : mode ≠ .all) {d : List Nat} (hd : Bytes d) (fuel : Nat) : ∀ {st : RJ} {p : Nat}, ModeInv st → p ≤ d.length → d.length + 1 ≤ p + fuel →
    (readLoopIn mode fuel st).Wp d p fun st' _ => ModeInv st' := by
  induction fuel with
  | zero => intro st p _ h1 h2; omega
  | succ fuel ih =>
    intro st p hi hp hf
    rw [readLoopIn, wp_bind]
    refine (markerIn_wp hmode hd hi hp).mono fun r p1 hr => ?_
    split
    · exact hr.2.2
    split
    · exact hr.2.2
    · exact ih hr.2.2 hr.2.1 (by omega)

/-- In the modes for parts of the file the reader has no undefined behaviour, and what it finds is in order. -/
theorem readJpegIn_part {mode : ReadMode} (hmode : mode ≠ .all) {data : List Nat} (hd : Bytes data) :
    readJpegIn mode data ≠ .ub ∧ ∀ jpg, readJpegIn mode data = .ok jpg → FrameOk jpg.width jpg.height jpg.components := by
  unfold readJpegIn
  unfold expectMarker
  by_cases hbad : data.length < 0 + 2 ∨ byteOf data 0 ≠ 0xff
  · rw [if_pos hbad]
    exact ⟨nofun, nofun⟩
  rw [if_neg hbad]
  dsimp only [Run.bind]
  split
  · exact ⟨nofun, nofun⟩
  have h := loopIn_wp hmode hd (data.length + 1) ModeInv.init (p := 0 + 2) (by omega) (by omega)
  unfold JM.Wp at h
  cases e : readLoopIn mode (data.length + 1) RJ.init data (0 + 2) with
  | fail => exact ⟨nofun, nofun⟩
  | ub => rw [e] at h; exact h.elim
  | ok r =>
    rw [e] at h
    obtain ⟨st, p⟩ := r
    dsimp only at h ⊢
    by_cases hs : st.sof = true
    · rw [if_neg (not_not.mpr hs)]
      refine ⟨nofun, fun jpg hj => ?_⟩
      cases hj
      exact h.frame hs
    · rw [if_pos hs]
      exact ⟨nofun, nofun⟩

theorem foundHeader_read {data : List Nat} (hd : Bytes data) : ∀ h ∈ foundHeader data, h.Read := by
  intro h hh
  unfold foundHeader at hh
  split at hh
  · rename_i jpg hj
    cases hh
    have f := (readJpegIn_part (by decide) hd).2 jpg hj
    refine ⟨f.width.2, f.height.2, by simpa [JpegData.header] using f.count.1, by simpa [JpegData.header] using f.count.2, ?_⟩
    intro c hc
    obtain ⟨x, hx, rfl⟩ := List.mem_map.mp hc
    have r := f.raw x hx
    exact ⟨r.h.1, r.h.2, r.v.1, r.v.2⟩
  · cases hh

/-! ## The header is the same -/

/-- The codes found do not depend on the lookup tables. -/
theorem dhtLoop_header {d : List Nat} {stop : Nat} (fuel : Nat) : ∀ {p : Nat} {hs : List HuffCode} {lut : HSlot → JMem} {r : List HuffCode × (HSlot → JMem)} {p' : Nat},
    dhtLoop stop fuel hs lut d p = .ok (r, p') → dhtCodes stop fuel hs d p = .ok (r.1, p') := by
  induction fuel with
  | zero => intro p hs lut r p' h; cases h
  | succ fuel ih =>
    intro p hs lut r p' h
    rw [dhtLoop] at h
    rw [dhtCodes]
    change (if p < stop then _ else _ : JM _) d p = _ at h
    show (if p < stop then _ else _ : JM _) d p = _
    split at h
    · rename_i hlt
      rw [if_pos hlt]
      obtain ⟨⟨c, q⟩, h1, h2⟩ := Run.bind_ok h
      show ((dhtCode stop d p).bind _) = _
      rw [h1]
      cases hm : dhtLut (lut c.slot) c with
      | none => simp only [hm] at h2; cases h2
      | some m => simp only [hm] at h2; exact ih h2
    · rename_i hlt
      rw [if_neg hlt]
      cases h
      rfl

theorem processDHT_header {d : List Nat} {hs : List HuffCode} {lut : HSlot → JMem} {p : Nat} {r : List HuffCode × (HSlot → JMem)} {p' : Nat}
    (h : processDHT hs lut d p = .ok (r, p')) : processCodes hs d p = .ok (r.1, p') := by
  unfold processDHT at h
  unfold processCodes
  obtain ⟨⟨_, _⟩, h2, h⟩ := Run.bind_ok h
  obtain ⟨⟨_, _⟩, h3, h⟩ := Run.bind_ok h
  obtain ⟨⟨_, _⟩, h4, h⟩ := Run.bind_ok h
  obtain ⟨⟨_, _⟩, h5, h⟩ := Run.bind_ok h
  obtain ⟨⟨_, _⟩, h6, h⟩ := Run.bind_ok h
  cases h
  show (need 2 d p).bind _ = _
  rw [h2]
  show (u16 d _).bind _ = _
  rw [h3]
  show (check _ d _).bind _ = _
  rw [h4]
  show (dhtCodes _ _ _ d _).bind _ = _
  rw [dhtLoop_header _ h5]
  show (endsAt _ d _).bind _ = _
  rw [h6]
  rfl

/-- A segment before the frame header that is accepted when all is read is accepted when only the header is read; the lookup tables can differ. -/
theorem segment_header {d : List Nat} {st st' : RJ} {m p p' : Nat} (hc : st.comps = []) (h : readSegment st m d p = .ok (st', p')) (l : HSlot → JMem) :
    ∃ l', readSegmentIn .header { st with lut := l } m d p = .ok ({ st' with lut := l' }, p') := by
  unfold readSegment at h
  unfold readSegmentIn
  by_cases c1 : 0xc0 ≤ m ∧ m ≤ 0xc2
  · rw [if_pos c1] at h ⊢
    obtain ⟨⟨r, q⟩, h1, h2⟩ := Run.bind_ok h
    cases h2
    refine ⟨l, ?_⟩
    show (processSOF st.width d p).bind _ = _
    rw [h1]
    rfl
  rw [if_neg c1] at h ⊢
  by_cases c2 : m = 0xc4
  · rw [if_pos c2] at h ⊢
    rw [if_neg (by decide)]
    obtain ⟨⟨r, q⟩, h1, h2⟩ := Run.bind_ok h
    cases h2
    refine ⟨l, ?_⟩
    show (processCodes st.huffman d p).bind _ = _
    rw [processDHT_header h1]
    rfl
  rw [if_neg c2] at h ⊢
  by_cases c3 : 0xd0 ≤ m ∧ m ≤ 0xd7
  · rw [if_pos c3] at h ⊢
    cases h
    exact ⟨l, rfl⟩
  rw [if_neg c3] at h ⊢
  by_cases c4 : m = 0xd9
  · rw [if_pos c4] at h ⊢
    cases h
    exact ⟨l, rfl⟩
  rw [if_neg c4] at h ⊢
  by_cases c5 : m = 0xda
  · rw [if_pos c5] at h
    exfalso
    unfold processScan processSOS at h
    rw [hc] at h
    obtain ⟨⟨_, _⟩, h1, -⟩ := Run.bind_ok h
    obtain ⟨⟨_, _⟩, h2, h1⟩ := Run.bind_ok h1
    obtain ⟨⟨_, _⟩, h3, h1⟩ := Run.bind_ok h1
    obtain ⟨⟨n, _⟩, h4, h1⟩ := Run.bind_ok h1
    obtain ⟨⟨_, _⟩, h5, -⟩ := Run.bind_ok h1
    unfold check at h5
    split at h5
    · rename_i hn
      have := of_decide_eq_true hn
      simp only [List.length_nil] at this
      omega
    · cases h5
  rw [if_neg c5] at h ⊢
  by_cases c6 : m = 0xdb
  · rw [if_pos c6] at h ⊢
    obtain ⟨⟨r, q⟩, h1, h2⟩ := Run.bind_ok h
    cases h2
    refine ⟨l, ?_⟩
    show (processDQT st.quant d p).bind _ = _
    rw [h1]
    rfl
  rw [if_neg c6] at h ⊢
  by_cases c7 : m = 0xdd
  · rw [if_pos c7] at h ⊢
    obtain ⟨⟨r, q⟩, h1, h2⟩ := Run.bind_ok h
    cases h2
    refine ⟨l, ?_⟩
    show (processDRI st.dri d p).bind _ = _
    rw [h1]
    rfl
  rw [if_neg c7] at h ⊢
  by_cases c8 : 0xe0 ≤ m ∧ m ≤ 0xef
  · rw [if_pos c8] at h ⊢
    rw [if_pos (by decide)]
    obtain ⟨⟨r, q⟩, h1, h2⟩ := Run.bind_ok h
    cases h2
    refine ⟨l, ?_⟩
    show (processBlob d p).bind _ = _
    rw [h1]
    rfl
  rw [if_neg c8] at h ⊢
  by_cases c9 : m = 0xfe
  · rw [if_pos c9] at h ⊢
    rw [if_pos (by decide)]
    obtain ⟨⟨r, q⟩, h1, h2⟩ := Run.bind_ok h
    cases h2
    refine ⟨l, ?_⟩
    show (processBlob d p).bind _ = _
    rw [h1]
    rfl
  rw [if_neg c9] at h
  cases h

/-- Once there is a frame, no segment changes it. -/
theorem segment_frame {d : List Nat} {st st' : RJ} {m p p' : Nat} (hw : st.width ≠ 0) (h : readSegment st m d p = .ok (st', p')) :
    st'.sof = st.sof ∧ st'.width = st.width ∧ st'.height = st.height ∧ st'.comps = st.comps := by
  unfold readSegment at h
  by_cases c1 : 0xc0 ≤ m ∧ m ≤ 0xc2
  · rw [if_pos c1] at h
    obtain ⟨⟨r, q⟩, h1, -⟩ := Run.bind_ok h
    unfold processSOF at h1
    obtain ⟨⟨_, _⟩, h2, -⟩ := Run.bind_ok h1
    unfold check at h2
    rw [if_neg (by simpa using hw)] at h2
    cases h2
  rw [if_neg c1] at h
  by_cases c2 : m = 0xc4
  · rw [if_pos c2] at h
    obtain ⟨⟨r, q⟩, h1, h2⟩ := Run.bind_ok h
    cases h2
    exact ⟨rfl, rfl, rfl, rfl⟩
  rw [if_neg c2] at h
  by_cases c3 : 0xd0 ≤ m ∧ m ≤ 0xd7
  · rw [if_pos c3] at h
    cases h
    exact ⟨rfl, rfl, rfl, rfl⟩
  rw [if_neg c3] at h
  by_cases c4 : m = 0xd9
  · rw [if_pos c4] at h
    cases h
    exact ⟨rfl, rfl, rfl, rfl⟩
  rw [if_neg c4] at h
  by_cases c5 : m = 0xda
  · rw [if_pos c5] at h
    unfold processScan at h
    obtain ⟨⟨s, q⟩, h1, h2⟩ := Run.bind_ok h
    dsimp only at h2
    cases hm : markScan (scanParams st.prog s) (s.comps.map ScanComp.compIdx) st.masks with
    | none => simp only [hm] at h2; cases h2
    | some masks =>
      simp only [hm] at h2
      unfold scanBody at h2
      dsimp only at h2
      split at h2
      · cases h2
      split at h2
      · cases h2
      · cases h2
        exact ⟨rfl, rfl, rfl, rfl⟩
  rw [if_neg c5] at h
  by_cases c6 : m = 0xdb
  · rw [if_pos c6] at h
    obtain ⟨⟨r, q⟩, h1, h2⟩ := Run.bind_ok h
    cases h2
    exact ⟨rfl, rfl, rfl, rfl⟩
  rw [if_neg c6] at h
  by_cases c7 : m = 0xdd
  · rw [if_pos c7] at h
    obtain ⟨⟨r, q⟩, h1, h2⟩ := Run.bind_ok h
    cases h2
    exact ⟨rfl, rfl, rfl, rfl⟩
  rw [if_neg c7] at h
  by_cases c8 : 0xe0 ≤ m ∧ m ≤ 0xef
  · rw [if_pos c8] at h
    obtain ⟨⟨r, q⟩, h1, h2⟩ := Run.bind_ok h
    cases h2
    exact ⟨rfl, rfl, rfl, rfl⟩
  rw [if_neg c8] at h
  by_cases c9 : m = 0xfe
  · rw [if_pos c9] at h
    obtain ⟨⟨r, q⟩, h1, h2⟩ := Run.bind_ok h
    cases h2
    exact ⟨rfl, rfl, rfl, rfl⟩
  rw [if_neg c9] at h
  cases h

/-- The steps of a round. -/
theorem readMarker_steps {d : List Nat} {st : RJ} {p : Nat} {r : RJ × Nat} {p' : Nat} (h : readMarker st d p = .ok (r, p')) :
    ∃ st1 q q' st2, skipData st d p = .ok (st1, q) ∧ expectMarker d q = .ok (r.2, q') ∧ readSegment st1 r.2 d q' = .ok (st2, p') ∧
      r.1 = { st2 with order := st2.order ++ [r.2] } := by
  unfold readMarker at h
  obtain ⟨⟨st1, q⟩, h1, h⟩ := Run.bind_ok h
  obtain ⟨⟨m, q'⟩, h2, h⟩ := Run.bind_ok h
  obtain ⟨⟨st2, p2⟩, h3, h⟩ := Run.bind_ok h
  cases h
  exact ⟨st1, q, q', st2, h1, h2, h3, rfl⟩

theorem skipData_lut {d : List Nat} {st st1 : RJ} {p q : Nat} (h : skipData st d p = .ok (st1, q)) (l : HSlot → JMem) :
    skipData { st with lut := l } d p = .ok ({ st1 with lut := l }, q) ∧ st1.sof = st.sof ∧ st1.width = st.width ∧ st1.height = st.height ∧ st1.comps = st.comps := by
  unfold skipData at h ⊢
  dsimp only at h ⊢
  split at h
  · rename_i hlt
    rw [if_pos hlt]
    cases h
    exact ⟨rfl, rfl, rfl, rfl, rfl⟩
  · rename_i hlt
    rw [if_neg hlt]
    cases h
    exact ⟨rfl, rfl, rfl, rfl, rfl⟩

theorem marker_header {d : List Nat} {st : RJ} {p : Nat} {r : RJ × Nat} {p' : Nat} (hc : st.comps = []) (h : readMarker st d p = .ok (r, p')) (l : HSlot → JMem) :
    ∃ l', readMarkerIn .header { st with lut := l } d p = .ok (({ r.1 with lut := l' }, r.2), p') := by
  obtain ⟨st1, q, q', st2, h1, h2, h3, h4⟩ := readMarker_steps h
  obtain ⟨e1, -, -, -, e2⟩ := skipData_lut h1 l
  obtain ⟨l', e3⟩ := segment_header (e2.trans hc) h3 l
  refine ⟨l', ?_⟩
  unfold readMarkerIn
  show (skipData _ d p).bind _ = _
  rw [e1]
  show (expectMarker d q).bind _ = _
  rw [h2]
  show (readSegmentIn _ _ _ d q').bind _ = _
  rw [e3, h4]
  rfl

theorem loop_frame {d : List Nat} (fuel : Nat) : ∀ {st st' : RJ} {p p' : Nat}, st.width ≠ 0 → readLoop fuel st d p = .ok (st', p') →
    st'.width = st.width ∧ st'.height = st.height ∧ st'.comps = st.comps := by
  induction fuel with
  | zero => intro st st' p p' _ h; cases h
  | succ fuel ih =>
    intro st st' p p' hw h
    rw [readLoop] at h
    obtain ⟨⟨r, q⟩, h1, h2⟩ := Run.bind_ok h
    obtain ⟨st1, a, b, st2, g1, g2, g3, g4⟩ := readMarker_steps h1
    obtain ⟨-, -, k1, k2, k3⟩ := skipData_lut g1 st.lut
    obtain ⟨-, m1, m2, m3⟩ := segment_frame (by rw [k1]; exact hw) g3
    have e1 : r.1.width = st.width := by rw [g4]; exact m1.trans k1
    have e2 : r.1.height = st.height := by rw [g4]; exact m2.trans k2
    have e3 : r.1.comps = st.comps := by rw [g4]; exact m3.trans k3
    dsimp only at h2
    by_cases h9 : r.2 = 0xd9
    · rw [if_pos h9] at h2
      cases h2
      exact ⟨e1, e2, e3⟩
    · rw [if_neg h9] at h2
      obtain ⟨f1, f2, f3⟩ := ih (by rw [e1]; exact hw) h2
      exact ⟨f1.trans e1, f2.trans e2, f3.trans e3⟩

theorem loop_header {d : List Nat} (hd : Bytes d) (fuel : Nat) : ∀ {st st' : RJ} {p p' : Nat}, RInv st → st.sof = false → p ≤ d.length → readLoop fuel st d p = .ok (st', p') →
    st'.sof = true → ∀ l, ∃ sh q, readLoopIn .header fuel { st with lut := l } d p = .ok (sh, q) ∧ sh.sof = true ∧ sh.width = st'.width ∧ sh.height = st'.height ∧ sh.comps = st'.comps := by
  induction fuel with
  | zero => intro st st' p p' _ _ _ h; cases h
  | succ fuel ih =>
    intro st st' p p' hi hs hp h hs' l
    rw [readLoop] at h
    obtain ⟨⟨r, q⟩, h1, h2⟩ := Run.bind_ok h
    dsimp only at h2
    obtain ⟨-, w2, w3, -⟩ := (readMarker_wp hd hi hp).ok h1
    obtain ⟨l', e⟩ := marker_header (hi.noSof hs).1 h1 l
    rw [readLoopIn]
    show ∃ sh q, (readMarkerIn _ _ d p).bind _ = _ ∧ _
    rw [e]
    by_cases hsr : r.1.sof = true
    · refine ⟨{ r.1 with lut := l' }, q, ?_, hsr, ?_⟩
      · show (if _ ∧ r.1.sof = true then _ else _ : JM RJ) d q = _
        rw [if_pos ⟨rfl, hsr⟩]
        rfl
      · by_cases h9 : r.2 = 0xd9
        · rw [if_pos h9] at h2
          cases h2
          exact ⟨rfl, rfl, rfl⟩
        · rw [if_neg h9] at h2
          obtain ⟨f1, f2, f3⟩ := loop_frame fuel (by have := (w3.frame hsr).width; omega) h2
          exact ⟨f1.symm, f2.symm, f3.symm⟩
    · have h9 : ¬r.2 = 0xd9 := by
        intro h9
        rw [if_pos h9] at h2
        cases h2
        exact hsr hs'
      rw [if_neg h9] at h2
      obtain ⟨sh, q', g⟩ := ih w3 (by simpa using hsr) w2 h2 hs' l'
      refine ⟨sh, q', ?_, g.2⟩
      show (if _ ∧ r.1.sof = true then _ else if r.2 = 0xd9 then _ else _ : JM RJ) d q = _
      rw [if_neg (fun h => hsr h.2), if_neg h9]
      exact g.1

/-- Whatever file is accepted in full, its header is accepted and is the same. -/
theorem readJpegIn_header {data : List Nat} (hd : Bytes data) {jpg : JpegData} (h : readJpeg data = .ok jpg) :
    ∃ hdr, readJpegIn .header data = .ok hdr ∧ hdr.width = jpg.width ∧ hdr.height = jpg.height ∧
      hdr.components.map (fun c => (c.id, c.hSamp, c.vSamp, c.width, c.height)) = jpg.components.map (fun c => (c.id, c.hSamp, c.vSamp, c.width, c.height)) := by
  obtain ⟨st, p, comps, h1, h2, h3, h4, h5, h6, -, -, rfl⟩ := readJpeg_ok h
  obtain ⟨sh, q, e1, e2, e3, e4, e5⟩ := loop_header hd _ RInv.init rfl h3 h4 h5 RJ.init.lut
  refine ⟨{ sh.result sh.comps [] with components := sh.comps }, ?_, e3, e4, ?_⟩
  · unfold readJpegIn expectMarker
    rw [if_neg (by omega)]
    dsimp only [Run.bind]
    rw [if_neg (by rw [Nat.zero_add, h2]; decide)]
    rw [show (0 + 2 : Nat) = 2 from rfl]
    have e1' : readLoopIn .header (data.length + 1) RJ.init data 2 = .ok (sh, q) := e1
    rw [e1']
    dsimp only
    rw [if_neg (not_not.mpr e2), if_neg (by decide)]
  · show sh.comps.map _ = (fillCoefs st.coefs comps).map _
    rw [e5]
    unfold fillCoefs
    rw [List.map_map]
    have hx := fixupIndexes_spec _ h6
    clear h6 e5
    generalize st.comps = cs at hx
    have hz : (comps.zipIdx.map ((fun c : Component => (c.id, c.hSamp, c.vSamp, c.width, c.height)) ∘ fun (x : Component × Nat) =>
        { x.1 with coeffs := coefList (st.coefs x.2) (x.1.width * x.1.height) })) = comps.map fun c => (c.id, c.hSamp, c.vSamp, c.width, c.height) := by
      have : ((fun c : Component => (c.id, c.hSamp, c.vSamp, c.width, c.height)) ∘ fun (x : Component × Nat) =>
        { x.1 with coeffs := coefList (st.coefs x.2) (x.1.width * x.1.height) }) = (fun c : Component => (c.id, c.hSamp, c.vSamp, c.width, c.height)) ∘ Prod.fst := rfl
      rw [this, ← List.map_map, List.zipIdx_map_fst]
    refine Eq.trans ?_ hz.symm
    clear hz h1 h2 h3 h4 h5 h e1 e2 e3 e4
    induction hx with
    | nil => rfl
    | cons hc _ ih =>
      obtain ⟨j, q, -, -, rfl⟩ := hc
      rw [List.map_cons, List.map_cons, ih]

end Brunsli
