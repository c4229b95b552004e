import Verif.BigFile
/-!
# The reader on large files
-/

namespace Brunsli

open JM

attribute [local irreducible] bigHead bigState1 bigState2 bigState3

/-- What is known of the reader's state after the scan. -/
structure BigState (st : RJ) : Prop where
  width : st.width = 8192
  height : st.height = 8192
  app : st.app = []
  com : st.com = []
  comps : st.comps = [⟨1, 1, 1, 0, 1024, 1024, []⟩]
  scans : st.scans = [bigScan]
  order : st.order = [0xdb, 0xc0, 0xc4]
  inter : st.inter = []
  pads : st.pads = []
  sof : st.sof = true
  quant : st.quant = bigState3.quant
  huffman : st.huffman.length = 2
  dc : ∀ c b, st.coefs c b 0 = 0

theorem processScan_ok {st : RJ} {d : List Nat} {p p' p2 : Nat} {s : ScanInfo} {masks : Masks} {ms : List (List Visit)} {r c : Nat} {rs : RS}
    (h1 : processSOS st.comps st.huffman d p = .ok (s, p')) (h2 : markScan (scanParams st.prog s) (s.comps.map ScanComp.compIdx) st.masks = some masks)
    (h3 : readerMcus st.width st.height st.comps s = (r, c)) (h4 : mcuGrid (dimsOf st.comps) s.comps r c = ms)
    (h5 : ¬ ms.flatten.any (fun v => decide (blocksOf st.comps v.comp ≤ v.blk)) = true)
    (h6 : readScanData d st.lut (scanParams st.prog s) st.ri ms p' st.coefs st.pads = some (rs, p2)) :
    processScan st d p = .ok ({ st with scans := st.scans ++ [{ s with resetPoints := rs.resets, extraZeroRuns := rs.runs }], masks := masks, coefs := rs.coefs, pads := rs.pads }, p2) := by
  have hp : processScan st d p = (processSOS st.comps st.huffman d p).bind (fun q =>
      (match markScan (scanParams st.prog q.1) (q.1.comps.map ScanComp.compIdx) st.masks with
      | none => JM.failed | some masks => scanBody st q.1 masks : JM RJ) d q.2) := rfl
  rw [hp, h1]
  dsimp only [Run.bind]
  rw [h2]
  dsimp only
  unfold scanBody
  dsimp only
  rw [h3, h4, if_neg h5, h6]

theorem processScan_big {data : List Nat} {N : Nat} (hN : 1024 * 1024 = N) (hb : BigData data 134 N)
    (hsos : processSOS bigState3.comps bigState3.huffman data 126 = .ok (bigScan, 134)) :
    ∃ st, processScan bigState3 data 126 = .ok (st, 134 + 127 * N) ∧ BigState st := by
  obtain ⟨f1, f2, f3, f4, f5, f6, f7, f8, f9, f10, f11, f12, f13, f14, f15⟩ := bigState3_facts
  obtain ⟨masks, hmask⟩ := Option.isSome_iff_exists.mp bigState3_masks
  obtain ⟨rs, r1, r2, r3, r4, r5⟩ := readScanData_big hb bigState3_dc bigState3_ac (ms := mcuGrid (dimsOf [⟨1, 1, 1, 0, 1024, 1024, []⟩]) [⟨0, 0, 0⟩] 1024 1024)
    (fun m h => (mcuGrid_big m h).imp fun _ h => h.1) ((mcuGrid_length _ _ _ _).trans hN) (by omega) bigState3_coefs
  have hnu : ¬ (mcuGrid (dimsOf [⟨1, 1, 1, 0, 1024, 1024, []⟩]) [⟨0, 0, 0⟩] 1024 1024).flatten.any (fun v => decide (blocksOf [⟨1, 1, 1, 0, 1024, 1024, []⟩] v.comp ≤ v.blk)) = true := by
    intro h
    obtain ⟨v, hv, h⟩ := List.any_eq_true.mp h
    obtain ⟨m, h1, h2⟩ := List.mem_flatten.mp hv
    obtain ⟨k, rfl, hk⟩ := mcuGrid_big m h1
    have : v = bigVisit k := by simpa using h2
    subst this
    have h : 1024 * 1024 ≤ k := of_decide_eq_true h
    omega
  have hr : readerMcus bigState3.width bigState3.height bigState3.comps bigScan = (1024, 1024) := by rw [f1, f2, f6]; decide +kernel
  have hc : bigScan.comps = [⟨0, 0, 0⟩] := rfl
  refine ⟨_, processScan_ok hsos (masks := masks) (by rw [f11]; exact hmask) hr rfl (by rw [f6, hc]; exact hnu)
    (by rw [f3, f10, f11, f6, hc]; exact r1), ?_⟩
  have hscans : bigState3.scans ++ [{ bigScan with resetPoints := rs.resets, extraZeroRuns := rs.runs }] = [bigScan] := by rw [f7, r2, r3]; rfl

  exact ⟨f1, f2, f4, f5, f6, hscans, f8, f9, r4, f12, rfl, f15, r5⟩


theorem segAt_scan {st st4 : RJ} {data : List Nat} {p p1 p2 : Nat} (hm : expectMarker data p = .ok (0xda, p1)) (hs : processScan st data p1 = .ok (st4, p2)) :
    segAt st 0xda data p = .ok ({ st4 with order := st4.order ++ [0xda] }, p2) := by
  have : segAt st 0xda data p = (expectMarker data p).bind (fun q => (check (decide (q.1 = 0xda)) data q.2).bind fun r => (processScan st data r.2).bind fun s =>
    .ok ({ s.1 with order := s.1.order ++ [0xda] }, s.2)) := rfl
  rw [this, hm]
  dsimp only [Run.bind, check]
  simp only [decide_true, if_true]
  rw [hs]

theorem readLoop_eoi {st : RJ} {data : List Nat} {p : Nat} (h1 : byteOf data p = 0xff) (h2 : byteOf data (p + 1) = 0xd9) (hp : p + 2 ≤ data.length) (k : Nat) :
    readLoop (k + 1) st data p = .ok ({ st with order := st.order ++ [0xd9] }, p + 2) := by
  have hsk : skipData st data p = .ok (st, p) := by
    unfold skipData
    dsimp only
    rw [findMarker_here h1 (by rw [h2]; decide), if_neg (by omega)]
  have hex : expectMarker data p = .ok (0xd9, p + 2) := by
    unfold expectMarker
    rw [h1, h2, if_neg (by omega)]
  have : readLoop (k + 1) st data p = ((skipData st data p).bind fun q => (expectMarker data q.2).bind fun r =>
    (readSegment q.1 r.1 data r.2).bind fun s => .ok ((({ s.1 with order := s.1.order ++ [r.1] } : RJ), r.1), s.2)).bind
    (fun q => (if q.1.2 = 0xd9 then pure q.1.1 else readLoop k q.1.1 : JM RJ) data q.2) := rfl
  rw [this, hsk]
  dsimp only [Run.bind]
  rw [hex]
  rfl

theorem readJpeg_intro {data : List Nat} {p p2 : Nat} {st : RJ} {comps : List Component} (hm : expectMarker data 0 = .ok (0xd8, p))
    (hl : readLoop (data.length + 1) RJ.init data p = .ok (st, p2)) (hs : st.sof = true) (hf : fixupIndexes st.quant st.comps = some comps)
    (h0 : st.huffman ≠ []) (h1 : st.huffman.length < kMaxDHTMarkers) :
    readJpeg data = .ok (st.result comps (slice data p2 data.length)) := by
  unfold readJpeg
  rw [hm]
  dsimp only [Run.bind]
  rw [if_neg (by decide), hl]
  dsimp only
  rw [if_neg (by simp [hs]), hf]
  dsimp only
  rw [if_neg h0, if_neg (by omega)]

/-- What is known of the result. -/
structure BigJpeg (jpg : JpegData) : Prop where
  width : jpg.width = 8192
  height : jpg.height = 8192
  comps : ∃ c : Component, jpg.components = [c] ∧ c.hSamp = 1 ∧ c.vSamp = 1 ∧ c.width = 1024 ∧ c.height = 1024 ∧ ∀ i, c.coeffs.getD (64 * i) 0 = 0
  app : jpg.appData = []
  com : jpg.comData = []
  tail : jpg.tailData = []
  inter : jpg.interMarker = []
  scans : jpg.scans = [bigScan]
  order : jpg.markerOrder = [0xdb, 0xc0, 0xc4, 0xda, 0xd9]
  pad : jpg.hasZeroPaddingBit = false
  huffman : jpg.huffman.length = 2

theorem coefList_dc {C : Nat → Blk} (h : ∀ b, C b 0 = 0) (n i : Nat) : (coefList C n).getD (64 * i) 0 = 0 := by
  unfold coefList
  rw [List.getD_eq_getElem?_getD, List.getElem?_map]
  cases h' : (List.range (64 * n))[64 * i]? with
  | none => rfl
  | some x =>
    obtain ⟨_, rfl⟩ := List.getElem?_eq_some_iff.mp h'
    simp only [List.getElem_range, Option.map_some, Option.getD_some]
    rw [show 64 * i % 64 = 0 by omega, show zigzagOf 0 = 0 by decide +kernel]
    exact h _

theorem bigJpeg_result {st : RJ} (g : BigState st) {data : List Nat} {p : Nat} (hp : p = data.length) {x : Component}
    (hx1 : x.hSamp = 1) (hx2 : x.vSamp = 1) (hx3 : x.width = 1024) (hx4 : x.height = 1024) :
    BigJpeg (RJ.result { st with order := st.order ++ [0xda] ++ [0xd9] } [x] (slice data p data.length)) where
  width := g.width
  height := g.height
  comps := ⟨_, rfl, hx1, hx2, hx3, hx4, fun i => coefList_dc (g.dc 0) _ i⟩
  app := g.app
  com := g.com
  tail := by subst hp; exact slice_nil _ (Nat.le_refl _)
  inter := g.inter
  scans := g.scans
  order := by
    show st.order ++ [0xda] ++ [0xd9] = _
    rw [g.order]; rfl
  pad := by
    show st.pads.any (!·) = false
    rw [g.pads]; rfl
  huffman := g.huffman

theorem readJpeg_big {N : Nat} (hN : 1024 * 1024 = N) {body : List Nat} (hb : BigData (bigHead ++ (body ++ [0xFF, 0xD9])) 134 N)
    (hlen : (bigHead ++ (body ++ [0xFF, 0xD9])).length = 134 + 127 * N + 2) : ∃ jpg, readJpeg (bigHead ++ (body ++ [0xFF, 0xD9])) = .ok jpg ∧ BigJpeg jpg := by
  have hend : byteOf (bigHead ++ (body ++ [0xFF, 0xD9])) (134 + 127 * N) = 0xff ∧ byteOf (bigHead ++ (body ++ [0xFF, 0xD9])) (134 + 127 * N + 1) = 0xd9 := by
    have hbl : (bigHead ++ body).length = 134 + 127 * N := by
      simp only [List.length_append, List.length_cons, List.length_nil] at hlen ⊢; omega
    rw [← List.append_assoc]
    unfold byteOf
    rw [List.getD_eq_getElem?_getD, List.getD_eq_getElem?_getD, List.getElem?_append_right (by omega), List.getElem?_append_right (by omega), hbl]
    simp
  have hs1 := segAt_stable RJ.init (m := 0xdb) (by simp) _ (body ++ [0xFF, 0xD9]) _ _ _ bigState1_eq
  have hs2 := segAt_stable bigState1 (m := 0xc0) (by simp) _ (body ++ [0xFF, 0xD9]) _ _ _ bigState2_eq
  have hs3 := segAt_stable bigState2 (m := 0xc4) (by simp) _ (body ++ [0xFF, 0xD9]) _ _ _ bigState3_eq
  have hsos := processSOS_stable _ _ _ (body ++ [0xFF, 0xD9]) _ _ _ bigScan_eq
  have hm : expectMarker (bigHead ++ (body ++ [0xFF, 0xD9])) 0 = .ok (0xd8, 2) := expectMarker_stable bigHead _ _ _ _ (by decide +kernel)
  have hm4 : expectMarker (bigHead ++ (body ++ [0xFF, 0xD9])) 124 = .ok (0xda, 126) := expectMarker_stable bigHead _ _ _ _ (by decide +kernel)
  generalize bigHead ++ (body ++ [0xFF, 0xD9]) = data at *
  obtain ⟨st4, hscan, g⟩ := processScan_big hN hb hsos
  have h5 := segAt_scan hm4 hscan
  obtain ⟨k, hk⟩ : ∃ k, data.length = k + 4 := ⟨data.length - 4, by omega⟩
  have hloop : readLoop (data.length + 1) RJ.init data 2 = .ok ({ st4 with order := st4.order ++ [0xda] ++ [0xd9] }, 134 + 127 * N + 2) := by
    rw [show data.length + 1 = k + 1 + 1 + 1 + 1 + 1 by omega, readLoop_seg (by decide) (by decide) hs1, readLoop_seg (by decide) (by decide) hs2,
      readLoop_seg (by decide) (by decide) hs3, readLoop_seg (by decide) (by decide) h5, readLoop_eoi hend.1 hend.2 (by omega)]
  obtain ⟨f1, f2, f3, f4, f5, f6, f7, f8, f9, f10, f11, f12, f13, f14, f15⟩ := bigState3_facts
  have hfix : fixupIndexes st4.quant st4.comps = some [⟨1, 1, 1, 0, 1024, 1024, []⟩] := by
    rw [g.quant, g.comps]
    match hq : bigState3.quant, f13, f14 with
    | [q], _, h =>
      have : q.index = 0 := by simpa using h
      simp [fixupIndexes, fixupIndex, List.findIdx_cons, this]
  have hh := g.huffman
  refine ⟨_, readJpeg_intro hm hloop g.sof hfix ?_ ?_, bigJpeg_result g (by omega) rfl rfl rfl rfl⟩
  · intro h
    have h : st4.huffman = [] := h
    rw [h] at hh; exact absurd hh (by decide)
  · show st4.huffman.length < _
    rw [hh]; decide

end Brunsli
