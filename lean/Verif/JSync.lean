import Verif.JFrame
/-!
# Reader and writer of JPEG files in step
-/

namespace Brunsli

open JM

/-- What holds of the reader's state between markers. -/
structure RInv (st : RJ) : Prop where
  tabs : ∃ T, Tabs st.lut T
  good : Good st.masks st.coefs
  noSof : st.sof = false → st.comps = [] ∧ st.width = 0
  frame : st.sof = true → FrameOk st.width st.height st.comps
  noDri : st.dri = false → st.ri = 0
  ri : st.ri < 65536
  huff : ∀ h ∈ st.huffman, h.Ok
  quant : ∀ q ∈ st.quant, q.Ok
  quants : st.quant.length ≤ 4

/-- A component at the end of `ReadJpeg`, compared with the one the frame header gave. -/
structure SameComp (quant : List QuantTable) (c x : Component) : Prop where
  id : x.id = c.id
  h : x.hSamp = c.hSamp
  v : x.vSamp = c.vSamp
  width : x.width = c.width
  height : x.height = c.height
  coeffs : x.coeffs.length = 64 * (c.width * c.height)
  quant : ∃ q, quant[x.quantIdx]? = some q ∧ q.index = c.quantIdx

/-- `J` is what may become of the state `st` at the end. -/
structure Fin (st : RJ) (J : JpegData) : Prop where
  app : st.app <+: J.appData
  com : st.com <+: J.comData
  inter : st.inter <+: J.interMarker
  quant : st.quant <+: J.quant
  huffman : st.huffman <+: J.huffman
  scans : st.scans <+: J.scans
  dims : st.sof = true → J.width = st.width ∧ J.height = st.height
  comps : st.sof = true → List.Forall₂ (SameComp J.quant) st.comps J.components
  ri : st.dri = true → J.restartInterval = st.ri
  coefs : ∃ m C, Later st.masks st.coefs m C ∧ Good m C ∧ ∀ c b, b < blocksOf J.components c → ∀ k, k < 64 → J.coefs c b k = C c b k
  pads : ∃ P, st.pads <+: P ∧ J.hasZeroPaddingBit = P.any (!·) ∧ J.paddingBits = P.map Bool.toNat

/-- The writer's state when the reader's was `st`. -/
structure Sync (st : RJ) (J : JpegData) (ws : WJ) : Prop where
  dht : ws.dht = st.huffman.length
  dqt : ws.dqt = st.quant.length
  app : ws.app = st.app.length
  com : ws.com = st.com.length
  inter : ws.inter = st.inter.length
  scan : ws.scan = st.scans.length
  tabs : Tabs st.lut ws.T
  pads : ws.pads = if J.hasZeroPaddingBit then some (J.paddingBits.drop st.pads.length) else none
  dri : ws.dri = st.dri
  prog : ws.prog = st.prog

/-- The writer's part of a step: the marker gives the bytes, and the states stay in step. -/
def Writes (d : List Nat) (st st' : RJ) (m p p' : Nat) : Prop :=
  ∀ J, Fin st' J → Fin st J ∧ ∀ ws, Sync st J ws → ∃ cs ws', writeMarker J ws m = .ok (cs, ws') ∧
    cs.flatten = slice d p p' ++ (if m = 0xd9 then J.tailData else []) ∧ Sync st' J ws'

theorem SameComp.ids {quant : List QuantTable} {cs xs : List Component} (h : List.Forall₂ (SameComp quant) cs xs) : (fun j => idOf xs j) = fun j => idOf cs j := by
  funext j
  unfold idOf
  induction h generalizing j with
  | nil => rfl
  | cons h _ ih =>
    cases j with
    | zero => simp [h.id]
    | succ j => simpa using ih j

theorem SameComp.dims {quant : List QuantTable} {cs xs : List Component} (h : List.Forall₂ (SameComp quant) cs xs) : dimsOf xs = dimsOf cs := by
  funext j
  unfold dimsOf
  induction h generalizing j with
  | nil => rfl
  | cons h _ ih =>
    cases j with
    | zero => simp [h.h, h.v, h.width]
    | succ j => simpa using ih j

theorem SameComp.blocks {quant : List QuantTable} {cs xs : List Component} (h : List.Forall₂ (SameComp quant) cs xs) : blocksOf xs = blocksOf cs := by
  funext j
  unfold blocksOf
  induction h generalizing j with
  | nil => rfl
  | cons h _ ih =>
    cases j with
    | zero => simp [h.width, h.height]
    | succ j => simpa using ih j

theorem SameComp.lengths {quant : List QuantTable} {cs xs : List Component} (h : List.Forall₂ (SameComp quant) cs xs) (j : Nat) :
    ((xs[j]?).map fun x => x.coeffs.length).getD 0 = 64 * blocksOf cs j := by
  unfold blocksOf
  induction h generalizing j with
  | nil => rfl
  | cons h _ ih =>
    cases j with
    | zero => simp [h.coeffs]
    | succ j => simpa using ih j

theorem SameComp.maxes {quant : List QuantTable} {cs xs : List Component} (h : List.Forall₂ (SameComp quant) cs xs) : maxH xs = maxH cs ∧ maxV xs = maxV cs := by
  have : xs.map Component.hSamp = cs.map Component.hSamp ∧ xs.map Component.vSamp = cs.map Component.vSamp := by
    induction h with
    | nil => exact ⟨rfl, rfl⟩
    | cons h _ ih => exact ⟨by rw [List.map_cons, List.map_cons, ih.1, h.h], by rw [List.map_cons, List.map_cons, ih.2, h.v]⟩
  unfold maxH maxV
  rw [this.1, this.2]
  exact ⟨rfl, rfl⟩

theorem chunkOf_exact {n : Nat} {bs : List Nat} (h : bs.length = n) : chunkOf n bs = .ok bs := by
  unfold chunkOf
  rw [if_pos (by omega), show n - bs.length = 0 by omega]
  simp

theorem be16_length (v : Nat) : (be16 v).length = 2 := rfl

theorem byte_or : ∀ h < 16, ∀ v < 16, ((h * 16) ||| v) % 256 = h * 16 + v := by decide +kernel

theorem sofBytes_eq {quant : List QuantTable} {cs xs : List Component} (h : List.Forall₂ (SameComp quant) cs xs) (hr : ∀ c ∈ cs, c.Raw) :
    sofBytes quant xs = some (cs.flatMap Component.bytes) := by
  induction h with
  | nil => rfl
  | @cons c x cs xs h _ ih =>
    obtain ⟨q, hq, hi⟩ := h.quant
    have hc := hr c List.mem_cons_self
    rw [sofBytes, hq, ih fun c hc => hr c (List.mem_cons_of_mem _ hc)]
    simp only [Option.map_some, List.flatMap_cons, Component.bytes, h.id, h.h, h.v, hi, byte_or c.hSamp (by have := hc.h; omega) c.vSamp (by have := hc.v; omega),
      Nat.mod_eq_of_lt hc.id, Nat.mod_eq_of_lt hc.quant]
    rfl

theorem flatMap_length_const {α : Type} (f : α → List Nat) (n : Nat) (l : List α) (h : ∀ a ∈ l, (f a).length = n) : (l.flatMap f).length = n * l.length := by
  induction l with
  | nil => rfl
  | cons a l ih =>
    rw [List.flatMap_cons, List.length_append, h a List.mem_cons_self, ih fun b hb => h b (List.mem_cons_of_mem _ hb), List.length_cons, Nat.mul_add]
    omega

/-- The marker itself. -/
theorem slice_marker {d : List Nat} {p p' m : Nat} (h0 : byteOf d p = 255) (hm : byteOf d (p + 1) = m) (hp : p + 2 ≤ p') :
    slice d p p' = 255 :: m :: slice d (p + 2) p' := by
  rw [slice_cons _ (by omega), slice_cons _ (by omega), h0, hm]

theorem prefix_drop {α : Type} {a b l : List α} (h : a ++ b <+: l) : ∃ c, l.drop a.length = b ++ c := by
  obtain ⟨c, rfl⟩ := h
  exact ⟨c, by rw [List.append_assoc, List.drop_left]⟩

theorem prefix_get {α : Type} {a l : List α} {x : α} (h : a ++ [x] <+: l) : l[a.length]? = some x := by
  obtain ⟨c, rfl⟩ := h
  rw [List.append_assoc, List.getElem?_append_right (Nat.le_refl _), Nat.sub_self]
  rfl

theorem prefix_left {α : Type} {a b l : List α} (h : a ++ b <+: l) : a <+: l := by
  obtain ⟨c, rfl⟩ := h
  exact ⟨b ++ c, by rw [List.append_assoc]⟩

theorem sof_step {d : List Nat} (hd : Bytes d) {st : RJ} (hi : RInv st) {m p : Nat} (hp : p + 2 ≤ d.length) (h0 : byteOf d p = 255) (hm : byteOf d (p + 1) = m)
    (hr : 0xc0 ≤ m ∧ m ≤ 0xc2) :
    (readSegment st m).Wp d (p + 2) fun st' p' => p + 2 ≤ p' ∧ p' ≤ d.length ∧ RInv st' ∧ st'.order = st.order ∧ Writes d st st' m p p' := by
  unfold readSegment
  rw [if_pos hr]
  simp only [wp_bind, wp_pure]
  refine (processSOF_wp hd st.width (p + 2)).mono fun r p' hq => ?_
  obtain ⟨e1, e2, e3, e4, e5⟩ := hq
  have hns : st.sof = false := by
    cases hs : st.sof with
    | false => rfl
    | true => have := (hi.frame hs).width; omega
  refine ⟨e1, e2, ⟨hi.tabs, hi.good, nofun, fun _ => e4, hi.noDri, hi.ri, hi.huff, hi.quant, hi.quants⟩, trivial, fun J hJ => ⟨?_, fun ws hw => ?_⟩⟩
  · exact ⟨hJ.app, hJ.com, hJ.inter, hJ.quant, hJ.huffman, hJ.scans, fun h => (by rw [hns] at h; cases h), fun h => (by rw [hns] at h; cases h), hJ.ri, hJ.coefs, hJ.pads⟩
  · have hc := hJ.comps rfl
    obtain ⟨hw1, hh1⟩ := hJ.dims rfl
    dsimp only at hc hw1 hh1
    have hl : J.components.length = r.2.2.length := hc.length_eq.symm
    have hfl : (r.2.2.flatMap Component.bytes).length = 3 * r.2.2.length := flatMap_length_const _ 3 _ fun _ _ => rfl
    have hcnt := e4.count
    refine ⟨[slice d p p'], { ws with prog := decide (m = 0xC2) }, ?_, ?_, ?_⟩
    · unfold writeMarker
      rw [if_pos (Or.inl hr)]
      unfold encodeSOF
      simp only [sofBytes_eq hc e4.raw, hl]
      rw [chunkOf_exact (by simp only [List.length_cons, List.length_append, be16_length, hfl]; omega)]
      rw [slice_marker h0 hm e1, e5, hw1, hh1, Nat.mod_eq_of_lt (by omega), Nat.mod_eq_of_lt (show r.2.2.length < 256 by omega)]
      show Run.ok ([_], WJ.mk _ _ _ _ _ _ _ _ _ _) = Run.ok ([_], WJ.mk _ _ _ _ _ _ _ _ _ _)
      rw [if_pos hr.2]
    · rw [if_neg (by omega)]; simp
    · exact ⟨hw.dht, hw.dqt, hw.app, hw.com, hw.inter, hw.scan, hw.tabs, hw.pads, hw.dri, rfl⟩

theorem dht_step {d : List Nat} (hd : Bytes d) {st : RJ} (hi : RInv st) {m p : Nat} (hp : p + 2 ≤ d.length) (h0 : byteOf d p = 255) (hm : byteOf d (p + 1) = m)
    (hr : m = 0xc4) :
    (readSegment st m).Wp d (p + 2) fun st' p' => p + 2 ≤ p' ∧ p' ≤ d.length ∧ RInv st' ∧ st'.order = st.order ∧ Writes d st st' m p p' := by
  unfold readSegment
  rw [if_neg (by omega), if_pos hr]
  simp only [wp_bind, wp_pure]
  obtain ⟨T0, hT0⟩ := hi.tabs
  refine (processDHT_wp hd (hs := st.huffman) hT0 (p + 2) hp).mono fun r p' hq => ?_
  obtain ⟨e1, e2, new, e3, e4, e5, e6, e7⟩ := hq
  refine ⟨e1, e2, ⟨e6, hi.good, hi.noSof, hi.frame, hi.noDri, hi.ri, ?_, hi.quant, hi.quants⟩, trivial, fun J hJ => ?_⟩
  · show ∀ h ∈ r.1, h.Ok
    rw [e4]
    intro h hh
    rcases List.mem_append.mp hh with hh | hh
    · exact hi.huff h hh
    · exact e5 h hh
  have hhf : st.huffman ++ new <+: J.huffman := by have := hJ.huffman; dsimp only at this; rwa [e4] at this
  refine ⟨⟨hJ.app, hJ.com, hJ.inter, hJ.quant, prefix_left hhf, hJ.scans, hJ.dims, hJ.comps, hJ.ri, hJ.coefs, hJ.pads⟩, fun ws hw => ?_⟩
  obtain ⟨rest, hrest⟩ := prefix_drop hhf
  obtain ⟨T', bs, f1, f2, f3, f4⟩ := e7 ws.T rest hw.tabs
  refine ⟨[slice d p p'], { ws with dht := st.huffman.length + new.length, T := T' }, ?_, ?_, ?_⟩
  · unfold writeMarker
    rw [if_neg (by omega), if_pos hr]
    unfold encodeDHT
    rw [hw.dht, hrest, f1]
    show Run.bind (Run.bind (chunkOf _ _) _) _ = _
    rw [chunkOf_exact (by simp only [List.length_cons, List.length_append, be16_length, f3]), slice_marker h0 hm e1, f4, hr]
    rfl
  · rw [if_neg (by omega)]; simp
  · exact ⟨by show _ = r.1.length; rw [e4, List.length_append], hw.dqt, hw.app, hw.com, hw.inter, hw.scan, f2, hw.pads, hw.dri, hw.prog⟩

theorem dqt_step {d : List Nat} (hd : Bytes d) {st : RJ} (hi : RInv st) {m p : Nat} (h0 : byteOf d p = 255) (hm : byteOf d (p + 1) = m)
    (hr : m = 0xdb) :
    (readSegment st m).Wp d (p + 2) fun st' p' => p + 2 ≤ p' ∧ p' ≤ d.length ∧ RInv st' ∧ st'.order = st.order ∧ Writes d st st' m p p' := by
  unfold readSegment
  rw [if_neg (by omega), if_neg (by omega), if_neg (by omega), if_neg (by omega), if_neg (by omega), if_pos hr]
  simp only [wp_bind, wp_pure]
  refine (processDQT_wp hd hi.quants (p + 2)).mono fun r p' hq => ?_
  obtain ⟨e1, e2, e0, new, e3, e4, e5, e7⟩ := hq
  refine ⟨e1, e2, ⟨hi.tabs, hi.good, hi.noSof, hi.frame, hi.noDri, hi.ri, hi.huff, ?_, e0⟩, trivial, fun J hJ => ?_⟩
  · show ∀ h ∈ r, h.Ok
    rw [e4]
    intro h hh
    rcases List.mem_append.mp hh with hh | hh
    · exact hi.quant h hh
    · exact e5 h hh
  have hhf : st.quant ++ new <+: J.quant := by have := hJ.quant; dsimp only at this; rwa [e4] at this
  refine ⟨⟨hJ.app, hJ.com, hJ.inter, prefix_left hhf, hJ.huffman, hJ.scans, hJ.dims, hJ.comps, hJ.ri, hJ.coefs, hJ.pads⟩, fun ws hw => ?_⟩
  obtain ⟨rest, hrest⟩ := prefix_drop hhf
  obtain ⟨bs, f1, f3, f4⟩ := e7 rest
  refine ⟨[slice d p p'], { ws with dqt := st.quant.length + new.length }, ?_, ?_, ?_⟩
  · unfold writeMarker
    rw [if_neg (by omega), if_neg (by omega), if_neg (by omega), if_neg (by omega), if_neg (by omega), if_pos hr]
    unfold encodeDQT
    rw [hw.dqt, hrest, f1]
    show Run.bind (Run.bind (chunkOf _ _) _) _ = _
    rw [chunkOf_exact (by simp only [List.length_cons, List.length_append, be16_length, f3]), slice_marker h0 hm e1, f4, hr]
    rfl
  · rw [if_neg (by omega)]; simp
  · exact ⟨hw.dht, by show _ = r.length; rw [e4, List.length_append], hw.app, hw.com, hw.inter, hw.scan, hw.tabs, hw.pads, hw.dri, hw.prog⟩

theorem dri_step {d : List Nat} (hd : Bytes d) {st : RJ} (hi : RInv st) {m p : Nat} (h0 : byteOf d p = 255) (hm : byteOf d (p + 1) = m)
    (hr : m = 0xdd) :
    (readSegment st m).Wp d (p + 2) fun st' p' => p + 2 ≤ p' ∧ p' ≤ d.length ∧ RInv st' ∧ st'.order = st.order ∧ Writes d st st' m p p' := by
  unfold readSegment
  rw [if_neg (by omega), if_neg (by omega), if_neg (by omega), if_neg (by omega), if_neg (by omega), if_neg (by omega), if_pos hr]
  simp only [wp_bind, wp_pure]
  refine (processDRI_wp hd st.dri (p + 2)).mono fun r p' hq => ?_
  obtain ⟨e1, e2, e3, e4, e5⟩ := hq
  refine ⟨e1, e2, ⟨hi.tabs, hi.good, hi.noSof, hi.frame, nofun, e4, hi.huff, hi.quant, hi.quants⟩, trivial, fun J hJ => ⟨?_, fun ws hw => ?_⟩⟩
  · exact ⟨hJ.app, hJ.com, hJ.inter, hJ.quant, hJ.huffman, hJ.scans, hJ.dims, hJ.comps, fun h => (by rw [e3] at h; cases h), hJ.coefs, hJ.pads⟩
  · refine ⟨[slice d p p'], { ws with dri := true }, ?_, ?_, ?_⟩
    · unfold writeMarker
      rw [if_neg (by omega), if_neg (by omega), if_neg (by omega), if_neg (by omega), if_neg (by omega), if_neg (by omega), if_pos hr]
      unfold encodeDRI
      rw [slice_marker h0 hm e1, e5, hr, show J.restartInterval = r from hJ.ri rfl]
      rfl
    · rw [if_neg (by omega)]; simp
    · exact ⟨hw.dht, hw.dqt, hw.app, hw.com, hw.inter, hw.scan, hw.tabs, hw.pads, rfl, hw.prog⟩

theorem app_step {d : List Nat} (hd : Bytes d) {st : RJ} (hi : RInv st) {m p : Nat} (h0 : byteOf d p = 255)
    (hr : 0xe0 ≤ m ∧ m ≤ 0xef) :
    (readSegment st m).Wp d (p + 2) fun st' p' => p + 2 ≤ p' ∧ p' ≤ d.length ∧ RInv st' ∧ st'.order = st.order ∧ Writes d st st' m p p' := by
  unfold readSegment
  rw [if_neg (by omega), if_neg (by omega), if_neg (by omega), if_neg (by omega), if_neg (by omega), if_neg (by omega), if_neg (by omega), if_pos hr]
  simp only [wp_bind, wp_pure]
  refine (processBlob_wp (p + 2) (by omega) hd).mono fun r p' hq => ?_
  obtain ⟨e1, e2, e3, e4, -⟩ := hq
  refine ⟨e1, e2, ⟨hi.tabs, hi.good, hi.noSof, hi.frame, hi.noDri, hi.ri, hi.huff, hi.quant, hi.quants⟩, trivial, fun J hJ => ⟨?_, fun ws hw => ?_⟩⟩
  · exact ⟨prefix_left hJ.app, hJ.com, hJ.inter, hJ.quant, hJ.huffman, hJ.scans, hJ.dims, hJ.comps, hJ.ri, hJ.coefs, hJ.pads⟩
  · refine ⟨[[0xFF], r], { ws with app := ws.app + 1 }, ?_, ?_, ?_⟩
    · unfold writeMarker
      rw [if_neg (by omega), if_neg (by omega), if_neg (by omega), if_neg (by omega), if_neg (by omega), if_neg (by omega), if_neg (by omega), if_pos hr]
      rw [hw.app, prefix_get hJ.app]
    · rw [if_neg (by omega), e3, slice_cons (a := p) _ (by omega), h0]
      simp
    · exact ⟨hw.dht, hw.dqt, by show ws.app + 1 = (st.app ++ [r]).length; rw [hw.app, List.length_append]; rfl, hw.com, hw.inter, hw.scan, hw.tabs, hw.pads, hw.dri, hw.prog⟩

theorem com_step {d : List Nat} (hd : Bytes d) {st : RJ} (hi : RInv st) {m p : Nat} (h0 : byteOf d p = 255)
    (hr : m = 0xfe) :
    (readSegment st m).Wp d (p + 2) fun st' p' => p + 2 ≤ p' ∧ p' ≤ d.length ∧ RInv st' ∧ st'.order = st.order ∧ Writes d st st' m p p' := by
  unfold readSegment
  rw [if_neg (by omega), if_neg (by omega), if_neg (by omega), if_neg (by omega), if_neg (by omega), if_neg (by omega), if_neg (by omega), if_neg (by omega), if_pos hr]
  simp only [wp_bind, wp_pure]
  refine (processBlob_wp (p + 2) (by omega) hd).mono fun r p' hq => ?_
  obtain ⟨e1, e2, e3, e4, -⟩ := hq
  refine ⟨e1, e2, ⟨hi.tabs, hi.good, hi.noSof, hi.frame, hi.noDri, hi.ri, hi.huff, hi.quant, hi.quants⟩, trivial, fun J hJ => ⟨?_, fun ws hw => ?_⟩⟩
  · exact ⟨hJ.app, prefix_left hJ.com, hJ.inter, hJ.quant, hJ.huffman, hJ.scans, hJ.dims, hJ.comps, hJ.ri, hJ.coefs, hJ.pads⟩
  · refine ⟨[[0xFF], r], { ws with com := ws.com + 1 }, ?_, ?_, ?_⟩
    · unfold writeMarker
      rw [if_neg (by omega), if_neg (by omega), if_neg (by omega), if_neg (by omega), if_neg (by omega), if_neg (by omega), if_neg (by omega), if_neg (by omega), if_pos hr]
      rw [hw.com, prefix_get hJ.com]
    · rw [if_neg (by omega), e3, slice_cons (a := p) _ (by omega), h0]
      simp
    · exact ⟨hw.dht, hw.dqt, hw.app, by show ws.com + 1 = (st.com ++ [r]).length; rw [hw.com, List.length_append]; rfl, hw.inter, hw.scan, hw.tabs, hw.pads, hw.dri, hw.prog⟩

theorem rst_step {d : List Nat} {st : RJ} (hi : RInv st) {m p : Nat} (hp : p + 2 ≤ d.length) (h0 : byteOf d p = 255) (hm : byteOf d (p + 1) = m)
    (hr : 0xd0 ≤ m ∧ m ≤ 0xd7) :
    (readSegment st m).Wp d (p + 2) fun st' p' => p + 2 ≤ p' ∧ p' ≤ d.length ∧ RInv st' ∧ st'.order = st.order ∧ Writes d st st' m p p' := by
  unfold readSegment
  rw [if_neg (by omega), if_neg (by omega), if_pos hr, wp_pure]
  refine ⟨Nat.le_refl _, hp, hi, rfl, fun J hJ => ⟨hJ, fun ws hw => ⟨[[0xFF, m]], ws, ?_, ?_, hw⟩⟩⟩
  · unfold writeMarker
    rw [if_neg (by omega), if_neg (by omega), if_pos hr]
  · rw [if_neg (by omega), slice_marker h0 hm (by omega), slice_nil _ (by omega)]
    rfl

theorem eoi_step {d : List Nat} {st : RJ} (hi : RInv st) {m p : Nat} (hp : p + 2 ≤ d.length) (h0 : byteOf d p = 255) (hm : byteOf d (p + 1) = m)
    (hr : m = 0xd9) :
    (readSegment st m).Wp d (p + 2) fun st' p' => p + 2 ≤ p' ∧ p' ≤ d.length ∧ RInv st' ∧ st'.order = st.order ∧ Writes d st st' m p p' := by
  unfold readSegment
  rw [if_neg (by omega), if_neg (by omega), if_neg (by omega), if_pos hr, wp_pure]
  refine ⟨Nat.le_refl _, hp, hi, rfl, fun J hJ => ⟨hJ, fun ws hw => ⟨[[0xFF, 0xD9], J.tailData], ws, ?_, ?_, hw⟩⟩⟩
  · unfold writeMarker
    rw [if_neg (by omega), if_neg (by omega), if_neg (by omega), if_pos hr]
  · rw [if_pos hr, slice_marker h0 hm (by omega), slice_nil _ (by omega), hr]
    simp

end Brunsli
