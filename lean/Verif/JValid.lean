import Verif.Serialize
/-!
# What `ReadJpeg` guarantees
-/

namespace Brunsli

open JM

/-- The JPEG data that `ReadJpeg` returns (`readJpeg_valid`), and that the encoder relies on. -/
structure JpegData.Valid (jpg : JpegData) : Prop where
  header : jpg.header.Ok
  width : ∀ c ∈ jpg.components, c.width = jpg.header.mcuCols * c.hSamp
  height : ∀ c ∈ jpg.components, c.height = jpg.header.mcuRows * c.vSamp
  size : ∀ c ∈ jpg.components, c.coeffs.length = c.width * c.height * 64
  range : ∀ c ∈ jpg.components, ∀ v ∈ c.coeffs, -32768 ≤ v ∧ v < 32768
  ac : ∀ c ∈ jpg.components, ∀ i, i % 64 ≠ 0 → (c.coeffs.getD i 0).natAbs ≤ 2047
  ids : ∀ c ∈ jpg.components, c.id < 256
  quantIdx : ∀ c ∈ jpg.components, c.quantIdx < jpg.quant.length
  quants : jpg.quant.length ≤ 4
  quant : ∀ q ∈ jpg.quant, q.Ok
  quantLast : ∀ q ∈ jpg.quant.getLast?, q.isLast = true
  markers : ∃ ms, jpg.markerOrder = ms ++ [0xd9] ∧ ∀ m ∈ ms, 0xc0 ≤ m ∧ m < 256 ∧ m ≠ 0xd9
  restart : jpg.restartInterval < 65536 ∧ (0xdd ∉ jpg.markerOrder → jpg.restartInterval = 0)
  huffman : jpg.huffman ≠ [] ∧ jpg.huffman.length ≤ kMaxDHTMarkers ∧ ∀ h ∈ jpg.huffman, h.Ok
  huffmanLast : ∀ h ∈ jpg.huffman.getLast?, h.isLast = true
  dht : jpg.markerOrder.count 0xc4 = jpg.huffman.countP (·.isLast)
  sos : jpg.markerOrder.count 0xda = jpg.scans.length
  scans : ∀ s ∈ jpg.scans, s.Ok
  interMarker : jpg.markerOrder.count 0xff = jpg.interMarker.length
  app : ∀ s ∈ jpg.appData, AppSeg s
  com : ∀ s ∈ jpg.comData, ComSeg s
  padBits : ∀ b ∈ jpg.paddingBits, b ≤ 1
  zeroPad : jpg.hasZeroPaddingBit = true → jpg.paddingBits ≠ []

theorem segment_form {lo hi : Nat} {s : List Nat} (h : Segment lo hi s) :
    ∃ m a b rest, s = m :: a :: b :: rest ∧ lo ≤ m ∧ m ≤ hi ∧ a < 256 ∧ b < 256 ∧ rest.length + 2 = a * 256 + b ∧ Bytes rest := by
  obtain ⟨h1, h2, h3, h4⟩ := h
  obtain ⟨m, s, rfl⟩ := List.exists_cons_of_length_pos (l := s) (by omega)
  obtain ⟨a, s, rfl⟩ := List.exists_cons_of_length_pos (l := s) (by rw [List.length_cons] at h2; omega)
  obtain ⟨b, rest, rfl⟩ := List.exists_cons_of_length_pos (l := s) (by rw [List.length_cons, List.length_cons] at h2; omega)
  · simp only [List.getD_cons_zero, List.getD_cons_succ, List.length_cons] at h3 h4
    exact ⟨m, a, b, rest, rfl, h3.1, h3.2, h1 _ (by simp), h1 _ (by simp), by omega, fun x hx => h1 x (by simp [hx])⟩

theorem Good.range {m : Masks} {C : Coefs} (h : Good m C) (c b k : Nat) : (-32768 ≤ C c b k ∧ C c b k < 32768) ∧ (k ≠ 0 → (C c b k).natAbs ≤ 2047) := by
  have hv := h c b k
  by_cases hm : m c k = 0
  · rw [hv.zero hm]; exact ⟨⟨by omega, by omega⟩, fun _ => by simp⟩
  · obtain ⟨-, h1, h2⟩ := hv.mul hm 0 (fun i hi => absurd hi (Nat.not_lt_zero _))
    rw [Nat.pow_zero] at h1
    simp only [Int.pow_zero] at h2
    by_cases hk : k = 0
    · have := h2 hk; exact ⟨⟨by omega, by omega⟩, fun h => absurd hk h⟩
    · have := h1 hk; exact ⟨⟨by omega, by omega⟩, fun _ => by omega⟩

theorem zigzagOf_zero : ∀ i < 64, zigzagOf i = 0 → i = 0 := by
  intro i hi h
  have := natural_zigzagOf i hi
  rw [h] at this
  have e : naturalOrder.getD 0 0 = 0 := by decide +kernel
  omega

/-- `ReadJpeg` returns valid data. -/
theorem readJpeg_valid {d : List Nat} (hd : Bytes d) {jpg : JpegData} (h : readJpeg d = .ok jpg) : jpg.Valid := by
  obtain ⟨st, p, comps, h0, h1, h2, h3, h4, h5, h6, h7, rfl⟩ := readJpeg_ok h
  have hw := readLoop_wp hd (d.length + 1) RInv.init (p := 2) (by omega) (by omega)
  have ho := readLoop_out hd (d.length + 1) RInv.init ROut.init (by simp [RJ.init]) (by omega) (by omega)
  unfold Wp at hw ho
  rw [h3] at hw ho
  obtain ⟨-, -, hi, -, -⟩ := hw
  obtain ⟨ho, ms, m1, m2⟩ := ho
  have hf := hi.frame h4
  have hx := fixupIndexes_spec _ h5
  have hlen : comps.length = st.comps.length := hx.length_eq.symm
  -- a component of the result, and where it comes from
  have key : ∀ x ∈ fillCoefs st.coefs comps, ∃ (i : Nat) (c : Component) (j : Nat), c ∈ st.comps ∧ st.comps[i]? = some c ∧ j < st.quant.length ∧
      x = { c with quantIdx := j, coeffs := coefList (st.coefs i) (c.width * c.height) } := by
    intro x hxm
    obtain ⟨i, hi1, e⟩ := List.getElem_of_mem hxm
    have e1 := List.getElem?_eq_getElem hi1
    rw [e, fillCoefs_get] at e1
    obtain ⟨y, hy, rfl⟩ := Option.map_eq_some_iff.mp e1
    obtain ⟨hy1, hy2⟩ := List.getElem?_eq_some_iff.mp hy
    have := (List.forall₂_iff_get.mp hx).2 i (by omega) hy1
    simp only [List.get_eq_getElem] at this
    rw [hy2] at this
    obtain ⟨j, q, q1, q2, rfl⟩ := this
    obtain ⟨q3, -⟩ := List.getElem?_eq_some_iff.mp q1
    exact ⟨i, _, j, List.getElem_mem _, List.getElem?_eq_getElem _, q3, rfl⟩
  have hfac : (fillCoefs st.coefs comps).map (fun c => (c.hSamp, c.vSamp)) = st.comps.map fun c => (c.hSamp, c.vSamp) := by
    apply List.ext_getElem?
    intro i
    rw [List.getElem?_map, List.getElem?_map, fillCoefs_get]
    cases hy : comps[i]? with
    | none =>
      have : comps.length ≤ i := List.getElem?_eq_none_iff.mp hy
      rw [List.getElem?_eq_none (by omega)]
      rfl
    | some y =>
      obtain ⟨hy1, hy2⟩ := List.getElem?_eq_some_iff.mp hy
      have := (List.forall₂_iff_get.mp hx).2 i (by omega) hy1
      simp only [List.get_eq_getElem] at this
      rw [hy2] at this
      obtain ⟨j, q, q1, q2, rfl⟩ := this
      rw [List.getElem?_eq_getElem (by omega)]
      rfl
  have hhead : (st.result comps (slice d p d.length)).header = ⟨2, st.width, st.height, st.comps.map fun c => (c.hSamp, c.vSamp)⟩ := by
    unfold JpegData.header
    show (⟨2, st.width, st.height, (fillCoefs st.coefs comps).map _⟩ : Header) = _
    rw [hfac]
  have hcols : (st.result comps (slice d p d.length)).header.mcuCols = divCeil st.width (maxH st.comps * 8) := by
    rw [hhead]; unfold Header.mcuCols maxH; rw [List.map_map]; rfl
  have hrows : (st.result comps (slice d p d.length)).header.mcuRows = divCeil st.height (maxV st.comps * 8) := by
    rw [hhead]; unfold Header.mcuRows maxV; rw [List.map_map]; rfl
  refine {
    header := ?_
    width := ?_
    height := ?_
    size := ?_
    range := ?_
    ac := ?_
    ids := ?_
    quantIdx := ?_
    quants := hi.quants
    quant := hi.quant
    quantLast := ho.dqtLast
    markers := ⟨ms, m1, ?_⟩
    restart := ⟨hi.ri, fun h => hi.noDri (ho.dri h)⟩
    huffman := ⟨h6, Nat.le_of_lt h7, hi.huff⟩
    huffmanLast := ho.dhtLast
    dht := ho.dht
    sos := ho.sos
    scans := ho.scans
    interMarker := ho.inter
    app := ?_
    com := ?_
    padBits := ?_
    zeroPad := ?_ }
  · refine ⟨?_, ?_, ?_, ?_, ?_, ?_⟩
    · rw [hhead]; exact ⟨show 2 < 8 by decide, show 2 % 2 = 0 by decide⟩
    · rw [hhead]; exact hf.width
    · rw [hhead]; exact hf.height
    · rw [hhead]; simpa using hf.count
    · rw [hhead]
      intro c hc
      obtain ⟨x, hx, rfl⟩ := List.mem_map.mp hc
      have := hf.raw x hx
      exact ⟨this.h.1, this.h.2, this.v.1, this.v.2⟩
    · intro b hb
      unfold Header.blocks at hb
      rw [hcols, hrows, hhead] at hb
      obtain ⟨c, hc, rfl⟩ := List.mem_map.mp hb
      obtain ⟨x, hx, rfl⟩ := List.mem_map.mp hc
      have := hf.blocks x hx
      rw [hf.cols x hx, hf.rows x hx] at this
      exact this
  · intro x hxm
    obtain ⟨i, c, j, c1, c2, c3, rfl⟩ := key x hxm
    rw [hcols]
    exact hf.cols c c1
  · intro x hxm
    obtain ⟨i, c, j, c1, c2, c3, rfl⟩ := key x hxm
    rw [hrows]
    exact hf.rows c c1
  · intro x hxm
    obtain ⟨i, c, j, c1, c2, c3, rfl⟩ := key x hxm
    show (coefList _ _).length = _
    rw [coefList_length, Nat.mul_comm]
  · intro x hxm v hv
    obtain ⟨i, c, j, c1, c2, c3, rfl⟩ := key x hxm
    obtain ⟨n, hn, rfl⟩ := List.mem_map.mp (show v ∈ (List.range _).map _ from hv)
    exact (hi.good.range _ _ _).1
  · intro x hxm n hn
    obtain ⟨i, c, j, c1, c2, c3, rfl⟩ := key x hxm
    show ((coefList _ _).getD n 0).natAbs ≤ 2047
    unfold coefList
    rw [List.getD_eq_getElem?_getD, List.getElem?_map]
    cases hr : (List.range (64 * (c.width * c.height)))[n]? with
    | none => simp
    | some m =>
      have : n = m := by
        obtain ⟨h1, h2⟩ := List.getElem?_eq_some_iff.mp hr
        simpa using h2
      subst this
      exact (hi.good.range _ _ _).2 fun h0 => hn (zigzagOf_zero _ (by omega) h0)
  · intro x hxm
    obtain ⟨i, c, j, c1, c2, c3, rfl⟩ := key x hxm
    exact (hf.raw c c1).id
  · intro x hxm
    obtain ⟨i, c, j, c1, c2, c3, rfl⟩ := key x hxm
    exact c3
  · intro m hm
    have := ho.order m (by rw [m1]; simp [hm])
    exact ⟨this.1, this.2, fun e => m2 (e ▸ hm)⟩
  · intro s hs
    exact segment_form (ho.app s hs)
  · intro s hs
    obtain ⟨m, a, b, rest, e, e1, e2, r⟩ := segment_form (ho.com s hs)
    have : m = 0xFE := by omega
    subst this
    exact ⟨a, b, rest, e, r⟩
  · intro b hb
    obtain ⟨x, -, rfl⟩ := List.mem_map.mp (show b ∈ st.pads.map Bool.toNat from hb)
    cases x <;> decide
  · intro hz e
    have hz : st.pads.any (!·) = true := hz
    have e : st.pads.map Bool.toNat = [] := e
    rw [List.map_eq_nil_iff] at e
    rw [e] at hz
    exact absurd hz nofun

end Brunsli
