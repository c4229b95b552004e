import Verif.Sizes
/-!
# When the encoder accepts

Everything before the buffer is written succeeds for valid data; after that only the sizes of the sections matter.
-/

namespace Brunsli

/-- Blocks of all components. -/
def JpegData.blocks (jpg : JpegData) : Nat := (jpg.components.map fun c => c.width * c.height).sum

/-- The DC coefficients are close enough to their predictions (`PredictDCCoeffs`, c/enc/brunsli_encode.cc:1453-1457). -/
def JpegData.Predictable (jpg : JpegData) : Prop := ∀ c ∈ jpg.components, predictDCCoeffs c.coeffs c.width c.height = true

/-- What the coefficient coding makes of valid data. -/
structure Stage (jpg : JpegData) where
  coded : Coded
  tabs : List (List Nat)
  hist : List Bool
  dcWords : List Nat
  acWords : List Nat

structure Stage.Ok (par : Codec) {jpg : JpegData} (s : Stage jpg) : Prop where
  coefs : encodeCoefs par jpg = .ok s.coded
  hist : encodeHistogramData jpg.schemes s.coded.map s.coded.clusters = some (s.tabs, s.hist)
  dcWords : encodeWords (fun ctx => s.tabs.getD (s.coded.map.getD ctx 0) []) s.coded.dc = some s.dcWords
  acWords : encodeWords (fun ctx => s.tabs.getD (s.coded.map.getD ctx 0) []) s.coded.ac = some s.acWords
  contexts : s.coded.map.length ≤ 14868
  clusters : 1 ≤ s.coded.clusters.length ∧ s.coded.clusters.length ≤ 256
  index : ∀ i ∈ s.coded.map, i < s.coded.clusters.length
  dcLen : s.coded.dc.length ≤ 6 * jpg.blocks
  acLen : s.coded.ac.length ≤ 634 * jpg.components.length + 321 * jpg.blocks

theorem JpegData.Valid.ncomp {jpg : JpegData} (hv : jpg.Valid) : 1 ≤ jpg.components.length ∧ jpg.components.length ≤ 4 := by
  have := hv.header.ncomp
  simpa [JpegData.header] using this

theorem JpegData.schemes_length (jpg : JpegData) : jpg.schemes.length = jpg.header.comps.length := by simp [JpegData.schemes, JpegData.header]

/-- Which component an entry of the layout belongs to. -/
theorem metas_comp {jpg : JpegData} {c : Nat} {m : Meta} (hm : (metas jpg.header jpg.schemes)[c]? = some m) :
    ∃ q, jpg.components[c]? = some q ∧ m.w = jpg.header.mcuCols * q.hSamp ∧ m.vs = q.vSamp := by
  have hsl := jpg.schemes_length
  have hc : c < jpg.header.comps.length := by
    rw [← metas_length hsl]
    exact (List.getElem?_eq_some_iff.mp hm).1
  have hc' : c < jpg.components.length := by simpa [JpegData.header] using hc
  have hqe : jpg.header.comps[c] = (jpg.components[c].hSamp, jpg.components[c].vSamp) := by simp [JpegData.header]
  have hm' := metas_get hsl hc
  rw [hm] at hm'
  have hm'' := Option.some.inj hm'
  rw [hqe] at hm''
  exact ⟨_, List.getElem?_eq_getElem hc', by rw [hm''], by rw [hm'']⟩

theorem schedule_blocks {jpg : JpegData} (hv : jpg.Valid) : (schedule jpg.header.mcuRows (metas jpg.header jpg.schemes)).length = jpg.blocks := by
  rw [schedule_length, JpegData.blocks]
  have e : (metas jpg.header jpg.schemes).map (fun m => m.vs * m.w) = jpg.components.map fun c => c.vSamp * (jpg.header.mcuCols * c.hSamp) := by
    apply List.ext_getElem?
    intro c
    rw [List.getElem?_map, List.getElem?_map]
    cases hm : (metas jpg.header jpg.schemes)[c]? with
    | none =>
      have h1 := List.getElem?_eq_none_iff.mp hm
      rw [metas_length jpg.schemes_length] at h1
      rw [List.getElem?_eq_none (by simpa [JpegData.header] using h1)]
      rfl
    | some m =>
      obtain ⟨q, h1, h2, h3⟩ := metas_comp hm
      rw [h1, Option.map_some, Option.map_some, h2, h3]
  rw [e]
  have : ∀ l : List Component, (∀ c ∈ l, c ∈ jpg.components) →
      jpg.header.mcuRows * (l.map fun c => c.vSamp * (jpg.header.mcuCols * c.hSamp)).sum = (l.map fun c => c.width * c.height).sum := by
    intro l
    induction l with
    | nil => intro _; rfl
    | cons c l ih =>
      intro hl
      rw [List.map_cons, List.sum_cons, List.map_cons, List.sum_cons, Nat.mul_add, ih fun c hc => hl c (List.mem_cons_of_mem _ hc),
        hv.width c (hl c List.mem_cons_self), hv.height c (hl c List.mem_cons_self)]
      congr 1
      rw [← Nat.mul_assoc, Nat.mul_comm]
  exact this _ fun c hc => hc

/-- Valid data with predictable DC coefficients: nothing before the buffer fails. -/
theorem encodeCoefs_ok {par : Codec} (hcl : par.Clusters) (hw : par.Works) {jpg : JpegData} (hv : jpg.Valid) (hp : jpg.Predictable) (hb : 64 * jpg.blocks ≤ 100000000) : ∃ s : Stage jpg, s.Ok par := by
  obtain ⟨hn1, hn⟩ := hv.ncomp
  have hcomps : jpg.header.comps.length = jpg.components.length := by simp [JpegData.header]
  have hsl := jpg.schemes_length
  have hml := metas_length hsl
  have hquants := quants_eq hv
  have hpred : ((metas jpg.header jpg.schemes).zip (jpg.components.map Component.coeffs)).all
      (fun (m, img) => predictDCCoeffs img m.w (jpg.header.mcuRows * m.vs)) = true := by
    rw [List.all_eq_true]
    rintro ⟨m, img⟩ hmem
    obtain ⟨c, hc⟩ := List.getElem?_of_mem hmem
    obtain ⟨h1, h2⟩ := List.getElem?_zip_eq_some.mp hc
    obtain ⟨q, q1, q2, q3⟩ := metas_comp h1
    rw [List.getElem?_map, q1] at h2
    cases h2
    have hq := List.mem_of_getElem? q1
    have := hp q hq
    rw [hv.width q hq, hv.height q hq] at this
    dsimp only at q2 q3 ⊢
    rw [q2, q3]
    exact this
  generalize hqs : ((jpg.components.map Component.quantIdx).map fun i => (jpg.quant.map QuantTable.values).getD i []) = quants at hquants
  obtain ⟨fl, dc, ac, e1, e2, hfits, hall⟩ := coefs_roundtrip (legacyModel jpg.version) jpg.header.mcuRows (metas jpg.header jpg.schemes) jpg.orders
    quants (jpg.components.map Component.coeffs) (metas_layout hsl (schemes_lt jpg)) (by rw [hml, hcomps]; simp [JpegData.orders])
    (by rw [← hqs, hml, hcomps]; simp)
    (by rw [hml, hcomps]; simp)
    (fun c m img hm hi => by
      obtain ⟨q, q1, q2, q3⟩ := metas_comp hm
      rw [List.getElem?_map, q1] at hi
      cases hi
      have hq := List.mem_of_getElem? q1
      refine ⟨?_, hv.range q hq, ?_⟩
      · rw [hv.size q hq, hv.width q hq, hv.height q hq, q2, q3]
      · have := hp q hq
        rwa [hv.width q hq, hv.height q hq, ← q2, ← q3] at this)
    (by
      intro img himg i hi h0
      obtain ⟨q, hq, rfl⟩ := List.mem_map.mp himg
      have := hv.ac q hq i h0
      rw [List.getD_eq_getElem?_getD, List.getElem?_eq_getElem hi] at this
      simp only [Option.getD_some] at this
      omega)
    (by
      intro o hoo
      obtain ⟨q, -, rfl⟩ := List.mem_map.mp hoo
      exact computeCoeffOrder_ok _ (by simp [numZeros]))
    (by
      intro q hq
      rw [← hqs] at hq
      obtain ⟨i, hi, rfl⟩ := List.mem_map.mp hq
      obtain ⟨c, hc, rfl⟩ := List.mem_map.mp hi
      have hlt := hv.quantIdx c hc
      rw [List.getD_eq_getElem?_getD, List.getElem?_map, List.getElem?_eq_getElem hlt]
      have := hv.quant _ (List.getElem_mem hlt)
      exact ⟨this.length, fun v hv => this.range v hv⟩)
  have hdl := encodeDC_cost _ _ _ _ _ e1
  have hal := encodeAC_cost (fun o ho => by
    obtain ⟨q, -, rfl⟩ := List.mem_map.mp ho
    have := (computeCoeffOrder_ok (numZeros q.coeffs (jpg.header.mcuCols * q.hSamp * (jpg.header.mcuRows * q.vSamp))) (by simp [numZeros])).1.length_eq
    rw [this, List.length_range]) _ _ e2
  rw [schedule_blocks hv] at hdl hal
  have hol : jpg.orders.length = jpg.components.length := by simp [JpegData.orders]
  rw [hol] at hal
  have hgr := image_codes hv.header e1 e2 (contextCount (metas jpg.header jpg.schemes))
  have hgr2 := blocks_codes e1 e2 (contextCount (metas jpg.header jpg.schemes))
  rw [schedule_blocks hv] at hgr2
  have hoff := layout_offsets (metas_layout hsl (schemes_lt jpg))
  have hN : numContexts jpg.schemes * kNumAvrgContexts = contextCount (metas jpg.header jpg.schemes) := by rw [contextCount, metas_bits hsl]
  have hN1 : 0 < contextCount (metas jpg.header jpg.schemes) := by rw [← hN, numContexts, kNumAvrgContexts]; omega
  have hN2 : contextCount (metas jpg.header jpg.schemes) ≤ 14868 := by
    rw [← hN, kNumAvrgContexts]
    have := numContexts_le jpg.schemes
    omega
  have hcs := countSymbols_length (contextCount (metas jpg.header jpg.schemes)) (dc ++ ac)
  have hcne : countSymbols (contextCount (metas jpg.header jpg.schemes)) (dc ++ ac) ≠ [] := by intro h; rw [h] at hcs; simp at hcs; omega
  obtain ⟨r, hrc⟩ := hw (0 :: (metas jpg.header jpg.schemes).map Meta.ctxOffset) (countSymbols (contextCount (metas jpg.header jpg.schemes)) (dc ++ ac))
    hcne hcs.2 (by rw [hcs.1]; exact hoff) (by rw [hcs.1]; exact hN2) (by omega)
  have hr := hcl (0 :: (metas jpg.header jpg.schemes).map Meta.ctxOffset) (countSymbols (contextCount (metas jpg.header jpg.schemes)) (dc ++ ac))
    hcne hcs.2 (by rw [hcs.1]; exact hoff) (by rw [hcs.1]; exact hN2) hgr r hrc
  have hcoefs : encodeCoefs par jpg = .ok ⟨r.1, r.2, dc, ac⟩ := by
    unfold encodeCoefs
    rw [hquants]
    simp only [Run.orFail, Run.bind, hpred, not_true_eq_false, if_false, e1, Run.orUb, e2, hrc]
  generalize hnc : contextCount (metas jpg.header jpg.schemes) = N at *
  have hmap : r.1.length = N := by rw [← hcs.1]; exact hr.length
  obtain ⟨tabs, bits, hists, h1, h2, h3, h4, h5⟩ := C14_section_roundtrip jpg.schemes r.1 r.2 (schemes_lt jpg) hr.pos hr.le hr.index
    (by rw [hmap, hN]) (by rw [hmap]; omega) hr.ok
  have use : ∀ c s, Op.code c s ∈ dc ++ ac → (histTab r.1 hists c).sum = 1024 ∧ 0 < (histTab r.1 hists c).getD s 0 ∧
      (fun ctx => tabs.getD (r.1.getD ctx 0) []) c = histTab r.1 hists c := by
    intro c s hm
    obtain ⟨hc, hs⟩ := hfits _ hm
    have hcm : r.1[c]? = some r.1[c] := List.getElem?_eq_getElem (by omega)
    have hi : r.1[c] < r.2.length := hr.index _ (List.getElem_mem _)
    have hne := hr.covers c s _ _ (countSymbols_ne hc hs hm) hcm (List.getElem?_eq_getElem hi)
    obtain ⟨k1, k2, k3⟩ := h5 _ hi
    have ht : histTab r.1 hists c = hists.getD r.1[c] [] := by
      unfold histTab
      rw [hcm, Option.bind_some, List.getD_eq_getElem?_getD]
    rw [ht]
    refine ⟨k1, k3 s hs hne, ?_⟩
    dsimp only
    rw [k2 ⟨s, hs, hne⟩, List.getD_eq_getElem?_getD (l := r.1), hcm]
    rfl
  obtain ⟨w1, w2, _, v1, v2, -, -⟩ := hall (histTab r.1 hists) fun c s hm => ⟨(use c s hm).1, (use c s hm).2.1⟩
  refine ⟨⟨⟨r.1, r.2, dc, ac⟩, tabs, bits, w1, w2⟩, ⟨hcoefs, h1, ?_, ?_, by rw [hmap]; exact hN2, ⟨hr.pos, hr.le⟩, hr.index, hdl, hal⟩⟩
  · exact (encodeWords_congr fun c s hm => (use c s (List.mem_append_left _ hm)).2.2).trans v1
  · exact (encodeWords_congr fun c s hm => (use c s (List.mem_append_right _ hm)).2.2).trans v2

/-! ## The buffer -/

theorem putSection_run {cap tag k slack : Nat} {fn : Nat → Run (List Nat)} {out p : List Nat} (hf : out.length + 1 + k ≤ cap → fn (cap - (out.length + 1 + k)) = .ok p)
    (hp : out.length + 1 + k + p.length + slack ≤ cap → p.length < 2 ^ (7 * k)) :
    (∃ s, putSection cap tag k slack fn out = .ok (out ++ s) ∧ s.length = 1 + k + p.length) ∨
    (cap < out.length + 1 + k + p.length + slack ∧ putSection cap tag k slack fn out = .ub) := by
  unfold putSection
  by_cases h1 : cap < out.length + 1 + k
  · exact .inr ⟨by omega, by rw [if_pos h1]⟩
  rw [if_neg h1, hf (by omega)]
  dsimp only [Run.bind]
  by_cases h2 : cap < out.length + 1 + k + p.length + slack
  · exact .inr ⟨h2, by rw [if_pos h2]⟩
  rw [if_neg h2]
  have h3 := hp (by omega)
  cases hs : encodeSection tag k (some p) with
  | none =>
    unfold encodeSection at hs
    dsimp only at hs
    split at hs
    · rename_i hge
      exact absurd (Nat.div_eq_of_lt h3) (by omega)
    · cases hs
  | some s => exact .inl ⟨s, rfl, encodeSection_length hs⟩

theorem base128Size_mono_le {n cap : Nat} (h : n ≤ cap) (hc : cap < 2 ^ 63) : base128Size n ≤ 9 := base128Size_le9 (by omega)

/-- What else the encoder needs: internals that fit the length field reserved by the estimate, and metadata that Brotli
compresses to at most `M` bytes as soon as there is room for `M`. -/
structure Encodable (par : Codec) (jpg : JpegData) (inner : List Nat) (M : Nat) : Prop where
  valid : jpg.Valid
  predictable : jpg.Predictable
  symbols : 64 * jpg.blocks ≤ 100000000
  internals : encodeInternals (paddingBitsLimit jpg.width jpg.height jpg.components.length) jpg.internals = some inner
  field : inner.length < 2 ^ (7 * base128Size (estimateAuxDataSize jpg))
  meta_ : ∀ room, M ≤ room → ∃ p, encodeMetadata (par.compress room) jpg.appData jpg.comData jpg.tailData = some p ∧ p.length ≤ M

/-- An upper bound of the bytes the encoder accesses. -/
def sizeBound (jpg : JpegData) (inner M : Nat) : Nat := inner + M + 654 * jpg.blocks + 53100

/-- With predictable, encodable data the encoder either succeeds or leaves the buffer; it succeeds if the buffer is large enough. -/
theorem encodeJpeg_run {par : Codec} (hcl : par.Clusters) (hw : par.Works) {jpg : JpegData} {inner : List Nat} {M : Nat} (he : Encodable par jpg inner M)
    (hm : maxEncodedSize jpg < 2 ^ 63) {cap : Nat} (h6 : 6 ≤ cap) (hcap : cap < 2 ^ 63) (hM : M = 0 ∨ sizeBound jpg inner.length M ≤ cap) :
    (∃ out, encodeJpeg par cap jpg = .ok out) ∨ (cap < sizeBound jpg inner.length M ∧ encodeJpeg par cap jpg = .ub) := by
  obtain ⟨s, ok⟩ := encodeCoefs_ok hcl hw he.valid he.predictable he.symbols
  have hv := he.valid
  obtain ⟨hn1, hn4⟩ := hv.ncomp
  have hk4 : base128Size (estimateAuxDataSize jpg) ≤ 9 := base128Size_le9 (by unfold maxEncodedSize at hm; omega)
  have hw1 := encodeWords_length ok.dcWords
  have hw2 := encodeWords_length ok.acWords
  have hdl := ok.dcLen
  have hal := ok.acLen
  have hhl := encodeHistogramData_length ok.clusters ok.hist
  have hsch : jpg.schemes.length = jpg.components.length := by simp [JpegData.schemes]
  have hct := ok.contexts
  have hpl := packBits_length _ s.hist (Nat.le_refl _)
  -- header
  obtain ⟨hs, hh, -⟩ := C22_header_roundtrip jpg.header [] hv.header.version hv.header.width hv.header.height hv.header.ncomp hv.header.factors hv.header.blocks
  obtain ⟨p1, hp1⟩ := encodeHeader_some hv.header
  have hp1l : p1.length < 2 ^ (7 * 1) := by
    unfold encodeHeaderSection encodeSection at hh
    rw [hp1] at hh
    dsimp only at hh
    split at hh
    · cases hh
    · rename_i hd
      exact (Nat.div_eq_zero_iff_lt (by decide)).mp (by omega)
  -- tables
  obtain ⟨q, hq⟩ := C08_quant_accepted (jpg.quant.map QuantTable.values) (jpg.components.map Component.quantIdx)
    (by
      rw [List.length_map]
      obtain ⟨c, hc⟩ := List.exists_mem_of_length_pos (l := jpg.components) (by omega)
      have := hv.quantIdx c hc
      omega)
    (by rw [List.length_map]; exact hv.quants)
    (fun t ht v hvv => by
      obtain ⟨q, hq, rfl⟩ := List.mem_map.mp ht
      exact (hv.quant q hq).range v hvv)
  have hql := encodeQuantTables_length hq
  rw [List.length_map] at hql
  have hqp := packBits_length _ q (Nat.le_refl _)
  have hwb1 := wordBytes_length s.dcWords
  have hwb2 := wordBytes_length s.acWords
  unfold sizeBound at *
  unfold encodeJpeg
  rw [ok.coefs]
  dsimp only [Run.bind]
  unfold brunsliSerialize
  rw [if_neg (show ¬ cap < 6 by omega)]
  have hsig : kBrunsliSignature.length = 6 := rfl
  generalize kBrunsliSignature = o0 at *
  rcases putSection_run (cap := cap) (tag := 2) (k := 1) (slack := 0) (fn := fun _ => Run.orFail (encodeHeader jpg.header)) (out := o0) (p := p1)
    (fun _ => by rw [hp1]; rfl) (fun _ => hp1l) with ⟨s1, e1, l1⟩ | ⟨c1, e1⟩
  swap
  · rw [e1]; exact .inr ⟨by omega, rfl⟩
  rw [e1]
  dsimp only [Run.bind]
  have L1 : (o0 ++ s1).length = 8 + p1.length := by rw [List.length_append]; omega
  generalize o0 ++ s1 = o1 at *
  rcases putSection_run (cap := cap) (tag := 4) (k := base128Size (estimateAuxDataSize jpg)) (slack := 8) (fn := fun _ => Run.orFail (encodeInternals
      (paddingBitsLimit jpg.width jpg.height jpg.components.length) jpg.internals)) (out := o1) (p := inner)
    (fun _ => by rw [he.internals]; rfl) (fun _ => he.field) with ⟨s2, e2, l2⟩ | ⟨c2, e2⟩
  swap
  · rw [e2]; exact .inr ⟨by omega, rfl⟩
  rw [e2]
  dsimp only [Run.bind]
  have L2 : (o1 ++ s2).length ≤ 18 + p1.length + inner.length := by rw [List.length_append]; omega
  generalize o1 ++ s2 = o2 at *
  have K : ∀ o : List Nat, base128Size (cap - o.length) ≤ 9 := fun o => base128Size_le9 (by omega)
  have F : ∀ {o p : List Nat} {slack : Nat}, o.length + 1 + base128Size (cap - o.length) + p.length + slack ≤ cap → p.length < 2 ^ (7 * base128Size (cap - o.length)) := by
    intro o p slack h
    exact Nat.lt_of_le_of_lt (show p.length ≤ cap - o.length by omega) (base128_lt_size _)
  have k3 := K o2
  obtain ⟨p3, hp3, l3'⟩ := he.meta_ (cap - (o2.length + 1 + base128Size (cap - o2.length))) (by rcases hM with h | h <;> omega)
  rcases putSection_run (cap := cap) (tag := 3) (k := base128Size (cap - o2.length)) (slack := 0) (fn := fun room => Run.orFail (encodeMetadata (par.compress room)
      jpg.appData jpg.comData jpg.tailData)) (out := o2) (p := p3) (fun _ => by rw [hp3]; rfl) F with ⟨s3, e3, l3⟩ | ⟨c3, e3⟩
  swap
  · rw [e3]; exact .inr ⟨by omega, rfl⟩
  rw [e3]
  dsimp only [Run.bind]
  have L3 : (o2 ++ s3).length ≤ 28 + p1.length + inner.length + M := by rw [List.length_append]; omega
  generalize o2 ++ s3 = o3 at *
  rcases putSection_run (cap := cap) (tag := 5) (k := 2) (slack := 8) (fn := fun _ => Run.orFail ((encodeQuantTables (jpg.quant.map QuantTable.values)
      (jpg.components.map Component.quantIdx)).map packBits)) (out := o3) (p := packBits q) (fun _ => by rw [hq]; rfl)
      (fun _ => by rw [hqp]; show _ < 16384; omega) with ⟨s4, e4, l4⟩ | ⟨c4, e4⟩
  swap
  · rw [e4]; exact .inr ⟨by omega, rfl⟩
  rw [e4]
  dsimp only [Run.bind]
  have L4 : (o3 ++ s4).length ≤ 1150 + p1.length + inner.length + M := by rw [List.length_append]; omega
  generalize o3 ++ s4 = o4 at *
  rw [ok.hist]
  dsimp only [Run.bind, Run.orUb]
  unfold putCoefs
  have k6 := K o4
  rcases putSection_run (cap := cap) (tag := 6) (k := base128Size (cap - o4.length)) (slack := 8) (fn := fun _ => .ok (packBits s.hist)) (out := o4)
    (p := packBits s.hist) (fun _ => rfl) F with ⟨s5, e5, l5⟩ | ⟨c5, e5⟩
  swap
  · rw [e5]; exact .inr ⟨by omega, rfl⟩
  rw [e5]
  dsimp only [Run.bind]
  have L5 : (o4 ++ s5).length ≤ 47150 + p1.length + inner.length + M := by rw [List.length_append]; omega
  generalize o4 ++ s5 = o5 at *
  have k7 := K o5
  rcases putSection_run (cap := cap) (tag := 7) (k := base128Size (cap - o5.length)) (slack := 0) (fn := fun _ => Run.orUb ((encodeWords
      (fun ctx => s.tabs.getD (s.coded.map.getD ctx 0) []) s.coded.dc).map wordBytes)) (out := o5)
    (p := wordBytes s.dcWords) (fun _ => by rw [ok.dcWords]; rfl) F with ⟨s6, e6, l6⟩ | ⟨c6, e6⟩
  swap
  · rw [e6]; exact .inr ⟨by omega, rfl⟩
  rw [e6]
  dsimp only [Run.bind]
  have L6 : (o5 ++ s6).length ≤ 47170 + p1.length + inner.length + M + 12 * jpg.blocks := by rw [List.length_append]; omega
  generalize o5 ++ s6 = o6 at *
  have k8 := K o6
  rcases putSection_run (cap := cap) (tag := 8) (k := base128Size (cap - o6.length)) (slack := 0) (fn := fun _ => Run.orUb ((encodeWords
      (fun ctx => s.tabs.getD (s.coded.map.getD ctx 0) []) s.coded.ac).map wordBytes)) (out := o6)
    (p := wordBytes s.acWords) (fun _ => by rw [ok.acWords]; rfl) F with ⟨s7, e7, l7⟩ | ⟨c7, e7⟩
  swap
  · rw [e7]; exact .inr ⟨by omega, rfl⟩
  rw [e7]
  exact .inl ⟨_, rfl⟩

end Brunsli
