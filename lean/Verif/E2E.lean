import Verif.JValid
import Verif.Codes
import Verif.PropsF
/-!
# From JPEG data to a Brunsli file and back
-/

namespace Brunsli

/-! ## Layout of the contexts -/

theorem metasFrom_length (o : Nat) (l : List (Nat × Nat × Nat)) : (metasFrom o l).length = l.length := by
  induction l generalizing o with
  | nil => rfl
  | cons x l ih => rw [metasFrom, List.length_cons, ih, List.length_cons]

theorem metasFrom_get (l : List (Nat × Nat × Nat)) : ∀ (o c : Nat), (metasFrom o l)[c]? = (l[c]?).map fun x =>
    ⟨x.1, x.2.1, o + ((l.take c).map fun x => kNumNonzeroContextSkip.getD x.2.2 0).sum, x.2.2⟩ := by
  induction l with
  | nil => intro o c; rfl
  | cons x l ih =>
    intro o c
    rw [metasFrom]
    cases c with
    | zero => simp
    | succ c =>
      rw [List.getElem?_cons_succ, ih, List.getElem?_cons_succ]
      simp [Nat.add_assoc]

/-- A list of components, with the resolutions of their contexts. -/
theorem metas_get {h : Header} {schemes : List Nat} (hl : schemes.length = h.comps.length) {c : Nat} (hc : c < h.comps.length) :
    (metas h schemes)[c]? = some ⟨h.mcuCols * (h.comps[c]).1, (h.comps[c]).2,
      h.comps.length + ((schemes.take c).map fun s => kNumNonzeroContextSkip.getD s 0).sum, schemes[c]⟩ := by
  unfold metas
  rw [metasFrom_get, List.getElem?_map, (List.getElem?_zip_eq_some (z := (h.comps[c], schemes[c]))).mpr ⟨List.getElem?_eq_getElem hc, List.getElem?_eq_getElem (by omega)⟩]
  simp only [Option.map_some, Option.some.injEq]
  congr 2
  rw [← List.map_take, List.map_map]
  have : ((h.comps.zip schemes).take c).map Prod.snd = schemes.take c := by
    rw [List.map_take, List.map_snd_zip (by omega)]
  rw [← this, List.map_map]
  rfl

theorem metas_length {h : Header} {schemes : List Nat} (hl : schemes.length = h.comps.length) : (metas h schemes).length = h.comps.length := by
  unfold metas
  rw [metasFrom_length, List.length_map, List.length_zip]
  omega

theorem metas_bits {h : Header} {schemes : List Nat} (hl : schemes.length = h.comps.length) : (metas h schemes).map Meta.ctxBits = schemes := by
  apply List.ext_getElem?
  intro c
  rw [List.getElem?_map]
  by_cases hc : c < h.comps.length
  · rw [metas_get hl hc, List.getElem?_eq_getElem (by omega)]
    rfl
  · rw [List.getElem?_eq_none (by rw [metas_length hl]; omega), List.getElem?_eq_none (by omega)]
    rfl

theorem metas_layout {h : Header} {schemes : List Nat} (hl : schemes.length = h.comps.length) (hs : ∀ s ∈ schemes, s < 7) :
    ContextLayout (metas h schemes) := by
  intro c hc
  have hc' : c < h.comps.length := by rwa [metas_length hl] at hc
  have e : (metas h schemes)[c] = _ := Option.some.inj ((List.getElem?_eq_getElem hc).symm.trans (metas_get hl hc'))
  rw [e]
  refine ⟨hs _ (List.getElem_mem _), ?_⟩
  show _ = (metas h schemes).length + _
  rw [metas_length hl]
  congr 1
  have : schemes.take c = ((metas h schemes).take c).map Meta.ctxBits := by rw [List.map_take, metas_bits hl]
  rw [this, List.map_map]
  rfl

theorem selectContextBits_lt (n : Nat) : selectContextBits n < 7 := by
  unfold selectContextBits
  rw [List.getD_eq_getElem?_getD]
  cases h : kContextBits[Nat.log2 n]? with
  | none => decide
  | some v =>
    have : ∀ v ∈ kContextBits, v < 7 := by decide
    exact this v (List.mem_of_getElem? h)

theorem schemes_lt (jpg : JpegData) : ∀ s ∈ jpg.schemes, s < 7 := by
  intro s hs
  obtain ⟨c, -, rfl⟩ := List.mem_map.mp hs
  exact selectContextBits_lt _

/-! ## The words depend only on the tables in use -/

theorem step_slots {d : DS} {op : Op} {c s : Nat} (h : some (Slot.sym c s) ∈ (d.step op).cw) : some (Slot.sym c s) ∈ d.cw ∨ op = .code c s := by
  cases op with
  | code ctx sym =>
    simp only [DS.step, List.mem_append, List.mem_singleton, Option.some.injEq, Slot.sym.injEq] at h
    rcases h with h | ⟨rfl, rfl⟩
    · exact .inl h
    · exact .inr rfl
  | bits n v =>
    simp only [DS.step] at h
    split at h
    · simp only [List.mem_append, List.mem_singleton, reduceCtorEq, or_false] at h
      rcases List.mem_or_eq_of_mem_set h with h | h
      · exact .inl h
      · cases h
    · exact .inl h
  | bit p b =>
    simp only [DS.step] at h
    split at h
    · simp only [List.mem_append, List.mem_singleton, reduceCtorEq, or_false] at h
      rcases List.mem_or_eq_of_mem_set h with h | h
      · exact .inl h
      · cases h
    · exact .inl h

theorem steps_slots (ops : List Op) : ∀ {d : DS} {c s : Nat}, some (Slot.sym c s) ∈ (ops.foldl DS.step d).cw → some (Slot.sym c s) ∈ d.cw ∨ .code c s ∈ ops := by
  induction ops with
  | nil => intro d c s h; exact .inl h
  | cons op ops ih =>
    intro d c s h
    rcases ih h with h | h
    · rcases step_slots h with h | rfl
      · exact .inl h
      · exact .inr (by simp)
    · exact .inr (List.mem_cons_of_mem _ h)

theorem flush_slots {ops : List Op} {c s : Nat} (h : some (Slot.sym c s) ∈ (ops.foldl DS.step DS.init).flush) : .code c s ∈ ops := by
  unfold DS.flush at h
  rcases List.mem_or_eq_of_mem_set h with h | h
  · rcases List.mem_or_eq_of_mem_set h with h | h
    · rcases List.mem_or_eq_of_mem_set h with h | h
      · rcases steps_slots ops h with h | h
        · exact absurd h (by simp [DS.init])
        · exact h
      · cases h
    · cases h
  · cases h

theorem allWritten_mem : ∀ {l : List (Option Slot)} {r : List Slot}, allWritten l = some r → ∀ x ∈ r, some x ∈ l := by
  intro l
  induction l with
  | nil => intro r h x hx; cases h; simp at hx
  | cons o l ih =>
    intro r h x hx
    cases o with
    | none => cases h
    | some s =>
      rw [allWritten] at h
      cases hr : allWritten l with
      | none => rw [hr] at h; cases h
      | some r' =>
        rw [hr] at h
        cases h
        rcases List.mem_cons.mp hx with rfl | hx
        · simp
        · exact List.mem_cons_of_mem _ (ih hr x hx)

theorem ansPass_congr {t1 t2 : Nat → List Nat} : ∀ {l : List Slot}, (∀ c s, Slot.sym c s ∈ l → t1 c = t2 c) → ansPass t1 l = ansPass t2 l := by
  intro l
  induction l with
  | nil => intro _; rfl
  | cons x l ih =>
    intro h
    have i := ih fun c s hm => h c s (List.mem_cons_of_mem _ hm)
    cases x with
    | word v => rw [ansPass, ansPass, i]
    | sym c s => rw [ansPass, ansPass, i, h c s List.mem_cons_self]

theorem encodeWords_congr {t1 t2 : Nat → List Nat} {ops : List Op} (h : ∀ c s, .code c s ∈ ops → t1 c = t2 c) : encodeWords t1 ops = encodeWords t2 ops := by
  unfold encodeWords
  cases ha : allWritten (ops.foldl DS.step DS.init).flush with
  | none => rfl
  | some slots =>
    simp only
    rw [ansPass_congr fun c s hm => h c s (flush_slots (allWritten_mem ha _ hm))]

/-! ## Sections of the buffer -/

theorem putSection_ok {cap tag k slack : Nat} {fn : Nat → Run (List Nat)} {out out' : List Nat} (h : putSection cap tag k slack fn out = .ok out') :
    ∃ p s, fn (cap - (out.length + 1 + k)) = .ok p ∧ encodeSection tag k (some p) = some s ∧ out' = out ++ s ∧ out.length + 1 + k + p.length + slack ≤ cap := by
  unfold putSection at h
  split at h
  · exact absurd h nofun
  cases hf : fn (cap - (out.length + 1 + k)) with
  | fail => rw [hf] at h; exact absurd h nofun
  | ub => rw [hf] at h; exact absurd h nofun
  | ok p =>
    rw [hf] at h
    dsimp only [Run.bind] at h
    split at h
    · exact absurd h nofun
    cases hs : encodeSection tag k (some p) with
    | none => rw [hs] at h; exact absurd h nofun
    | some s =>
      rw [hs] at h
      cases h
      exact ⟨p, s, rfl, hs, rfl, by omega⟩

theorem Run.bind_ok {α β : Type} {r : Run α} {f : α → Run β} {b : β} (h : r.bind f = .ok b) : ∃ a, r = .ok a ∧ f a = .ok b := by
  cases r with
  | ok a => exact ⟨a, rfl, h⟩
  | fail => cases h
  | ub => cases h

theorem Run.orFail_ok {α : Type} {o : Option α} {a : α} (h : Run.orFail o = .ok a) : o = some a := by
  cases o with
  | none => cases h
  | some b => cases h; rfl

theorem Run.orUb_ok {α : Type} {o : Option α} {a : α} (h : Run.orUb o = .ok a) : o = some a := by
  cases o with
  | none => cases h
  | some b => cases h; rfl

/-- What a run of the encoder consists of. -/
structure Parts (par : Codec) (jpg : JpegData) where
  quants : List (List Nat)
  flags : List (List Bool)
  dc : List Op
  ac : List Op
  map : List Nat
  clusters : List Cluster
  tabs : List (List Nat)
  hist : List Bool
  inner : List Nat
  room : Nat
  meta_ : List Nat
  quant : List Bool
  dcWords : List Nat
  acWords : List Nat
  k4 : Nat
  k3 : Nat
  k6 : Nat
  k7 : Nat
  k8 : Nat

/-- The sections after the header. -/
def Parts.sections {par : Codec} {jpg : JpegData} (x : Parts par jpg) : List (Nat × Nat × List Nat) :=
  [(4, x.k4, x.inner), (3, x.k3, x.meta_), (5, 2, packBits x.quant), (6, x.k6, packBits x.hist), (7, x.k7, wordBytes x.dcWords), (8, x.k8, wordBytes x.acWords)]

/-- The table of a context in the encoder. -/
def Parts.tab {par : Codec} {jpg : JpegData} (x : Parts par jpg) (ctx : Nat) : List Nat := x.tabs.getD (x.map.getD ctx 0) []

/-- How they hang together. -/
structure Parts.Ok {par : Codec} {jpg : JpegData} (x : Parts par jpg) (cap : Nat) (out : List Nat) : Prop where
  quants : jpg.quants = some x.quants
  predict : ((metas jpg.header jpg.schemes).zip (jpg.components.map Component.coeffs)).all
    (fun (m, img) => predictDCCoeffs img m.w (jpg.header.mcuRows * m.vs)) = true
  dc : encodeDC jpg.header.mcuRows (metas jpg.header jpg.schemes) (jpg.components.map Component.coeffs) = some (x.flags, x.dc)
  ac : encodeAC (contextCount (metas jpg.header jpg.schemes)) (legacyModel jpg.version) jpg.header.mcuRows (metas jpg.header jpg.schemes) jpg.orders x.quants
    (jpg.components.map Component.coeffs) x.flags = some ((), x.ac)
  cluster : par.cluster (0 :: (metas jpg.header jpg.schemes).map Meta.ctxOffset)
    (countSymbols (contextCount (metas jpg.header jpg.schemes)) (x.dc ++ x.ac)) = some (x.map, x.clusters)
  inner : encodeInternals (paddingBitsLimit jpg.width jpg.height jpg.components.length) jpg.internals = some x.inner
  meta_ : encodeMetadata (par.compress x.room) jpg.appData jpg.comData jpg.tailData = some x.meta_
  quant : encodeQuantTables (jpg.quant.map QuantTable.values) (jpg.components.map Component.quantIdx) = some x.quant
  hist : encodeHistogramData jpg.schemes x.map x.clusters = some (x.tabs, x.hist)
  dcWords : encodeWords x.tab x.dc = some x.dcWords
  acWords : encodeWords x.tab x.ac = some x.acWords
  k4 : x.k4 = base128Size (estimateAuxDataSize jpg)
  k3 : ∃ n ≤ cap, x.k3 = base128Size n
  k6 : ∃ n ≤ cap, x.k6 = base128Size n
  k7 : ∃ n ≤ cap, x.k7 = base128Size n
  k8 : ∃ n ≤ cap, x.k8 = base128Size n
  file : encodeFile jpg.header x.sections = some out
  fits : out.length ≤ cap

theorem encodeSection_length {tag k : Nat} {p s : List Nat} (h : encodeSection tag k (some p) = some s) : s.length = 1 + k + p.length := by
  unfold encodeSection at h
  dsimp only at h
  split at h
  · cases h
  · cases h
    simp [encodeBase128Fix_length]
    omega

/-- A successful run of the encoder. -/
theorem encodeJpeg_parts {par : Codec} {cap : Nat} {jpg : JpegData} {out : List Nat} (h : encodeJpeg par cap jpg = .ok out) :
    ∃ x : Parts par jpg, x.Ok cap out := by
  unfold encodeJpeg at h
  obtain ⟨c, hc, h⟩ := Run.bind_ok h
  unfold encodeCoefs at hc
  obtain ⟨quants, hq, hc⟩ := Run.bind_ok hc
  dsimp only at hc
  split at hc
  · exact absurd hc nofun
  rename_i hp
  obtain ⟨⟨flags, dc⟩, hdc, hc⟩ := Run.bind_ok hc
  obtain ⟨⟨⟨⟩, ac⟩, hac, hc⟩ := Run.bind_ok hc
  dsimp only at hac hc
  obtain ⟨r, hr, hc⟩ := Run.bind_ok hc
  injection hc with hc
  subst hc
  unfold brunsliSerialize at h
  split at h
  · exact absurd h nofun
  obtain ⟨o1, h1, h⟩ := Run.bind_ok h
  obtain ⟨o2, h2, h⟩ := Run.bind_ok h
  obtain ⟨o3, h3, h⟩ := Run.bind_ok h
  obtain ⟨o4, h4, h⟩ := Run.bind_ok h
  obtain ⟨⟨tabs, bits⟩, hh, h⟩ := Run.bind_ok h
  unfold putCoefs at h
  dsimp only at h
  obtain ⟨o5, h5, h⟩ := Run.bind_ok h
  obtain ⟨o6, h6, h⟩ := Run.bind_ok h
  obtain ⟨p1, s1, a1, b1, rfl, c1⟩ := putSection_ok h1
  obtain ⟨p2, s2, a2, b2, rfl, c2⟩ := putSection_ok h2
  obtain ⟨p3, s3, a3, b3, rfl, c3⟩ := putSection_ok h3
  obtain ⟨p4, s4, a4, b4, rfl, c4⟩ := putSection_ok h4
  obtain ⟨p5, s5, a5, b5, rfl, c5⟩ := putSection_ok h5
  obtain ⟨p6, s6, a6, b6, rfl, c6⟩ := putSection_ok h6
  obtain ⟨p7, s7, a7, b7, rfl, c7⟩ := putSection_ok h
  obtain ⟨qb, e4, rfl⟩ := Option.map_eq_some_iff.mp (Run.orFail_ok a4)
  obtain ⟨w6, e6, rfl⟩ := Option.map_eq_some_iff.mp (Run.orUb_ok a6)
  obtain ⟨w7, e7, rfl⟩ := Option.map_eq_some_iff.mp (Run.orUb_ok a7)
  injection a5 with a5
  subst a5
  refine ⟨⟨quants, flags, dc, ac, _, _, tabs, bits, p2, _, p3, qb, w6, w7, base128Size (estimateAuxDataSize jpg),
      base128Size (cap - (kBrunsliSignature ++ s1 ++ s2).length), base128Size (cap - (kBrunsliSignature ++ s1 ++ s2 ++ s3 ++ s4).length),
      base128Size (cap - (kBrunsliSignature ++ s1 ++ s2 ++ s3 ++ s4 ++ s5).length),
      base128Size (cap - (kBrunsliSignature ++ s1 ++ s2 ++ s3 ++ s4 ++ s5 ++ s6).length)⟩,
    { quants := Run.orFail_ok hq
      predict := by simpa using hp
      dc := Run.orUb_ok hdc
      ac := Run.orUb_ok hac
      cluster := Run.orUb_ok hr
      inner := Run.orFail_ok a2
      meta_ := Run.orFail_ok a3
      quant := e4
      hist := Run.orUb_ok hh
      dcWords := e6
      acWords := e7
      k4 := rfl
      k3 := ⟨_, Nat.sub_le _ _, rfl⟩
      k6 := ⟨_, Nat.sub_le _ _, rfl⟩
      k7 := ⟨_, Nat.sub_le _ _, rfl⟩
      k8 := ⟨_, Nat.sub_le _ _, rfl⟩
      file := ?_
      fits := ?_ }⟩
  · unfold encodeFile encodeHeaderSection
    rw [Run.orFail_ok a1, b1]
    simp only [Parts.sections, encodeSections, b2, b3, b4, b5, b6, b7, Option.map_some]
    simp only [List.append_assoc, List.append_nil]
  · have := encodeSection_length b7
    rw [List.length_append]
    omega

/-! ## What is assumed of Brotli and of the clustering of histograms -/

/-- Brotli is lossless. -/
def Codec.Lossless (par : Codec) : Prop := ∀ room data packed, par.compress room data = some packed →
  packed ≠ [] ∧ ∃ chunks, par.decompress packed = some chunks ∧ chunks.flatten = data

/-- The clustering of histograms of 18 symbols: 1 to 256 clusters, every context has one, and a symbol that occurs in a context occurs in
its cluster. -/
structure Clustering (histos : List (List Nat)) (r : List Nat × List Cluster) : Prop where
  pos : 1 ≤ r.2.length
  le : r.2.length ≤ 256
  length : r.1.length = histos.length
  index : ∀ i ∈ r.1, i < r.2.length
  ok : ∀ c ∈ r.2, c.Ok
  covers : ∀ c s i k, (histos.getD c []).getD s 0 ≠ 0 → r.1[c]? = some i → r.2[i]? = some k → k.histo.getD s 0 ≠ 0

/-- Clusterings meet their specification, for the numbers of contexts and symbols of images within the limits of the format. -/
def Codec.Clusters (par : Codec) : Prop := ∀ offsets histos, histos ≠ [] → (∀ h ∈ histos, h.length = 18) → OffsetsOk offsets histos.length →
  histos.length ≤ 14868 → grand histos ≤ 2 ^ 29 → ∀ r, par.cluster offsets histos = some r → Clustering histos r

/-- The clustering is defined for images with at most 100000000 symbols. -/
def Codec.Works (par : Codec) : Prop := ∀ offsets histos, histos ≠ [] → (∀ h ∈ histos, h.length = 18) → OffsetsOk offsets histos.length →
  histos.length ≤ 14868 → grand histos ≤ 100000000 → ∃ r, par.cluster offsets histos = some r

/-! ## What the decoder is to find -/

/-- The JPEG data without what is not stored: padding bits when all of them are ones. -/
def JpegData.stored (jpg : JpegData) : JpegData := { jpg with paddingBits := if jpg.hasZeroPaddingBit then jpg.paddingBits else [] }

theorem sum_map_le {α : Type} {f : α → Nat} {l : List α} {a : α} (h : a ∈ l) : f a ≤ (l.map f).sum := by
  induction l with
  | nil => cases h
  | cons b l ih =>
    rw [List.map_cons, List.sum_cons]
    rcases List.mem_cons.mp h with rfl | h
    · omega
    · have := ih h; omega

theorem JpegData.Valid.internals {jpg : JpegData} (hv : jpg.Valid) (hm : maxEncodedSize jpg < 2 ^ 63) {inner : List Nat}
    (h : encodeInternals (paddingBitsLimit jpg.width jpg.height jpg.components.length) jpg.internals = some inner) :
    jpg.internals.Ok (paddingBitsLimit jpg.width jpg.height jpg.components.length) := by
  have hpad : jpg.internals.padding.length ≤ paddingBitsLimit jpg.width jpg.height jpg.components.length := by
    unfold encodeInternals encInternalsBits at h
    by_cases hp : jpg.internals.padding.length > paddingBitsLimit jpg.width jpg.height jpg.components.length
    · rw [if_pos hp] at h
      split at h
      · exact absurd h (by simp)
      split at h
      · exact absurd h (by simp)
      split at h <;> exact absurd h (by simp)
    · omega
  have hn : jpg.components.length ≤ 4 := by have := hv.header.ncomp.2; simpa [JpegData.header] using this
  have hn1 : 1 ≤ jpg.components.length := by have := hv.header.ncomp.1; simpa [JpegData.header] using this
  have hw : jpg.width ≤ 65535 := hv.header.width.2
  have hh : jpg.height ≤ 65535 := hv.header.height.2
  have hlim : paddingBitsLimit jpg.width jpg.height jpg.components.length < 2 ^ 32 := by
    unfold paddingBitsLimit
    have a : (jpg.width + 15) / 8 ≤ 8193 := by omega
    have b : (jpg.height + 15) / 8 ≤ 8193 := by omega
    have : 7 * ((jpg.width + 15) / 8) * ((jpg.height + 15) / 8) * jpg.components.length ≤ 7 * 8193 * 8193 * 4 :=
      Nat.mul_le_mul (Nat.mul_le_mul (Nat.mul_le_mul_left 7 a) b) hn
    omega
  refine ⟨hv.markers, hv.restart, hv.huffman, hv.huffmanLast, hv.dht, hv.sos, hv.scans, ⟨?_, ?_, ?_⟩, ?_, ?_, ⟨hpad, by omega⟩, hv.interMarker, ?_⟩
  · show 1 ≤ (jpg.quant.map _).length
    rw [List.length_map]
    obtain ⟨c, hc⟩ := List.exists_mem_of_length_pos (l := jpg.components) (by omega)
    have := hv.quantIdx c hc
    omega
  · show (jpg.quant.map _).length ≤ 4
    rw [List.length_map]
    exact hv.quants
  · intro q hq
    obtain ⟨t, ht, rfl⟩ := List.mem_map.mp hq
    have := hv.quant t ht
    have h1 := this.index
    have h2 := this.precision
    exact ⟨show t.index < 4 by omega, h2⟩
  · intro q hq
    have e : jpg.internals.quant.getLast? = jpg.quant.getLast?.map fun q => (q.index, q.isLast, q.precision) := by
      show (jpg.quant.map _).getLast? = _
      rw [List.getLast?_map]
    rw [e] at hq
    obtain ⟨t, ht, rfl⟩ := Option.map_eq_some_iff.mp hq
    exact hv.quantLast t ht
  · intro i hi
    obtain ⟨c, hc, rfl⟩ := List.mem_map.mp hi
    exact hv.ids c hc
  · intro s hs
    have : 5 + s.length ≤ (jpg.interMarker.map fun s => 5 + s.length).sum := sum_map_le (f := fun s : List Nat => 5 + s.length) hs
    unfold maxEncodedSize estimateAuxDataSize at hm
    omega

theorem decComps_restore (h : Header) : ∀ cs : List Component, (∀ c ∈ cs, c.width = h.mcuCols * c.hSamp) → (∀ c ∈ cs, c.height = h.mcuRows * c.vSamp) →
    decComps h (cs.map fun c => (c.hSamp, c.vSamp)) (cs.map Component.id) (cs.map Component.quantIdx) (cs.map Component.coeffs) = cs := by
  intro cs
  induction cs with
  | nil => intro _ _; rfl
  | cons c cs ih =>
    intro h1 h2
    simp only [List.map_cons, decComps]
    rw [ih (fun c hc => h1 c (List.mem_cons_of_mem _ hc)) (fun c hc => h2 c (List.mem_cons_of_mem _ hc)), ← h1 c List.mem_cons_self, ← h2 c List.mem_cons_self]

theorem quant_restore : ∀ qs : List QuantTable, ((qs.map fun q => (q.index, q.isLast, q.precision)).zip (qs.map QuantTable.values)).map
    (fun (q, t) => (⟨t, q.2.2, q.1, q.2.1⟩ : QuantTable)) = qs := by
  intro qs
  induction qs with
  | nil => rfl
  | cons q qs ih =>
    simp only [List.map_cons, List.zip_cons_cons, ih]

theorem padding_restore {l : List Nat} (h : ∀ b ∈ l, b ≤ 1) : (l.map (· == 1)).map Bool.toNat = l := by
  rw [List.map_map]
  conv_rhs => rw [← List.map_id l]
  apply List.map_congr_left
  intro b hb
  have := h b hb
  rcases Nat.lt_or_ge b 1 with h | h
  · rw [show b = 0 by omega]; rfl
  · rw [show b = 1 by omega]; rfl

theorem result_restore {jpg : JpegData} (hv : jpg.Valid) (s : SectState) (h1 : s.header = jpg.header) (h2 : s.internals = some jpg.internals)
    (h3 : s.quant = some (jpg.quant.map QuantTable.values, jpg.components.map Component.quantIdx))
    (h4 : s.ac = some (jpg.components.map Component.coeffs)) (h5 : s.metadata.app = jpg.appData) (h6 : s.metadata.com = jpg.comData)
    (h7 : s.metadata.tail = jpg.tailData) : s.result = some jpg.stored := by
  unfold SectState.result
  rw [h2, h3, h4]
  simp only [h1, h5, h6, h7]
  have e1 := decComps_restore jpg.header jpg.components hv.width hv.height
  have e2 := quant_restore jpg.quant
  have e3 : (!jpg.internals.padding.isEmpty) = jpg.hasZeroPaddingBit := by
    unfold JpegData.internals
    dsimp only
    split
    · rename_i hz
      have := hv.zeroPad hz
      rw [hz]
      cases hp : jpg.paddingBits with
      | nil => exact absurd hp this
      | cons _ _ => rfl
    · rename_i hz
      simp only [List.isEmpty_nil, Bool.not_true]
      simpa using hz
  have e4 : jpg.internals.padding.map Bool.toNat = if jpg.hasZeroPaddingBit then jpg.paddingBits else [] := by
    unfold JpegData.internals
    dsimp only
    split
    · exact padding_restore hv.padBits
    · rfl
  rw [e3, e4]
  show some _ = some _
  congr 1
  unfold JpegData.stored
  congr 1

theorem base128Size_le9 {n : Nat} (h : n < 2 ^ 63) : base128Size n ≤ 9 := base128Size_le 8 n (by norm_num; omega)

theorem wordBytes_length (ws : List Nat) : (wordBytes ws).length = 2 * ws.length := by
  induction ws with
  | nil => rfl
  | cons w ws ih => rw [wordBytes, List.length_cons, List.length_cons, ih, List.length_cons]; omega

/-- The sections are in an order the decoder accepts. -/
theorem Parts.Ok.order {par : Codec} {jpg : JpegData} {x : Parts par jpg} {cap : Nat} {out : List Nat} (ok : x.Ok cap out) (hcap : cap < 2 ^ 63)
    (hm : maxEncodedSize jpg < 2 ^ 63) (hl : ∀ y ∈ x.sections, y.2.2.length < 2 ^ (7 * y.2.1)) : okOrder [9, 2, 1] (x.sections.map sectionItem) := by
  have hwf : ∀ y ∈ x.sections, 1 ≤ y.1 → y.1 ≤ 15 → 0 < y.2.1 → y.2.1 ≤ 9 → (sectionItem y).Wf := by
    intro y hy h1 h2 h3 h4
    exact ⟨h1, h2, _, decodeBase128_fix (hl y hy) h3 h4, rfl⟩
  have key : ∀ k : Nat, (∃ n ≤ cap, k = base128Size n) → 0 < k ∧ k ≤ 9 := by
    rintro k ⟨n, hn, rfl⟩
    exact ⟨base128Size_pos n, base128Size_le9 (by omega)⟩
  have k4 : 0 < x.k4 ∧ x.k4 ≤ 9 := by
    rw [ok.k4]
    exact ⟨base128Size_pos _, base128Size_le9 (by unfold maxEncodedSize at hm; omega)⟩
  have k3 := key _ ok.k3
  have k6 := key _ ok.k6
  have k7 := key _ ok.k7
  have k8 := key _ ok.k8
  have w4 := hwf (4, x.k4, x.inner) (by simp [Parts.sections]) (by simp) (by simp) k4.1 k4.2
  have w3 := hwf (3, x.k3, x.meta_) (by simp [Parts.sections]) (by simp) (by simp) k3.1 k3.2
  have w5 := hwf (5, 2, packBits x.quant) (by simp [Parts.sections]) (by simp) (by simp) (by simp) (by simp)
  have w6 := hwf (6, x.k6, packBits x.hist) (by simp [Parts.sections]) (by simp) (by simp) k6.1 k6.2
  have w7 := hwf (7, x.k7, wordBytes x.dcWords) (by simp [Parts.sections]) (by simp) (by simp) k7.1 k7.2
  have w8 := hwf (8, x.k8, wordBytes x.acWords) (by simp [Parts.sections]) (by simp) (by simp) k8.1 k8.2
  unfold Parts.sections
  simp only [List.map_cons, List.map_nil, okOrder, w4, w3, w5, w6, w7, w8, true_and]
  simp [sectionItem, requires, wordSection, wordBytes_length]

/-! ## Coefficients -/

/-- `C19_ac_roundtrip` with the ranges of contexts and symbols. -/
theorem coefs_roundtrip (legacy : Bool) (rows : Nat) (ms : List Meta) (orders quants : List (List Nat)) (imgs : List (List Int))
    (hlayout : ContextLayout ms) (hlo : orders.length = ms.length) (hlq : quants.length = ms.length) (hli : imgs.length = ms.length)
    (hp : ∀ (c : Nat) (m : Meta) (img : List Int), ms[c]? = some m → imgs[c]? = some img → PlaneOk rows m img)
    (hac : ∀ img ∈ imgs, ∀ i (h : i < img.length), i % 64 ≠ 0 → img[i].natAbs ≤ 2054)
    (ho : ∀ o ∈ orders, CoeffOrder o) (hq : ∀ q ∈ quants, QuantOk q) :
    ∃ flags dcOps acOps, encodeDC rows ms imgs = some (flags, dcOps) ∧
      encodeAC (contextCount ms) legacy rows ms orders quants imgs flags = some ((), acOps) ∧
      (∀ op ∈ dcOps ++ acOps, op.Fits (contextCount ms)) ∧
      ∀ tabs, Suits tabs (dcOps ++ acOps) → ∃ dcWords acWords dc,
        encodeWords tabs dcOps = some dcWords ∧ encodeWords tabs acOps = some acWords ∧
        decodeWords (fun c => ansMap (tabs c)) (decodeDC (contextCount ms) rows ms) (bytesWords (wordBytes dcWords)) = some dc ∧
        decodeWords (fun c => ansMap (tabs c)) (decodeAC (contextCount ms) legacy rows ms quants (dc.map Prod.fst) (dc.map Prod.snd))
          (bytesWords (wordBytes acWords)) = some imgs := by
  obtain ⟨fl, dcOps, res, e1, hr, hf1, hdcr⟩ := (dc_sim (contextCount_dc ms) hli hp).roundtrip
  obtain ⟨r1, r2, r3, r4⟩ := hr
  obtain ⟨_, acOps, res', e2, rfl, hf2, hacr⟩ := (ac_sim (rows := rows) (N := contextCount ms) (Nd := contextCount ms) (legacy := legacy) (orders := orders)
    (quants := quants) (flags := fl) (Nat.le_refl _) hlayout.metaOk hlo hlq hli r1 ho hq (fun c m img f hm hi hf => by
      obtain ⟨f1, f2⟩ := r4 c m img f hm hi hf
      refine ⟨(hp c m img hm hi).size, (hp c m img hm hi).range, fun i v hv h0 => ?_, f1, f2⟩
      obtain ⟨k1, rfl⟩ := List.getElem?_eq_some_iff.mp hv
      exact hac img (List.mem_of_getElem? hi) i k1 h0)).roundtrip
  refine ⟨fl, dcOps, acOps, e1, e2, ?_, fun tabs hs => ?_⟩
  · intro op hop
    rcases List.mem_append.mp hop with h | h
    · have := hf1 op h
      have hc := contextCount_dc ms
      cases op with
      | code c s => exact ⟨Nat.lt_of_lt_of_le this.1 hc, this.2⟩
      | bits n v => exact this
      | bit p b => exact this
    · exact hf2 op h
  · obtain ⟨ws1, w1, w2⟩ := hdcr tabs fun c s h => hs c s (List.mem_append_left _ h)
    obtain ⟨ws2, w3, w4⟩ := hacr tabs fun c s h => hs c s (List.mem_append_right _ h)
    refine ⟨ws1, ws2, res, w1, w3, w2, ?_⟩
    rw [r2, r3]
    exact w4

theorem countSymbols_ne {n : Nat} {ops : List Op} {c s : Nat} (hc : c < n) (hs : s < 18) (h : .code c s ∈ ops) :
    ((countSymbols n ops).getD c []).getD s 0 ≠ 0 := by
  unfold countSymbols
  have e : (ops.countP fun op => decide (op = .code c s)) ≠ 0 := by
    intro h0
    have := List.countP_eq_zero.mp h0 _ h
    simp at this
  simp only [List.getD_eq_getElem?_getD, List.getElem?_map, List.getElem?_range hc, Option.map_some, Option.getD_some, List.getElem?_range hs]
  exact e

theorem countSymbols_length (n : Nat) (ops : List Op) : (countSymbols n ops).length = n ∧ ∀ h ∈ countSymbols n ops, h.length = 18 := by
  unfold countSymbols
  refine ⟨by simp, fun h hh => ?_⟩
  obtain ⟨c, -, rfl⟩ := List.mem_map.mp hh
  simp

/-- The histogram of a context in the decoder. -/
def histTab (cm : List Nat) (hists : List (List Nat)) (c : Nat) : List Nat := ((cm[c]?).bind fun i => hists[i]?).getD []

theorem histTab_maps (cm : List Nat) (hists : List (List Nat)) : (fun c => ansMap (histTab cm hists c)) = histMaps cm hists := by
  funext c
  unfold histTab histMaps
  have h0 : ansMap [] = none := rfl
  cases h1 : cm[c]? with
  | none => exact h0
  | some i =>
    simp only [Option.bind_some]
    cases h2 : hists[i]? with
    | none => exact h0
    | some h => rfl

theorem mapM_map_some {α β : Type} {f : α → Option β} {g : α → β} {l : List α} (h : ∀ a ∈ l, f a = some (g a)) : l.mapM f = some (l.map g) := by
  induction l with
  | nil => rfl
  | cons a l ih =>
    rw [List.mapM_cons, h a List.mem_cons_self, ih fun b hb => h b (List.mem_cons_of_mem _ hb)]
    rfl

/-- The tables of the components, as the decoder looks them up. -/
theorem quants_eq {jpg : JpegData} (hv : jpg.Valid) : jpg.quants =
    some ((jpg.components.map Component.quantIdx).map fun i => (jpg.quant.map QuantTable.values).getD i []) := by
  unfold JpegData.quants
  rw [mapM_map_some (g := fun c => (jpg.quant.map QuantTable.values).getD c.quantIdx []), List.map_map]
  · rfl
  · intro c hc
    have := hv.quantIdx c hc
    rw [List.getD_eq_getElem?_getD, List.getElem?_map, List.getElem?_eq_getElem this]
    rfl

theorem kSkip_le (s : Nat) : kNumNonzeroContextSkip.getD s 0 ≤ 412 := by
  rw [List.getD_eq_getElem?_getD]
  cases h : kNumNonzeroContextSkip[s]? with
  | none => simp
  | some v =>
    have : ∀ v ∈ kNumNonzeroContextSkip, v ≤ 412 := by decide
    exact this v (List.mem_of_getElem? h)

theorem numContexts_le (l : List Nat) : numContexts l ≤ l.length * 413 := by
  unfold numContexts
  induction l with
  | nil => simp
  | cons s l ih => rw [List.map_cons, List.sum_cons, List.length_cons]; have := kSkip_le s; omega

/-- The contents of sections 6, 7 and 8 read back. -/
theorem Parts.Ok.coefs {par : Codec} {jpg : JpegData} {x : Parts par jpg} {cap : Nat} {out : List Nat} (ok : x.Ok cap out) (hv : jpg.Valid)
    (hcl : par.Clusters) : ∃ hists dc, decodeHistogramData jpg.components.length x.hist = some (some ⟨jpg.schemes, x.map, hists⟩, []) ∧
      decodeWords (histMaps x.map hists) (decodeDC (contextCount (metas jpg.header jpg.schemes)) jpg.header.mcuRows (metas jpg.header jpg.schemes))
        (bytesWords (wordBytes x.dcWords)) = some dc ∧
      decodeWords (histMaps x.map hists) (decodeAC (contextCount (metas jpg.header jpg.schemes)) (legacyModel jpg.version) jpg.header.mcuRows
        (metas jpg.header jpg.schemes) x.quants (dc.map Prod.fst) (dc.map Prod.snd)) (bytesWords (wordBytes x.acWords)) =
          some (jpg.components.map Component.coeffs) := by
  have hn : jpg.components.length ≤ 4 := by have := hv.header.ncomp.2; simpa [JpegData.header] using this
  have hn1 : 1 ≤ jpg.components.length := by have := hv.header.ncomp.1; simpa [JpegData.header] using this
  have hcomps : jpg.header.comps.length = jpg.components.length := by simp [JpegData.header]
  have hsl : jpg.schemes.length = jpg.header.comps.length := by rw [hcomps]; simp [JpegData.schemes]
  have hml := metas_length hsl
  obtain ⟨fl, dcOps, acOps, e1, e2, hfits, hall⟩ := coefs_roundtrip (legacyModel jpg.version) jpg.header.mcuRows (metas jpg.header jpg.schemes) jpg.orders
    x.quants (jpg.components.map Component.coeffs) (metas_layout hsl (schemes_lt jpg)) (by rw [hml, hcomps]; simp [JpegData.orders])
    (by
      have := quants_eq hv
      rw [ok.quants] at this
      rw [Option.some.inj this, hml, hcomps]
      simp)
    (by rw [hml, hcomps]; simp)
    (fun c m img hm hi => by
      have hc : c < jpg.header.comps.length := by
        rw [← hml]
        exact (List.getElem?_eq_some_iff.mp hm).1
      rw [List.getElem?_map] at hi
      obtain ⟨q, hq, rfl⟩ := Option.map_eq_some_iff.mp hi
      have hqm := List.mem_of_getElem? hq
      have hqe : jpg.header.comps[c] = (q.hSamp, q.vSamp) := by
        apply Option.some.inj
        rw [← List.getElem?_eq_getElem hc]
        show (jpg.components.map _)[c]? = _
        rw [List.getElem?_map, hq]
        rfl
      have hm' := metas_get hsl hc
      rw [hm] at hm'
      have hm'' := Option.some.inj hm'
      rw [hqe] at hm''
      have hw : m.w = jpg.header.mcuCols * q.hSamp := by rw [hm'']
      have hh : m.vs = q.vSamp := by rw [hm'']
      have hpred := List.all_eq_true.mp ok.predict (m, q.coeffs) (by
        apply List.mem_of_getElem? (i := c)
        rw [List.getElem?_zip_eq_some]
        exact ⟨hm, by rw [List.getElem?_map, hq]; rfl⟩)
      refine ⟨?_, hv.range q hqm, hpred⟩
      rw [hv.size q hqm, hv.width q hqm, hv.height q hqm, hw, hh])
    (by
      intro img himg i hi h0
      obtain ⟨q, hq, rfl⟩ := List.mem_map.mp himg
      have := hv.ac q hq i h0
      rw [List.getD_eq_getElem?_getD, List.getElem?_eq_getElem hi] at this
      simp only [Option.getD_some] at this
      omega)
    (by
      intro o hoo
      obtain ⟨q, -, rfl⟩ := List.mem_map.mp hoo
      exact computeCoeffOrder_ok _ (by simp [numZeros]))
    (by
      intro q hq
      have e := quants_eq hv
      rw [ok.quants] at e
      rw [Option.some.inj e] at hq
      obtain ⟨i, hi, rfl⟩ := List.mem_map.mp hq
      obtain ⟨c, hc, rfl⟩ := List.mem_map.mp hi
      have hlt := hv.quantIdx c hc
      rw [List.getD_eq_getElem?_getD, List.getElem?_map, List.getElem?_eq_getElem hlt]
      have := hv.quant _ (List.getElem_mem hlt)
      exact ⟨this.length, fun v hv => this.range v hv⟩)
  have q1 := ok.dc
  rw [e1] at q1
  obtain ⟨rfl, rfl⟩ := Prod.mk.inj (Option.some.inj q1)
  have q2 := ok.ac
  rw [e2] at q2
  obtain ⟨-, q3⟩ := Prod.mk.inj (Option.some.inj q2)
  rw [q3] at hfits hall
  have hgr := image_codes hv.header ok.dc ok.ac (contextCount (metas jpg.header jpg.schemes))
  have hoff := layout_offsets (metas_layout hsl (schemes_lt jpg))
  generalize hnc : contextCount (metas jpg.header jpg.schemes) = N at *
  have hN : numContexts jpg.schemes * kNumAvrgContexts = N := by rw [← hnc, contextCount, metas_bits hsl]
  have hN1 : 0 < N := by rw [← hN, numContexts, kNumAvrgContexts]; omega
  have hN3 : N ≤ 14868 := by
    rw [← hN, kNumAvrgContexts]
    have := numContexts_le jpg.schemes
    omega
  have hN2 : N < 2 ^ 31 := by omega
  have hcs := countSymbols_length N (x.dc ++ x.ac)
  have hr := hcl (0 :: (metas jpg.header jpg.schemes).map Meta.ctxOffset) (countSymbols N (x.dc ++ x.ac))
    (by intro h; rw [h] at hcs; simp at hcs; omega) hcs.2 (by rw [hcs.1]; exact hoff) (by rw [hcs.1]; exact hN3) hgr (x.map, x.clusters)
    (by rw [← hnc]; exact ok.cluster)
  have hmap : x.map.length = N := by rw [← hcs.1]; exact hr.length
  obtain ⟨tabs, bits, hists, h1, h2, h3, h4, h5⟩ := C14_section_roundtrip jpg.schemes x.map x.clusters (schemes_lt jpg) hr.pos hr.le hr.index
    (by rw [hmap, hN]) (by rw [hmap]; exact hN2) hr.ok
  have q4 := ok.hist
  rw [h1] at q4
  obtain ⟨rfl, rfl⟩ := Prod.mk.inj (Option.some.inj q4)
  -- the tables of the contexts in use
  have use : ∀ c s, Op.code c s ∈ x.dc ++ x.ac → (histTab x.map hists c).sum = 1024 ∧ 0 < (histTab x.map hists c).getD s 0 ∧ x.tab c = histTab x.map hists c := by
    intro c s hm
    obtain ⟨hc, hs⟩ := hfits _ hm
    have hcm : x.map[c]? = some x.map[c] := List.getElem?_eq_getElem (by omega)
    have hi : x.map[c] < x.clusters.length := hr.index _ (List.getElem_mem _)
    have hne := hr.covers c s _ _ (countSymbols_ne hc hs hm) hcm (List.getElem?_eq_getElem hi)
    obtain ⟨k1, k2, k3⟩ := h5 _ hi
    have ht : histTab x.map hists c = hists.getD x.map[c] [] := by
      unfold histTab
      rw [hcm, Option.bind_some, List.getD_eq_getElem?_getD]
    rw [ht]
    refine ⟨k1, k3 s hs hne, ?_⟩
    unfold Parts.tab
    rw [k2 ⟨s, hs, hne⟩, List.getD_eq_getElem?_getD (l := x.map), hcm]
    rfl
  obtain ⟨w1, w2, dc, v1, v2, v3, v4⟩ := hall (histTab x.map hists) fun c s hm => ⟨(use c s hm).1, (use c s hm).2.1⟩
  have c1 := ok.dcWords
  rw [encodeWords_congr fun c s hm => (use c s (List.mem_append_left _ hm)).2.2, v1] at c1
  have c2 := ok.acWords
  rw [encodeWords_congr fun c s hm => (use c s (List.mem_append_right _ hm)).2.2, v2] at c2
  rw [histTab_maps, Option.some.inj c1] at v3
  rw [histTab_maps, Option.some.inj c2] at v4
  refine ⟨hists, dc, ?_, v3, v4⟩
  rw [← h2, hsl, hcomps]

theorem padByte_mod (bs : List Bool) : (padByte bs).length % 8 = 0 := by
  unfold padByte
  simp only [List.length_append, List.length_replicate]
  omega

/-- The sections of the file made of the data of a JPEG file, and what is read from them; the metadata are not late. -/
theorem encodeJpeg_layout {par : Codec} (hl : par.Lossless) (hcl : par.Clusters) {cap : Nat} (hcap : cap < 2 ^ 63) {jpg : JpegData} (hv : jpg.Valid)
    (hm : maxEncodedSize jpg < 2 ^ 63) {out : List Nat} (h : encodeJpeg par cap jpg = .ok out) :
    ∃ sections s, encodeFile jpg.header sections = some out ∧ sections.length ≤ 15 ∧
      ((∀ x ∈ sections, x.2.2.length < 2 ^ (7 * x.2.1)) → okOrder [9, 2, 1] (sections.map sectionItem)) ∧
      (sections.map sectionItem).foldlM (Item.run (decBody par)) (SectState.init jpg.header) = some s ∧
      s.result = some jpg.stored ∧ s.header = jpg.header ∧ s.late = false := by
  obtain ⟨x, ok⟩ := encodeJpeg_parts h
  obtain ⟨hists, dc, d1, d2, d3⟩ := ok.coefs hv hcl
  have hcomps : jpg.header.comps.length = jpg.components.length := by simp [JpegData.header]
  obtain ⟨inner, i1, i2⟩ := internals_roundtrip (hv.internals hm ok.inner)
  rw [ok.inner] at i1
  cases i1
  have hids : jpg.internals.ids.length = jpg.components.length := by simp [JpegData.internals]
  rw [hids] at i2
  obtain ⟨st, m1, m2, m3, m4⟩ := C12_metadata_roundtrip (par.compress x.room) par.decompress (hl x.room) jpg.appData jpg.comData jpg.tailData x.meta_
    (fun s hs => by
      exact hv.app s hs)
    (fun s hs => by
      exact hv.com s hs)
    (by
      unfold maxEncodedSize at hm
      rw [List.length_flatten, List.length_flatten]
      omega) ok.meta_
  have q1 := C08_quant_roundtrip (jpg.quant.map QuantTable.values) (jpg.internals.quant.map fun q => q.2.2) (jpg.components.map Component.quantIdx) x.quant
    (by simp [JpegData.internals]) (fun t ht => by obtain ⟨q, hq, rfl⟩ := List.mem_map.mp ht; exact (hv.quant q hq).length)
    (fun t ht v hvv => by obtain ⟨q, hq, rfl⟩ := List.mem_map.mp ht; have := (hv.quant q hq).range v hvv; omega)
    (fun c h1 h2 h3 v hvv => by
      have hc : c < jpg.quant.length := by simpa using h1
      have := hv.quant _ (List.getElem_mem hc)
      simp only [JpegData.internals, List.getElem_map] at h3 hvv
      have := this.small h3 v hvv
      omega)
    (fun i hi => by obtain ⟨c, hc, rfl⟩ := List.mem_map.mp hi; simpa using hv.quantIdx c hc) ok.quant
  rw [List.length_map] at q1
  have hqp : x.quant.length % 8 = 0 := by
    have := ok.quant
    unfold encodeQuantTables at this
    split at this
    · exact absurd this nofun
    · obtain ⟨t, -, e⟩ := Option.map_eq_some_iff.mp this
      rw [← e]
      exact padByte_mod _
  have hhp : x.hist.length % 8 = 0 := by
    have := ok.hist
    unfold encodeHistogramData at this
    split at this
    · rw [← (Prod.mk.inj (Option.some.inj this)).2]
      exact padByte_mod _
    · exact absurd this nofun
  have hquants : x.quants = (jpg.components.map Component.quantIdx).map fun i => (jpg.quant.map QuantTable.values).getD i [] := by
    have := quants_eq hv
    rw [ok.quants] at this
    exact Option.some.inj this
  rw [hquants] at d3
  have key : (x.sections.map sectionItem).foldlM (Item.run (decBody par)) (SectState.init jpg.header) =
      some ⟨jpg.header, some jpg.internals, st, some (jpg.quant.map QuantTable.values, jpg.components.map Component.quantIdx),
        some ⟨jpg.schemes, x.map, hists⟩, some dc, some (jpg.components.map Component.coeffs), false⟩ := (by
      have s4 : ∀ s : SectState, s.header = jpg.header → decBody par s 4 x.inner = some { s with internals := some jpg.internals } := by
        intro s hs
        unfold decBody
        rw [if_neg (by decide), if_pos rfl, hs, hcomps]
        show Option.map _ (decodeInternals (paddingBitsLimit jpg.width jpg.height _) _ _) = _
        rw [i2]
        rfl
      have s3 : ∀ s : SectState, decBody par s 3 x.meta_ = some { s with metadata := st, late := s.dc.isSome } := by
        intro s
        unfold decBody
        rw [if_pos rfl, m1]
        rfl
      have s5 : ∀ s : SectState, s.header = jpg.header → s.internals = some jpg.internals → decBody par s 5 (packBits x.quant) =
          some { s with quant := some (jpg.quant.map QuantTable.values, jpg.components.map Component.quantIdx) } := by
        intro s hs h2
        unfold decBody
        rw [if_neg (by decide), if_neg (by decide), if_pos rfl, h2, hs, hcomps]
        dsimp only
        rw [bytesBits_packBits hqp, q1]
      have s6 : ∀ s : SectState, s.header = jpg.header → decBody par s 6 (packBits x.hist) = some { s with hist := some ⟨jpg.schemes, x.map, hists⟩ } := by
        intro s hs
        unfold decBody
        rw [if_neg (by decide), if_neg (by decide), if_neg (by decide), if_pos rfl, hs, hcomps, bytesBits_packBits hhp, d1]
      have s7 : ∀ s : SectState, s.header = jpg.header → s.hist = some ⟨jpg.schemes, x.map, hists⟩ →
          decBody par s 7 (wordBytes x.dcWords) = some { s with dc := some dc } := by
        intro s hs h2
        unfold decBody
        rw [if_neg (by decide), if_neg (by decide), if_neg (by decide), if_neg (by decide), if_pos rfl, h2, hs]
        dsimp only
        rw [d2]
        rfl
      have s8 : ∀ s : SectState, s.header = jpg.header → s.hist = some ⟨jpg.schemes, x.map, hists⟩ →
          s.quant = some (jpg.quant.map QuantTable.values, jpg.components.map Component.quantIdx) → s.dc = some dc →
          decBody par s 8 (wordBytes x.acWords) = some { s with ac := some (jpg.components.map Component.coeffs) } := by
        intro s hs h2 h3 h4
        unfold decBody
        rw [if_neg (by decide), if_neg (by decide), if_neg (by decide), if_neg (by decide), if_neg (by decide), if_pos rfl, h2, h3, h4, hs]
        dsimp only
        rw [show jpg.header.version = jpg.version from rfl, d3]
        rfl
      unfold Parts.sections
      simp only [List.map_cons, List.map_nil, List.foldlM_cons, List.foldlM_nil, Item.run, sectionItem, true_and,
        show (4 : Nat) ≤ 9 by decide, show (3 : Nat) ≤ 9 by decide, show (5 : Nat) ≤ 9 by decide, show (6 : Nat) ≤ 9 by decide,
        show (7 : Nat) ≤ 9 by decide, show (8 : Nat) ≤ 9 by decide, if_true, bind, Option.bind]
      rw [s4 _ rfl]
      simp only
      rw [s3]
      simp only
      rw [s5 _ rfl rfl]
      simp only
      rw [s6 _ rfl]
      simp only
      rw [s7 _ rfl rfl]
      simp only
      rw [s8 _ rfl rfl rfl rfl]
      rfl)
  exact ⟨_, _, ok.file, by simp [Parts.sections], ok.order hcap hm, key, result_restore hv _ rfl rfl rfl rfl m2 m3 m4, rfl, rfl⟩

/-- What is read from the file made of the data of a JPEG file; the metadata are not late. -/
theorem decodeFile_encodeJpeg {par : Codec} (hl : par.Lossless) (hcl : par.Clusters) {cap : Nat} (hcap : cap < 2 ^ 63) {jpg : JpegData} (hv : jpg.Valid)
    (hm : maxEncodedSize jpg < 2 ^ 63) {out : List Nat} (h : encodeJpeg par cap jpg = .ok out) :
    ∃ s, decodeFile (fun h => some (SectState.init h)) (decBody par) out = .ok (.image s) [] ∧ s.result = some jpg.stored ∧ s.header = jpg.header ∧ s.late = false := by
  obtain ⟨sections, s, h1, h2, h3, h4, h5⟩ := encodeJpeg_layout hl hcl hcap hv hm h
  exact ⟨s, decodeFile_encoded hv.header h1 h2 h3 rfl h4, h5⟩

/-- **The decoder inverts the encoder** on the data of a JPEG file. -/
theorem decodeJpeg_encodeJpeg {par : Codec} (hl : par.Lossless) (hcl : par.Clusters) {cap : Nat} (hcap : cap < 2 ^ 63) {jpg : JpegData} (hv : jpg.Valid)
    (hm : maxEncodedSize jpg < 2 ^ 63) {out : List Nat} (h : encodeJpeg par cap jpg = .ok out) : decodeJpeg par out = some jpg.stored := by
  obtain ⟨s, h1, h2, _⟩ := decodeFile_encodeJpeg hl hcl hcap hv hm h
  unfold decodeJpeg
  rw [h1]
  exact h2

/-! ## From file to file -/

theorem writeMarker_stored (jpg : JpegData) (ws : WJ) (m : Nat) : writeMarker jpg.stored ws m = writeMarker jpg ws m := rfl

theorem writeMarkers_stored (jpg : JpegData) : ∀ (ms : List Nat) (ws : WJ), writeMarkers jpg.stored ms ws = writeMarkers jpg ms ws := by
  intro ms
  induction ms with
  | nil => intro ws; rfl
  | cons m ms ih => intro ws; simp only [writeMarkers, writeMarker_stored, ih]

theorem prepared_stored (jpg : JpegData) (ws : WJ) : ws.prepared jpg.stored = ws.prepared jpg := by
  unfold WJ.prepared JpegData.stored
  simp only
  split <;> rfl

theorem writeJpeg_stored (T : HSlot → CodeTable) (jpg : JpegData) : writeJpeg T jpg.stored = writeJpeg T jpg := by
  unfold writeJpeg
  rw [prepared_stored, writeMarkers_stored]
  rfl

/-- What the encoder makes of a file, the decoder turns back into data from which the file is written. -/
theorem decodeJpeg_encodeData {par : Codec} (hl : par.Lossless) (hcl : par.Clusters) {data out : List Nat} (hd : Bytes data)
    (h : encodeData par data = .ok out) : ∃ jpg, decodeJpeg par out = some jpg ∧ ∀ T, ∃ chunks, writeJpeg T jpg = .ok chunks ∧ chunks.flatten = data := by
  unfold encodeData at h
  obtain ⟨jpg, hr, h⟩ := Run.bind_ok h
  split at h
  · exact absurd h nofun
  rename_i hm
  refine ⟨jpg.stored, decodeJpeg_encodeJpeg hl hcl (by omega) (readJpeg_valid hd hr) (by omega) h, fun T => ?_⟩
  rw [writeJpeg_stored]
  exact readJpeg_writeJpeg hd hr T

/-- What is read from the file made of a JPEG file. -/
theorem decodeFile_encodeData {par : Codec} (hl : par.Lossless) (hcl : par.Clusters) {data out : List Nat} (hd : Bytes data) (h : encodeData par data = .ok out) :
    ∃ s jpg, decodeFile (fun h => some (SectState.init h)) (decBody par) out = .ok (.image s) [] ∧ s.result = some jpg ∧
      jpg.components.length = s.header.comps.length ∧ s.late = false ∧ ∀ T, ∃ chunks, writeJpeg T jpg = .ok chunks ∧ chunks.flatten = data := by
  unfold encodeData at h
  obtain ⟨jpg, hr, h⟩ := Run.bind_ok h
  split at h
  · exact absurd h nofun
  rename_i hm
  obtain ⟨s, h1, h2, h3, h4⟩ := decodeFile_encodeJpeg hl hcl (by omega) (readJpeg_valid hd hr) (by omega) h
  refine ⟨s, jpg.stored, h1, h2, ?_, h4, fun T => ?_⟩
  · rw [h3]; simp [JpegData.stored, JpegData.header]
  · rw [writeJpeg_stored]
    exact readJpeg_writeJpeg hd hr T

end Brunsli
