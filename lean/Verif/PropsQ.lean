import Verif.ClusterTotal
import Verif.PropsP
/-!
# C43: histograms can always be normalised, C44: clustering of histograms; C37, C41 and C42 with the clustering of the code

Floating point is arithmetic on rational numbers followed by a rounding with a bounded relative error (`Arith.Ok`; `nearest_ok` for rounding
to nearest in 24 and 53 bits), `FastLog2` an approximation of the logarithm (`LogOk`).
-/

namespace Brunsli

/-! ## C43 -/

/-- **C43**: `NormalizeCounts` never aborts, whatever the counts and however floating point rounds; the result is positive where a symbol
occurs, zero elsewhere, and adds up to 1024 unless there is no symbol at all. -/
theorem C43_normalise (F : Arith) (hF : F.Ok) (histo : List Nat) (hl : histo.length = 18) :
    ∃ counts om, normalizeFloat F histo = some (counts, om) ∧ counts.length = 18 ∧ (∀ i, counts.getD i 0 ≠ 0 ↔ histo.getD i 0 ≠ 0) ∧
      ((∃ i, histo.getD i 0 ≠ 0) → counts.sum = 1024) := by
  have ok := floatCluster_ok hF hl
  obtain ⟨⟨counts, om⟩, hn⟩ := Option.isSome_iff_exists.mp ok.norm
  have hn' : normalizeFloat F histo = some (counts, om) := hn
  obtain ⟨bits, -, -, k1, k2, k3⟩ := cluster_reads ok.length ok.first ok.second hn
  have hout : ∀ {l : List Nat}, l.length = 18 → ∀ i, ¬ i < 18 → l.getD i 0 = 0 := by
    intro l hl i hi
    rw [List.getD_eq_getElem?_getD, List.getElem?_eq_none (by omega)]; rfl
  refine ⟨counts, om, hn', ?_⟩
  rw [show (floatCluster F histo).histo = histo from rfl] at *
  have ho := ok.first
  have h2 := ok.second
  rw [show (floatCluster F histo).histo = histo from rfl] at ho h2
  unfold decodedCounts at k1 k2
  unfold normalizeCounts at hn
  have hmem : ∀ s, s ∈ occurring histo ↔ s < 18 ∧ histo.getD s 0 ≠ 0 := by intro s; rw [mem_occurring, hl]
  rcases ho' : occurring histo with _ | ⟨a, _ | ⟨b, t⟩⟩
  · rw [ho'] at hn hmem
    obtain ⟨rfl, rfl⟩ := Prod.mk.inj (Option.some.inj hn)
    refine ⟨hl, fun i => Iff.rfl, fun ⟨i, hi⟩ => ?_⟩
    by_cases h : i < 18
    · exact absurd ((hmem i).mpr ⟨h, hi⟩) (by simp)
    · exact absurd (hout hl i h) hi
  · rw [if_neg (by rw [ho']; simp)] at k1 k2
    rw [ho'] at hn hmem
    obtain ⟨rfl, rfl⟩ := Prod.mk.inj (Option.some.inj hn)
    have ha := (hmem a).mp (by simp)
    refine ⟨k1, fun i => ?_, fun _ => k2⟩
    rw [getD_set (by omega)]
    split
    · rename_i h; subst h; exact ⟨fun _ => ha.2, fun _ => by decide⟩
    · rfl
  · rw [if_neg (by rw [ho']; simp)] at k1 k2
    rw [ho'] at hn hmem
    have ha := (hmem a).mp (by simp)
    have step : ∀ ts, TargetsFor histo ts → rebalance ts = some (counts, om) → ∀ i < 18, counts.getD i 0 ≠ 0 ↔ histo.getD i 0 ≠ 0 := by
      intro ts hts hr i hi
      obtain ⟨t0, ht0⟩ := (hts.2.2 a ha.1).mp ha.2
      exact ((rebalance_ok hts.1 hts.2.1 ⟨t0, List.mem_of_getElem? ht0⟩ hr).2 i hi).trans (hts.2.2 i hi).symm
    refine ⟨k1, fun i => ?_, fun _ => k2⟩
    by_cases hi : i < 18
    · have hn : (match rebalance (floatCluster F histo).first with | some r => some r | none => rebalance (floatCluster F histo).second) = some (counts, om) := hn
      cases hr1 : rebalance (floatCluster F histo).first with
      | some r => rw [hr1] at hn; exact step _ ho (hr1.trans hn) i hi
      | none => rw [hr1] at hn; exact step _ h2 hn i hi
    · rw [hout k1 i hi, hout hl i hi]

/-- Arithmetic in 24 and 53 bits, a histogram that the first attempt of `NormalizeCounts` handles. -/
example : ∃ counts om, normalizeFloat nearest ([1000000, 3, 0, 1] ++ List.replicate 14 0) = some (counts, om) ∧ counts.sum = 1024 := by
  obtain ⟨counts, om, h1, -, -, h4⟩ := C43_normalise nearest nearest_ok ([1000000, 3, 0, 1] ++ List.replicate 14 0) (by decide)
  exact ⟨counts, om, h1, h4 ⟨0, by decide⟩⟩

/-! ## C44 -/

/-- `FastLog2` is at least the integer part of the logarithm, and can be just that. -/
theorem log2_ok : LogOk fun v => (Nat.log2 v : ℚ) where
  zero := by simp
  pos v _ := ⟨le_refl _, by linarith⟩
  exact := by
    have : Nat.log2 1024 = 10 := by decide +kernel
    show ((Nat.log2 1024 : Nat) : ℚ) = 10
    rw [this]; norm_num

/-- **C44** for at most 100000000 symbols: `ClusterHistograms` ends without leaving its arrays and without an overflow; every context has a
cluster, there are at most 256, none is unused, and the counts of a cluster are the sums over the contexts that have it. -/
theorem C44_clusters_partial (F : Arith) (hF : F.Ok) (L : Nat → ℚ) (hL : LogOk L) (offsets : List Nat) (histos : List (List Nat))
    (h18 : ∀ h ∈ histos, h.length = 18) (ho : OffsetsOk offsets histos.length) (hn : histos.length ≤ 14868) (hB : grand histos ≤ 100000000) :
    ∃ map hists, clusterHistograms (realCosts F L) offsets histos = some (map, hists) ∧ map.length = histos.length ∧ hists.length ≤ 256 ∧
      (∀ j, j ∈ map ↔ j < hists.length) ∧ (∀ h ∈ hists, h.length = 18) ∧ ∀ j h, hists[j]? = some h → ∀ x, h.getD x 0 = total map histos j x :=
  clusterHistograms_spec (realCosts_ok hF hL hB (by omega)) h18 ho

/-- C44 without a bound on the number of symbols: the same, unless there is an overflow. -/
theorem C44_clusters_any_partial (F : Arith) (hF : F.Ok) (L : Nat → ℚ) (hL : LogOk L) (offsets : List Nat) (histos : List (List Nat))
    (h18 : ∀ h ∈ histos, h.length = 18) (ho : OffsetsOk offsets histos.length) (hn : histos.length ≤ 14868) (map : List Nat) (hists : List (List Nat))
    (h : clusterHistograms (realCosts F L) offsets histos = some (map, hists)) :
    map.length = histos.length ∧ hists.length ≤ 256 ∧ (∀ j, j ∈ map ↔ j < hists.length) ∧ (∀ h ∈ hists, h.length = 18) ∧
      ∀ j h, hists[j]? = some h → ∀ x, h.getD x 0 = total map histos j x :=
  clusterHistograms_sound hF hL h18 ho hn h

/-- `PopulationCost` is defined for at most 200000000 symbols, and its result is in the range of `int`. -/
theorem C44_cost_partial (F : Arith) (hF : F.Ok) (L : Nat → ℚ) (hL : LogOk L) (h : List Nat) (hl : h.length = 18) (hs : h.sum ≤ 200000000) :
    ∃ c, popCost F L h = some c ∧ -2 ^ 31 ≤ c ∧ c < 2 ^ 31 := by
  obtain ⟨c, hc⟩ := popCost_some hF hL hl hs
  exact ⟨c, hc, popCost_range hc⟩

/-- C44 is false: whatever the floating point arithmetic, `PopulationCost` overflows for 214748365 symbols, and so does the clustering of any
histograms one of which has that many. -/
theorem C44_overflow_false (F : Arith) (L : Nat → ℚ) :
    (∀ h : List Nat, 214748365 ≤ h.sum → popCost F L h = none) ∧
      ∀ offsets histos, (∃ h ∈ histos, 214748365 ≤ h.sum) → clusterHistograms (realCosts F L) offsets histos = none := by
  refine ⟨fun h hs => popCost_none F L hs, fun offsets histos ⟨h, hh, hs⟩ => ?_⟩
  unfold clusterHistograms
  rw [if_pos]
  intro hall
  have := List.all_eq_true.mp hall h hh
  have hd : (popCost F L h).isSome = true := this
  rw [popCost_none F L hs] at hd
  cases hd

/-- Two groups of contexts. -/
example : ∃ map hists, clusterHistograms (realCosts nearest fun v => (Nat.log2 v : ℚ)) [0, 1] (List.replicate 18 ([5, 7, 0, 1] ++ List.replicate 14 0)) = some (map, hists) ∧
    map.length = 18 := by
  obtain ⟨map, hists, h1, h2, -⟩ := C44_clusters_partial nearest nearest_ok _ log2_ok [0, 1] (List.replicate 18 ([5, 7, 0, 1] ++ List.replicate 14 0)) (by decide)
    ⟨by simp, by decide, by decide, by decide⟩ (by decide) (by decide)
  exact ⟨map, hists, h1, h2⟩

/-! ## The whole encoder with the clustering of the code -/

/-- Only Brotli remains a parameter. -/
def realCodec (F : Arith) (L : Nat → ℚ) (compress : Nat → List Nat → Option (List Nat)) (decompress : List Nat → Option (List (List Nat))) : Codec :=
  ⟨compress, decompress, realCluster F L⟩

theorem realCodec_clusters {F : Arith} (hF : F.Ok) {L : Nat → ℚ} (hL : LogOk L) (c d) : (realCodec F L c d).Clusters :=
  fun _ _ hne h18 ho hn _ _ h => realCluster_sound hF hL hne h18 ho hn h

theorem realCodec_works {F : Arith} (hF : F.Ok) {L : Nat → ℚ} (hL : LogOk L) (c d) : (realCodec F L c d).Works :=
  fun _ _ _ h18 ho hn hB => realCluster_some hF hL h18 ho hn hB

/-- **C37** with the clustering of the code, whatever the size of the image: if the encoder accepts a file, decoding gives it back.
Assumed: Brotli is lossless, floating point rounds with a small relative error, `FastLog2` has the right integer part. -/
theorem C37_real (F : Arith) (hF : F.Ok) (L : Nat → ℚ) (hL : LogOk L) (compress : Nat → List Nat → Option (List Nat)) (decompress : List Nat → Option (List (List Nat)))
    (hbrotli : ∀ room data packed, compress room data = some packed → packed ≠ [] ∧ ∃ chunks, decompress packed = some chunks ∧ chunks.flatten = data)
    (data out : List Nat) (hd : Bytes data) (h : encodeData (realCodec F L compress decompress) data = .ok out) :
    ∃ jpg, decodeJpeg (realCodec F L compress decompress) out = some jpg ∧ ∀ T, ∃ chunks, writeJpeg T jpg = .ok chunks ∧ chunks.flatten = data :=
  C37_end_to_end (realCodec F L compress decompress) hbrotli (realCodec_clusters hF hL _ _) data out hd h

/-- The clustering of the code with the plain storage of metadata. -/
def sampleCodec : Codec := realCodec nearest (fun v => (Nat.log2 v : ℚ)) plainCodec.compress plainCodec.decompress

theorem sampleCodec_bounded : sampleCodec.Bounded (· + 1) := plainCodec_bounded

/-- The sample file is accepted, and so the hypotheses are met. -/
example : ∃ out, encodeData sampleCodec sampleProgressive = .ok out ∧
    ∃ jpg, decodeJpeg sampleCodec out = some jpg ∧ ∀ T, ∃ chunks, writeJpeg T jpg = .ok chunks ∧ chunks.flatten = sampleProgressive := by
  have hb : Bytes sampleProgressive := bytes_of_all (by decide +kernel)
  obtain ⟨jpg, m, h1, h2, h3⟩ := smallFile_acceptable hb (show smallFile sampleProgressive = true by decide +kernel)
  obtain ⟨out, ho, -⟩ := C41_small_images_partial sampleCodec (realCodec_clusters nearest_ok log2_ok _ _) (realCodec_works nearest_ok log2_ok _ _) _ sampleCodec_bounded
    sampleProgressive jpg m h1 h2 (by have := h2.size; unfold JpegData.room at h3; omega) h3
  exact ⟨out, ho, C37_real nearest nearest_ok _ log2_ok _ _ plainCodec_lossless _ _ hb ho⟩

/-- C41 is false of the encoder with the clustering of the code. -/
theorem C41_real_false (F : Arith) (hF : F.Ok) (L : Nat → ℚ) (hL : LogOk L) (compress : Nat → List Nat → Option (List Nat)) (decompress : List Nat → Option (List (List Nat)))
    (hbrotli : ∀ room data packed, compress room data = some packed → packed ≠ [] ∧ ∃ chunks, decompress packed = some chunks ∧ chunks.flatten = data) :
    ∃ data, Bytes data ∧ (∃ jpg, readJpeg data = .ok jpg) ∧ encodeData (realCodec F L compress decompress) data = .ub :=
  C41_overrun_false (realCodec F L compress decompress) hbrotli (realCodec_clusters hF hL _ _) (realCodec_works hF hL _ _)

end Brunsli
