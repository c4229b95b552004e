import Verif.Acceptance
import Verif.PropsN
import Verif.PropsC
/-!
# C37: a file that goes through, C41 and C42: what the encoder accepts and how much room it needs
-/

namespace Brunsli

/-! ## A codec -/

/-- All symbols equally frequent. -/
def flatCluster : Cluster := ⟨List.replicate 18 1, List.replicate 18 (some ⟨57, false⟩), List.replicate 18 (some ⟨57, false⟩)⟩

theorem flatCluster_ok : flatCluster.Ok := ⟨by decide, targetsFor_iff (by decide +kernel), targetsFor_iff (by decide +kernel), by decide +kernel⟩

/-- Metadata is stored after a byte; all contexts share one histogram. -/
def plainCodec : Codec where
  compress := fun room data => if data.length + 1 ≤ room then some (1 :: data) else none
  decompress := fun packed => some [packed.drop 1]
  cluster := fun _ histos => some (List.replicate histos.length 0, [flatCluster])

theorem plainCodec_lossless : plainCodec.Lossless := by
  intro room data packed h
  simp only [plainCodec] at h
  split at h
  · cases h
    exact ⟨by simp, [data], rfl, by simp⟩
  · cases h

theorem plainCodec_bounded : plainCodec.Bounded (· + 1) := fun room data h => ⟨1 :: data, by simp only [plainCodec]; rw [if_pos h], by simp⟩

theorem plainCodec_clusters : plainCodec.Clusters := by
  intro offsets histos hne h _ _ _ r hr
  cases hr
  refine ⟨by simp, by simp, by simp, ?_, ?_, ?_⟩
  · intro i hi
    have := (List.mem_replicate.mp hi).2
    simp [this]
  · intro c hc
    have : c = flatCluster := by simpa using hc
    rw [this]; exact flatCluster_ok
  · intro c s i k hs hc hk
    obtain ⟨hl, e⟩ := List.getElem?_eq_some_iff.mp hc
    have hi : i = 0 := by
      have := List.getElem_mem hl
      rw [e] at this
      exact (List.mem_replicate.mp this).2
    subst hi
    have : k = flatCluster := by simpa [plainCodec] using hk.symm
    subst this
    have h18 : s < 18 := by
      by_contra hge
      apply hs
      have : (histos.getD c []).length ≤ 18 := by
        rw [List.getD_eq_getElem?_getD]
        cases hx : histos[c]? with
        | none => simp
        | some x => simp [h x (List.mem_of_getElem? hx)]
      rw [List.getD_eq_getElem?_getD, List.getElem?_eq_none (by omega)]; rfl
    revert h18
    revert s
    intro s _ h18
    have : ∀ s < 18, flatCluster.histo.getD s 0 ≠ 0 := by decide
    exact this s h18

theorem plainCodec_works : plainCodec.Works := fun _ _ _ _ _ _ _ => ⟨_, rfl⟩

/-- What makes the data of a small file acceptable, apart from its validity. -/
def smallJpeg (jpg : JpegData) : Bool :=
  decide (∀ c ∈ jpg.components, predictDCCoeffs c.coeffs c.width c.height = true) &&
  decide (jpg.hasZeroPaddingBit = true → jpg.paddingBits.length ≤ paddingBitsLimit jpg.width jpg.height jpg.components.length) &&
  (match joinMetadata jpg.appData jpg.comData jpg.tailData with | some m => decide (m.length < 1000) | none => false) &&
  decide (∀ s ∈ jpg.interMarker, s.length < 1000) &&
  decide (128 ≤ estimateAuxDataSize jpg) &&
  decide (estimateAuxDataSize jpg + 132 * jpg.huffman.length + jpg.runCount / 4 < 16384) &&
  decide (jpg.room 1010 ≤ maxEncodedSize jpg) && decide (maxEncodedSize jpg < 2 ^ 63) && decide (64 * jpg.blocks ≤ 100000000)

theorem smallJpeg_accepted {par : Codec} (hcl : par.Clusters) (hw : par.Works) (hk : par.Bounded (· + 1)) {data : List Nat} (hd : Bytes data) {jpg : JpegData} (h : readJpeg data = .ok jpg)
    (hs : smallJpeg jpg = true) : ∃ out, encodeData par data = .ok out := by
  simp only [smallJpeg, Bool.and_eq_true, decide_eq_true_eq] at hs
  obtain ⟨⟨⟨⟨⟨⟨⟨⟨h1, h2⟩, h3⟩, h4⟩, h5⟩, h6⟩, h7⟩, h8⟩, h9⟩ := hs
  split at h3
  swap
  · cases h3
  rename_i m hj
  have h3 := of_decide_eq_true h3
  have ha : jpg.Acceptable m := ⟨readJpeg_valid hd h, h1, h9, h2, hj, fun s hs => by have := h4 s hs; omega, by
    have : 2 ≤ base128Size (estimateAuxDataSize jpg) := by
      rw [base128Size, if_neg (by omega)]
      have : 1 ≤ base128Size (estimateAuxDataSize jpg / 128) := by rw [base128Size]; split <;> omega
      omega
    have := Nat.pow_le_pow_right (n := 2) (by decide) (show 14 ≤ 7 * base128Size (estimateAuxDataSize jpg) by omega)
    omega, h8⟩
  obtain ⟨out, ho⟩ := encodeJpeg_acceptable hcl hw hk ha (by omega) h8 (by unfold JpegData.room at h7 ⊢; omega)
  refine ⟨out, ?_⟩
  unfold encodeData
  rw [h]
  dsimp only [Run.bind]
  rw [if_neg (by omega), ho]

def smallFile (data : List Nat) : Bool := match readJpeg data with | .ok jpg => smallJpeg jpg | _ => false

theorem smallFile_accepted {data : List Nat} (hd : Bytes data) (h : smallFile data = true) : ∃ out, encodeData plainCodec data = .ok out := by
  unfold smallFile at h
  split at h
  · exact smallJpeg_accepted plainCodec_clusters plainCodec_works plainCodec_bounded hd ‹_› h
  · cases h

/-- C37 applies to the sample files: sequential with restart markers, comment, bytes between segments and after the end; and progressive. -/
theorem samples_accepted : (∃ out, encodeData plainCodec sampleSequential = .ok out) ∧ ∃ out, encodeData plainCodec sampleProgressive = .ok out :=
  ⟨smallFile_accepted (bytes_of_all (by decide +kernel)) (by decide +kernel), smallFile_accepted (bytes_of_all (by decide +kernel)) (by decide +kernel)⟩

example : ∃ out, encodeData plainCodec sampleSequential = .ok out ∧ ∃ jpg, decodeJpeg plainCodec out = some jpg ∧
    ∀ T, ∃ chunks, writeJpeg T jpg = .ok chunks ∧ chunks.flatten = sampleSequential := by
  obtain ⟨out, h⟩ := samples_accepted.1
  exact ⟨out, h, C37_end_to_end plainCodec plainCodec_lossless plainCodec_clusters _ _ (bytes_of_all (by decide +kernel)) h⟩

end Brunsli
