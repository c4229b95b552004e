import Verif.CodeStore
import Verif.Estimate
import Verif.JMode
/-!
# The memory estimate of the encoder

`EstimateBrunsliEncodePeakMemoryUsage` (c/enc/brunsli_encode.cc:1481-1527) and what encoding allocates.
-/

namespace Brunsli

/-- `metadata_size` (c/enc/brunsli_encode.cc:1491-1498). -/
def JpegData.metadataBytes (jpg : JpegData) : Nat :=
  (jpg.appData.map fun s => ((transformApp0 s).getD s).length).sum + (jpg.comData.map List.length).sum

/-- `nonzeros` (c/enc/brunsli_encode.cc:1516-1518) in 64 bits, from the size of the file and the number of blocks (`total_num_blocks`, :1505-1511); without blocks it is divided by zero. -/
def estimatedNonzeros (size blocks : Nat) : Run Nat :=
  if blocks * 5 = 0 then .ub else .ok (max 1 (min 64 (size * 8 % 2 ^ 64 / (blocks * 5))) * blocks)

/-- `sizeof(Histogram)` (c/enc/state.h:48-58): 18 counts and their sum in 4 bytes each, padding, and a `double`. -/
def kHistogramBytes : Nat := 88

/-- `ncontexts` (c/enc/brunsli_encode.cc:1519-1520). -/
def estimatedContexts (ncomp nonzeros : Nat) : Nat := ncomp * (kNumNonzeroContextSkip.getD (selectContextBits nonzeros) 0 + 1)

/-- `ncodewords` (c/enc/brunsli_encode.cc:1525-1526). -/
def estimatedWords (ncomp blocks nonzeros : Nat) : Nat := max (2 ^ 18) (2 * nonzeros + 6 * blocks + ncomp * 1024)

/-- `brunsli_peak` (c/enc/brunsli_encode.cc:1504-1529); `CodeWord` has 8 bytes (c/enc/state.h:108-116). -/
def JpegData.encodePeak (size : Nat) (jpg : JpegData) : Run Nat :=
  (estimatedNonzeros size jpg.blocks).bind fun nz =>
    .ok (2 * estimatedContexts jpg.components.length nz * kNumAvrgContexts * kHistogramBytes + estimatedWords jpg.components.length jpg.blocks nz * 8 +
      (jpg.components.map fun c => stateSizeInBytes c.width).sum)

/-- `EstimateBrunsliEncodePeakMemoryUsage` (c/enc/brunsli_encode.cc:1489-1531); `brotli` is what `BrotliEncoderEstimatePeakMemoryUsage` tells for a length. -/
def estimateEncoder (brotli : Nat → Nat) (size : Nat) (jpg : JpegData) : Run Nat :=
  (jpg.encodePeak size).bind fun peak => .ok (max (if 1 < jpg.metadataBytes then brotli jpg.metadataBytes else 0) peak)

/-! ## What encoding allocates -/

/-- The size of the vector of code words that `EncodeAC` begins with (c/enc/brunsli_encode.cc:1189-1205), in bytes. -/
def JpegData.acWordBytes (jpg : JpegData) : Nat :=
  8 * (jpg.components.map fun c => 2 * sampleNumNonZeros c.coeffs (c.width * c.height) + 1024 + 3 * (c.width * c.height)).sum

/-- All that is there when `EncodeAC` begins with the blocks: prediction errors and states of the blocks (c/enc/brunsli_encode.cc:1453-1466), the histograms (:1204), the two vectors of code words
(:1101, :1205), and the states of the components.  The vectors may grow later (:617-625), and the histograms are copied at the end. -/
def JpegData.encodeLive (jpg : JpegData) : Nat :=
  3 * jpg.blocks + numContexts jpg.schemes * kNumAvrgContexts * kHistogramBytes + 8 * (3 * jpg.blocks + 128) + jpg.acWordBytes +
    (jpg.components.map fun c => stateBytes c.width).sum

/-! ## The estimate is defined -/

theorem estimatedNonzeros_ok {size blocks : Nat} (hb : 0 < blocks) : ∃ nz, estimatedNonzeros size blocks = .ok nz ∧ blocks ≤ nz ∧ nz ≤ 64 * blocks := by
  unfold estimatedNonzeros
  rw [if_neg (by omega)]
  refine ⟨_, rfl, ?_, ?_⟩
  · calc blocks = 1 * blocks := by omega
      _ ≤ _ := Nat.mul_le_mul_right _ (Nat.le_max_left _ _)
  · exact Nat.mul_le_mul_right _ (by omega)

theorem sum_pos_of_mem {α : Type} {f : α → Nat} : ∀ {l : List α} {x : α}, x ∈ l → f x ≤ (l.map f).sum
  | y :: l, x, h => by
    rw [List.map_cons, List.sum_cons]
    rcases List.mem_cons.mp h with rfl | h
    · omega
    · have := sum_pos_of_mem (f := f) h
      omega

theorem numBlocks_pos {jpg : JpegData} (h0 : jpg.components ≠ []) (h1 : ∀ c ∈ jpg.components, 1 ≤ c.width ∧ 1 ≤ c.height) : 0 < jpg.blocks := by
  obtain ⟨c, hc⟩ := List.exists_mem_of_ne_nil _ h0
  exact Nat.lt_of_lt_of_le (Nat.mul_pos (h1 c hc).1 (h1 c hc).2) (sum_pos_of_mem (f := fun c : Component => c.width * c.height) hc)

theorem estimateEncoder_ok {jpg : JpegData} (brotli : Nat → Nat) (size : Nat) (hb : 0 < jpg.blocks) :
    ∃ peak n, jpg.encodePeak size = .ok peak ∧ estimateEncoder brotli size jpg = .ok n ∧ 2 ^ 21 ≤ peak ∧ peak ≤ n := by
  obtain ⟨nz, h1, -, -⟩ := estimatedNonzeros_ok (size := size) hb
  have hw : 2 ^ 18 ≤ estimatedWords jpg.components.length jpg.blocks nz := Nat.le_max_left _ _
  unfold estimateEncoder JpegData.encodePeak
  rw [h1]
  refine ⟨_, _, rfl, rfl, ?_, Nat.le_max_right _ _⟩
  omega

theorem sample_le (img : List Int) (n : Nat) : sampleNumNonZeros img n ≤ 64 * (n + 4) := by
  unfold sampleNumNonZeros
  split
  · omega
  · have : (64 * ((n + 4) / 5) - ((List.range 64).map (sampleZeros img n)).sum) * 5 ≤ 64 * ((n + 4) / 5) * 5 := Nat.mul_le_mul_right _ (Nat.sub_le _ _)
    omega

/-! ## Contexts -/

/-- The number of contexts of a component does not fall as the number of coefficients grows (up to 2^33). -/
theorem skip_mono : ∀ i ≤ 32, ∀ j ≤ 32, i ≤ j → kNumNonzeroContextSkip.getD (kContextBits.getD i 0) 0 ≤ kNumNonzeroContextSkip.getD (kContextBits.getD j 0) 0 := by decide +kernel

theorem contexts_mono {m n : Nat} (h0 : m ≤ n) (hn : n < 2 ^ 33) :
    kNumNonzeroContextSkip.getD (selectContextBits m) 0 ≤ kNumNonzeroContextSkip.getD (selectContextBits n) 0 := by
  have h1 : n.log2 ≤ 32 := by
    by_cases h : n = 0
    · subst h; decide
    · have := (Nat.log2_lt h).mpr hn
      omega
  have h2 : m.log2 ≤ n.log2 := by
    by_cases hm : m = 0
    · subst hm; simp
    · by_contra h
      have h := (Nat.log2_lt (by omega)).mp (Nat.lt_of_not_le h)
      have := Nat.log2_self_le hm
      omega
  exact skip_mono _ (by omega) _ h1 h2

/-! ## When the estimate suffices -/

theorem jpgContexts_le {jpg : JpegData} (hw : ∀ c ∈ jpg.components, c.width = jpg.header.mcuCols * c.hSamp ∧ c.height = jpg.header.mcuRows * c.vSamp) {n : Nat} (hn : n < 2 ^ 33)
    (h : ∀ c ∈ jpg.components, sampleNumNonZeros c.coeffs (c.width * c.height) + 1 ≤ n) : numContexts jpg.schemes ≤ estimatedContexts jpg.components.length n := by
  have hs : (jpg.schemes.map fun s => kNumNonzeroContextSkip.getD s 0).sum ≤ jpg.components.length * kNumNonzeroContextSkip.getD (selectContextBits n) 0 := by
    unfold JpegData.schemes
    rw [List.map_map]
    refine sum_bounded fun c hc => ?_
    refine contexts_mono (Nat.le_trans ?_ (h c hc)) hn
    rw [(hw c hc).1, (hw c hc).2]
  unfold numContexts estimatedContexts
  rw [jpg.schemes_length, Nat.mul_add, show jpg.header.comps.length = jpg.components.length from List.length_map ..]
  omega

theorem acWordBytes_eq (jpg : JpegData) : jpg.acWordBytes =
    8 * (2 * (jpg.components.map fun c => sampleNumNonZeros c.coeffs (c.width * c.height)).sum + 1024 * jpg.components.length + 3 * jpg.blocks) := by
  unfold JpegData.acWordBytes JpegData.blocks
  congr 1
  induction jpg.components with
  | nil => rfl
  | cons c l ih => simp only [List.map_cons, List.sum_cons, List.length_cons, ih]; omega

theorem sampled_le (jpg : JpegData) : (jpg.components.map fun c => sampleNumNonZeros c.coeffs (c.width * c.height)).sum ≤ 64 * jpg.blocks + 256 * jpg.components.length := by
  unfold JpegData.blocks
  induction jpg.components with
  | nil => simp
  | cons c l ih =>
    simp only [List.map_cons, List.sum_cons, List.length_cons]
    have := sample_le c.coeffs (c.width * c.height)
    omega

/-- With at most 1774 blocks, whatever the size of the file. -/
theorem live_small {jpg : JpegData} (hw : ∀ c ∈ jpg.components, c.width = jpg.header.mcuCols * c.hSamp ∧ c.height = jpg.header.mcuRows * c.vSamp) (hl : 1 ≤ jpg.components.length ∧ jpg.components.length ≤ 4)
    (h0 : 0 < jpg.blocks) (hb : jpg.blocks ≤ 1774) (size peak : Nat) (h : jpg.encodePeak size = .ok peak) : jpg.encodeLive ≤ peak := by
  obtain ⟨nz, h1, h2, h3⟩ := estimatedNonzeros_ok (size := size) h0
  unfold JpegData.encodePeak at h
  rw [h1] at h
  injection h with h
  have hc := jpgContexts_le hw (n := 2 ^ 17 - 1) (by decide) fun c hc => by
    have a := sample_le c.coeffs (c.width * c.height)
    have b : c.width * c.height ≤ jpg.blocks := sum_pos_of_mem (f := fun c : Component => c.width * c.height) hc
    omega
  have hc : numContexts jpg.schemes ≤ jpg.components.length * 62 := hc
  have he : jpg.components.length * 9 ≤ estimatedContexts jpg.components.length nz := by
    refine Nat.mul_le_mul_left _ ?_
    have := contexts_mono (Nat.zero_le nz) (by omega)
    have e : kNumNonzeroContextSkip.getD (selectContextBits 0) 0 = 8 := by decide
    omega
  have hs := sampled_le jpg
  have hq : (jpg.components.map fun c => stateBytes c.width).sum ≤ (jpg.components.map fun c => stateSizeInBytes c.width).sum := sum_mono fun c _ => state_fits c.width
  have hw : 2 ^ 18 ≤ estimatedWords jpg.components.length jpg.blocks nz := Nat.le_max_left _ _
  unfold JpegData.encodeLive
  rw [acWordBytes_eq]
  unfold kNumAvrgContexts kHistogramBytes at *
  omega

/-- With some more coefficients estimated than there are in the sample. -/
theorem live_large {jpg : JpegData} (hw : ∀ c ∈ jpg.components, c.width = jpg.header.mcuCols * c.hSamp ∧ c.height = jpg.header.mcuRows * c.vSamp) (hl : 1 ≤ jpg.components.length) (h0 : 0 < jpg.blocks)
    (hb : jpg.blocks ≤ 2 ^ 23) (size peak nz : Nat) (h : jpg.encodePeak size = .ok peak) (hz : estimatedNonzeros size jpg.blocks = .ok nz)
    (hn : (jpg.components.map fun c => sampleNumNonZeros c.coeffs (c.width * c.height)).sum + jpg.blocks / 4 + 1 ≤ nz) : jpg.encodeLive ≤ peak := by
  obtain ⟨nz', h1, h2, h3⟩ := estimatedNonzeros_ok (size := size) h0
  rw [hz] at h1
  cases h1
  unfold JpegData.encodePeak at h
  rw [hz] at h
  injection h with h
  have hc := jpgContexts_le hw (n := nz) (by omega) fun c hc => by
    have a : sampleNumNonZeros c.coeffs (c.width * c.height) ≤ _ := sum_pos_of_mem (f := fun c : Component => sampleNumNonZeros c.coeffs (c.width * c.height)) hc
    omega
  have he : jpg.components.length * 9 ≤ estimatedContexts jpg.components.length nz := by
    refine Nat.mul_le_mul_left _ ?_
    have := contexts_mono (Nat.zero_le nz) (by omega)
    have e : kNumNonzeroContextSkip.getD (selectContextBits 0) 0 = 8 := by decide
    omega
  have hq : (jpg.components.map fun c => stateBytes c.width).sum ≤ (jpg.components.map fun c => stateSizeInBytes c.width).sum := sum_mono fun c _ => state_fits c.width
  have hw : 2 * nz + 6 * jpg.blocks + jpg.components.length * 1024 ≤ estimatedWords jpg.components.length jpg.blocks nz := Nat.le_max_right _ _
  unfold JpegData.encodeLive
  rw [acWordBytes_eq]
  unfold kNumAvrgContexts kHistogramBytes at *
  omega

end Brunsli
