import Verif.FastLog
import Verif.PropsV
/-!
# C74: the logarithms of the encoder

They decide which histograms are merged.  Specification: `Real.logb`, the logarithm of real numbers.
-/

namespace Brunsli

/-- **C74 (1)**: each number from 1 to 255 has its logarithm to base 2 in the table, with an error of at most 2^-19. -/
theorem C74_close (libm : Nat → ℚ) (v : Nat) (h0 : 0 < v) (h : v < 256) : |((fastLog2 libm v : ℚ) : ℝ) - Real.logb 2 v| ≤ 1 / 2 ^ 19 := by
  unfold fastLog2
  rw [kLog2Table_length, if_pos h]
  exact log2Entry_close h0 h

/-- **C74 (2)**: larger numbers have larger logarithms, also across the end of the table. -/
theorem C74_order (libm : Nat → ℚ) (hl : LibmOk libm) (v w : Nat) (h0 : 0 < v) (hv : v < 256) (h : v < w) : fastLog2 libm v < fastLog2 libm w := by
  by_cases hw : w < 256
  · unfold fastLog2
    rw [kLog2Table_length, if_pos hv, if_pos hw]
    exact log2Entry_lt h0 h hw
  · have h1 := ((fastLog2_ok hl).pos v h0).2
    have h2 := ((fastLog2_ok hl).pos w (by omega)).1
    have h3 : Nat.log2 v + 1 ≤ 8 := (Nat.log2_lt (by omega)).2 (by omega)
    have h4 : 8 ≤ Nat.log2 w := (Nat.le_log2 (by omega)).2 (by omega)
    have h5 : ((Nat.log2 v : ℚ) + 1) ≤ Nat.log2 w := by exact_mod_cast h3.trans h4
    linarith

/-- **C74 (3)**: the logarithm of 0 is 0, that of a power of two from the table is exact. -/
theorem C74_exact (libm : Nat → ℚ) : fastLog2 libm 0 = 0 ∧ ∀ k : Nat, k < 8 → fastLog2 libm (2 ^ k) = k := by
  have key : ∀ v k : Nat, v < 256 → literalBits (kLog2Table.getD v 0) = k * 2 ^ fracBits (kLog2Table.getD v 0) → fastLog2 libm v = k := by
    intro v k hv hk
    unfold fastLog2
    rw [kLog2Table_length, if_pos hv, log2Entry, hk]
    generalize fracBits _ = f
    push_cast
    rw [mul_div_assoc, div_self (by positivity), mul_one]
  refine ⟨by simpa using key 0 0 (by decide) (by decide +kernel), fun k hk => key (2 ^ k) k (Nat.pow_lt_pow_right (show 1 < 2 by decide) hk) ?_⟩
  exact (by decide +kernel : ∀ k : Nat, k < 8 → literalBits (kLog2Table.getD (2 ^ k) 0) = k * 2 ^ fracBits (kLog2Table.getD (2 ^ k) 0)) k hk

/-- **C74 (4)**: so what C37 assumes of logarithms holds of the table; of the C library only the integer part of logarithms from 256 on matters. -/
theorem C74_end_to_end (F : Arith) (hF : F.Ok) (libm : Nat → ℚ) (hl : LibmOk libm) (compress : Nat → List Nat → Option (List Nat))
    (decompress : List Nat → Option (List (List Nat)))
    (hbrotli : ∀ room data packed, compress room data = some packed → packed ≠ [] ∧ ∃ chunks, decompress packed = some chunks ∧ chunks.flatten = data)
    (data out : List Nat) (hd : Bytes data) (h : encodeData (realCodec F (fastLog2 libm) compress decompress) data = .ok out) :
    ∃ jpg, decodeJpeg (realCodec F (fastLog2 libm) compress decompress) out = some jpg ∧ ∀ T, ∃ chunks, writeJpeg T jpg = .ok chunks ∧ chunks.flatten = data :=
  C37_real F hF _ (fastLog2_ok hl) compress decompress hbrotli data out hd h

/-- The cost of a histogram is defined with the table of the code (C44). -/
theorem C74_cost (F : Arith) (hF : F.Ok) (libm : Nat → ℚ) (hl : LibmOk libm) (h : List Nat) (hlen : h.length = 18) (hs : h.sum ≤ 200000000) :
    ∃ c, popCost F (fastLog2 libm) h = some c ∧ -2 ^ 31 ≤ c ∧ c < 2 ^ 31 :=
  C44_cost_partial F hF _ (fastLog2_ok hl) h hlen hs

/-! ## Non-vacuity -/

/-- The integer part alone is a possible `log2` of the C library. -/
theorem log2_libm : LibmOk fun v => (Nat.log2 v : ℚ) where
  range _ _ := ⟨le_refl _, by linarith⟩
  exact := log2_ok.exact

example : fastLog2 (fun v => (Nat.log2 v : ℚ)) 3 ≠ (Nat.log2 3 : ℚ) := by
  have h := (C74_exact fun v => (Nat.log2 v : ℚ)).2 1 (by decide)
  have h2 := C74_order _ log2_libm 2 3 (by decide) (by decide) (by decide)
  have h3 : Nat.log2 3 = 1 := by decide +kernel
  rw [h3]
  norm_num at h h2 ⊢
  rw [h] at h2
  exact h2.ne'

example : ∃ out, encodeData (realCodec nearest (fastLog2 fun v => (Nat.log2 v : ℚ)) plainCodec.compress plainCodec.decompress) sampleProgressive = .ok out := by
  have hb : Bytes sampleProgressive := bytes_of_all (by decide +kernel)
  have hL := fastLog2_ok log2_libm
  obtain ⟨jpg, m, h1, h2, h3⟩ := smallFile_acceptable hb (show smallFile sampleProgressive = true by decide +kernel)
  obtain ⟨out, ho, -⟩ := C41_small_images_partial (realCodec nearest _ plainCodec.compress plainCodec.decompress) (realCodec_clusters nearest_ok hL _ _) (realCodec_works nearest_ok hL _ _) _ plainCodec_bounded
    sampleProgressive jpg m h1 h2 (by have := h2.size; unfold JpegData.room at h3; omega) h3
  exact ⟨out, ho⟩

end Brunsli
