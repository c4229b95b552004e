import Verif.ParamInts
/-!
# C72: the integers of the sections of parameters

Positions, numbers of zero runs and values of quantisation tables are computed in the type `int` (32 bits), from numbers that a file announces.
-/

namespace Brunsli

/-- **C72 (1)**: for every section of quantisation tables, whatever its bits: no value leaves the range of `int`, and the outcome is that of exact arithmetic. -/
theorem C72_quant (precisions : List Nat) (ncomp : Nat) (bits : List Bool) :
    decodeQuantDataC precisions ncomp bits ≠ .ub ∧
      ∀ x, decodeQuantDataC precisions ncomp bits = .ok x ↔ decodeQuantData precisions ncomp bits = some x := by
  rw [decodeQuantDataC_free precisions ncomp bits]
  unfold CP.of
  cases decodeQuantData precisions ncomp bits <;> simp

/-- **C72 (2)**, part of the property: for every internals section of less than 512 MiB, whatever its bytes, positions and numbers of zero runs do not leave the
range of `int`, and the outcome is that of exact arithmetic.  Missing: longer sections, see (3). -/
theorem C72_internals_partial (limit ncomp : Nat) (payload : List Nat) (h : payload.length < 2 ^ 29) :
    readInternalsBitsC limit ncomp (bytesBits payload) ≠ .ub ∧
      ∀ x, readInternalsBitsC limit ncomp (bytesBits payload) = .ok x ↔ readInternalsBits limit ncomp (bytesBits payload) = some x := by
  rw [readInternalsBitsC_tame limit ncomp (bytesBits payload) (by rw [bytesBits_length]; omega)]
  unfold CP.of
  cases readInternalsBits limit ncomp (bytesBits payload) <;> simp

/-- **C72 (3), FALSE of the code** for longer sections: 2^31 zero runs at one place, two bits each, overflow their counter (c/dec/brunsli_decode.cc:526); seven
bytes more than the bound of (2) do. -/
theorem C72_internals_false (limit ncomp : Nat) : ∃ payload : List Nat, Bytes payload ∧ payload.length = 2 ^ 29 + 7 ∧ readInternalsBitsC limit ncomp (bytesBits payload) = .ub := by
  have hl : (runsHead ++ sameRuns (2 ^ 31) [false, false, false]).length = 8 * (2 ^ 29 + 7) := by
    rw [List.length_append, sameRuns_length]
    rfl
  refine ⟨packBits (runsHead ++ sameRuns (2 ^ 31) [false, false, false]), packBits_bytes _, ?_, ?_⟩
  · rw [packBits_length _ _ (Nat.le_refl _), hl]
    omega
  · rw [bytesBits_packBits (by rw [hl]; omega)]
    exact runsHead_ub limit ncomp (readRunsC_ub (2 ^ 31) (by decide) (by decide) (by omega) (by rw [sameRuns_length]; omega))

/-! ## Non-vacuity -/

/-- Two runs at block 0, one at block 5, two reset points; read by both. -/
example : readScanInfoC (encScanInfo ⟨0, 63, 0, 0, [⟨0, 0, 0⟩], [3, 2 ^ 27], [(0, 2), (5, 1)]⟩) = .ok (⟨0, 63, 0, 0, [⟨0, 0, 0⟩], [3, 2 ^ 27], [(0, 2), (5, 1)]⟩, []) := by
  decide +kernel

/-- A position behind 2^30 is refused before it can overflow: five steps of 2^28 each. -/
example : readRunsC 9 0 0 ((List.replicate 5 (true :: encodeVarint 28 (2 ^ 28 - 1))).flatten ++ [false]) = .fail := by decide +kernel

/-- Differences of 65536 each way: the table is refused, nothing overflows. -/
example : readQuantDiffsC [1, 1] [0, 1] 0 [0, 0] (true :: false :: (encodeVarint 16 65533 ++ true :: true :: encodeVarint 16 65535)) = .fail := by decide +kernel

end Brunsli
