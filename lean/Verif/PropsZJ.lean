import Verif.JSafeScan
import Verif.PropsM
/-!
# C69: the JPEG reader never leaves its input, its tables and its integer types

`readJpegC` is the reader as a program in which every access to the input, to a lookup table and to a block, every shift, and every value of type `int` or
`coeff_t` of the decoder of entropy-coded data is checked; a failed check is the outcome `.ub`.
-/

namespace Brunsli

/-- **C69 (1).** On no byte string does a check fail. -/
theorem C69_reader_defined (data : List Nat) (hd : Bytes data) : readJpegC data ≠ .ub := by
  rw [readJpegC_eq hd]
  exact readJpeg_safe hd

/-- **C69 (2).** What the reader finds is what the reader with exact integers and unbounded memory finds (`readJpeg`; C29 to C32 and C37 are about it). -/
theorem C69_reader_exact (data : List Nat) (hd : Bytes data) : readJpegC data = readJpeg data := readJpegC_eq hd

/-- **C69 (3).** So the JPEG file is restored from what the checked reader finds. -/
theorem C69_reader_restores (data : List Nat) (hd : Bytes data) (jpg : JpegData) (h : readJpegC data = .ok jpg) (T : HSlot → CodeTable) :
    ∃ chunks, writeJpeg T jpg = .ok chunks ∧ chunks.flatten = data :=
  C31_file data hd jpg (readJpegC_eq hd ▸ h) T

/-- Non-vacuity: sequential data with a restart interval, and progressive data with refinement scans, pass all checks. -/
example : (∃ jpg, readJpegC sampleSequential = .ok jpg) ∧ ∃ jpg, readJpegC sampleProgressive = .ok jpg := by
  rw [C69_reader_exact _ (bytes_of_all (by decide +kernel)), C69_reader_exact _ (bytes_of_all (by decide +kernel))]
  exact ⟨accepts_ok sampleSequential_accepted, accepts_ok sampleProgressive_accepted⟩

/-- A file that is too short, and one whose scan ends early, are rejected, not undefined. -/
example : readJpegC [0xFF] = .fail ∧ readJpegC (sampleProgressive.take 130) = .fail := by
  constructor <;> decide +kernel

/-! The checks fail where they should. -/

/-- A marker that could begin at the last byte needs the byte after it: the reader stops two bytes before the end for this reason. -/
example : gnextC [0xFF] 0 1 = .ub ∧ gnextC [0xFF, 0] 0 1 = .ok (0xFF, 2, 1) := ⟨rfl, rfl⟩

/-- No bits may be read from a full window. -/
example : shr64 0 64 0 = .ub ∧ shr64 0 64 1 = .ok 0 ∧ shr64 0 3 4 = .ub := by decide

/-- No byte may be given back that was not read. -/
example : giveBackC [1, 2] 2 2 1 = .ub ∧ giveBackC [1, 2] 2 2 2 = .ok 0 := by decide

/-- A refinement of a coefficient near the end of the range does not fit. -/
example (k : Int → CProg Nat) : refBitC 1 4 1 k = k 6 ∧ refBitC 1 (-4) 1 k = k (-6) ∧ refBitC 14 (-20000) 1 k = .ub := by
  refine ⟨?_, ?_, ?_⟩ <;> simp only [refBitC, CProg.short] <;> norm_num

/-- The power of 2 in front of a coefficient must fit, and 63 is the last coefficient. -/
example (k : Int → CProg Nat) : huffExtendC 0 0 k = .ub ∧ huffExtendC 0 31 k = .ub ∧ huffExtendC 0 2 k = k (-3) ∧ CProg.spot 64 (.pure 1) = .ub := by
  refine ⟨rfl, ?_, ?_, rfl⟩ <;> simp only [huffExtendC, CProg.int] <;> norm_num

end Brunsli
