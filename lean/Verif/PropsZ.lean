import Verif.Estimate
import Verif.PropsO
/-!
# Property C57: the memory estimate of the decoder
-/

namespace Brunsli

/-- The decoder accepts the file, which holds an image, and comes to the state `s`. -/
def DecodesTo (par : Codec) (bs : List Nat) (s : SectState) : Prop := decodeFile (fun h => some (SectState.init h)) (decBody par) bs = .ok (.image s) []

/-- **C57 (1).** For every file that can be decoded the estimate is positive, and is made from the dimensions and the numbers of contexts and of histograms that decoding finds; there is
no overflow. -/
theorem C57_estimate (par : Codec) (bs : List Nat) (hl : bs.length < 2 ^ 62) {s : SectState} (h : DecodesTo par bs s) :
    ∃ r, s.hist = some r ∧ estimateDecoder bs = 2 * bs.length + s.header.totalBlocks * 64 * 2 +
      max (numContexts r.schemes * 9 * 4 + r.histograms.length * 6144 + (s.header.blocks.map fun b => stateSizeInBytes b.1).sum) 393216 ∧ 0 < estimateDecoder bs := by
  obtain ⟨r, hr⟩ := decodeFile_hist h
  obtain ⟨h1, -⟩ := estimateParse_image h
  have ht : s.told = some (r.schemes, r.histograms.length) := by unfold SectState.told; rw [hr]; rfl
  rw [ht] at h1
  have hs := estimate_small h1
  have he : estimateDecoder bs = 2 * bs.length + s.header.totalBlocks * 64 * 2 + max (decodePeak s.header (some (r.schemes, r.histograms.length))) kJpegWriterSize := by
    unfold estimateDecoder
    rw [h1]
    exact Nat.mod_eq_of_lt (by omega)
  have hk : kJpegWriterSize = 393216 := by decide
  refine ⟨r, hr, ?_, ?_⟩
  · rw [he, hk]
    rfl
  · rw [he, hk]
    omega

/-- **C57 (2).** If the estimate is 0 the file cannot be decoded. -/
theorem C57_zero (par : Codec) (bs : List Nat) (hl : bs.length < 2 ^ 62) (h : estimateDecoder bs = 0) : ¬∃ s, DecodesTo par bs s := fun ⟨_, hs⟩ => by
  obtain ⟨_, -, -, h3⟩ := C57_estimate par bs hl hs
  omega

/-- **C57 (3), for files of at least half a byte per block.** What is allocated while the AC coefficients are decoded (coefficients, block states, context map, decoding tables, states
of the components) is within the estimate.  Missing: files of fewer bytes (`C57_bound_false`), metadata and internals. -/
theorem C57_bound_partial (par : Codec) (bs : List Nat) (hl : bs.length < 2 ^ 62) {s : SectState} (h : DecodesTo par bs s) (hb : s.header.totalBlocks ≤ 2 * bs.length) :
    ∃ r, s.hist = some r ∧ liveBytes s.header r.schemes r.histograms.length ≤ estimateDecoder bs := by
  obtain ⟨r, hr, he, -⟩ := C57_estimate par bs hl h
  refine ⟨r, hr, ?_⟩
  rw [he]
  unfold liveBytes kNumAvrgContexts
  rw [storage_eq]
  have := sum_mono (l := s.header.blocks) fun b _ => state_fits b.1
  omega

/-- An image of 2048 by 65535 pixels in 71 bytes; DC and AC data are empty. -/
def sampleTall : List Nat :=
  [10, 4, 66, 210, 213, 78] ++ [18, 11, 8, 128, 16, 16, 255, 255, 3, 24, 8, 32, 0] ++
  [34, 152, 0, 27, 64, 116, 254, 175, 101, 1, 0, 64, 24, 41, 60, 246, 1, 126, 0, 0, 1, 104, 130, 247, 2, 7, 8] ++ [42, 129, 0, 32] ++
  [50, 141, 128, 0, 224, 7, 0, 0, 0, 0, 182, 109, 219, 182, 109, 219, 6] ++ [58, 0] ++ [66, 0]

/-- The result of a decoder that stops at the DC section. -/
def stoppedWith : Res (Content (SectState ⊕ Nat)) → Option Nat
  | .ok (.image (.inr n)) [] => some n
  | _ => none

theorem stoppedWith_some {r : Res (Content (SectState ⊕ Nat))} {n : Nat} (h : stoppedWith r = some n) : r = .ok (.image (.inr n)) [] := by
  unfold stoppedWith at h
  split at h
  · cases h
    rfl
  · cases h

theorem sampleTall_storage : stoppedWith (decodeFile (fun h => some (.inl (SectState.init h))) (stopAtDc plainCodec) sampleTall) = some 270532608 := by decide +kernel

theorem sampleTall_estimate : estimateDecoder sampleTall = 268828814 := by decide +kernel

/-- **C57 is false of the code**: the storage that is allocated as soon as the DC section of this file is met exceeds the estimate by more than a million bytes: one byte of state per
block is not counted. -/
theorem C57_bound_false : ∃ bs n, Bytes bs ∧ bs.length < 100 ∧ (decodeFile (fun h => some (.inl (SectState.init h))) (stopAtDc plainCodec) bs = .ok (.image (.inr n)) []) ∧
    0 < estimateDecoder bs ∧ estimateDecoder bs + 1000000 < n :=
  ⟨sampleTall, 270532608, bytes_of_all (by decide +kernel), by decide +kernel, stoppedWith_some sampleTall_storage, by rw [sampleTall_estimate]; decide, by rw [sampleTall_estimate]; decide⟩

/-- The file that holds `sampleSequential`. -/
def sampleCoded : List Nat :=
  [10, 4, 66, 210, 213, 78, 18, 8, 8, 16, 16, 8, 24, 8, 32, 0, 34, 152, 0, 27, 64, 116, 254, 175, 101, 1, 0, 64, 24, 41, 60, 246, 1, 126, 0, 0, 1, 104, 130, 247, 2, 7, 8, 26, 139, 128, 0,
   9, 1, 254, 0, 5, 1, 2, 3, 217, 1, 2, 42, 129, 0, 32, 50, 141, 128, 0, 224, 7, 0, 0, 0, 0, 182, 109, 219, 182, 109, 219, 6, 58, 138, 128, 0, 208, 24, 160, 228, 0, 0, 152, 108, 88, 70, 66,
   138, 128, 0, 14, 1, 16, 56, 0, 0, 10, 164, 59, 38]

/-- The header of the image in a file. -/
def decodedHeader : Res (Content SectState) → Option Header
  | .ok (.image s) [] => some s.header
  | _ => none

theorem sampleCoded_decoded : decodedHeader (decodeFile (fun h => some (SectState.init h)) (decBody plainCodec) sampleCoded) = some ⟨2, 16, 8, [(1, 1)]⟩ := by decide +kernel

/-- Non-vacuity of C57 (1) and (3): a file of 107 bytes and 2 blocks that can be decoded. -/
example : ∃ bs s, Bytes bs ∧ bs.length < 2 ^ 62 ∧ DecodesTo plainCodec bs s ∧ s.header.totalBlocks = 2 ∧ s.header.totalBlocks ≤ 2 * bs.length := by
  have h := sampleCoded_decoded
  unfold decodedHeader at h
  split at h
  · rename_i s heq
    have hh : s.header = ⟨2, 16, 8, [(1, 1)]⟩ := Option.some.inj h
    have hb : s.header.totalBlocks = 2 := by rw [hh]; decide
    exact ⟨sampleCoded, s, bytes_of_all (by decide +kernel), by decide +kernel, heq, hb, by rw [hb]; decide +kernel⟩
  · cases h

end Brunsli
