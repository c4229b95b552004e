import Verif.GroupDims
import Verif.PropsI

/-!
# C76: large group dimensions
-/

namespace Brunsli
open Groups

/-- **C76 (1)**: as long as the sampling factor times the group dimension, and the size of the image plus the group dimension, fit a word, tiles computed in words
are the ones computed with numbers of any size: there are as many, with the same blocks. -/
theorem C76_tiles_partial (W : Nat) (g : Geometry) (dim : Nat) (hg : g.Ok dim) (hx : Fits W g.mcuCols g.h g.maxH dim) (hy : Fits W g.mcuRows g.v g.maxV dim) :
    g.tasksW W dim = g.tasks dim ∧ ∀ idx, idx < g.tasks dim → g.blocksW W dim idx = g.blocks dim idx := by
  have e1 := numTilesW_eq hg.pos hx
  have e2 := numTilesW_eq hg.pos hy
  refine ⟨by rw [Geometry.tasksW, e1, e2]; rfl, fun idx hidx => ?_⟩
  rw [Geometry.tasks] at hidx
  have hw : 0 < numTiles g.mcuCols g.maxH dim := Nat.pos_of_ne_zero fun h => by rw [h, Nat.zero_mul] at hidx; omega
  have hX : idx % numTiles g.mcuCols g.maxH dim < numTiles g.mcuCols g.maxH dim := Nat.mod_lt _ hw
  have hY : idx / numTiles g.mcuCols g.maxH dim < numTiles g.mcuRows g.maxV dim := Nat.div_lt_of_lt_mul hidx
  have eV : extentW W g.v dim g.maxV g.height (idx / numTiles g.mcuCols g.maxH dim) = extent g.v dim g.maxV g.height (idx / numTiles g.mcuCols g.maxH dim) :=
    extentW_eq hg.pos hg.maxV hg.divV hg.v hy hg.height hY
  have eH : extentW W g.h dim g.maxH g.width (idx % numTiles g.mcuCols g.maxH dim) = extent g.h dim g.maxH g.width (idx % numTiles g.mcuCols g.maxH dim) :=
    extentW_eq hg.pos hg.maxH hg.divH hg.h hx hg.width hX
  simp only [Geometry.blocksW, Geometry.blocks, e1, eV, eH, firstW_eq hg.pos hg.maxH hg.divH hx hX, firstW_eq hg.pos hg.maxV hg.divV hy hY]

/-- **C76 (2)**: so every block is in the tile of exactly one task, for words of 64 bits and all dimensions up to 2^60, whatever the image (dimensions of JPEG files
are below 2^16, so that there are at most 2^13 MCUs along each axis, and sampling factors are below 16). -/
theorem C76_cover_partial (g : Geometry) (dim : Nat) (hg : g.Ok dim) (hc : g.mcuCols ≤ 2 ^ 13) (hr : g.mcuRows ≤ 2 ^ 13) (hh : g.h ≤ g.maxH) (hv : g.v ≤ g.maxV)
    (hH : g.maxH < 16) (hV : g.maxV < 16) (hdim : dim ≤ 2 ^ 60) (bx byy : Nat) (hx : bx < g.width) (hy : byy < g.height) :
    ∃ idx, (idx < g.tasksW 64 dim ∧ (bx, byy) ∈ g.blocksW 64 dim idx) ∧ ∀ j, j < g.tasksW 64 dim → (bx, byy) ∈ g.blocksW 64 dim j → j = idx := by
  have fit : ∀ {mcus samp maxSamp : Nat}, mcus ≤ 2 ^ 13 → samp ≤ maxSamp → maxSamp < 16 → Fits 64 mcus samp maxSamp dim := by
    intro mcus samp maxSamp h1 h2 h3
    have a : samp * dim ≤ 15 * 2 ^ 60 := Nat.mul_le_mul (by omega) hdim
    have b : mcus * maxSamp ≤ 2 ^ 13 * 15 := Nat.mul_le_mul h1 (by omega)
    exact ⟨by omega, by omega, h2⟩
  obtain ⟨e, eb⟩ := C76_tiles_partial 64 g dim hg (fit hc hh hH) (fit hr hv hV)
  obtain ⟨idx, ⟨h1, h2⟩, h3⟩ := C36_tiling g dim hg bx byy hx hy
  rw [e]
  refine ⟨idx, ⟨h1, by rw [eb idx h1]; exact h2⟩, fun j hj hm => h3 j hj ?_⟩
  rw [← eb j hj]; exact hm

/-- **C76 (3), FALSE of the code**: the group dimension 2^63 is accepted for files with 4:2:0 subsampling; there is one task, and its tile of the first
component is empty, whatever the size of the image: no coefficient of the component is written by the encoder or read by the decoder. -/
theorem C76_large_false (mcuCols mcuRows : Nat) (hc : 0 < mcuCols) (hr : 0 < mcuRows) (hc' : mcuCols ≤ 2 ^ 13) (hr' : mcuRows ≤ 2 ^ 13) :
    dimsOk (2 ^ 63) (2 ^ 63) 2 2 = some true ∧ Geometry.Ok ⟨mcuCols, mcuRows, 2, 2, 2, 2⟩ (2 ^ 63) ∧ Geometry.tasksW ⟨mcuCols, mcuRows, 2, 2, 2, 2⟩ 64 (2 ^ 63) = 1 ∧
      (0, 0) ∈ Geometry.blocks ⟨mcuCols, mcuRows, 2, 2, 2, 2⟩ (2 ^ 63) 0 ∧ ∀ idx, Geometry.blocksW ⟨mcuCols, mcuRows, 2, 2, 2, 2⟩ 64 (2 ^ 63) idx = [] := by
  have ok : Geometry.Ok ⟨mcuCols, mcuRows, 2, 2, 2, 2⟩ (2 ^ 63) := by
    constructor <;> first | (simp only [Geometry.width, Geometry.height]; omega) | exact (by decide : (2 ^ 63 : Nat) % 2 = 0) | omega
  have one : ∀ m, 0 < m → m ≤ 2 ^ 13 → numTilesW 64 m 2 (2 ^ 63) = 1 := by
    intro m h1 h2
    rw [numTilesW]
    omega
  have one' : ∀ m, 0 < m → m ≤ 2 ^ 13 → numTiles m 2 (2 ^ 63) = 1 := by
    intro m h1 h2
    rw [numTiles]
    omega
  refine ⟨by decide +kernel, ok, ?_, ?_, fun idx => ?_⟩
  · rw [Geometry.tasksW]
    show numTilesW 64 mcuCols 2 (2 ^ 63) * numTilesW 64 mcuRows 2 (2 ^ 63) = 1
    rw [one _ hc hc', one _ hr hr']
  · have h0 : (0 : Nat) < mcuCols * 2 := by omega
    have h1 : (0 : Nat) < mcuRows * 2 := by omega
    obtain ⟨idx, ⟨hi, hm⟩, -⟩ := C36_tiling ⟨mcuCols, mcuRows, 2, 2, 2, 2⟩ (2 ^ 63) ok 0 0 h0 h1
    have : idx < 1 := by
      have e : Geometry.tasks ⟨mcuCols, mcuRows, 2, 2, 2, 2⟩ (2 ^ 63) = numTiles mcuCols 2 (2 ^ 63) * numTiles mcuRows 2 (2 ^ 63) := rfl
      rw [e, one' _ hc hc', one' _ hr hr'] at hi
      exact hi
    obtain rfl : idx = 0 := by omega
    exact hm
  · rw [Geometry.blocksW]
    simp only [extentW_zero (W := 64) (samp := 2) (dim := 2 ^ 63) (by decide +kernel), List.range_zero, List.flatMap_nil]

/-! ## Non-vacuity -/

example : Geometry.Ok ⟨33, 17, 2, 2, 1, 1⟩ (2 ^ 60) ∧ Fits 64 33 1 2 (2 ^ 60) ∧ Fits 32 33 4 4 256 ∧ Geometry.tasksW ⟨33, 17, 2, 2, 1, 1⟩ 32 32 = 6 ∧
    Geometry.blocksW ⟨33, 17, 2, 2, 1, 1⟩ 32 32 5 = [(32, 16)] :=
  ⟨by constructor <;> decide, by constructor <;> decide, by constructor <;> decide, by decide +kernel, by decide +kernel⟩

end Brunsli
