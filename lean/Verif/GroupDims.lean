import Verif.Groups

/-!
# Group dimensions in words of `W` bits

The tiles of c/experimental/groups.cc as they are computed, with `size_t` of `W` bits; `Groups` has the same with numbers of any size.
-/

namespace Brunsli
namespace Groups

/-- `h_group_dim` / `v_group_dim` (c/experimental/groups.cc:168, 173, 197, 202, 471, 475, 513, 517): the product wraps around. -/
def groupDimW (W samp dim maxSamp : Nat) : Nat := samp * dim % 2 ^ W / maxSamp

/-- `first_x` / `first_y` (c/experimental/groups.cc:169, 174). -/
def firstW (W samp dim maxSamp i : Nat) : Nat := i * groupDimW W samp dim maxSamp % 2 ^ W

/-- `last_x` / `last_y` (c/experimental/groups.cc:170-171, 175-176). -/
def lastW (W samp dim maxSamp size i : Nat) : Nat := min ((firstW W samp dim maxSamp i + groupDimW W samp dim maxSamp) % 2 ^ W) size

/-- `last_x - first_x` (c/experimental/groups.cc:178-179). -/
def extentW (W samp dim maxSamp size i : Nat) : Nat := (lastW W samp dim maxSamp size i + 2 ^ W - firstW W samp dim maxSamp i) % 2 ^ W

/-- Number of tiles along an axis (c/experimental/groups.cc:133-140). -/
def numTilesW (W mcus maxSamp dim : Nat) : Nat := (mcus * maxSamp + dim + 2 ^ W - 1) % 2 ^ W / dim

/-- Number of tasks (c/experimental/groups.cc:151-152, 425-431). -/
def Geometry.tasksW (g : Geometry) (W dim : Nat) : Nat := numTilesW W g.mcuCols g.maxH dim * numTilesW W g.mcuRows g.maxV dim

/-- Blocks task `idx` works on (c/experimental/groups.cc:161-186, 452-483). -/
def Geometry.blocksW (g : Geometry) (W dim idx : Nat) : List (Nat × Nat) :=
  let w := numTilesW W g.mcuCols g.maxH dim
  let x := idx % w
  let y := idx / w
  (List.range (extentW W g.v dim g.maxV g.height y)).flatMap fun ly =>
    (List.range (extentW W g.h dim g.maxH g.width x)).map fun lx => (firstW W g.h dim g.maxH x + lx, firstW W g.v dim g.maxV y + ly)

/-- What keeps the computations along one axis from wrapping around. -/
structure Fits (W mcus samp maxSamp dim : Nat) : Prop where
  product : samp * dim < 2 ^ W
  tiles : mcus * maxSamp + dim ≤ 2 ^ W
  le : samp ≤ maxSamp

theorem numTilesW_eq {W mcus samp maxSamp dim : Nat} (hp : 0 < dim) (h : Fits W mcus samp maxSamp dim) : numTilesW W mcus maxSamp dim = numTiles mcus maxSamp dim := by
  rw [numTilesW, numTiles]
  have := h.tiles
  rw [show mcus * maxSamp + dim + 2 ^ W - 1 = (mcus * maxSamp + dim - 1) + 2 ^ W by omega, Nat.add_mod_right, Nat.mod_eq_of_lt (by omega)]

theorem groupDimW_eq {W mcus samp maxSamp dim : Nat} (h : Fits W mcus samp maxSamp dim) : groupDimW W samp dim maxSamp = samp * dim / maxSamp := by
  rw [groupDimW, Nat.mod_eq_of_lt h.product]

theorem tile_end_lt {W mcus samp maxSamp dim i : Nat} (hp : 0 < dim) (hm : 0 < maxSamp) (hd : dim % maxSamp = 0) (h : Fits W mcus samp maxSamp dim)
    (hi : i < numTiles mcus maxSamp dim) : first samp dim maxSamp i + samp * dim / maxSamp < 2 ^ W := by
  have h1 : (i + 1) * dim ≤ mcus * maxSamp + dim - 1 := (Nat.le_div_iff_mul_le hp).mp hi
  have h2 := h.tiles
  have h3 : samp * dim / maxSamp ≤ dim := by
    rw [tile_dim hm hd]
    obtain ⟨q, rfl⟩ := Nat.dvd_of_mod_eq_zero hd
    rw [Nat.mul_div_cancel_left _ hm]
    exact Nat.mul_le_mul_right q h.le
  have h4 : (i + 1) * (samp * dim / maxSamp) ≤ (i + 1) * dim := Nat.mul_le_mul_left _ h3
  rw [first]
  rw [Nat.add_mul, Nat.one_mul] at h4
  omega

theorem firstW_eq {W mcus samp maxSamp dim i : Nat} (hp : 0 < dim) (hm : 0 < maxSamp) (hd : dim % maxSamp = 0) (h : Fits W mcus samp maxSamp dim)
    (hi : i < numTiles mcus maxSamp dim) : firstW W samp dim maxSamp i = first samp dim maxSamp i := by
  have := tile_end_lt hp hm hd h hi
  rw [first] at this
  rw [firstW, groupDimW_eq h, Nat.mod_eq_of_lt (Nat.lt_of_le_of_lt (Nat.le_add_right _ _) this), first]

theorem extentW_eq {W mcus samp maxSamp dim i : Nat} (hp : 0 < dim) (hm : 0 < maxSamp) (hd : dim % maxSamp = 0) (hs : 0 < samp) (h : Fits W mcus samp maxSamp dim)
    (hw : mcus * samp < 2 ^ 64) (hi : i < numTiles mcus maxSamp dim) :
    extentW W samp dim maxSamp (mcus * samp) i = extent samp dim maxSamp (mcus * samp) i := by
  obtain ⟨e, hl⟩ := extent_eq hp hm hd hs hw hi
  have ht := tile_end_lt hp hm hd h hi
  have hle : last samp dim maxSamp (mcus * samp) i ≤ first samp dim maxSamp i + samp * dim / maxSamp := Nat.min_le_left _ _
  have hL : lastW W samp dim maxSamp (mcus * samp) i = last samp dim maxSamp (mcus * samp) i := by
    rw [lastW, firstW_eq hp hm hd h hi, groupDimW_eq h, Nat.mod_eq_of_lt ht, last]
  rw [e, extentW, hL, firstW_eq hp hm hd h hi,
    show last samp dim maxSamp (mcus * samp) i + 2 ^ W - first samp dim maxSamp i = (last samp dim maxSamp (mcus * samp) i - first samp dim maxSamp i) + 2 ^ W by omega,
    Nat.add_mod_right, Nat.mod_eq_of_lt (by omega)]

/-- With a power of two of which the product wraps around to 0, tiles are empty. -/
theorem extentW_zero {W samp maxSamp dim size i : Nat} (h : samp * dim % 2 ^ W = 0) : extentW W samp dim maxSamp size i = 0 := by
  have e : groupDimW W samp dim maxSamp = 0 := by rw [groupDimW, h, Nat.zero_div]
  rw [extentW, lastW, firstW, e]
  simp

end Groups
end Brunsli
