import Verif.Executor
import Mathlib.Data.List.Nodup

/-!
# Tiling of the experimental groups mode

How `EncodeGroups` and `DecodeGroups` (c/experimental/groups.cc:111-536) cut the block grid of each component into tiles, one per parallel task,
and how the decoding tasks report failure.
-/

namespace Brunsli

namespace Groups

/-- `(d & (d - 1)) != 0` on `size_t`, the power-of-two test (c/experimental/groups.cc:123-124, 393-394). -/
def notPowerOfTwo (d : Nat) : Bool := Nat.land d ((d + 2 ^ 64 - 1) % 2 ^ 64) != 0

/-- The checks on the group dimensions (c/experimental/groups.cc:123-127, 393-395 and 418-419).  `none`: a remainder by zero, which is undefined
behaviour. -/
def dimsOk (acDim dcDim maxH maxV : Nat) : Option Bool :=
  if notPowerOfTwo acDim then some false
  else if notPowerOfTwo dcDim then some false
  else if acDim = 0 then none
  else if dcDim % acDim ≠ 0 then some false
  else if maxH = 0 then none
  else if acDim % maxH ≠ 0 then some false
  else if maxV = 0 then none
  else if acDim % maxV ≠ 0 then some false
  else some true

/-- Number of tiles along an axis (c/experimental/groups.cc:133-140): `mcus` MCUs of `maxSamp` blocks, `dim` blocks of the finest component per tile. -/
def numTiles (mcus maxSamp dim : Nat) : Nat := (mcus * maxSamp + dim - 1) / dim

/-- `first_x` / `first_y` of tile `i` (c/experimental/groups.cc:168-175). -/
def first (samp dim maxSamp i : Nat) : Nat := i * (samp * dim / maxSamp)

/-- `last_x` / `last_y` of tile `i` (c/experimental/groups.cc:170-177); `size` is the size of the component in blocks. -/
def last (samp dim maxSamp size i : Nat) : Nat := min (first samp dim maxSamp i + samp * dim / maxSamp) size

/-- `last_x - first_x` on `size_t`: wraps when negative (c/experimental/groups.cc:179-180). -/
def extent (samp dim maxSamp size i : Nat) : Nat :=
  (last samp dim maxSamp size i + 2 ^ 64 - first samp dim maxSamp i) % 2 ^ 64

/-- The sampling geometry of a component within an image. -/
structure Geometry where
  mcuCols : Nat
  mcuRows : Nat
  maxH : Nat
  maxV : Nat
  h : Nat
  v : Nat

/-- Width of the component in blocks (c/enc/jpeg_data_reader.cc:140-141). -/
def Geometry.width (g : Geometry) : Nat := g.mcuCols * g.h

/-- Height of the component in blocks. -/
def Geometry.height (g : Geometry) : Nat := g.mcuRows * g.v

/-- Number of tasks for tiles of `dim` blocks (c/experimental/groups.cc:153-154, 425-427). -/
def Geometry.tasks (g : Geometry) (dim : Nat) : Nat := numTiles g.mcuCols g.maxH dim * numTiles g.mcuRows g.maxV dim

/-- Blocks task `idx` works on (c/experimental/groups.cc:162-186, 452-483): the column and row of the tile, then the positions
`(first_x + lx, first_y + ly)` for local positions below the extents. -/
def Geometry.blocks (g : Geometry) (dim idx : Nat) : List (Nat × Nat) :=
  let w := numTiles g.mcuCols g.maxH dim
  let x := idx % w
  let y := idx / w
  (List.range (extent g.v dim g.maxV g.height y)).flatMap fun ly =>
    (List.range (extent g.h dim g.maxH g.width x)).map fun lx => (first g.h dim g.maxH x + lx, first g.v dim g.maxV y + ly)

/-- Index of coefficient `k` of local block `(lx, ly)` of task `idx`, through the moved pointer and the stride
(c/experimental/groups.cc:178, with `ac_stride = width_in_blocks * 64`). -/
def Geometry.address (g : Geometry) (dim idx lx ly k : Nat) : Nat :=
  let w := numTiles g.mcuCols g.maxH dim
  (first g.h dim g.maxH (idx % w) * 64 + first g.v dim g.maxV (idx / w) * (g.width * 64)) + lx * 64 + ly * (g.width * 64) + k

/-- Index of coefficient `k` of block `(bx, by)` of the component. -/
def Geometry.coeff (g : Geometry) (bx byy k : Nat) : Nat := (byy * g.width + bx) * 64 + k

/-- What the checks and the JPEG reader guarantee. -/
structure Geometry.Ok (g : Geometry) (dim : Nat) : Prop where
  pos : 0 < dim
  divH : dim % g.maxH = 0
  divV : dim % g.maxV = 0
  maxH : 0 < g.maxH
  maxV : 0 < g.maxV
  h : 0 < g.h
  v : 0 < g.v
  width : g.width < 2 ^ 64
  height : g.height < 2 ^ 64

/-! ## One axis -/

theorem tile_dim {samp dim maxSamp : Nat} (hm : 0 < maxSamp) (hd : dim % maxSamp = 0) : samp * dim / maxSamp = samp * (dim / maxSamp) := by
  obtain ⟨q, rfl⟩ := Nat.dvd_of_mod_eq_zero hd
  rw [Nat.mul_div_cancel_left _ hm, show samp * (maxSamp * q) = maxSamp * (samp * q) from by rw [Nat.mul_left_comm], Nat.mul_div_cancel_left _ hm]

/-- The last tile starts inside the component. -/
theorem first_lt {mcus samp dim maxSamp i : Nat} (hdim : 0 < dim) (hm : 0 < maxSamp) (hd : dim % maxSamp = 0) (hs : 0 < samp)
    (hi : i < numTiles mcus maxSamp dim) : first samp dim maxSamp i < mcus * samp := by
  rw [first, tile_dim hm hd]
  obtain ⟨q, rfl⟩ := Nat.dvd_of_mod_eq_zero hd
  rw [Nat.mul_div_cancel_left _ hm]
  rw [numTiles] at hi
  have h1 : (i + 1) * (maxSamp * q) ≤ mcus * maxSamp + maxSamp * q - 1 := by
    have := (Nat.le_div_iff_mul_le hdim).mp hi
    exact this
  have h2 : i * (maxSamp * q) < mcus * maxSamp := by
    rw [Nat.add_mul, Nat.one_mul] at h1
    omega
  have h3 : i * q < mcus := by
    have : maxSamp * (i * q) < maxSamp * mcus := by
      rw [show maxSamp * (i * q) = i * (maxSamp * q) from by rw [Nat.mul_left_comm], Nat.mul_comm maxSamp mcus]; exact h2
    exact Nat.lt_of_mul_lt_mul_left this
  calc i * (samp * q) = i * q * samp := by rw [Nat.mul_left_comm, Nat.mul_comm]
    _ < mcus * samp := Nat.mul_lt_mul_of_pos_right h3 hs

theorem extent_eq {mcus samp dim maxSamp i : Nat} (hdim : 0 < dim) (hm : 0 < maxSamp) (hd : dim % maxSamp = 0) (hs : 0 < samp)
    (hw : mcus * samp < 2 ^ 64) (hi : i < numTiles mcus maxSamp dim) :
    extent samp dim maxSamp (mcus * samp) i = last samp dim maxSamp (mcus * samp) i - first samp dim maxSamp i ∧
      first samp dim maxSamp i ≤ last samp dim maxSamp (mcus * samp) i := by
  have hf := first_lt hdim hm hd hs hi
  have hl : first samp dim maxSamp i ≤ last samp dim maxSamp (mcus * samp) i := by
    rw [last]; exact Nat.le_min.mpr ⟨Nat.le_add_right _ _, Nat.le_of_lt hf⟩
  have hl2 : last samp dim maxSamp (mcus * samp) i ≤ mcus * samp := Nat.min_le_right _ _
  refine ⟨?_, hl⟩
  rw [extent, show last samp dim maxSamp (mcus * samp) i + 2 ^ 64 - first samp dim maxSamp i =
    (last samp dim maxSamp (mcus * samp) i - first samp dim maxSamp i) + 2 ^ 64 by omega, Nat.add_mod_right]
  exact Nat.mod_eq_of_lt (by omega)

/-- Every position lies in tile `b / (size of a tile)` and in no other. -/
theorem tile_iff {mcus samp dim maxSamp i b : Nat} (hdim : 0 < dim) (hm : 0 < maxSamp) (hd : dim % maxSamp = 0) (hs : 0 < samp)
    (hb : b < mcus * samp) :
    (first samp dim maxSamp i ≤ b ∧ b < last samp dim maxSamp (mcus * samp) i) ↔ i = b / (samp * (dim / maxSamp)) := by
  have hq : 0 < samp * (dim / maxSamp) := by
    obtain ⟨q, rfl⟩ := Nat.dvd_of_mod_eq_zero hd
    rw [Nat.mul_div_cancel_left _ hm]
    exact Nat.mul_pos hs (Nat.pos_of_mul_pos_left hdim)
  rw [last, first, tile_dim hm hd]
  generalize samp * (dim / maxSamp) = Q at hq
  constructor
  · rintro ⟨h1, h2⟩
    have h2 := (Nat.lt_min.mp h2).1
    refine Nat.le_antisymm ((Nat.le_div_iff_mul_le hq).mpr h1) ?_
    have : b / Q < i + 1 := (Nat.div_lt_iff_lt_mul hq).mpr (by rw [Nat.add_mul, Nat.one_mul]; exact h2)
    omega
  · rintro rfl
    have h := Nat.div_add_mod b Q
    have hlt := Nat.mod_lt b hq
    rw [Nat.mul_comm] at h
    exact ⟨by omega, Nat.lt_min.mpr ⟨by omega, hb⟩⟩

theorem tile_lt {mcus samp dim maxSamp b : Nat} (hdim : 0 < dim) (hm : 0 < maxSamp) (hd : dim % maxSamp = 0) (hs : 0 < samp)
    (hb : b < mcus * samp) : b / (samp * (dim / maxSamp)) < numTiles mcus maxSamp dim := by
  obtain ⟨q, rfl⟩ := Nat.dvd_of_mod_eq_zero hd
  rw [Nat.mul_div_cancel_left _ hm]
  have hq : 0 < q := Nat.pos_of_mul_pos_left hdim
  rw [numTiles]
  have h1 : b / (samp * q) * q < mcus := by
    have : b / (samp * q) * (samp * q) ≤ b := Nat.div_mul_le_self _ _
    have h2 : samp * (b / (samp * q) * q) < samp * mcus := by
      rw [Nat.mul_left_comm, Nat.mul_comm samp mcus]; omega
    exact Nat.lt_of_mul_lt_mul_left h2
  generalize b / (samp * q) = x at h1
  rw [Nat.lt_iff_add_one_le, Nat.le_div_iff_mul_le hdim, Nat.add_mul, Nat.one_mul]
  have h3 : (x * q + 1) * maxSamp ≤ mcus * maxSamp := Nat.mul_le_mul_right _ h1
  rw [Nat.add_mul, Nat.one_mul] at h3
  have h4 : x * (maxSamp * q) = x * q * maxSamp := by rw [Nat.mul_comm maxSamp q, Nat.mul_assoc]
  have : 0 < maxSamp * q := hdim
  omega

/-! ## The grid -/

theorem mem_blocks {g : Geometry} {dim idx : Nat} {b : Nat × Nat} (hg : g.Ok dim) (hidx : idx < g.tasks dim) :
    b ∈ g.blocks dim idx ↔ b.1 < g.width ∧ b.2 < g.height ∧ idx % numTiles g.mcuCols g.maxH dim = b.1 / (g.h * (dim / g.maxH)) ∧
      idx / numTiles g.mcuCols g.maxH dim = b.2 / (g.v * (dim / g.maxV)) := by
  have hpos : 0 < numTiles g.mcuCols g.maxH dim := by
    rcases Nat.eq_zero_or_pos (numTiles g.mcuCols g.maxH dim) with h | h
    · rw [Geometry.tasks, h, Nat.zero_mul] at hidx; omega
    · exact h
  have hx : idx % numTiles g.mcuCols g.maxH dim < numTiles g.mcuCols g.maxH dim := Nat.mod_lt _ hpos
  have hy : idx / numTiles g.mcuCols g.maxH dim < numTiles g.mcuRows g.maxV dim := (Nat.div_lt_iff_lt_mul hpos).mpr (by
    rw [Nat.mul_comm]; exact hidx)
  obtain ⟨ex, lx⟩ := extent_eq hg.pos hg.maxH hg.divH hg.h hg.width hx
  obtain ⟨ey, ly⟩ := extent_eq hg.pos hg.maxV hg.divV hg.v hg.height hy
  have hbx := @tile_iff g.mcuCols g.h dim g.maxH (idx % numTiles g.mcuCols g.maxH dim) b.1 hg.pos hg.maxH hg.divH hg.h
  have hby := @tile_iff g.mcuRows g.v dim g.maxV (idx / numTiles g.mcuCols g.maxH dim) b.2 hg.pos hg.maxV hg.divV hg.v
  have lex : last g.h dim g.maxH (g.mcuCols * g.h) (idx % numTiles g.mcuCols g.maxH dim) ≤ g.mcuCols * g.h := Nat.min_le_right _ _
  have ley : last g.v dim g.maxV (g.mcuRows * g.v) (idx / numTiles g.mcuCols g.maxH dim) ≤ g.mcuRows * g.v := Nat.min_le_right _ _
  simp only [Geometry.blocks, Geometry.width, Geometry.height, List.mem_flatMap, List.mem_map, List.mem_range, ex, ey]
  constructor
  · rintro ⟨y, hy', x, hx', rfl⟩
    dsimp only at hbx hby ⊢
    have h1 : first g.h dim g.maxH (idx % numTiles g.mcuCols g.maxH dim) + x < g.mcuCols * g.h := by omega
    have h2 : first g.v dim g.maxV (idx / numTiles g.mcuCols g.maxH dim) + y < g.mcuRows * g.v := by omega
    exact ⟨h1, h2, (hbx h1).mp ⟨by omega, by omega⟩, (hby h2).mp ⟨by omega, by omega⟩⟩
  · rintro ⟨h1, h2, h3, h4⟩
    obtain ⟨a1, a2⟩ := (hbx h1).mpr h3
    obtain ⟨b1, b2⟩ := (hby h2).mpr h4
    refine ⟨b.2 - first g.v dim g.maxV (idx / numTiles g.mcuCols g.maxH dim), by omega,
      b.1 - first g.h dim g.maxH (idx % numTiles g.mcuCols g.maxH dim), by omega, ?_⟩
    rw [Nat.add_sub_cancel' a1, Nat.add_sub_cancel' b1]

theorem nodup_blocks (g : Geometry) (dim idx : Nat) : (g.blocks dim idx).Nodup := by
  rw [Geometry.blocks]
  rw [List.nodup_flatMap]
  refine ⟨fun y _ => List.Nodup.map (fun a b h => by simp only [Prod.mk.injEq] at h; omega) List.nodup_range, ?_⟩
  refine List.nodup_range.imp ?_
  intro a b hab x h1 h2
  simp only [List.mem_map] at h1 h2
  obtain ⟨_, _, rfl⟩ := h1
  obtain ⟨_, _, h⟩ := h2
  simp only [Prod.mk.injEq] at h
  omega

/-! ## Failure reports of parallel decoding tasks -/

/-- Where a decoding task is (the lambdas `decode_dc` and `decode_ac`, c/experimental/groups.cc:449-489, 493-533).  `status` is a variable of the
enclosing function, shared by all tasks. -/
inductive Task where
  /-- Before `if (failed.load()) return`. -/
  | start
  /-- Before `status = ProcessJpeg(...)`. -/
  | work
  /-- Before `if (status != BRUNSLI_OK) failed.store(true)`. -/
  | test
  | done
deriving DecidableEq, Repr

/-- Shared variables and tasks. -/
structure FSt where
  /-- `status == BRUNSLI_OK`. -/
  statusOk : Bool
  failed : Bool
  tasks : List Task
deriving DecidableEq, Repr

/-- One step of task `i`; `good i` says whether its section decodes. -/
def FSt.step (good : Nat → Bool) (i : Nat) (s : FSt) : FSt :=
  match s.tasks[i]? with
  | some .start => { s with tasks := s.tasks.set i (if s.failed then .done else .work) }
  | some .work => { s with statusOk := good i, tasks := s.tasks.set i .test }
  | some .test => { s with failed := s.failed || !s.statusOk, tasks := s.tasks.set i .done }
  | _ => s

/-- The stage before any task has run: `status` is `BRUNSLI_NOT_ENOUGH_DATA` (c/experimental/groups.cc:413-414). -/
def FSt.init (n : Nat) : FSt := ⟨false, false, List.replicate n .start⟩

/-- Run the tasks in the order of the schedule. -/
def FSt.run (good : Nat → Bool) (sched : List Nat) (s : FSt) : FSt := sched.foldl (fun s i => s.step good i) s

/-- Result of the stage (c/experimental/groups.cc:491, 535): `none` while a task has not returned. -/
def FSt.result (s : FSt) : Option Bool := if s.tasks.all (· = .done) then some (!s.failed) else none

/-- `SequentialExecutor` (c/experimental/groups.cc:49-51): each task takes its three steps in turn. -/
def seqSchedule (n : Nat) : List Nat := (List.range n).flatMap fun i => [i, i, i]

end Groups

end Brunsli
