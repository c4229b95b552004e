import Verif.Conc
import Verif.PropsI
/-!
# The memory of the tasks of the groups mode
-/

namespace Brunsli
open Groups

/-- Memory that all tasks can reach: coefficients (`ac_coeffs`), block states (`block_state`) and prediction errors (`dc_prediction_errors`) of each component, as
offsets from the start of its array, and all that no task writes: input, tables, entropy codes. -/
inductive Cell where
  | coef (c o : Nat)
  | state (c o : Nat)
  | error (c o : Nat)
  | common (n : Nat)
deriving DecidableEq

/-- The same as a task sees it, by column and row of the block within its tile. -/
inductive TCell where
  | coef (c lx ly k : Nat)
  | state (c lx ly : Nat)
  | error (c lx ly : Nat)
  | common (n : Nat)
deriving DecidableEq

/-- Offset of a local block in arrays with one entry for each block (c/experimental/groups.cc:179-183, 476-478; strides: c/enc/brunsli_encode.cc:1078-1080,
c/dec/brunsli_decode.cc:2263-2264). -/
def Groups.Geometry.blockOffset (g : Geometry) (dim idx lx ly : Nat) : Nat :=
  let w := numTiles g.mcuCols g.maxH dim
  (first g.h dim g.maxH (idx % w) + first g.v dim g.maxV (idx / w) * g.width) + lx + ly * g.width

/-- Where the pointers and strides of task `idx` lead (c/experimental/groups.cc:162-186, 468-482, 507-523). -/
def tileCell (gs : Nat → Geometry) (dim idx : Nat) : TCell → Cell
  | .coef c lx ly k => .coef c ((gs c).address dim idx lx ly k)
  | .state c lx ly => .state c ((gs c).blockOffset dim idx lx ly)
  | .error c lx ly => .error c ((gs c).blockOffset dim idx lx ly)
  | .common n => .common n

/-- Column and row are within the width and height that the task was given. -/
def Groups.Geometry.inTile (g : Geometry) (dim idx lx ly : Nat) : Prop :=
  lx < extent g.h dim g.maxH g.width (idx % numTiles g.mcuCols g.maxH dim) ∧ ly < extent g.v dim g.maxV g.height (idx / numTiles g.mcuCols g.maxH dim)

/-- The cells of its tile, in any of `n` components. -/
def TCell.Inside (gs : Nat → Geometry) (n dim idx : Nat) : TCell → Prop
  | .coef c lx ly k => c < n ∧ (gs c).inTile dim idx lx ly ∧ k < 64
  | .state c lx ly => c < n ∧ (gs c).inTile dim idx lx ly
  | .error c lx ly => c < n ∧ (gs c).inTile dim idx lx ly
  | .common _ => False

/-- Cells that no task writes. -/
def TCell.Common : TCell → Prop
  | .common _ => True
  | _ => False

/-- Cells of all tasks that no task writes. -/
def Cell.Common : Cell → Prop
  | .common _ => True
  | _ => False

/-- The cells of a task. -/
def Cell.Own (gs : Nat → Geometry) (n dim idx : Nat) (x : Cell) : Prop := ∃ a : TCell, a.Inside gs n dim idx ∧ x = tileCell gs dim idx a

/-- What the checks and the JPEG reader guarantee of all components. -/
structure Tiled (gs : Nat → Geometry) (n dim tasks : Nat) : Prop where
  ok : ∀ c < n, (gs c).Ok dim
  tasks : ∀ c < n, (gs c).tasks dim = tasks

theorem Groups.Geometry.inTile_mem {g : Geometry} {dim idx lx ly : Nat} (h : g.inTile dim idx lx ly) :
    (first g.h dim g.maxH (idx % numTiles g.mcuCols g.maxH dim) + lx, first g.v dim g.maxV (idx / numTiles g.mcuCols g.maxH dim) + ly) ∈ g.blocks dim idx := by
  unfold Geometry.blocks
  simp only [List.mem_flatMap, List.mem_map, List.mem_range]
  exact ⟨ly, h.2, lx, h.1, rfl⟩

theorem Groups.Geometry.blockOffset_eq (g : Geometry) (dim idx lx ly : Nat) : 64 * g.blockOffset dim idx lx ly = g.address dim idx lx ly 0 := by
  unfold Geometry.blockOffset Geometry.address
  dsimp only
  rw [← Nat.mul_assoc, ← Nat.mul_assoc]
  omega

/-- Equal offsets: the same task, the same block, the same coefficient. -/
theorem Groups.Geometry.address_inj {g : Geometry} {dim i j lx ly k lx' ly' k' : Nat} (hg : g.Ok dim) (hi : i < g.tasks dim) (hj : j < g.tasks dim)
    (h : g.inTile dim i lx ly) (h' : g.inTile dim j lx' ly') (hk : k < 64) (hk' : k' < 64) (e : g.address dim i lx ly k = g.address dim j lx' ly' k') :
    i = j ∧ lx = lx' ∧ ly = ly' ∧ k = k' := by
  have m1 := Geometry.inTile_mem h
  have m2 := Geometry.inTile_mem h'
  rw [C36_addresses, C36_addresses] at e
  have hij := C36_tasks_disjoint g dim hg i j hi hj _ _ m1 m2 k k' hk hk' e
  subst hij
  obtain ⟨a1, -, -, -⟩ := (mem_blocks hg hi).mp m1
  obtain ⟨b1, -, -, -⟩ := (mem_blocks hg hi).mp m2
  dsimp only at a1 b1
  generalize first g.h dim g.maxH (i % numTiles g.mcuCols g.maxH dim) = fx at *
  generalize first g.v dim g.maxV (i / numTiles g.mcuCols g.maxH dim) = fy at *
  simp only [Geometry.coeff] at e
  have e0 : (fy + ly) * g.width + (fx + lx) = (fy + ly') * g.width + (fx + lx') ∧ k = k' := by
    generalize (fy + ly) * g.width + (fx + lx) = x at e ⊢
    generalize (fy + ly') * g.width + (fx + lx') = y at e ⊢
    omega
  have hpos : 0 < g.width := by omega
  have e1 : fx + lx = fx + lx' := by
    have := congrArg (· % g.width) e0.1
    rw [Nat.mul_comm (fy + ly), Nat.mul_comm (fy + ly'), Nat.mul_add_mod, Nat.mul_add_mod, Nat.mod_eq_of_lt a1, Nat.mod_eq_of_lt b1] at this
    exact this
  have e2 : fy + ly = fy + ly' := by
    have := e0.1
    rw [e1] at this
    exact Nat.eq_of_mul_eq_mul_right hpos (by omega)
  exact ⟨rfl, by omega, by omega, e0.2⟩

theorem tileCell_inj {gs : Nat → Geometry} {n dim tasks i j : Nat} (ht : Tiled gs n dim tasks) (hi : i < tasks) (hj : j < tasks) {a b : TCell}
    (ha : a.Inside gs n dim i) (hb : b.Inside gs n dim j) (e : tileCell gs dim i a = tileCell gs dim j b) : i = j ∧ a = b := by
  cases a <;> cases b <;> simp only [tileCell, Cell.coef.injEq, Cell.state.injEq, Cell.error.injEq, reduceCtorEq, TCell.Inside] at e ha hb
  · obtain ⟨rfl, e⟩ := e
    obtain ⟨r1, r2, r3, r4⟩ := Geometry.address_inj (ht.ok _ ha.1) (by rw [ht.tasks _ ha.1]; exact hi) (by rw [ht.tasks _ ha.1]; exact hj) ha.2.1 hb.2.1 ha.2.2 hb.2.2 e
    exact ⟨r1, by rw [r2, r3, r4]⟩
  · obtain ⟨rfl, e⟩ := e
    have e' := congrArg (64 * ·) e
    rw [Geometry.blockOffset_eq, Geometry.blockOffset_eq] at e'
    obtain ⟨r1, r2, r3, -⟩ := Geometry.address_inj (ht.ok _ ha.1) (by rw [ht.tasks _ ha.1]; exact hi) (by rw [ht.tasks _ ha.1]; exact hj) ha.2 hb.2 (by omega) (by omega) e'
    exact ⟨r1, by rw [r2, r3]⟩
  · obtain ⟨rfl, e⟩ := e
    have e' := congrArg (64 * ·) e
    rw [Geometry.blockOffset_eq, Geometry.blockOffset_eq] at e'
    obtain ⟨r1, r2, r3, -⟩ := Geometry.address_inj (ht.ok _ ha.1) (by rw [ht.tasks _ ha.1]; exact hi) (by rw [ht.tasks _ ha.1]; exact hj) ha.2 hb.2 (by omega) (by omega) e'
    exact ⟨r1, by rw [r2, r3]⟩

theorem Cell.own_disjoint {gs : Nat → Geometry} {n dim tasks i j : Nat} (ht : Tiled gs n dim tasks) (hi : i < tasks) (hj : j < tasks) {x : Cell}
    (h : x.Own gs n dim i) (h' : x.Own gs n dim j) : i = j := by
  obtain ⟨a, ha, rfl⟩ := h
  obtain ⟨b, hb, e⟩ := h'
  exact (tileCell_inj ht hi hj ha hb e).1

theorem Cell.own_not_common {gs : Nat → Geometry} {n dim i : Nat} {x : Cell} (h : x.Own gs n dim i) : ¬ x.Common := by
  obtain ⟨a, ha, rfl⟩ := h
  cases a <;> first | exact fun h => h | exact ha.elim

theorem tileCell_inj' {gs : Nat → Geometry} {n dim tasks i : Nat} (ht : Tiled gs n dim tasks) (hi : i < tasks) (a b : TCell)
    (ha : a.Inside gs n dim i ∨ a.Common) (hb : b.Inside gs n dim i ∨ b.Common) (e : tileCell gs dim i a = tileCell gs dim i b) : a = b := by
  rcases ha with ha | ha
  · rcases hb with hb | hb
    · exact (tileCell_inj ht hi hi ha hb e).2
    · cases a <;> cases b <;> simp_all [tileCell, TCell.Inside, TCell.Common]
  · cases a <;> cases b <;> simp_all [tileCell, TCell.Common]

end Brunsli
