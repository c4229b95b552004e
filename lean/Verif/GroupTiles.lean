import Verif.PropsI
import Mathlib.Data.List.Perm.Subperm
/-!
# Tiles as pieces of a component

What a task of `EncodeGroups` and `DecodeGroups` sees of an array (c/experimental/groups.cc:162-217, 452-483, 496-527): a smaller array, through a moved
pointer and the stride of the whole.
-/

namespace Brunsli

namespace Groups

/-- `m.width_in_blocks` of task `idx` (c/experimental/groups.cc:179). -/
def Geometry.cols (g : Geometry) (dim idx : Nat) : Nat := extent g.h dim g.maxH g.width (idx % numTiles g.mcuCols g.maxH dim)

/-- `m.height_in_blocks` of task `idx` (c/experimental/groups.cc:180). -/
def Geometry.lines (g : Geometry) (dim idx : Nat) : Nat := extent g.v dim g.maxV g.height (idx / numTiles g.mcuCols g.maxH dim)

/-- The number of blocks of a task. -/
def Geometry.size (g : Geometry) (dim idx : Nat) : Nat := g.cols dim idx * g.lines dim idx

/-- Block `j` of a task, in raster order, as a block of the component: `block_state + first_x + first_y * b_stride` and on
(c/experimental/groups.cc:183). -/
def Geometry.place (g : Geometry) (dim idx j : Nat) : Nat :=
  (first g.v dim g.maxV (idx / numTiles g.mcuCols g.maxH dim) + j / g.cols dim idx) * g.width +
    (first g.h dim g.maxH (idx % numTiles g.mcuCols g.maxH dim) + j % g.cols dim idx)

/-- Coefficient `j` of a task as a coefficient of the component (c/experimental/groups.cc:178). -/
def Geometry.coefPlace (g : Geometry) (dim idx j : Nat) : Nat := g.place dim idx (j / 64) * 64 + j % 64

theorem coefPlace_address (g : Geometry) (dim idx j : Nat) : g.coefPlace dim idx j =
    g.address dim idx (j / 64 % g.cols dim idx) (j / 64 / g.cols dim idx) (j % 64) := by
  rw [C36_addresses]
  rfl

/-- The array a task sees. -/
def crop {α : Type} (d : α) (place : Nat → Nat) (n : Nat) (l : List α) : List α := (List.range n).map fun j => l.getD (place j) d

/-- What a task has written, in the whole array. -/
def paste {α : Type} (d : α) (place : Nat → Nat) (n : Nat) (part l : List α) : List α :=
  (List.range n).foldl (fun l j => l.set (place j) (part.getD j d)) l

/-! ## Pieces -/

theorem crop_length {α : Type} (d : α) (place : Nat → Nat) (n : Nat) (l : List α) : (crop d place n l).length = n := by simp [crop]

theorem crop_get {α : Type} {d : α} {place : Nat → Nat} {n j : Nat} {l : List α} (hj : j < n) (hp : place j < l.length) :
    (crop d place n l)[j]? = l[place j]? := by
  unfold crop
  rw [List.getElem?_map, List.getElem?_range hj, Option.map_some, List.getD_eq_getElem?_getD, List.getElem?_eq_getElem hp]
  rfl

theorem foldl_set_length {α : Type} (place : Nat → Nat) (v : Nat → α) : ∀ (js : List Nat) (l : List α),
    (js.foldl (fun l j => l.set (place j) (v j)) l).length = l.length := by
  intro js
  induction js with
  | nil => intro l; rfl
  | cons j js ih => intro l; rw [List.foldl_cons, ih, List.length_set]

theorem foldl_set_other {α : Type} {place : Nat → Nat} {v : Nat → α} {i : Nat} : ∀ (js : List Nat) (l : List α), (∀ j ∈ js, place j ≠ i) →
    (js.foldl (fun l j => l.set (place j) (v j)) l)[i]? = l[i]? := by
  intro js
  induction js with
  | nil => intro l _; rfl
  | cons j js ih =>
    intro l h
    rw [List.foldl_cons, ih _ fun k hk => h k (List.mem_cons_of_mem _ hk), List.getElem?_set_ne (h j List.mem_cons_self)]

theorem foldl_set_at {α : Type} {place : Nat → Nat} {v : Nat → α} {j : Nat} : ∀ (js : List Nat) (l : List α), j ∈ js → js.Nodup →
    (∀ k ∈ js, place k = place j → k = j) → place j < l.length → (js.foldl (fun l j => l.set (place j) (v j)) l)[place j]? = some (v j) := by
  intro js
  induction js with
  | nil => intro l h; cases h
  | cons k js ih =>
    intro l h hn hi hl
    rw [List.foldl_cons]
    by_cases hk : k = j
    · subst hk
      rw [foldl_set_other js _ fun m hm he => by
        have := hi m (List.mem_cons_of_mem _ hm) he
        subst this
        exact (List.nodup_cons.mp hn).1 hm]
      rw [List.getElem?_set_self hl]
    · refine ih _ ((List.mem_cons.mp h).resolve_left (fun e => hk e.symm)) (List.nodup_cons.mp hn).2 (fun m hm => hi m (List.mem_cons_of_mem _ hm)) ?_
      rw [List.length_set]; exact hl

theorem paste_length {α : Type} (d : α) (place : Nat → Nat) (n : Nat) (part l : List α) : (paste d place n part l).length = l.length :=
  foldl_set_length _ _ _ _

theorem paste_other {α : Type} {d : α} {place : Nat → Nat} {n i : Nat} {part l : List α} (h : ∀ j < n, place j ≠ i) : (paste d place n part l)[i]? = l[i]? :=
  foldl_set_other _ _ fun j hj => h j (List.mem_range.mp hj)

theorem paste_at {α : Type} {d : α} {place : Nat → Nat} {n j : Nat} {part l : List α} (hi : ∀ k < n, place k = place j → k = j) (hj : j < n)
    (hl : place j < l.length) : (paste d place n part l)[place j]? = some (part.getD j d) :=
  foldl_set_at _ _ (List.mem_range.mpr hj) List.nodup_range (fun k hk => hi k (List.mem_range.mp hk)) hl

/-! ## Tilings -/

/-- `count` pieces make up an array of `len` elements. -/
structure Tiling (len count : Nat) (size : Nat → Nat) (place : Nat → Nat → Nat) : Prop where
  lt : ∀ t < count, ∀ j < size t, place t j < len
  inj : ∀ t < count, ∀ j < size t, ∀ t' < count, ∀ j' < size t', place t j = place t' j' → t = t' ∧ j = j'
  cover : ∀ i < len, ∃ t < count, ∃ j < size t, place t j = i

theorem Tiling.total {len count : Nat} {size : Nat → Nat} {place : Nat → Nat → Nat} (h : Tiling len count size place) :
    ((List.range count).map size).sum ≤ len := by
  have hn : ((List.range count).flatMap fun t => (List.range (size t)).map (place t)).Nodup := by
    rw [List.nodup_flatMap]
    refine ⟨fun t ht => List.Nodup.map_on (fun a ha b hb e => ?_) List.nodup_range, ?_⟩
    · have ht := List.mem_range.mp ht
      exact (h.inj t ht a (List.mem_range.mp ha) t ht b (List.mem_range.mp hb) e).2
    · refine List.Pairwise.imp_of_mem ?_ List.nodup_range
      intro a b ha hb hab x hx hy
      obtain ⟨i, hi, rfl⟩ := List.mem_map.mp hx
      obtain ⟨j, hj, e⟩ := List.mem_map.mp hy
      exact hab (h.inj a (List.mem_range.mp ha) i (List.mem_range.mp hi) b (List.mem_range.mp hb) j (List.mem_range.mp hj) e.symm).1
  have hs : ((List.range count).flatMap fun t => (List.range (size t)).map (place t)) ⊆ List.range len := by
    intro x hx
    obtain ⟨t, ht, hx⟩ := List.mem_flatMap.mp hx
    obtain ⟨j, hj, rfl⟩ := List.mem_map.mp hx
    exact List.mem_range.mpr (h.lt t (List.mem_range.mp ht) j (List.mem_range.mp hj))
  have := (List.subperm_of_subset hn hs).length_le
  rw [List.length_flatMap, List.length_range] at this
  simpa using this

/-- Elements of 64. -/
theorem Tiling.scale {len count : Nat} {size : Nat → Nat} {place : Nat → Nat → Nat} (h : Tiling len count size place) :
    Tiling (len * 64) count (fun t => size t * 64) (fun t j => place t (j / 64) * 64 + j % 64) where
  lt := by
    intro t ht j hj
    have := h.lt t ht (j / 64) (by omega)
    omega
  inj := by
    intro t ht j hj t' ht' j' hj' e
    obtain ⟨rfl, h2⟩ := h.inj t ht (j / 64) (by omega) t' ht' (j' / 64) (by omega) (by omega)
    exact ⟨rfl, by omega⟩
  cover := by
    intro i hi
    obtain ⟨t, ht, j, hj, e⟩ := h.cover (i / 64) (by omega)
    refine ⟨t, ht, j * 64 + i % 64, by omega, ?_⟩
    rw [show (j * 64 + i % 64) / 64 = j by omega, e]
    omega

/-- An array of which the pieces in `done` are those of `b`, the others those of `a`. -/
structure Mixed {α : Type} (len count : Nat) (size : Nat → Nat) (place : Nat → Nat → Nat) (done : List Nat) (a b l : List α) : Prop where
  length : l.length = len
  old : ∀ t < count, ∀ j < size t, t ∉ done → l[place t j]? = a[place t j]?
  new : ∀ t < count, ∀ j < size t, t ∈ done → l[place t j]? = b[place t j]?

namespace Mixed
variable {α : Type} {len count : Nat} {size : Nat → Nat} {place : Nat → Nat → Nat} {done : List Nat} {a b l : List α}

theorem start (h : a.length = len) : Mixed len count size place [] a b a := ⟨h, fun _ _ _ _ _ => rfl, fun _ _ _ _ h => (by cases h)⟩

theorem step (h : Mixed len count size place done a b l) (ht : Tiling len count size place) (hb : b.length = len) {t : Nat} (hlt : t < count) (d : α) :
    Mixed len count size place (t :: done) a b (paste d (place t) (size t) (crop d (place t) (size t) b) l) where
  length := by rw [paste_length]; exact h.length
  old := by
    intro t' ht' j hj hd
    have hne : t' ≠ t := fun e => hd (by rw [e]; exact List.mem_cons_self)
    rw [paste_other fun k hk e => hne (ht.inj t hlt k hk t' ht' j hj e).1.symm]
    exact h.old t' ht' j hj fun hm => hd (List.mem_cons_of_mem _ hm)
  new := by
    intro t' ht' j hj hd
    by_cases hne : t' = t
    · subst hne
      have hpl := ht.lt t' hlt j hj
      rw [paste_at (fun k hk e => (ht.inj t' hlt k hk t' hlt j hj e).2) hj (by rw [h.length]; exact hpl), List.getD_eq_getElem?_getD,
        crop_get hj (by rw [hb]; exact hpl), List.getElem?_eq_getElem (by rw [hb]; exact hpl)]
      rfl
    · rw [paste_other fun k hk e => hne (ht.inj t hlt k hk t' ht' j hj e).1.symm]
      exact h.new t' ht' j hj ((List.mem_cons.mp hd).resolve_left hne)

/-- A piece that has not been replaced. -/
theorem crop_old (h : Mixed len count size place done a b l) (ht : Tiling len count size place) (ha : a.length = len) {t : Nat} (hlt : t < count) (hd : t ∉ done)
    (d : α) : crop d (place t) (size t) l = crop d (place t) (size t) a := by
  apply List.ext_getElem?
  intro j
  by_cases hj : j < size t
  · have hpl := ht.lt t hlt j hj
    rw [crop_get hj (by rw [h.length]; exact hpl), crop_get hj (by rw [ha]; exact hpl)]
    exact h.old t hlt j hj hd
  · rw [List.getElem?_eq_none (by rw [crop_length]; omega), List.getElem?_eq_none (by rw [crop_length]; omega)]

theorem all (h : Mixed len count size place done a b l) (ht : Tiling len count size place) (hb : b.length = len) (hd : ∀ t < count, t ∈ done) : l = b := by
  apply List.ext_getElem?
  intro i
  by_cases hi : i < len
  · obtain ⟨t, hlt, j, hj, rfl⟩ := ht.cover i hi
    exact h.new t hlt j hj (hd t hlt)
  · rw [List.getElem?_eq_none (by rw [h.length]; omega), List.getElem?_eq_none (by omega)]

end Mixed

/-- Arrays with the same pieces are the same. -/
theorem Tiling.ext {α : Type} {len count : Nat} {size : Nat → Nat} {place : Nat → Nat → Nat} (ht : Tiling len count size place) {a b : List α} (d : α)
    (ha : a.length = len) (hb : b.length = len) (h : ∀ t < count, crop d (place t) (size t) a = crop d (place t) (size t) b) : a = b := by
  apply List.ext_getElem?
  intro i
  by_cases hi : i < len
  · obtain ⟨t, hlt, j, hj, rfl⟩ := ht.cover i hi
    rw [← crop_get (d := d) (n := size t) hj (by omega), h t hlt, crop_get hj (by omega)]
  · rw [List.getElem?_eq_none (by omega), List.getElem?_eq_none (by omega)]

/-! ## The tiles of a component -/

theorem pos_lt' {w h x y : Nat} (hx : x < w) (hy : y < h) : y * w + x < w * h := by
  have : (y + 1) * w ≤ h * w := Nat.mul_le_mul_right w hy
  rw [Nat.add_mul] at this
  rw [Nat.mul_comm w h]
  omega

theorem grid_inj {w x x' y y' : Nat} (hx : x < w) (hx' : x' < w) (e : y * w + x = y' * w + x') : y = y' ∧ x = x' := by
  have hpos : 0 < w := by omega
  have e1 : x = x' := by
    have := congrArg (· % w) e
    rwa [Nat.mul_comm y, Nat.mul_comm y', Nat.mul_add_mod, Nat.mul_add_mod, Nat.mod_eq_of_lt hx, Nat.mod_eq_of_lt hx'] at this
  subst e1
  exact ⟨Nat.eq_of_mul_eq_mul_right hpos (by omega), rfl⟩

theorem place_mem {g : Geometry} {dim t j : Nat} (hj : j < g.size dim t) :
    (first g.h dim g.maxH (t % numTiles g.mcuCols g.maxH dim) + j % g.cols dim t, first g.v dim g.maxV (t / numTiles g.mcuCols g.maxH dim) + j / g.cols dim t) ∈
      g.blocks dim t := by
  have hpos : 0 < g.cols dim t := by
    rcases Nat.eq_zero_or_pos (g.cols dim t) with h | h
    · rw [Geometry.size, h, Nat.zero_mul] at hj; omega
    · exact h
  rw [Geometry.blocks]
  simp only [List.mem_flatMap, List.mem_map, List.mem_range]
  refine ⟨j / g.cols dim t, ?_, j % g.cols dim t, Nat.mod_lt _ hpos, rfl⟩
  exact Nat.div_lt_of_lt_mul hj

theorem geometry_tiling {g : Geometry} {dim : Nat} (hg : g.Ok dim) : Tiling (g.width * g.height) (g.tasks dim) (g.size dim) (g.place dim) where
  lt := by
    intro t ht j hj
    obtain ⟨h1, h2⟩ := (C36_tiles_inside g dim hg t ht).2 _ (place_mem hj)
    dsimp only at h1 h2
    exact pos_lt' h1 h2
  inj := by
    intro t ht j hj t' ht' j' hj' e
    have m1 := place_mem hj
    have m2 := place_mem hj'
    obtain ⟨h1, h2⟩ := (C36_tiles_inside g dim hg t ht).2 _ m1
    obtain ⟨h3, h4⟩ := (C36_tiles_inside g dim hg t' ht').2 _ m2
    dsimp only at h1 h2 h3 h4
    unfold Geometry.place at e
    obtain ⟨ey, ex⟩ := grid_inj h1 h3 e
    rw [ex, ey] at m1
    obtain ⟨i, -, hu⟩ := C36_tiling g dim hg _ _ h3 h4
    have := (hu t ht m1).trans (hu t' ht' m2).symm
    subst this
    refine ⟨rfl, ?_⟩
    rw [← Nat.div_add_mod j (g.cols dim t), ← Nat.div_add_mod j' (g.cols dim t)]
    rw [show j % g.cols dim t = j' % g.cols dim t by omega, show j / g.cols dim t = j' / g.cols dim t by omega]
  cover := by
    intro i hi
    have hw : 0 < g.width := by
      rcases Nat.eq_zero_or_pos g.width with h | h
      · rw [h, Nat.zero_mul] at hi; omega
      · exact h
    have hx : i % g.width < g.width := Nat.mod_lt _ hw
    have hy : i / g.width < g.height := Nat.div_lt_of_lt_mul hi
    obtain ⟨t, ⟨ht, hm⟩, -⟩ := C36_tiling g dim hg _ _ hx hy
    rw [Geometry.blocks] at hm
    simp only [List.mem_flatMap, List.mem_map, List.mem_range, Prod.mk.injEq] at hm
    obtain ⟨ly, hly, lx, hlx, e1, e2⟩ := hm
    have hlx' : lx < g.cols dim t := hlx
    have hly' : ly < g.lines dim t := hly
    refine ⟨t, ht, ly * g.cols dim t + lx, pos_lt' hlx' hly', ?_⟩
    unfold Geometry.place
    rw [Nat.mul_comm ly, Nat.mul_add_mod, Nat.mod_eq_of_lt hlx', Nat.mul_add_div (by omega), Nat.div_eq_of_lt hlx', Nat.add_zero, e1, e2, Nat.mul_comm]
    exact Nat.div_add_mod i g.width

end Groups

end Brunsli
