import Verif.ConcEncodeAc
import Verif.PropsZU
/-!
# C75 for `EncodeAC`
-/

namespace Brunsli
open Groups

/-- The tasks `encode_ac` (c/experimental/groups.cc:273-276): each with an order of coefficients of its own. -/
def encodeAcReadTask {σ : Type} (gs : Nat → Geometry) (n dim : Nat) {tasks : Nat} (modes : Nat → Nat) (order : Fin tasks → Nat → Nat → Nat)
    (f : σ → Nat × Nat × Nat → Option (List Int × List Int) → σ) (s0 : σ) (i : Fin tasks) : Task TCell Int σ :=
  encodeAcReads modes (order i) f (encodeOrder gs n dim i) s0

/-- Contexts look at blocks above and to the left only within the tile. -/
theorem C75_encode_ac_confined {σ : Type} (gs : Nat → Geometry) (n dim tasks : Nat) (ht : Tiled gs n dim tasks) (hsame : SameImage gs n) (modes : Nat → Nat)
    (order : Fin tasks → Nat → Nat → Nat) (ho : ∀ i c k, order i c k < 64) (f : σ → Nat × Nat × Nat → Option (List Int × List Int) → σ) (s0 : σ) (m : Cell → Int) :
    Confined gs n dim (encodeAcReadTask gs n dim modes order f s0) m :=
  fun i => safe_encodeAcReads modes (order i) (ho i) f _ _ _ fun _ _ _ => (mem_encodeOrder ht hsame i.2).1

/-- **C75 (13)**: `EncodeAC`, access by access, on all tiles at the same time.  In whatever way the threads take turns, a task that has ended has the state, whatever function `f`
computes it, of going through the blocks of its tile in order with the block states and coefficients that are in memory at the start; and these are still there. -/
theorem C75_encode_ac {σ : Type} (gs : Nat → Geometry) (n dim tasks : Nat) (ht : Tiled gs n dim tasks) (hsame : SameImage gs n) (modes : Nat → Nat)
    (order : Fin tasks → Nat → Nat → Nat) (ho : ∀ i c k, order i c k < 64) (f : σ → Nat × Nat × Nat → Option (List Int × List Int) → σ) (s0 : σ) (m : Cell → Int)
    (sched : List (Fin tasks)) (i : Fin tasks) (a : σ) (hend : ((interleave (placed gs dim (encodeAcReadTask gs n dim modes order f s0)) m sched).1 i).result = some a) :
    a = (encodeOrder gs n dim i).foldl (fun s b => f s b (acSeen modes (order i) (fun x => m (tileCell gs dim i x)) b)) s0 ∧
      (∀ c x y k, c < n → x < (gs c).tileW dim i → y < (gs c).tileH dim i → k < 64 →
        (interleave (placed gs dim (encodeAcReadTask gs n dim modes order f s0)) m sched).2 (.coef c ((gs c).address dim i x y k)) = m (.coef c ((gs c).address dim i x y k))) ∧
      ∀ c x y, c < n → x < (gs c).tileW dim i → y < (gs c).tileH dim i →
        (interleave (placed gs dim (encodeAcReadTask gs n dim modes order f s0)) m sched).2 (.state c ((gs c).blockOffset dim i x y)) =
          m (.state c ((gs c).blockOffset dim i x y)) := by
  obtain ⟨h1, h2⟩ := (C75_isolated_partial gs n dim tasks ht _ m (C75_encode_ac_confined gs n dim tasks ht hsame modes order ho f s0 m) sched).1 i a hend
  rw [encodeAcReadTask, run_encodeAcReads] at h1 h2
  exact ⟨h1, fun c x y k hc hx hy hk => h2 (.coef c x y k) ⟨hc, ⟨hx, hy⟩, hk⟩, fun c x y hc hx hy => h2 (.state c x y) ⟨hc, hx, hy⟩⟩

/-- What is seen of a block: nothing if it is marked as empty; else the coefficients of the block in the array at the addresses of its tile. -/
theorem C75_encode_ac_seen (gs : Nat → Geometry) (dim i : Nat) (modes : Nat → Nat) (order : Nat → Nat → Nat) (m : Cell → Int) (c y x : Nat) :
    (acSeen modes order (fun a => m (tileCell gs dim i a)) (c, y, x)).map Prod.fst =
      if m (.state c ((gs c).blockOffset dim i x y)) = 0 then some ((List.range 63).map fun j => m (.coef c ((gs c).address dim i x y (order c (j + 1))))) else none := by
  rw [acSeen]
  by_cases h : m (.state c ((gs c).blockOffset dim i x y)) = 0
  · rw [if_pos h, if_neg (fun hn => hn h), ownCells, List.map_map]
    rfl
  · have h' : m (tileCell gs dim i (.state c x y)) ≠ 0 := h
    rw [if_neg h, if_pos h']
    rfl

/-- Which coefficients of neighbours are looked at: for each coefficient of the block that is not zero, those in the same column of the block above, if the mode asks for
it and there is one in the tile; else those in the same row of the block to the left, if the mode asks for it and there is one. -/
theorem C75_encode_ac_neighbours (modes order : Nat → Nat) (ho : ∀ k, order k < 64) (x y : Nat) (cs : List Int) (x' y' k : Nat) :
    (x', y', k) ∈ acCells modes order x y cs ↔ k < 64 ∧ ∃ j, 1 ≤ j ∧ j < 64 ∧ cs.getD (j - 1) 0 ≠ 0 ∧
      ((modes (order j) % 2 = 1 ∧ x' = x ∧ y' + 1 = y ∧ k % 8 = order j % 8) ∨
        (¬ (modes (order j) % 2 = 1 ∧ 0 < y) ∧ modes (order j) / 2 % 2 = 1 ∧ x' + 1 = x ∧ y' = y ∧ k / 8 = order j / 8)) := by
  simp only [acCells, List.mem_flatMap, List.mem_reverse, List.mem_range]
  constructor
  · rintro ⟨j, hj, h⟩
    have hoj := ho (j + 1)
    split at h
    · exact nomatch h
    rename_i hz
    split at h
    · rename_i hm
      obtain ⟨t, ht, e⟩ := List.mem_map.1 h
      have := List.mem_range.1 ht
      cases e
      exact ⟨by omega, j + 1, by omega, by omega, hz, Or.inl ⟨hm.1, rfl, by omega, by omega⟩⟩
    · rename_i hm
      split at h
      · rename_i hm2
        obtain ⟨t, ht, e⟩ := List.mem_map.1 h
        have := List.mem_range.1 ht
        cases e
        exact ⟨by omega, j + 1, by omega, by omega, hz, Or.inr ⟨hm, hm2.1, by omega, rfl, by omega⟩⟩
      · exact nomatch h
  · rintro ⟨hk, j, h1, hj, hz, h⟩
    obtain ⟨j, rfl⟩ : ∃ i, j = i + 1 := ⟨j - 1, by omega⟩
    refine ⟨j, by omega, ?_⟩
    rw [Nat.add_sub_cancel] at hz
    rw [if_neg hz]
    rcases h with ⟨hm, rfl, hy, hk8⟩ | ⟨hm, hm2, hx, rfl, hk8⟩
    · rw [if_pos ⟨hm, by omega⟩]
      refine List.mem_map.2 ⟨k / 8, List.mem_range.2 (by omega), ?_⟩
      rw [← hk8, show y - 1 = y' by omega, show k % 8 + 8 * (k / 8) = k by omega]
    · rw [if_neg hm, if_pos ⟨hm2, by omega⟩]
      refine List.mem_map.2 ⟨k % 8, List.mem_range.2 (by omega), ?_⟩
      rw [← hk8, show x - 1 = x' by omega, show k / 8 * 8 + k % 8 = k by omega]

/-! ## Non-vacuity -/

/-- With the natural order and the mode "row or column" for two coefficients: all tasks end after taking turns; each has seen five blocks, and 16 coefficients of a neighbour
for those that have one in the tile. -/
example : ∀ i, ((interleave (placed exGeometry 2 (encodeAcReadTask exGeometry 2 2 (fun k => if k < 3 then 3 else 0) (fun (_ : Fin 3) _ k => k % 64)
    (fun (s : List Nat) _ o => s ++ [(o.elim 0 fun p => p.2.length)]) [])) (fun a => if a matches .state .. then 0 else 7)
    ((List.replicate 400 [0, 1, 2]).flatten)).1 i).result = some [0, 16, 16, 16, 0] := by
  decide +kernel

end Brunsli
