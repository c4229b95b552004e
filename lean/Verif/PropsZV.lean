import Verif.PropsZS
import Verif.PropsZU
import Verif.PropsI
/-!
# C75: the whole of `encode_dc`, and the order of blocks
-/

namespace Brunsli
open Groups

/-- The order of the JPEG standard for rows of MCUs with the components of a row one after the other (c/enc/brunsli_encode.cc:1104-1113):
row of MCUs, component, row, column. -/
def Before (gs : Nat → Geometry) (a b : Nat × Nat × Nat) : Prop :=
  a.2.1 / (gs a.1).v < b.2.1 / (gs b.1).v ∨ a.2.1 / (gs a.1).v = b.2.1 / (gs b.1).v ∧
    (a.1 < b.1 ∨ a.1 = b.1 ∧ (a.2.1 < b.2.1 ∨ a.2.1 = b.2.1 ∧ a.2.2 < b.2.2))

/-- **C75 (11)**: `EncodeDC` visits each block of its tile once, and in this order. With `C75_encode_order` this determines the list. -/
theorem C75_encode_sorted (gs : Nat → Geometry) (n dim idx : Nat) : (encodeOrder gs n dim idx).Pairwise (Before gs) := by
  have row : ∀ my c iy, iy < (gs c).v → (my * (gs c).v + iy) / (gs c).v = my := by
    intro my c iy h
    rw [Nat.mul_comm, Nat.mul_add_div (by omega), Nat.div_eq_of_lt h, Nat.add_zero]
  rw [encodeOrder, List.pairwise_flatMap]
  refine ⟨fun my _ => ?_, List.pairwise_lt_range.imp fun {a b} hab p hp q hq => ?_⟩
  · rw [List.pairwise_flatMap]
    refine ⟨fun c hc => ?_, List.pairwise_lt_range.imp fun {a b} hab p hp q hq => ?_⟩
    · rw [List.pairwise_flatMap]
      refine ⟨fun iy hiy => ?_, (List.Pairwise.and_mem.1 List.pairwise_lt_range).imp fun {a b} hab p hp q hq => ?_⟩
      · rw [List.pairwise_map]
        exact List.pairwise_lt_range.imp fun h => Or.inr ⟨rfl, Or.inr ⟨rfl, Or.inr ⟨rfl, h⟩⟩⟩
      · obtain ⟨x, -, rfl⟩ := List.mem_map.1 hp
        obtain ⟨x', -, rfl⟩ := List.mem_map.1 hq
        have ha := List.mem_range.1 hab.1
        have hb := List.mem_range.1 hab.2.1
        exact Or.inr ⟨(row my c a ha).trans (row my c b hb).symm, Or.inr ⟨rfl, Or.inl (Nat.add_lt_add_left hab.2.2 _)⟩⟩
    · simp only [List.mem_flatMap, List.mem_range, List.mem_map] at hp hq
      obtain ⟨i, hi, x, -, rfl⟩ := hp
      obtain ⟨j, hj, x', -, rfl⟩ := hq
      exact Or.inr ⟨(row my a i hi).trans (row my b j hj).symm, Or.inl hab⟩
  · simp only [List.mem_flatMap, List.mem_range, List.mem_map] at hp hq
    obtain ⟨c, -, i, hi, x, -, rfl⟩ := hp
    obtain ⟨d, -, j, hj, x', -, rfl⟩ := hq
    left
    show (a * (gs c).v + i) / (gs c).v < (b * (gs d).v + j) / (gs d).v
    rw [row a c i hi, row b d j hj]
    exact hab

theorem sets_collectReads {α : Type} {F : Cell} {one : Int} {g : TCell → Cell} {c x y : Nat} {k : Int → Task TCell Int α} (h : ∀ r, ((k r).rename g).Sets F one) (ks : List Nat) :
    ((collectReads c x y ks k).rename g).Sets F one := by
  induction ks with
  | nil => exact h 0
  | cons j ks ih =>
    intro v
    beta_reduce
    split
    · exact h v
    · exact ih

theorem sets_encodeDcReads {σ : Type} (gs : Nat → Geometry) (dim idx : Nat) (f : σ → Nat × Nat × Nat → Int → Bool → σ) (l : List (Nat × Nat × Nat)) :
    ∀ s, ((encodeDcReads f l s).rename (tileCell gs dim idx)).Sets failedCell 1 := by
  induction l with
  | nil => intro s; trivial
  | cons b l ih =>
    intro s
    obtain ⟨c, y, x⟩ := b
    rw [encodeDcReads]
    intro v
    refine sets_collectReads ?_ _
    intro r
    exact ⟨fun e => Cell.noConfusion e, ih _⟩

/-- **C75 (12)**: the whole of the tasks `encode_dc`, prediction, flag and `EncodeDC`, access by access (the state that `EncodeDC` keeps to itself, on which no access depends, is
left out): when all have ended, in whatever way they took turns, `EncodeGroups` goes on if and only if every tile, taken as images of their own, passes the test of C18. -/
theorem C75_encode_dc_failed (gs : Nat → Geometry) (n dim tasks : Nat) (ht : Tiled gs n dim tasks) (hsame : SameImage gs n) (m : Cell → Int)
    (hm : ∀ c o, -32768 ≤ m (.coef c o) ∧ m (.coef c o) < 32768) (h0 : m failedCell = 0) (sched : List (Fin tasks))
    (hend : ∀ i, ((interleave (encodeDcFlagTask gs n dim
      (placed gs dim fun i : Fin tasks => encodeDcReads (fun _ _ _ _ => ()) (encodeOrder gs n dim i) ())) m sched).1 i).result ≠ none) :
    (interleave (encodeDcFlagTask gs n dim (placed gs dim fun i : Fin tasks => encodeDcReads (fun _ _ _ _ => ()) (encodeOrder gs n dim i) ())) m sched).2 failedCell = 1 ↔
      ∃ i : Fin tasks, ∃ c < n, predictDCCoeffs (tileImage gs dim i m c) ((gs c).tileW dim i) ((gs c).tileH dim i) = false :=
  C75_failed gs n dim tasks ht _ (fun i m => placed_safe ht (C75_encode_dc_confined gs n dim tasks ht hsame _ _ m) i)
    (fun i => sets_encodeDcReads gs dim i _ _ _) m hm h0 sched hend

/-- **C75 (14)**: when all tasks have run `EncodeDC`, whatever the group dimension, the array of block states marks exactly the empty blocks of the whole image: tiles leave no trace.
(`encode_ac`, with tiles of another size, starts from here.) -/
theorem C75_encode_dc_image {σ : Type} (gs : Nat → Geometry) (n dim tasks : Nat) (ht : Tiled gs n dim tasks) (hsame : SameImage gs n)
    (f : σ → Nat × Nat × Nat → Int → Bool → σ) (s0 : σ) (m : Cell → Int) (sched : List (Fin tasks))
    (hend : ∀ i, ((interleave (placed gs dim fun i : Fin tasks => encodeDcReads f (encodeOrder gs n dim i) s0) m sched).1 i).result ≠ none)
    (c bx byy : Nat) (hc : c < n) (hx : bx < (gs c).width) (hy : byy < (gs c).height) :
    (interleave (placed gs dim fun i : Fin tasks => encodeDcReads f (encodeOrder gs n dim i) s0) m sched).2 (.state c (byy * (gs c).width + bx)) = 1 ↔
      m (.error c (byy * (gs c).width + bx)) = 0 ∧ ∀ k, 0 < k → k < 64 → m (.coef c ((byy * (gs c).width + bx) * 64 + k)) = 0 := by
  obtain ⟨idx, ⟨hidx, hmem⟩, -⟩ := C36_tiling (gs c) dim (ht.ok c hc) bx byy hx hy
  rw [ht.tasks c hc] at hidx
  obtain ⟨a, ha⟩ := Option.ne_none_iff_exists'.1 (hend ⟨idx, hidx⟩)
  unfold Geometry.blocks at hmem
  simp only [List.mem_flatMap, List.mem_map, List.mem_range] at hmem
  obtain ⟨ly, hly, lx, hlx, e⟩ := hmem
  have h := (C75_encode_dc gs n dim tasks ht hsame f s0 m sched ⟨idx, hidx⟩ a ha).1 c lx ly hc hlx hly
  have ex := congrArg Prod.fst e
  have ey := congrArg Prod.snd e
  dsimp only at ex ey
  have e1 : (gs c).blockOffset dim idx lx ly = byy * (gs c).width + bx := by
    rw [Geometry.blockOffset, ← ex, ← ey, Nat.add_mul]
    omega
  have e2 : ∀ k, (gs c).address dim idx lx ly k = (byy * (gs c).width + bx) * 64 + k := by
    intro k
    rw [C36_addresses, ex, ey, Geometry.coeff]
  simp only [e1, e2] at h
  exact h

/-! ## Non-vacuity -/

/-- The order of the example of C75, with two components. -/
example : Before exGeometry (0, 1, 1) (1, 0, 0) ∧ [(0, 1, 1), (1, 0, 0)].Sublist (encodeOrder exGeometry 2 2 1) := by
  refine ⟨?_, by decide +kernel⟩
  unfold Before
  decide +kernel

/-- All tasks end and the flag stays clear. -/
example : (∀ i, ((interleave (encodeDcFlagTask exGeometry 2 2
      (placed exGeometry 2 fun i : Fin 3 => encodeDcReads (fun _ _ _ _ => ()) (encodeOrder exGeometry 2 2 i) ())) (fun _ => 0)
      ((List.replicate 400 [0, 1, 2]).flatten)).1 i).result = some ()) := by
  decide +kernel

/-- A difference of 3000 in the third tile: all tasks end and the flag is set. -/
example : let m : Cell → Int := fun x => match x with
      | .coef 0 o => o / 64
      | .coef 1 o => if o = 128 then 3000 else 5
      | _ => 0
    let r := interleave (encodeDcFlagTask exGeometry 2 2
      (placed exGeometry 2 fun i : Fin 3 => encodeDcReads (fun _ _ _ _ => ()) (encodeOrder exGeometry 2 2 i) ())) m ((List.replicate 60 [0, 1, 2]).flatten)
    (∀ i, (r.1 i).result = some ()) ∧ r.2 failedCell = 1 := by
  decide +kernel

end Brunsli
