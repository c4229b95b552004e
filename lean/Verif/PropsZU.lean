import Verif.ConcEncode
import Verif.PropsZQ
/-!
# C75 for `EncodeDC`
-/

namespace Brunsli
open Groups

theorem C75_encode_dc_confined {σ : Type} (gs : Nat → Geometry) (n dim tasks : Nat) (ht : Tiled gs n dim tasks) (hsame : SameImage gs n)
    (f : σ → Nat × Nat × Nat → Int → Bool → σ) (s0 : σ) (m : Cell → Int) :
    Confined gs n dim (fun i : Fin tasks => encodeDcReads f (encodeOrder gs n dim i) s0) m :=
  fun i => safe_encodeDcReads f _ _ _ fun _ _ _ => (mem_encodeOrder ht hsame i.2).1

/-- **C75 (10)**: `EncodeDC`, access by access, on all tiles at the same time.  In whatever way the threads take turns, a task that has ended marks exactly the empty
blocks of its tile (no prediction error, no coefficient but the first), and the state it ends with, whatever function `f` computes it, is that of going through
the blocks of the tile in order with the errors found in memory at the start. -/
theorem C75_encode_dc {σ : Type} (gs : Nat → Geometry) (n dim tasks : Nat) (ht : Tiled gs n dim tasks) (hsame : SameImage gs n)
    (f : σ → Nat × Nat × Nat → Int → Bool → σ) (s0 : σ) (m : Cell → Int) (sched : List (Fin tasks)) (i : Fin tasks) (a : σ)
    (hend : ((interleave (placed gs dim fun i : Fin tasks => encodeDcReads f (encodeOrder gs n dim i) s0) m sched).1 i).result = some a) :
    (∀ c x y, c < n → x < (gs c).tileW dim i → y < (gs c).tileH dim i →
      ((interleave (placed gs dim fun i : Fin tasks => encodeDcReads f (encodeOrder gs n dim i) s0) m sched).2 (.state c ((gs c).blockOffset dim i x y)) = 1 ↔
        m (.error c ((gs c).blockOffset dim i x y)) = 0 ∧ ∀ k, 0 < k → k < 64 → m (.coef c ((gs c).address dim i x y k)) = 0)) ∧
    a = (encodeOrder gs n dim i).foldl (fun s b => f s b (m (.error b.1 ((gs b.1).blockOffset dim i b.2.2 b.2.1)))
      (decide (m (.error b.1 ((gs b.1).blockOffset dim i b.2.2 b.2.1)) = 0 ∧ ∀ k ∈ List.range 63, m (.coef b.1 ((gs b.1).address dim i b.2.2 b.2.1 (k + 1))) = 0))) s0 := by
  obtain ⟨h1, h2⟩ := (C75_isolated_partial gs n dim tasks ht _ m (C75_encode_dc_confined gs n dim tasks ht hsame f s0 m) sched).1 i a hend
  generalize (interleave (placed gs dim fun i : Fin tasks => encodeDcReads f (encodeOrder gs n dim i) s0) m sched).2 = r at *
  obtain ⟨r1, r2, -⟩ := run_encodeDcReads f (encodeOrder gs n dim i) s0 fun x => m (tileCell gs dim i x)
  refine ⟨fun c x y hc hx hy => ?_, ?_⟩
  · have e : r (.state c ((gs c).blockOffset dim i x y)) = _ := h2 (.state c x y) ⟨hc, hx, hy⟩
    rw [e, r2 c y x ((mem_encodeOrder ht hsame i.2).2 ⟨hc, hx, hy⟩)]
    have hiff : memEmpty (fun x => m (tileCell gs dim i x)) (c, y, x) = true ↔
        m (.error c ((gs c).blockOffset dim i x y)) = 0 ∧ ∀ k, 0 < k → k < 64 → m (.coef c ((gs c).address dim i x y k)) = 0 := by
      rw [memEmpty, Bool.and_eq_true, decide_eq_true_iff, List.all_eq_true]
      refine and_congr Iff.rfl ⟨fun h k h0 hk => ?_, fun h j hj => ?_⟩
      · obtain ⟨j, rfl⟩ : ∃ j, k = j + 1 := ⟨k - 1, by omega⟩
        exact of_decide_eq_true (h j (List.mem_range.2 (by omega)))
      · exact decide_eq_true (h (j + 1) (by omega) (by have := List.mem_range.1 hj; omega))
    rw [← hiff]
    split
    · simp [*]
    · simp [*]
  · rw [h1, r1]
    congr 1
    funext s b
    congr 1
    rw [Bool.eq_iff_iff, memEmpty, Bool.and_eq_true, decide_eq_true_iff, decide_eq_true_iff, List.all_eq_true]
    exact and_congr Iff.rfl ⟨fun h k hk => of_decide_eq_true (h k hk), fun h k hk => decide_eq_true (h k hk)⟩

/-- Each block of the tile is visited, and nothing else. -/
theorem C75_encode_order (gs : Nat → Geometry) (n dim tasks : Nat) (ht : Tiled gs n dim tasks) (hsame : SameImage gs n) (i : Fin tasks) (c x y : Nat) :
    (c, y, x) ∈ encodeOrder gs n dim i ↔ c < n ∧ x < (gs c).tileW dim i ∧ y < (gs c).tileH dim i :=
  mem_encodeOrder ht hsame i.2

/-! ## Non-vacuity -/

theorem exSame : SameImage exGeometry 2 := by
  constructor <;> intro c hc <;> rcases c with _ | _ | c <;> rfl

example : encodeOrder exGeometry 2 2 1 = [(0, 0, 0), (0, 0, 1), (0, 1, 0), (0, 1, 1), (1, 0, 0)] := by decide +kernel

/-- Run in turns, all tasks end and count five blocks each. -/
example : ∀ i, ((interleave (placed exGeometry 2 fun i : Fin 3 => encodeDcReads (fun (s : Nat) _ _ _ => s + 1) (encodeOrder exGeometry 2 2 i) 0) (fun _ => 7)
    ((List.replicate 16 [0, 1, 2]).flatten)).1 i).result = some 5 := by
  decide +kernel

end Brunsli
