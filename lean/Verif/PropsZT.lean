import Verif.ConcSample
import Verif.PropsZQ
/-!
# C75 for the sampling of coefficients in `EncodeGroups`
-/

namespace Brunsli
open Groups

theorem C75_sample_confined (gs : Nat → Geometry) (n dim tasks : Nat) (m : Cell → Int) :
    Confined gs n dim (fun i : _root_.Fin tasks => sampleComps gs dim i (List.range n)) m :=
  fun _ => safe_sampleComps _ _ fun _ => List.mem_range.1

/-- **C75 (9)**: the tasks `sample_nonzeros`, access by access: in whatever way the threads take turns, a task that has ended has, for each component, the
number of coefficients and the counts of zeros that sampling its tile as an image of its own gives.  Memory is as it was. -/
theorem C75_sample (gs : Nat → Geometry) (n dim tasks : Nat) (ht : Tiled gs n dim tasks) (m : Cell → Int) (sched : List (_root_.Fin tasks)) (i : _root_.Fin tasks)
    (a : List (Nat × List Nat))
    (hend : ((interleave (placed gs dim fun i : _root_.Fin tasks => sampleComps gs dim i (List.range n)) m sched).1 i).result = some a) :
    a = (List.range n).map fun c =>
      (sampleNumNonZeros (tileImage gs dim i m c) ((gs c).tileW dim i * (gs c).tileH dim i),
        (List.range 64).map (numZeros (tileImage gs dim i m c) ((gs c).tileW dim i * (gs c).tileH dim i))) := by
  obtain ⟨h1, -⟩ := (C75_isolated_partial gs n dim tasks ht _ m (C75_sample_confined gs n dim tasks m) sched).1 i a hend
  rw [h1, run_sampleComps]
  rfl

/-! ## Non-vacuity -/

/-- Four tiles of 32 by 32 blocks at least, so that there is something to sample: the first task looks at 205 blocks. -/
example : Tiled (fun _ => ⟨64, 64, 1, 1, 1, 1⟩) 1 32 4 ∧ Geometry.tileW ⟨64, 64, 1, 1, 1, 1⟩ 32 3 * Geometry.tileH ⟨64, 64, 1, 1, 1, 1⟩ 32 3 = 1024 ∧
    (sampleCells 32 1024).length = 205 * 64 := by
  refine ⟨⟨fun _ _ => by constructor <;> decide, fun _ _ => by decide +kernel⟩, by decide +kernel, ?_⟩
  rw [sampleCells, List.length_flatMap]
  simp only [List.length_map, List.length_range]
  decide +kernel

end Brunsli
