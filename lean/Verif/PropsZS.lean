import Verif.ConcFlag
import Verif.PropsZQ
/-!
# C75 for the prediction of DC coefficients in `EncodeGroups`

The first part of the tasks `encode_dc` (c/experimental/groups.cc:265-267), access by access, on all tiles at the same time.
-/

namespace Brunsli
open Groups

/-- The tasks of the code are confined to their tiles: predictions look at blocks to the left and above only within the tile. -/
theorem C75_predict_confined (gs : Nat → Geometry) (n dim tasks : Nat) (m : Cell → Int) :
    Confined gs n dim (fun i : Fin tasks => predictTask (tileBlocks gs n dim i)) m :=
  fun _ => safe_predictTask _ _ fun _ _ _ => mem_tileBlocks.1

/-- **C75 (6)**: with coefficients of 16 bits, in whatever way the threads take turns: a task that has ended has accepted its tile exactly if, for each
component, the tile taken as an image of its own passes the test of C18; if so, the array of prediction errors holds the errors of that image at the
blocks of the tile.  No coefficient has changed. -/
theorem C75_predict (gs : Nat → Geometry) (n dim tasks : Nat) (ht : Tiled gs n dim tasks) (m : Cell → Int)
    (hm : ∀ c o, -32768 ≤ m (.coef c o) ∧ m (.coef c o) < 32768) (sched : List (Fin tasks)) (i : Fin tasks) (a : Option Bool)
    (hend : ((interleave (placed gs dim fun i : Fin tasks => predictTask (tileBlocks gs n dim i)) m sched).1 i).result = some a) :
    a = some ((List.range n).all fun c => predictDCCoeffs (tileImage gs dim i m c) ((gs c).tileW dim i) ((gs c).tileH dim i)) ∧
      (a = some true → ∀ c x y, c < n → x < (gs c).tileW dim i → y < (gs c).tileH dim i →
        dcErr (tileImage gs dim i m c) ((gs c).tileW dim i) y x =
          some ((interleave (placed gs dim fun i : Fin tasks => predictTask (tileBlocks gs n dim i)) m sched).2 (.error c ((gs c).blockOffset dim i x y)))) ∧
      ∀ c x y k, c < n → x < (gs c).tileW dim i → y < (gs c).tileH dim i → k < 64 →
        (interleave (placed gs dim fun i : Fin tasks => predictTask (tileBlocks gs n dim i)) m sched).2 (.coef c ((gs c).address dim i x y k)) =
          m (.coef c ((gs c).address dim i x y k)) := by
  obtain ⟨h1, h2⟩ := (C75_isolated_partial gs n dim tasks ht _ m (C75_predict_confined gs n dim tasks m) sched).1 i a hend
  generalize (interleave (placed gs dim fun i : Fin tasks => predictTask (tileBlocks gs n dim i)) m sched).2 = r at *
  obtain ⟨r1, r2, -, r4⟩ := run_predictTask (tileBlocks gs n dim i) (fun x => m (tileCell gs dim i x)) fun c y x _ => memErr_some _ (fun _ _ _ _ => hm _ _) c y x
  refine ⟨?_, fun ha c x y hc hx hy => ?_, fun c x y k hc hx hy hk => ?_⟩
  · rw [h1, r1, all_tileBlocks]
  · rw [tileImage_err m hx hy, r2 (h1.symm.trans ha) c y x (mem_tileBlocks.2 ⟨hc, hx, hy⟩)]
    exact congrArg some (h2 (.error c x y) ⟨hc, hx, hy⟩).symm
  · exact (h2 (.coef c x y k) ⟨hc, ⟨hx, hy⟩, hk⟩).trans (r4 c x y k)

/-- **C75 (7)**: the tasks `encode_dc`, which share the flag `failed`, skip work when it is set and set it when their tile is refused: when all of them have ended, in
whatever way they took turns, the flag is set (and `EncodeGroups` fails, c/experimental/groups.cc:271) if and only if some tile, taken as images of their own,
does not pass the test of C18.  `encode` is what follows, any task that stays within its tile. -/
theorem C75_failed (gs : Nat → Geometry) (n dim tasks : Nat) (ht : Tiled gs n dim tasks) (encode : Fin tasks → Task Cell Int Unit)
    (henc : ∀ i m, (encode i).Safe (Cell.Own gs n dim i) Cell.Common m) (hset : ∀ i, (encode i).Sets failedCell 1) (m : Cell → Int)
    (hm : ∀ c o, -32768 ≤ m (.coef c o) ∧ m (.coef c o) < 32768) (h0 : m failedCell = 0) (sched : List (Fin tasks))
    (hend : ∀ i, ((interleave (encodeDcFlagTask gs n dim encode) m sched).1 i).result ≠ none) :
    (interleave (encodeDcFlagTask gs n dim encode) m sched).2 failedCell = 1 ↔
      ∃ i : Fin tasks, ∃ c < n, predictDCCoeffs (tileImage gs dim i m c) ((gs c).tileW dim i) ((gs c).tileH dim i) = false := by
  have hF : ∀ i : Fin tasks, ¬ failedCell.Own gs n dim i := fun i h => Cell.own_not_common h trivial
  have hsafe := fun i => placed_safe ht (C75_predict_confined gs n dim tasks m) i
  have hrest : ∀ (i : Fin tasks) (m' : Cell → Int),
      (Task.read failedCell fun f => if f ≠ 0 then .ret () else encode i : Task Cell Int Unit).Safe (Cell.Own gs n dim i) Cell.Common m' := by
    intro i m'
    refine ⟨Or.inr trivial, ?_⟩
    beta_reduce
    split
    · trivial
    · exact henc i m'
  have e0 : ¬ (m failedCell ≠ 0) := fun h => h h0
  rw [flag_iff (own := fun i : Fin tasks => Cell.Own gs n dim i) (shared := Cell.Common) (fun i j _ h h' => Fin.ext (Cell.own_disjoint ht i.2 j.2 h h'))
    (fun _ _ h => Cell.own_not_common h) hF (fun i => ?_) (fun i => ?_) (by rw [h0]; decide) sched hend]
  · refine exists_congr fun i => ?_
    obtain ⟨k1, -, -⟩ := Task.run_rename (fun a b ha hb e => tileCell_inj' ht i.2 a b ha hb e) (predictTask (tileBlocks gs n dim i)) (m := m)
      (l := fun x => m (tileCell gs dim i x)) (fun _ _ => rfl)
      (Task.safe_mono (own' := fun a => TCell.Inside gs n dim i a ∨ a.Common) (shared' := fun _ => False) (fun _ => Or.inl) (fun _ h => Or.inl (Or.inr h)) _
        (C75_predict_confined gs n dim tasks m i))
    obtain ⟨r1, -⟩ := run_predictTask (tileBlocks gs n dim i) (fun x => m (tileCell gs dim i x)) fun c y x _ => memErr_some _ (fun _ _ _ _ => hm _ _) c y x
    have e : ((placed gs dim (fun i : Fin tasks => predictTask (tileBlocks gs n dim i)) i).run m).1 =
        some ((List.range n).all fun c => predictDCCoeffs (tileImage gs dim i m c) ((gs c).tileW dim i) ((gs c).tileH dim i)) := by
      rw [← all_tileBlocks, ← r1]; exact k1
    have cut : ((encodeDcFlagTask gs n dim encode i).cut failedCell).run m =
        (((placed gs dim (fun i : Fin tasks => predictTask (tileBlocks gs n dim i)) i).bind fun ok =>
          if ok = some true then (Task.read failedCell fun f => if f ≠ 0 then .ret () else encode i : Task Cell Int Unit)
          else .write failedCell 1 (.read failedCell fun f => if f ≠ 0 then .ret () else encode i)).cut failedCell).run m := by
      unfold encodeDcFlagTask
      rw [Task.cut, Task.run]
      beta_reduce
      rw [if_neg e0]
    rw [cut, Task.cut_bind_run (hF i) _ (hsafe i), e]
    cases hall : (List.range n).all fun c => predictDCCoeffs (tileImage gs dim i m c) ((gs c).tileW dim i) ((gs c).tileH dim i) with
    | false =>
      rw [if_neg (by decide), Task.cut, if_pos rfl]
      refine ⟨fun _ => ?_, fun _ => rfl⟩
      obtain ⟨c, hc, h⟩ := List.all_eq_false.1 hall
      exact ⟨c, List.mem_range.1 hc, Bool.eq_false_iff.2 h⟩
    | true =>
      rw [if_pos rfl]
      constructor
      · intro h
        rw [Task.cut_run (hF i) _ (hrest i _)] at h
        exact absurd h (Option.some_ne_none _)
      · rintro ⟨c, hc, h⟩
        rw [List.all_eq_true.1 hall c (List.mem_range.2 hc)] at h
        exact absurd h (by decide)
  · unfold encodeDcFlagTask
    refine ⟨Or.inr trivial, ?_⟩
    beta_reduce
    rw [if_neg e0]
    refine Task.cut_bind_safe _ (hsafe i) ?_
    beta_reduce
    split
    · exact Task.cut_safe _ (hrest i _)
    · rw [Task.cut, if_pos rfl]; trivial
  · have hr : (Task.read failedCell fun f => if f ≠ 0 then .ret () else encode i : Task Cell Int Unit).Sets failedCell 1 := by
      intro v
      beta_reduce
      split
      · trivial
      · exact hset i
    unfold encodeDcFlagTask
    intro v
    beta_reduce
    split
    · trivial
    · refine Task.sets_bind _ (sets_predictTask gs dim i _) fun ok => ?_
      beta_reduce
      split
      · exact hr
      · exact ⟨fun _ => rfl, hr⟩

/-- **C75 (8)**: what would be enough to repair the decoder (C39, C75 (5)): with the outcome in a variable of the task, any tasks that stay within their tiles and a
flag as in the code, the flag is set in the end if and only if some task, alone, fails, for every interleaving. -/
theorem C75_local_status (gs : Nat → Geometry) (n dim tasks : Nat) (ht : Tiled gs n dim tasks) (process : Fin tasks → Task Cell Int Bool) (m : Cell → Int)
    (hp : ∀ i, (process i).Safe (Cell.Own gs n dim i) Cell.Common m) (hset : ∀ i, (process i).Sets failedCell 1) (h0 : m failedCell = 0) (sched : List (Fin tasks))
    (hend : ∀ i, ((interleave (decodeLocalTask process) m sched).1 i).result ≠ none) :
    (interleave (decodeLocalTask process) m sched).2 failedCell = 1 ↔ ∃ i, ((process i).run m).1 = false := by
  have hF : ∀ i : Fin tasks, ¬ failedCell.Own gs n dim i := fun i h => Cell.own_not_common h trivial
  have e0 : ¬ (m failedCell ≠ 0) := fun h => h h0
  rw [flag_iff (own := fun i : Fin tasks => Cell.Own gs n dim i) (shared := Cell.Common) (fun i j _ h h' => Fin.ext (Cell.own_disjoint ht i.2 j.2 h h'))
    (fun _ _ h => Cell.own_not_common h) hF (fun i => ?_) (fun i => ?_) (by rw [h0]; decide) sched hend]
  · refine exists_congr fun i => ?_
    have cut : ((decodeLocalTask process i).cut failedCell).run m =
        (((process i).bind fun ok => if ok then (.ret () : Task Cell Int Unit) else .write failedCell 1 (.ret ())).cut failedCell).run m := by
      unfold decodeLocalTask
      rw [Task.cut, Task.run]
      beta_reduce
      rw [if_neg e0]
    rw [cut, Task.cut_bind_run (hF i) _ (hp i)]
    cases ((process i).run m).1
    · rw [if_neg (by decide), Task.cut, if_pos rfl]
      exact ⟨fun _ => rfl, fun _ => rfl⟩
    · rw [if_pos rfl]
      exact ⟨fun h => absurd h (Option.some_ne_none ()), fun h => absurd h (by decide)⟩
  · unfold decodeLocalTask
    refine ⟨Or.inr trivial, ?_⟩
    beta_reduce
    rw [if_neg e0]
    refine Task.cut_bind_safe _ (hp i) ?_
    beta_reduce
    split
    · trivial
    · rw [Task.cut, if_pos rfl]; trivial
  · unfold decodeLocalTask
    intro v
    beta_reduce
    split
    · trivial
    · refine Task.sets_bind _ (hset i) fun ok => ?_
      beta_reduce
      split
      · trivial
      · exact ⟨fun _ => rfl, trivial⟩

/-! ## Non-vacuity -/

example (i : Fin 3) (m : Cell → Int) : (Task.ret () : Task Cell Int Unit).Safe (Cell.Own exGeometry 2 2 i) Cell.Common m ∧
    (Task.ret () : Task Cell Int Unit).Sets failedCell 1 := ⟨trivial, trivial⟩

/-- The three tasks of `exGeometry` take turns until all have ended: with a difference of 3000 in the second component of the third tile, that tile is refused and the
others are not. -/
example : let m : Cell → Int := fun x => match x with
      | .coef 0 o => o / 64
      | .coef 1 o => if o = 128 then 3000 else 5
      | _ => 0
    let r : (Fin 3 → Task Cell Int (Option Bool)) × (Cell → Int) := interleave (placed exGeometry 2 fun i : Fin 3 => predictTask (tileBlocks exGeometry 2 2 i)) m ((List.range 60).map fun k => (⟨k % 3, Nat.mod_lt k (by decide)⟩ : Fin 3))
    (r.1 0).result = some (some true) ∧ (r.1 1).result = some (some true) ∧ (r.1 2).result = some (some false) ∧
      r.2 (.error 0 7) = 1 ∧ r.2 (.error 0 6) = 6 ∧ r.2 (.error 1 1) = 5 := by
  decide +kernel

/-- The same with the flag: it is set in the end. -/
example : let m : Cell → Int := fun x => match x with
      | .coef 0 o => o / 64
      | .coef 1 o => if o = 128 then 3000 else 5
      | _ => 0
    let r : (Fin 3 → Task Cell Int Unit) × (Cell → Int) :=
      interleave (encodeDcFlagTask exGeometry 2 2 fun _ => .ret ()) m ((List.range 75).map fun k => (⟨k % 3, Nat.mod_lt k (by decide)⟩ : Fin 3))
    (∀ i, (r.1 i).result = some ()) ∧ r.2 failedCell = 1 := by
  decide +kernel

/-- Tasks of the decoder of which the last one fails after it has written to its tile. -/
def exProcess (i : Fin 3) : Task Cell Int Bool := .write (tileCell exGeometry 2 i (.state 0 0 0)) 3 (.ret (decide (i ≠ 2)))

example (m : Cell → Int) : (∀ i, (exProcess i).Safe (Cell.Own exGeometry 2 2 i) Cell.Common m) ∧ (∀ i, (exProcess i).Sets failedCell 1) ∧
    (∀ i, ((interleave (decodeLocalTask exProcess) (fun _ => 0) [2, 1, 0, 0, 1, 2, 2]).1 i).result = some ()) ∧
    (interleave (decodeLocalTask exProcess) (fun _ => 0) [2, 1, 0, 0, 1, 2, 2]).2 failedCell = 1 := by
  have h : ∀ i : Fin 3, (exGeometry 0).inTile 2 i 0 0 := by unfold Geometry.inTile; decide +kernel
  exact ⟨fun i => ⟨⟨.state 0 0 0, ⟨by decide, h i⟩, rfl⟩, trivial⟩, fun i => ⟨fun e => Cell.noConfusion e, trivial⟩, by decide +kernel, by decide +kernel⟩

end Brunsli
