import Verif.ConcTiles
/-!
# C75: tasks of the groups mode on several threads

A task is any sequence of accesses to the blocks of its tile, by their place in the tile, and to memory that no task writes; what it does may depend on what it
has read.  The pointers and strides of the code lead to the memory of all tasks (`tileCell`), and the threads take turns after each access in any way.
-/

namespace Brunsli
open Groups

section
variable {V α : Type}

/-- The tasks in memory. -/
def placed (gs : Nat → Geometry) (dim : Nat) {tasks : Nat} (ps : Fin tasks → Task TCell V α) (i : Fin tasks) : Task Cell V α := (ps i).rename (tileCell gs dim i)

/-- Each task, given a copy of its tile and nothing else to disturb it, stays within the tile and writes nothing else. -/
def Confined (gs : Nat → Geometry) (n dim : Nat) {tasks : Nat} (ps : Fin tasks → Task TCell V α) (m : Cell → V) : Prop :=
  ∀ i : Fin tasks, (ps i).Safe (TCell.Inside gs n dim i) TCell.Common fun a => m (tileCell gs dim i a)

theorem placed_safe {gs : Nat → Geometry} {n dim tasks : Nat} (ht : Tiled gs n dim tasks) {ps : Fin tasks → Task TCell V α} {m : Cell → V}
    (hc : Confined gs n dim ps m) (i : Fin tasks) : (placed gs dim ps i).Safe (Cell.Own gs n dim i) Cell.Common m := by
  refine Task.safe_rename (local_ := TCell.Inside gs n dim i) (common := TCell.Common) (valid := fun a => a.Inside gs n dim i ∨ a.Common) (fun a b ha hb e => tileCell_inj' ht i.2 a b ha hb e) (fun a ha => ⟨a, ha, rfl⟩) (fun _ => Or.inl)
    (fun a ha => ?_) (fun _ => Or.inr) (ps i) (fun _ _ => rfl) (hc i)
  cases a <;> first | exact ha.elim | trivial

theorem placed_apart {gs : Nat → Geometry} {n dim tasks : Nat} (ht : Tiled gs n dim tasks) {ps : Fin tasks → Task TCell V α} {m : Cell → V}
    (hc : Confined gs n dim ps m) (sched : List (Fin tasks)) :
    Apart (fun i : Fin tasks => Cell.Own gs n dim i) Cell.Common (placed gs dim ps) m (interleave (placed gs dim ps) m sched).1 (interleave (placed gs dim ps) m sched).2 :=
  Apart.interleave (own := fun i : Fin tasks => Cell.Own gs n dim i) (shared := Cell.Common) (fun i j _ h h' => Fin.ext (Cell.own_disjoint ht i.2 j.2 h h'))
    (fun _ _ h => Cell.own_not_common h) sched (Apart.init (placed_safe ht hc))

/-- **C75 (1)**: whenever a task has ended, whatever the others have done meanwhile, its result is what it would have been alone on a copy of its tile, and its
tile holds what the copy would hold.  Nothing outside of the tiles changes. -/
theorem C75_isolated_partial (gs : Nat → Geometry) (n dim tasks : Nat) (ht : Tiled gs n dim tasks) (ps : Fin tasks → Task TCell V α) (m : Cell → V)
    (hc : Confined gs n dim ps m) (sched : List (Fin tasks)) :
    (∀ (i : Fin tasks) (a : α), ((interleave (placed gs dim ps) m sched).1 i).result = some a →
      a = ((ps i).run fun x => m (tileCell gs dim i x)).1 ∧
        ∀ x : TCell, x.Inside gs n dim i → (interleave (placed gs dim ps) m sched).2 (tileCell gs dim i x) = ((ps i).run fun x => m (tileCell gs dim i x)).2 x) ∧
      ∀ y : Cell, (∀ i : Fin tasks, ¬ y.Own gs n dim i) → (interleave (placed gs dim ps) m sched).2 y = m y := by
  have hA := placed_apart ht hc sched
  generalize interleave (placed gs dim ps) m sched = r at *
  refine ⟨fun i a hr => ?_, hA.rest⟩
  obtain ⟨mi, h1, -, h3⟩ := hA.alone i
  cases hti : r.1 i with
  | ret b =>
    rw [hti] at hr h1
    have hb : b = a := Option.some.inj hr
    subst hb
    have hv := Task.safe_mono (own' := fun a => TCell.Inside gs n dim i a ∨ a.Common) (shared' := fun _ => False) (fun _ => Or.inl) (fun _ h => Or.inl (Or.inr h)) (ps i) (hc i)
    obtain ⟨k1, k2, -⟩ := Task.run_rename (fun a b ha hb e => tileCell_inj' ht i.2 a b ha hb e) (ps i) (m := m) (l := fun x => m (tileCell gs dim i x)) (fun _ _ => rfl) hv
    have e : (b, mi) = (placed gs dim ps i).run m := h1
    refine ⟨?_, fun x hx => ?_⟩
    · rw [← k1]; exact congrArg Prod.fst e
    · rw [← k2 x (Or.inl hx), h3 _ (Or.inl ⟨x, hx, rfl⟩)]
      exact congrFun (congrArg Prod.snd e) _
  | read b k => rw [hti] at hr; cases hr
  | write b v t => rw [hti] at hr; cases hr

/-- **C75 (2)**: when all tasks have ended, results and all of the memory are the same, in whatever way the threads took turns; one after the other, in
any order, is one of these ways. -/
theorem C75_schedules_partial (gs : Nat → Geometry) (n dim tasks : Nat) (ht : Tiled gs n dim tasks) (ps : Fin tasks → Task TCell V α) (m : Cell → V)
    (hc : Confined gs n dim ps m) (sched sched' : List (Fin tasks)) (hf : ∀ i, ((interleave (placed gs dim ps) m sched).1 i).result ≠ none)
    (hf' : ∀ i, ((interleave (placed gs dim ps) m sched').1 i).result ≠ none) :
    (∀ i, ((interleave (placed gs dim ps) m sched).1 i).result = ((interleave (placed gs dim ps) m sched').1 i).result) ∧
      (interleave (placed gs dim ps) m sched).2 = (interleave (placed gs dim ps) m sched').2 := by
  obtain ⟨a1, a2⟩ := C75_isolated_partial gs n dim tasks ht ps m hc sched
  obtain ⟨b1, b2⟩ := C75_isolated_partial gs n dim tasks ht ps m hc sched'
  constructor
  · intro i
    obtain ⟨x, hx⟩ := Option.ne_none_iff_exists'.1 (hf i)
    obtain ⟨y, hy⟩ := Option.ne_none_iff_exists'.1 (hf' i)
    rw [hx, hy, (a1 i x hx).1, (b1 i y hy).1]
  · funext y
    by_cases h : ∃ i : Fin tasks, y.Own gs n dim i
    · obtain ⟨i, x, hx, rfl⟩ := h
      obtain ⟨u, hu⟩ := Option.ne_none_iff_exists'.1 (hf i)
      obtain ⟨v, hv⟩ := Option.ne_none_iff_exists'.1 (hf' i)
      rw [(a1 i u hu).2 x hx, (b1 i v hv).2 x hx]
    · rw [a2 y fun i hi => h ⟨i, hi⟩, b2 y fun i hi => h ⟨i, hi⟩]

/-- **C75 (3)**: there is no data race: at no time two tasks are about to access the same cell, unless both read it. -/
theorem C75_no_race_partial (gs : Nat → Geometry) (n dim tasks : Nat) (ht : Tiled gs n dim tasks) (ps : Fin tasks → Task TCell V α) (m : Cell → V)
    (hc : Confined gs n dim ps m) (sched : List (Fin tasks)) (i j : Fin tasks) (hij : i ≠ j) (y : Cell) (w w' : Bool)
    (hi : ((interleave (placed gs dim ps) m sched).1 i).next = some (y, w)) (hj : ((interleave (placed gs dim ps) m sched).1 j).next = some (y, w')) :
    w = false ∧ w' = false := by
  have hA := placed_apart ht hc sched
  generalize interleave (placed gs dim ps) m sched = r at *
  have key : ∀ (i : Fin tasks) (w : Bool), (r.1 i).next = some (y, w) → (y.Own gs n dim i ∨ y.Common ∧ w = false) := by
    intro i w h
    obtain ⟨mi, -, h2, -⟩ := hA.alone i
    cases hti : r.1 i with
    | ret b => rw [hti] at h; cases h
    | read b k =>
      rw [hti] at h h2
      obtain ⟨rfl, rfl⟩ := Prod.mk.inj (Option.some.inj h)
      exact h2.1.imp id fun h => ⟨h, rfl⟩
    | write b v t =>
      rw [hti] at h h2
      obtain ⟨rfl, rfl⟩ := Prod.mk.inj (Option.some.inj h)
      exact Or.inl h2.1
  rcases key i w hi with h1 | ⟨h1, rfl⟩ <;> rcases key j w' hj with h2 | ⟨h2, rfl⟩
  · exact absurd (Fin.ext (Cell.own_disjoint ht i.2 j.2 h1 h2)) hij
  · exact absurd h2 (Cell.own_not_common h1)
  · exact absurd h1 (Cell.own_not_common h2)
  · exact ⟨rfl, rfl⟩

theorem interleave_append {ι A : Type} [DecidableEq ι] [DecidableEq A] (s s' : List ι) : ∀ (ts : ι → Task A V α) (m : A → V),
    interleave ts m (s ++ s') = interleave (interleave ts m s).1 (interleave ts m s).2 s' := by
  induction s with
  | nil => intro _ _; rfl
  | cons i s ih => intro ts m; exact ih _ _

theorem interleave_one {ι A : Type} [DecidableEq ι] [DecidableEq A] (i : ι) (t : Task A V α) : ∀ (ts : ι → Task A V α) (m : A → V), ts i = t →
    ∃ k, ((interleave ts m (List.replicate k i)).1 i).result ≠ none ∧ ∀ j ≠ i, (interleave ts m (List.replicate k i)).1 j = ts j := by
  induction t with
  | ret a => intro ts m h; exact ⟨0, by show (ts i).result ≠ none; rw [h]; exact Option.some_ne_none a, fun _ _ => rfl⟩
  | read a k ih =>
    intro ts m h
    obtain ⟨n, h1, h2⟩ := ih (m a) (Function.update ts i (k (m a))) m (Function.update_self i _ ts)
    refine ⟨n + 1, ?_, fun j hj => ?_⟩
    · show ((interleave (Function.update ts i ((ts i).step m).1) ((ts i).step m).2 (List.replicate n i)).1 i).result ≠ none
      rw [h]; exact h1
    · show (interleave (Function.update ts i ((ts i).step m).1) ((ts i).step m).2 (List.replicate n i)).1 j = ts j
      rw [h]; exact (h2 j hj).trans (Function.update_of_ne hj _ ts)
  | write a v t ih =>
    intro ts m h
    obtain ⟨n, h1, h2⟩ := ih (Function.update ts i t) (Function.update m a v) (Function.update_self i _ ts)
    refine ⟨n + 1, ?_, fun j hj => ?_⟩
    · show ((interleave (Function.update ts i ((ts i).step m).1) ((ts i).step m).2 (List.replicate n i)).1 i).result ≠ none
      rw [h]; exact h1
    · show (interleave (Function.update ts i ((ts i).step m).1) ((ts i).step m).2 (List.replicate n i)).1 j = ts j
      rw [h]; exact (h2 j hj).trans (Function.update_of_ne hj _ ts)

/-- **C75 (4)**: all tasks can come to their end, whatever has happened so far; one after the other in any given order is a way. -/
theorem C75_ends {ι A : Type} [DecidableEq ι] [DecidableEq A] (ts : ι → Task A V α) (m : A → V) (order : List ι) :
    ∃ counts : List Nat, counts.length = order.length ∧
      ∀ i ∈ order, ((interleave ts m ((order.zip counts).flatMap fun x => List.replicate x.2 x.1)).1 i).result ≠ none := by
  suffices h : ∀ (order : List ι) (ts : ι → Task A V α) (m : A → V), ∃ counts : List Nat, counts.length = order.length ∧
      ∀ i, (i ∈ order ∨ (ts i).result ≠ none) → ((interleave ts m ((order.zip counts).flatMap fun x => List.replicate x.2 x.1)).1 i).result ≠ none by
    obtain ⟨c, h1, h2⟩ := h order ts m
    exact ⟨c, h1, fun i hi => h2 i (Or.inl hi)⟩
  intro order
  induction order with
  | nil => intro ts m; exact ⟨[], rfl, fun i hi => hi.elim (fun h => nomatch h) id⟩
  | cons o order ih =>
    intro ts m
    obtain ⟨k, h1, h2⟩ := interleave_one o (ts o) ts m rfl
    obtain ⟨c, e1, e2⟩ := ih (interleave ts m (List.replicate k o)).1 (interleave ts m (List.replicate k o)).2
    refine ⟨k :: c, by rw [List.length_cons, List.length_cons, e1], fun i hi => ?_⟩
    rw [List.zip_cons_cons, List.flatMap_cons, interleave_append]
    refine e2 i ?_
    by_cases hio : i = o
    · subst hio; exact Or.inr h1
    · rcases hi with hi | hi
      · rcases List.mem_cons.1 hi with rfl | hi
        · exact absurd rfl hio
        · exact Or.inl hi
      · right; rw [h2 i hio]; exact hi

end

/-- The end of a task of the decoder (c/experimental/groups.cc:486-487, 529-530), whose section was decoded with the outcome `outcome` (0 for `BRUNSLI_OK`): the
variables `status` and `failed`, cells 0 and 1 of those outside of the arrays, are those of `DecodeGroups` and the same for all tasks. -/
def endOfTask (outcome : Nat) : Task Cell Nat Unit :=
  .write (.common 0) outcome (.read (.common 0) fun status => if status = 0 then .ret () else .write (.common 1) 1 (.ret ()))

/-- **C75 (5), FALSE of the code**: with these two variables, any two tasks can be about to write `status` at the same time; and if one of them has failed and the
other one not, the way the threads take turns decides whether `DecodeGroups` gets to know (see also C39). -/
theorem C75_status_false {tasks : Nat} (outcome : Fin tasks → Nat) (i j : Fin tasks) (hij : i ≠ j) (hi : outcome i ≠ 0) (hj : outcome j = 0) (m : Cell → Nat)
    (hm : m (.common 1) = 0) :
    (∃ y, (endOfTask (outcome i)).next = some (y, true) ∧ (endOfTask (outcome j)).next = some (y, true)) ∧
      ∃ sched sched' : List (Fin tasks),
        (∀ x ∈ [i, j], ((interleave (fun x => endOfTask (outcome x)) m sched).1 x).result = some () ∧
          ((interleave (fun x => endOfTask (outcome x)) m sched').1 x).result = some ()) ∧
        (interleave (fun x => endOfTask (outcome x)) m sched).2 (.common 1) = 1 ∧ (interleave (fun x => endOfTask (outcome x)) m sched').2 (.common 1) = 0 := by
  refine ⟨⟨.common 0, rfl, rfl⟩, [i, i, i, j, j], [i, j, i, j], ?_, ?_, ?_⟩
  all_goals simp [interleave, Task.step, endOfTask, Function.update, hij, hij.symm, hi, hj, hm, Task.result]


/-! ## Non-vacuity -/

/-- Two components of a 4:2:0 image of 3 by 1 MCUs, in tiles of 2 by 2 blocks of the first one: three tasks. -/
def exGeometry (c : Nat) : Geometry := if c = 0 then ⟨3, 1, 2, 2, 2, 2⟩ else ⟨3, 1, 2, 2, 1, 1⟩

theorem exTiled : Tiled exGeometry 2 2 3 where
  ok c hc := by
    rcases c with _ | _ | c
    · constructor <;> decide
    · constructor <;> decide
    · omega
  tasks c hc := by
    rcases c with _ | _ | c
    · decide +kernel
    · decide +kernel
    · omega

/-- Each task predicts a coefficient from its neighbour, notes the block state and reads a table. -/
def exTasks (i : Fin 3) : Task TCell Nat Nat :=
  .read (.common 5) fun t => .read (.coef 0 0 1 0) fun v => .write (.coef 0 1 1 0) (v + t + i) (.write (.state 1 0 0) v (.read (.coef 0 1 1 0) fun r => .ret r))

theorem exConfined (m : Cell → Nat) : Confined exGeometry 2 2 exTasks m := by
  intro i
  have h : ∀ i : Fin 3, (exGeometry 0).inTile 2 i 0 1 ∧ (exGeometry 0).inTile 2 i 1 1 ∧ (exGeometry 1).inTile 2 i 0 0 := by
    unfold Geometry.inTile; decide +kernel
  exact ⟨Or.inr trivial, Or.inl ⟨by decide, (h i).1, by decide⟩, ⟨by decide, (h i).2.1, by decide⟩, ⟨by decide, (h i).2.2⟩, Or.inl ⟨by decide, (h i).2.1, by decide⟩, trivial⟩

example : ∀ i, ((interleave (placed exGeometry 2 exTasks) (fun _ => 7) [0, 1, 2, 2, 1, 1, 0, 2, 0, 0, 0, 1, 1, 2, 2]).1 i).result = some (14 + (i : Nat)) := by
  decide +kernel

end Brunsli
