import Verif.ConcPredict
import Verif.PropsZQ
/-!
# Tasks that share a flag

`failed` in `EncodeGroups` (c/experimental/groups.cc:263-271): an atomic variable that all tasks read and that a task sets when it fails.
-/

namespace Brunsli
open Groups

namespace Task
variable {A V α β : Type}

/-- One after the other. -/
def bind : Task A V α → (α → Task A V β) → Task A V β
  | ret a, f => f a
  | read a k, f => read a fun v => (k v).bind f
  | write a v t, f => write a v (t.bind f)

/-- The task up to where it writes cell `F`. -/
def cut [DecidableEq A] (F : A) : Task A V α → Task A V (Option α)
  | ret a => ret (some a)
  | read a k => read a fun v => (k v).cut F
  | write a v t => if a = F then ret none else write a v (t.cut F)

/-- Whatever it reads, the task writes nothing but `one` to `F`. -/
def Sets (F : A) (one : V) : Task A V α → Prop
  | ret _ => True
  | read _ k => ∀ v, (k v).Sets F one
  | write a v t => (a = F → v = one) ∧ t.Sets F one

theorem sets_bind {F : A} {one : V} {f : α → Task A V β} (t : Task A V α) (h : t.Sets F one) (hf : ∀ a, (f a).Sets F one) : (t.bind f).Sets F one := by
  induction t with
  | ret a => exact hf a
  | read a k ih => exact fun v => ih v (h v)
  | write a v t ih => exact ⟨h.1, ih h.2⟩

variable [DecidableEq A]

theorem cut_run {own shared : A → Prop} {F : A} (hF : ¬ own F) (t : Task A V α) : ∀ {m : A → V}, t.Safe own shared m → ((t.cut F).run m).1 = some (t.run m).1 := by
  induction t with
  | ret a => intro m _; rfl
  | read a k ih => intro m h; exact ih (m a) h.2
  | write a v t ih =>
    intro m h
    have ha : a ≠ F := fun e => hF (e ▸ h.1)
    rw [cut, if_neg ha]
    exact ih h.2

theorem cut_safe {own shared : A → Prop} {F : A} (t : Task A V α) : ∀ {m : A → V}, t.Safe own shared m → (t.cut F).Safe own shared m := by
  induction t with
  | ret a => intro m _; trivial
  | read a k ih => intro m h; exact ⟨h.1, ih (m a) h.2⟩
  | write a v t ih =>
    intro m h
    rw [cut]
    split
    · trivial
    · exact ⟨h.1, ih h.2⟩

theorem cut_bind_run {own shared : A → Prop} {F : A} (hF : ¬ own F) {f : α → Task A V β} (t : Task A V α) : ∀ {m : A → V}, t.Safe own shared m →
    ((t.bind f).cut F).run m = ((f (t.run m).1).cut F).run (t.run m).2 := by
  induction t with
  | ret a => intro m _; rfl
  | read a k ih => intro m h; exact ih (m a) h.2
  | write a v t ih =>
    intro m h
    have ha : a ≠ F := fun e => hF (e ▸ h.1)
    rw [bind, cut, if_neg ha]
    exact ih h.2

theorem cut_bind_safe {own shared : A → Prop} {F : A} {f : α → Task A V β} (t : Task A V α) : ∀ {m : A → V}, t.Safe own shared m →
    ((f (t.run m).1).cut F).Safe own shared (t.run m).2 → ((t.bind f).cut F).Safe own shared m := by
  induction t with
  | ret a => intro m _ h; exact h
  | read a k ih => intro m h hf; exact ⟨h.1, ih (m a) h.2 hf⟩
  | write a v t ih =>
    intro m h hf
    rw [bind, cut]
    split
    · trivial
    · exact ⟨h.1, ih h.2 hf⟩

end Task

section
variable {ι A V α : Type} [DecidableEq ι] [DecidableEq A]

theorem cut_update (F : A) (ts : ι → Task A V α) (i : ι) (t : Task A V α) :
    (fun j => (Function.update ts i t j).cut F) = Function.update (fun j => (ts j).cut F) i (t.cut F) := by
  funext j
  by_cases h : j = i
  · subst h; rw [Function.update_self, Function.update_self]
  · rw [Function.update_of_ne h, Function.update_of_ne h]

/-- Either the flag is set, and some task sets it also when it is alone; or all tasks are where they would be alone. -/
structure Flagged (own : ι → A → Prop) (shared : A → Prop) (F : A) (one : V) (ts₀ : ι → Task A V α) (m₀ : A → V) (ts : ι → Task A V α) (m : A → V) : Prop where
  sets : ∀ i, (ts i).Sets F one
  state : (m F = one ∧ ∃ i, (((ts₀ i).cut F).run m₀).1 = none) ∨ Apart own shared (fun i => (ts₀ i).cut F) m₀ (fun i => (ts i).cut F) m

theorem Flagged.step {own : ι → A → Prop} {shared : A → Prop} {F : A} {one : V} (hd : ∀ i j a, own i a → own j a → i = j) (hs : ∀ i a, own i a → ¬ shared a)
    {ts₀ ts : ι → Task A V α} {m₀ m : A → V} (h : Flagged own shared F one ts₀ m₀ ts m) (i : ι) :
    Flagged own shared F one ts₀ m₀ (Function.update ts i ((ts i).step m).1) ((ts i).step m).2 := by
  have hi := h.sets i
  have upd : ∀ t : Task A V α, t.Sets F one → ∀ j, (Function.update ts i t j).Sets F one := by
    intro t ht j
    by_cases hj : j = i
    · subst hj; rw [Function.update_self]; exact ht
    · rw [Function.update_of_ne hj]; exact h.sets j
  cases hti : ts i with
  | ret a =>
    rw [hti] at hi
    refine ⟨upd _ hi, ?_⟩
    have hu : Function.update ts i (.ret a) = ts := by rw [← hti, Function.update_eq_self]
    show (m F = one ∧ _) ∨ Apart own shared _ m₀ (fun j => (Function.update ts i (.ret a) j).cut F) m
    rw [hu]
    exact h.state
  | read a k =>
    rw [hti] at hi
    refine ⟨upd _ (hi (m a)), h.state.imp id fun hA => ?_⟩
    have := hA.step hd hs i
    rw [hti] at this
    rw [cut_update]
    exact this
  | write a v t =>
    rw [hti] at hi
    refine ⟨upd _ hi.2, ?_⟩
    rcases h.state with ⟨h1, h2⟩ | hA
    · refine Or.inl ⟨?_, h2⟩
      show Function.update m a v F = one
      by_cases ha : a = F
      · subst ha; rw [Function.update_self]; exact hi.1 rfl
      · rw [Function.update_of_ne (Ne.symm ha)]; exact h1
    · by_cases ha : a = F
      · refine Or.inl ⟨?_, i, ?_⟩
        · show Function.update m a v F = one
          subst ha; rw [Function.update_self]; exact hi.1 rfl
        · obtain ⟨mi, h1, -, -⟩ := hA.alone i
          rw [hti] at h1
          have h1' : (((Task.write a v t).cut F).run mi) = ((ts₀ i).cut F).run m₀ := h1
          rw [Task.cut, if_pos ha] at h1'
          rw [← h1']; rfl
      · right
        have := hA.step hd hs i
        rw [hti] at this
        rw [cut_update]
        have e : (Task.write a v t).cut F = .write a v (t.cut F) := by rw [Task.cut, if_neg ha]
        rw [e] at this
        exact this

theorem Flagged.interleave {own : ι → A → Prop} {shared : A → Prop} {F : A} {one : V} (hd : ∀ i j a, own i a → own j a → i = j) (hs : ∀ i a, own i a → ¬ shared a)
    (sched : List ι) : ∀ {ts₀ ts : ι → Task A V α} {m₀ m : A → V}, Flagged own shared F one ts₀ m₀ ts m →
    Flagged own shared F one ts₀ m₀ (interleave ts m sched).1 (interleave ts m sched).2 := by
  induction sched with
  | nil => intro _ _ _ _ h; exact h
  | cons i sched ih => intro _ _ _ _ h; exact ih (h.step hd hs i)

/-- When all tasks have ended, the flag is set if and only if some task sets it when it is alone. -/
theorem flag_iff {own : ι → A → Prop} {shared : A → Prop} {F : A} {one : V} (hd : ∀ i j a, own i a → own j a → i = j) (hs : ∀ i a, own i a → ¬ shared a)
    (hF : ∀ i, ¬ own i F) {ts : ι → Task A V α} {m : A → V} (hsafe : ∀ i, ((ts i).cut F).Safe (own i) shared m) (hsets : ∀ i, (ts i).Sets F one) (hm : m F ≠ one)
    (sched : List ι) (hend : ∀ i, ((Brunsli.interleave ts m sched).1 i).result ≠ none) :
    (Brunsli.interleave ts m sched).2 F = one ↔ ∃ i, (((ts i).cut F).run m).1 = none := by
  have h := Flagged.interleave hd hs sched (ts₀ := ts) (ts := ts) (m₀ := m) (m := m) (F := F) (one := one) ⟨hsets, Or.inr (Apart.init hsafe)⟩
  generalize Brunsli.interleave ts m sched = r at *
  rcases h.state with ⟨h1, h2⟩ | hA
  · exact ⟨fun _ => h2, fun _ => h1⟩
  · constructor
    · intro e
      rw [hA.rest F hF] at e
      exact absurd e hm
    · rintro ⟨i, hi⟩
      obtain ⟨mi, h1, -, -⟩ := hA.alone i
      obtain ⟨a, ha⟩ := Option.ne_none_iff_exists'.1 (hend i)
      cases hti : r.1 i with
      | ret b =>
        rw [hti] at h1
        have h1' : ((some b : Option α), mi) = ((ts i).cut F).run m := h1
        rw [← h1'] at hi
        exact absurd hi (Option.some_ne_none b)
      | read b k => rw [hti] at ha; exact nomatch ha
      | write b v t => rw [hti] at ha; exact nomatch ha

end

/-- `failed` (c/experimental/groups.cc:263). -/
def failedCell : Cell := .common 1

/-- `encode_dc` (c/experimental/groups.cc:264-269); `encode` is `EncodeDC`. -/
def encodeDcFlagTask (gs : Nat → Geometry) (n dim : Nat) {tasks : Nat} (encode : Fin tasks → Task Cell Int Unit) (i : Fin tasks) : Task Cell Int Unit :=
  .read failedCell fun f => if f ≠ 0 then .ret () else
    (placed gs dim (fun i : Fin tasks => predictTask (tileBlocks gs n dim i)) i).bind fun ok =>
      let rest : Task Cell Int Unit := .read failedCell fun f => if f ≠ 0 then .ret () else encode i
      if ok = some true then rest else .write failedCell 1 rest

/-- `decode_dc`, `decode_ac` (c/experimental/groups.cc:451-488, 493-531) as they would be with the outcome of `ProcessJpeg` in a variable of the task instead of `status`:
`process` does the work and tells whether all went well. -/
def decodeLocalTask {tasks : Nat} (process : Fin tasks → Task Cell Int Bool) (i : Fin tasks) : Task Cell Int Unit :=
  .read failedCell fun f => if f ≠ 0 then .ret () else (process i).bind fun ok => if ok then .ret () else .write failedCell 1 (.ret ())

theorem sets_predictReads {F : Cell} {one : Int} {α : Type} {f : TCell → Cell} {c x y : Nat} {k : Option Int → Task TCell Int α} (h : ∀ p, ((k p).rename f).Sets F one) :
    ((predictReads c x y k).rename f).Sets F one := by
  unfold predictReads
  split
  · split
    · exact fun _ _ _ => h _
    · exact fun _ => h _
  · split
    · exact fun _ => h _
    · exact h _

theorem sets_predictTask (gs : Nat → Geometry) (dim idx : Nat) (l : List (Nat × Nat × Nat)) : ((predictTask l).rename (tileCell gs dim idx)).Sets failedCell 1 := by
  induction l with
  | nil => trivial
  | cons b l ih =>
    obtain ⟨c, y, x⟩ := b
    rw [predictTask]
    refine fun v => sets_predictReads fun p => ?_
    cases p.bind fun p => int32 (v - p) with
    | none => trivial
    | some e =>
      dsimp only
      split
      · exact ⟨fun h => Cell.noConfusion h, ih⟩
      · trivial

end Brunsli
