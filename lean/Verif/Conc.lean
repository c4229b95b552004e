import Verif.Groups
import Mathlib.Logic.Function.Basic
/-!
# Tasks that run at the same time

The tasks of c/experimental/groups.cc (decode_dc, decode_ac: 451-535; sample_nonzeros, encode_dc, encode_ac: 212-277) work on arrays of all tasks: coefficients and block
states, each through pointers that are moved to its tile and strides of the whole image.  What a thread does is a sequence of accesses to memory, and threads
take turns after any access.
-/

namespace Brunsli

/-- What a thread does: it reads and writes cells of memory, and comes to a result. -/
inductive Task (A V α : Type) where
  | ret (a : α)
  | read (a : A) (k : V → Task A V α)
  | write (a : A) (v : V) (t : Task A V α)

namespace Task
variable {A B V α : Type}

/-- A task that nothing disturbs: its result and the memory it leaves behind. -/
def run [DecidableEq A] : Task A V α → (A → V) → α × (A → V)
  | ret a, m => (a, m)
  | read a k, m => (k (m a)).run m
  | write a v t, m => t.run (Function.update m a v)

/-- The task, run on this memory, writes only its own cells and reads only those and the ones nobody writes. -/
def Safe [DecidableEq A] (own shared : A → Prop) : Task A V α → (A → V) → Prop
  | ret _, _ => True
  | read a k, m => (own a ∨ shared a) ∧ (k (m a)).Safe own shared m
  | write a v t, m => own a ∧ t.Safe own shared (Function.update m a v)

/-- One access. -/
def step [DecidableEq A] : Task A V α → (A → V) → Task A V α × (A → V)
  | ret a, m => (ret a, m)
  | read a k, m => (k (m a), m)
  | write a v t, m => (t, Function.update m a v)

/-- The task has come to its end. -/
def result : Task A V α → Option α
  | ret a => some a
  | _ => none

/-- The next access: the cell, and whether it is written. -/
def next : Task A V α → Option (A × Bool)
  | ret _ => none
  | read a _ => some (a, false)
  | write a _ _ => some (a, true)

/-- The same task with other names for the cells. -/
def rename (f : A → B) : Task A V α → Task B V α
  | ret a => ret a
  | read a k => read (f a) fun v => (k v).rename f
  | write a v t => write (f a) v (t.rename f)

end Task

/-- Threads taking turns: `sched` says whose access is next (a task that has ended does nothing). -/
def interleave {ι A V α : Type} [DecidableEq ι] [DecidableEq A] (ts : ι → Task A V α) (m : A → V) : List ι → (ι → Task A V α) × (A → V)
  | [] => (ts, m)
  | i :: sched => interleave (Function.update ts i ((ts i).step m).1) ((ts i).step m).2 sched

section
variable {ι A B V α : Type} [DecidableEq ι] [DecidableEq A] [DecidableEq B]

theorem Task.safe_congr {own shared : A → Prop} (t : Task A V α) : ∀ {m m' : A → V}, (∀ a, own a ∨ shared a → m a = m' a) → t.Safe own shared m →
    t.Safe own shared m' ∧ (t.run m).1 = (t.run m').1 ∧ ∀ a, own a ∨ shared a → (t.run m).2 a = (t.run m').2 a := by
  induction t with
  | ret a => intro m m' h _; exact ⟨trivial, rfl, h⟩
  | read a k ih =>
    intro m m' h hs
    obtain ⟨h1, h2⟩ := hs
    have e := h a h1
    rw [e] at h2
    obtain ⟨i1, i2, i3⟩ := ih (m' a) h h2
    refine ⟨⟨h1, i1⟩, ?_, ?_⟩
    · show ((k (m a)).run m).1 = _; rw [e]; exact i2
    · intro b hb; show ((k (m a)).run m).2 b = _; rw [e]; exact i3 b hb
  | write a v t ih =>
    intro m m' h hs
    have h' : ∀ b, own b ∨ shared b → Function.update m a v b = Function.update m' a v b := by
      intro b hb
      by_cases e : b = a
      · rw [e, Function.update_self, Function.update_self]
      · rw [Function.update_of_ne e, Function.update_of_ne e]; exact h b hb
    obtain ⟨i1, i2, i3⟩ := ih h' hs.2
    exact ⟨⟨hs.1, i1⟩, i2, i3⟩

theorem Task.run_frame {own shared : A → Prop} (t : Task A V α) : ∀ {m : A → V}, t.Safe own shared m → ∀ a, ¬ own a → (t.run m).2 a = m a := by
  induction t with
  | ret a => intro m _ b _; rfl
  | read a k ih => intro m hs b hb; exact ih (m a) hs.2 b hb
  | write a v t ih =>
    intro m hs b hb
    show (t.run _).2 b = _
    rw [ih hs.2 b hb, Function.update_of_ne]
    rintro rfl
    exact hb hs.1

/-- What stays true while the threads take turns: each one is where it would be alone. -/
structure Apart (own : ι → A → Prop) (shared : A → Prop) (ts₀ : ι → Task A V α) (m₀ : A → V) (ts : ι → Task A V α) (m : A → V) : Prop where
  alone : ∀ i, ∃ mi, (ts i).run mi = (ts₀ i).run m₀ ∧ (ts i).Safe (own i) shared mi ∧ ∀ a, own i a ∨ shared a → m a = mi a
  rest : ∀ a, (∀ i, ¬ own i a) → m a = m₀ a

theorem Apart.init {own : ι → A → Prop} {shared : A → Prop} {ts : ι → Task A V α} {m : A → V} (h : ∀ i, (ts i).Safe (own i) shared m) :
    Apart own shared ts m ts m := ⟨fun i => ⟨m, rfl, h i, fun _ _ => rfl⟩, fun _ _ => rfl⟩

theorem Apart.step {own : ι → A → Prop} {shared : A → Prop} (hd : ∀ i j a, own i a → own j a → i = j) (hs : ∀ i a, own i a → ¬ shared a)
    {ts₀ ts : ι → Task A V α} {m₀ m : A → V} (h : Apart own shared ts₀ m₀ ts m) (i : ι) :
    Apart own shared ts₀ m₀ (Function.update ts i ((ts i).step m).1) ((ts i).step m).2 := by
  obtain ⟨mi, r1, r2, r3⟩ := h.alone i
  cases ht : ts i with
  | ret a =>
    have : Function.update ts i (Task.ret a) = ts := by rw [← ht]; exact Function.update_eq_self i ts
    show Apart own shared ts₀ m₀ (Function.update ts i (Task.ret a)) m
    rw [this]; exact h
  | read a k =>
    rw [ht] at r1 r2
    refine ⟨fun j => ?_, h.rest⟩
    show ∃ mj, (Function.update ts i (k (m a)) j).run mj = _ ∧ _ ∧ ∀ b, _ → m b = mj b
    by_cases e : j = i
    · subst e
      refine ⟨mi, ?_, ?_, r3⟩
      · rw [Function.update_self, r3 a r2.1]; exact r1
      · rw [Function.update_self]
        show Task.Safe (own j) shared (k (m a)) mi
        rw [r3 a r2.1]; exact r2.2
    · obtain ⟨mj, s1, s2, s3⟩ := h.alone j
      exact ⟨mj, by rw [Function.update_of_ne e]; exact s1, by rw [Function.update_of_ne e]; exact s2, s3⟩
  | write a v t =>
    rw [ht] at r1 r2
    refine ⟨fun j => ?_, fun b hb => ?_⟩
    · show ∃ mj, (Function.update ts i t j).run mj = _ ∧ _ ∧ ∀ b, _ → Function.update m a v b = mj b
      by_cases e : j = i
      · subst e
        refine ⟨Function.update mi a v, ?_, ?_, ?_⟩
        · rw [Function.update_self]; exact r1
        · rw [Function.update_self]; exact r2.2
        · intro b hb
          by_cases e : b = a
          · rw [e, Function.update_self, Function.update_self]
          · rw [Function.update_of_ne e, Function.update_of_ne e]; exact r3 b hb
      · obtain ⟨mj, s1, s2, s3⟩ := h.alone j
        refine ⟨mj, by rw [Function.update_of_ne e]; exact s1, by rw [Function.update_of_ne e]; exact s2, fun b hb => ?_⟩
        have : b ≠ a := by
          rintro rfl
          rcases hb with hb | hb
          · exact e (hd j i b hb r2.1)
          · exact hs i b r2.1 hb
        rw [Function.update_of_ne this]; exact s3 b hb
    · show Function.update m a v b = _
      have : b ≠ a := by rintro rfl; exact hb i r2.1
      rw [Function.update_of_ne this]; exact h.rest b hb

theorem Apart.interleave {own : ι → A → Prop} {shared : A → Prop} (hd : ∀ i j a, own i a → own j a → i = j) (hs : ∀ i a, own i a → ¬ shared a)
    (sched : List ι) : ∀ {ts₀ ts : ι → Task A V α} {m₀ m : A → V}, Apart own shared ts₀ m₀ ts m →
    Apart own shared ts₀ m₀ (interleave ts m sched).1 (interleave ts m sched).2 := by
  induction sched with
  | nil => intro _ _ _ _ h; exact h
  | cons i sched ih => intro _ _ _ _ h; exact ih (h.step hd hs i)

/-- Renaming the cells: a task on a part of a large memory does what it does on a copy of that part. -/
theorem Task.run_rename {valid : A → Prop} {f : A → B} (hf : ∀ a b, valid a → valid b → f a = f b → a = b) (t : Task A V α) :
    ∀ {m : B → V} {l : A → V}, (∀ a, valid a → l a = m (f a)) → t.Safe valid (fun _ => False) l →
      ((t.rename f).run m).1 = (t.run l).1 ∧ (∀ a, valid a → ((t.rename f).run m).2 (f a) = (t.run l).2 a) ∧
        (∀ b, (∀ a, valid a → b ≠ f a) → ((t.rename f).run m).2 b = m b) := by
  induction t with
  | ret a => intro m l h _; exact ⟨rfl, fun a ha => (h a ha).symm, fun _ _ => rfl⟩
  | read a k ih =>
    intro m l h hs
    have hv : valid a := hs.1.elim id False.elim
    have e := h a hv
    obtain ⟨i1, i2, i3⟩ := ih (l a) h hs.2
    show (((k (m (f a))).rename f).run m).1 = ((k (l a)).run l).1 ∧ (∀ b, valid b → (((k (m (f a))).rename f).run m).2 (f b) = ((k (l a)).run l).2 b) ∧
      ∀ b, _ → (((k (m (f a))).rename f).run m).2 b = m b
    rw [← e]
    exact ⟨i1, i2, i3⟩
  | write a v t ih =>
    intro m l h hs
    have hu : ∀ b, valid b → Function.update l a v b = Function.update m (f a) v (f b) := by
      intro b hb
      by_cases e : b = a
      · rw [e, Function.update_self, Function.update_self]
      · rw [Function.update_of_ne e, Function.update_of_ne (fun e' => e (hf b a hb hs.1 e'))]; exact h b hb
    obtain ⟨i1, i2, i3⟩ := ih hu hs.2
    refine ⟨i1, i2, fun b hb => ?_⟩
    show ((t.rename f).run (Function.update m (f a) v)).2 b = m b
    rw [i3 b hb, Function.update_of_ne (hb a hs.1)]

theorem Task.safe_rename {valid : A → Prop} {own shared : B → Prop} {f : A → B} (hf : ∀ a b, valid a → valid b → f a = f b → a = b)
    {local_ : A → Prop} (hw : ∀ a, local_ a → own (f a)) (hlv : ∀ a, local_ a → valid a) {common : A → Prop} (hc : ∀ a, common a → shared (f a))
    (hcv : ∀ a, common a → valid a) (t : Task A V α) :
    ∀ {m : B → V} {l : A → V}, (∀ a, valid a → l a = m (f a)) → t.Safe local_ common l → (t.rename f).Safe own shared m := by
  induction t with
  | ret a => intro _ _ _ _; trivial
  | read a k ih =>
    intro m l h hs
    have hv : valid a := hs.1.elim (hlv a) (hcv a)
    have e := h a hv
    have i1 := ih (l a) h hs.2
    refine ⟨hs.1.imp (hw a) (hc a), ?_⟩
    show ((k (m (f a))).rename f).Safe own shared m
    rw [← e]; exact i1
  | write a v t ih =>
    intro m l h hs
    have hu : ∀ b, valid b → Function.update l a v b = Function.update m (f a) v (f b) := by
      intro b hb
      by_cases e : b = a
      · rw [e, Function.update_self, Function.update_self]
      · rw [Function.update_of_ne e, Function.update_of_ne (fun e' => e (hf b a hb (hlv a hs.1) e'))]; exact h b hb
    exact ⟨hw a hs.1, ih hu hs.2⟩

theorem Task.safe_mono {own own' shared shared' : A → Prop} (h1 : ∀ a, own a → own' a) (h2 : ∀ a, shared a → own' a ∨ shared' a) (t : Task A V α) :
    ∀ {m : A → V}, t.Safe own shared m → t.Safe own' shared' m := by
  induction t with
  | ret a => intro _ _; trivial
  | read a k ih => intro m hs; exact ⟨hs.1.elim (fun h => Or.inl (h1 a h)) (h2 a), ih _ hs.2⟩
  | write a v t ih => intro m hs; exact ⟨h1 a hs.1, ih hs.2⟩

end

end Brunsli
