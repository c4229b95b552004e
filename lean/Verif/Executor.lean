/-!
# Thread pool of the experimental groups mode

`ParallelExecutor` (c/experimental/groups.cc:53-109, c/experimental/groups.h) as a transition system.  Threads are interleaved; a step is a
stretch of code that no other thread can observe the middle of: a critical section under `lock`, or one access of the atomic `next_task`.
Condition variables are explicit: a thread that found its predicate false sleeps until it is notified (or wakes up spuriously) and
then tests the predicate again, so a lost notification would show as a deadlock.

Simplifications: `size_t` and `int` counters do not wrap; a task is a step that records its number; the calling thread is one, as `execute`
is documented to be used; tasks do not throw.
-/

namespace Brunsli

namespace Pool

/-- Where a worker thread is (the lambda `worker`, c/experimental/groups.cc:55-79). -/
inductive Worker where
  /-- About to take the lock and test the start predicate (lines 58-59). -/
  | top
  /-- Asleep on `start_latch` (line 59). -/
  | asleep
  /-- Before `next_task++` (line 67). -/
  | fetch
  /-- Has `my_task`, before comparing it with `num_tasks` (line 68). -/
  | got (my : Nat)
  /-- Running a task (line 69). -/
  | run (my : Nat)
  /-- Before the critical section that ends a round (lines 71-75). -/
  | leave
  /-- Returned (line 63). -/
  | gone
deriving DecidableEq, Repr

/-- Where the thread that owns the pool is. -/
inductive Owner where
  /-- Outside of the pool. -/
  | idle
  /-- In `execute`, about to test the finish predicate (c/experimental/groups.cc:106-108). -/
  | check (n : Nat)
  /-- In `execute`, asleep on `finish_latch`. -/
  | asleep (n : Nat)
  /-- In the destructor, about to test its predicate (c/experimental/groups.cc:91). -/
  | dcheck
  /-- In the destructor, asleep on `finish_latch`. -/
  | dasleep
  /-- The destructor returned. -/
  | destroyed
deriving DecidableEq, Repr

/-- Shared variables (c/experimental/groups.h: `ParallelExecutor`), threads, and two ghosts: the tasks that ended in the present call and
the calls that returned. -/
structure St where
  next : Nat
  num : Nat
  busy : Nat
  terminate : Bool
  workers : List Worker
  owner : Owner
  ran : List Nat
  calls : List (Nat × List Nat)
deriving DecidableEq, Repr

/-- A pool of `threads` workers (c/experimental/groups.cc:53-82). -/
def St.init (threads : Nat) : St := ⟨0, 0, 0, false, List.replicate threads .top, .idle, [], []⟩

/-- `notify_all` on `start_latch`. -/
def wake : Worker → Worker
  | .asleep => .top
  | w => w

/-- `notify_one` on `finish_latch`: only the owner ever sleeps on it. -/
def wakeOwner : Owner → Owner
  | .asleep n => .check n
  | .dasleep => .dcheck
  | o => o

/-- One step of worker `i`. -/
inductive WStep (i : Nat) : St → St → Prop where
  /-- Lines 58-65: the predicate holds. -/
  | enter (s) : s.workers[i]? = some .top → s.next < s.num → s.terminate = false →
      WStep i s { s with busy := s.busy + 1, workers := s.workers.set i .fetch }
  /-- Lines 58-63: the predicate holds and the pool is being destroyed. -/
  | quit (s) : s.workers[i]? = some .top → s.next < s.num → s.terminate = true →
      WStep i s { s with busy := s.busy + 1, workers := s.workers.set i .gone, owner := wakeOwner s.owner }
  /-- Line 59: the predicate does not hold. -/
  | sleep (s) : s.workers[i]? = some .top → ¬ s.next < s.num → WStep i s { s with workers := s.workers.set i .asleep }
  /-- Line 67. -/
  | fetch (s) : s.workers[i]? = some .fetch → WStep i s { s with next := s.next + 1, workers := s.workers.set i (.got s.next) }
  /-- Line 68, no task left. -/
  | over (s my) : s.workers[i]? = some (.got my) → s.num ≤ my → WStep i s { s with workers := s.workers.set i .leave }
  /-- Line 68, a task. -/
  | start (s my) : s.workers[i]? = some (.got my) → my < s.num → WStep i s { s with workers := s.workers.set i (.run my) }
  /-- Line 69, the task ends. -/
  | finish (s my) : s.workers[i]? = some (.run my) → WStep i s { s with ran := s.ran ++ [my], workers := s.workers.set i .fetch }
  /-- Lines 71-75. -/
  | leave (s) : s.workers[i]? = some .leave →
      WStep i s { s with busy := s.busy - 1, workers := s.workers.set i .top, owner := wakeOwner s.owner }

/-- One step of the owner. -/
inductive OStep : St → St → Prop where
  /-- `execute` up to the wait (c/experimental/groups.cc:100-105). -/
  | call (s n) : s.owner = .idle →
      OStep s { s with next := 0, num := n, workers := s.workers.map wake, owner := .check n, ran := [] }
  /-- The finish predicate holds (c/experimental/groups.cc:106-108): `execute` returns. -/
  | ret (s n) : s.owner = .check n → n ≤ s.next → s.busy = 0 → OStep s { s with owner := .idle, calls := s.calls ++ [(n, s.ran)] }
  /-- The finish predicate does not hold. -/
  | wait (s n) : s.owner = .check n → ¬ (n ≤ s.next ∧ s.busy = 0) → OStep s { s with owner := .asleep n }
  /-- The destructor up to the wait (c/experimental/groups.cc:84-90). -/
  | destroy (s) : s.owner = .idle →
      OStep s { s with terminate := true, next := 1, num := 1, workers := s.workers.map wake, owner := .dcheck }
  /-- The predicate of the destructor holds (c/experimental/groups.cc:91). -/
  | destroyed (s) : s.owner = .dcheck → s.busy = s.workers.length → OStep s { s with owner := .destroyed }
  /-- The predicate of the destructor does not hold. -/
  | dwait (s) : s.owner = .dcheck → s.busy ≠ s.workers.length → OStep s { s with owner := .dasleep }

/-- A spurious wake-up. -/
inductive Spurious : St → St → Prop where
  | worker (s i) : s.workers[i]? = some .asleep → Spurious s { s with workers := s.workers.set i .top }
  | owner (s) : Spurious s { s with owner := wakeOwner s.owner }

/-- One step of anything. -/
inductive Step (s t : St) : Prop where
  | worker (i) (h : WStep i s t)
  | owner (h : OStep s t)
  | spurious (h : Spurious s t)

/-- States the pool can get into. -/
inductive Reach (threads : Nat) : St → Prop where
  | init : Reach threads (.init threads)
  | step {s t} : Reach threads s → Step s t → Reach threads t

/-! ## The invariant -/

/-- Is counted by `busy_count`. -/
def Worker.isBusy : Worker → Bool
  | .fetch | .got _ | .run _ | .leave | .gone => true
  | _ => false

/-- Has been given task `t`. -/
def Worker.holds (t : Nat) : Worker → Bool
  | .got my => my = t
  | .run my => my = t
  | _ => false

theorem countP_set {α : Type} (p : α → Bool) (l : List α) (i : Nat) (a b : α) (h : l[i]? = some a) :
    (l.set i b).countP p + (p a).toNat = l.countP p + (p b).toNat := by
  induction l generalizing i with
  | nil => simp at h
  | cons x l ih =>
    cases i with
    | zero =>
      simp only [List.getElem?_cons_zero, Option.some.injEq] at h
      subst h
      simp only [List.set_cons_zero, List.countP_cons]
      cases p x <;> cases p b <;> simp
    | succ i =>
      simp only [List.getElem?_cons_succ] at h
      have := ih i h
      simp only [List.set_cons_succ, List.countP_cons]
      omega

theorem countP_wake (p : Worker → Bool) (h : p .asleep = p .top) (l : List Worker) : (l.map wake).countP p = l.countP p := by
  induction l with
  | nil => rfl
  | cons w l ih =>
    rw [List.map_cons, List.countP_cons, List.countP_cons, ih]
    cases w <;> simp only [wake, h] <;> rfl

/-- What holds in every state of a pool that is not being destroyed. -/
structure Inv (threads : Nat) (s : St) : Prop where
  len : s.workers.length = threads
  term : s.terminate = false
  busy : s.busy = s.workers.countP Worker.isBusy
  own : (s.owner = .idle ∧ s.busy = 0 ∧ s.num ≤ s.next) ∨ s.owner = .check s.num ∨ s.owner = .asleep s.num
  run : ∀ (i my : Nat), s.workers[i]? = some (Worker.run my) → my < s.num
  got : ∀ (i my : Nat), s.workers[i]? = some (Worker.got my) → my < s.next
  leave : ∀ (i : Nat), s.workers[i]? = some Worker.leave → s.num < s.next
  gone : ∀ (i : Nat), s.workers[i]? ≠ some Worker.gone
  once : ∀ t, t < s.num → s.ran.count t + s.workers.countP (Worker.holds t) = if t < s.next then 1 else 0
  only : ∀ t ∈ s.ran, t < s.num
  calls : ∀ c ∈ s.calls, c.2.Perm (List.range c.1)

/-- What holds in every state once destruction has begun. -/
structure Dead (threads : Nat) (s : St) : Prop where
  len : s.workers.length = threads
  next : s.next = 1
  num : s.num = 1
  busy : s.busy = 0
  workers : ∀ w ∈ s.workers, w = .top ∨ w = .asleep
  own : s.owner = .dcheck ∨ s.owner = .dasleep ∨ (s.owner = .destroyed ∧ threads = 0)

theorem get_set {l : List Worker} {i j : Nat} {a b : Worker} (h : (l.set i a)[j]? = some b) : (j = i ∧ b = a) ∨ (j ≠ i ∧ l[j]? = some b) := by
  by_cases e : i = j
  · subst e
    rw [List.getElem?_set_self'] at h
    cases hx : l[i]? with
    | none => rw [hx] at h; cases h
    | some x => rw [hx] at h; simp at h; exact Or.inl ⟨rfl, h.symm⟩
  · rw [List.getElem?_set_ne e] at h
    exact Or.inr ⟨fun x => e x.symm, h⟩

theorem get_wake {l : List Worker} {j : Nat} {b : Worker} (h : (l.map wake)[j]? = some b) (hb : b ≠ .top) : l[j]? = some b := by
  rw [List.getElem?_map] at h
  cases hx : l[j]? with
  | none => rw [hx] at h; cases h
  | some x =>
    rw [hx] at h
    simp only [Option.map_some, Option.some.injEq] at h
    cases x <;> simp_all [wake]

theorem perm_range {l : List Nat} {n : Nat} (h1 : ∀ t, t < n → l.count t = 1) (h2 : ∀ t ∈ l, t < n) : l.Perm (List.range n) := by
  rw [List.perm_iff_count]
  intro t
  by_cases ht : t < n
  · rw [h1 t ht, List.count_range]
    simp [ht]
  · rw [List.count_eq_zero.mpr fun hm => ht (h2 t hm), List.count_eq_zero.mpr fun hm => ht (List.mem_range.mp hm)]

theorem Inv.init (threads : Nat) : Inv threads (.init threads) := by
  have hg : ∀ (i : Nat) (w : Worker), (St.init threads).workers[i]? = some w → w = .top := by
    intro i w h
    have := List.mem_of_getElem? h
    exact (List.mem_replicate.mp this).2
  refine ⟨by simp [St.init], rfl, ?_, Or.inl ⟨rfl, rfl, Nat.le_refl _⟩, fun i my h => ?_, fun i my h => ?_, fun i h => ?_, fun i h => ?_, ?_, ?_, ?_⟩
  · simp [St.init, List.countP_replicate, Worker.isBusy]
  · cases hg i _ h
  · cases hg i _ h
  · cases hg i _ h
  · cases hg i _ h
  · intro t ht; simp [St.init] at ht
  · simp [St.init]
  · simp [St.init]

theorem wakeOwner_inv {s : St} (h : s.owner = .check s.num ∨ s.owner = .asleep s.num) :
    wakeOwner s.owner = .check s.num := by
  rcases h with h | h <;> rw [h] <;> rfl

theorem busy_pos {s : St} {threads i : Nat} {w : Worker} (hi : Inv threads s) (h : s.workers[i]? = some w) (hb : w.isBusy = true) : 0 < s.busy := by
  rw [hi.busy, List.countP_pos_iff]
  exact ⟨w, List.mem_of_getElem? h, hb⟩

theorem Inv.own' {s : St} {threads i : Nat} {w : Worker} (hi : Inv threads s) (h : s.workers[i]? = some w) (hb : w.isBusy = true) :
    s.owner = .check s.num ∨ s.owner = .asleep s.num := by
  rcases hi.own with ⟨_, hz, _⟩ | h'
  · have := busy_pos hi h hb; omega
  · exact h'

theorem Inv.wstep {threads i : Nat} {s t : St} (hi : Inv threads s) (h : WStep i s t) : Inv threads t := by
  cases h with
  | enter h1 h2 h3 =>
    have hown : s.owner = .check s.num ∨ s.owner = .asleep s.num := by
      rcases hi.own with ⟨_, _, hz⟩ | h'
      · omega
      · exact h'
    have hc := countP_set Worker.isBusy s.workers i .top .fetch h1
    refine ⟨by simpa using hi.len, hi.term, ?_, Or.inr hown, fun j my h => ?_, fun j my h => ?_, fun j h => ?_, fun j h => ?_, fun t ht => ?_, hi.only, hi.calls⟩
    · show s.busy + 1 = _
      try dsimp only
      rw [hi.busy]; simp only [Worker.isBusy, Bool.toNat_true, Bool.toNat_false] at hc; omega
    · rcases get_set h with ⟨_, h⟩ | ⟨_, h⟩
      · cases h
      · exact hi.run j my h
    · rcases get_set h with ⟨_, h⟩ | ⟨_, h⟩
      · cases h
      · exact hi.got j my h
    · rcases get_set h with ⟨_, h⟩ | ⟨_, h⟩
      · cases h
      · exact hi.leave j h
    · rcases get_set h with ⟨_, h⟩ | ⟨_, h⟩
      · cases h
      · exact hi.gone j h
    · have := hi.once t ht
      have hc := countP_set (Worker.holds t) s.workers i .top .fetch h1
      simp only [Worker.holds, Bool.toNat_false] at hc
      show s.ran.count t + (s.workers.set i .fetch).countP _ = _
      try dsimp only
      omega
  | quit h1 h2 h3 => rw [hi.term] at h3; cases h3
  | sleep h1 h2 =>
    have hc := countP_set Worker.isBusy s.workers i .top .asleep h1
    refine ⟨by simpa using hi.len, hi.term, ?_, hi.own, fun j my h => ?_, fun j my h => ?_, fun j h => ?_, fun j h => ?_, fun t ht => ?_, hi.only, hi.calls⟩
    · show s.busy = _
      try dsimp only
      rw [hi.busy]; simp only [Worker.isBusy, Bool.toNat_false] at hc; omega
    · rcases get_set h with ⟨_, h⟩ | ⟨_, h⟩
      · cases h
      · exact hi.run j my h
    · rcases get_set h with ⟨_, h⟩ | ⟨_, h⟩
      · cases h
      · exact hi.got j my h
    · rcases get_set h with ⟨_, h⟩ | ⟨_, h⟩
      · cases h
      · exact hi.leave j h
    · rcases get_set h with ⟨_, h⟩ | ⟨_, h⟩
      · cases h
      · exact hi.gone j h
    · have := hi.once t ht
      have hc := countP_set (Worker.holds t) s.workers i .top .asleep h1
      simp only [Worker.holds, Bool.toNat_false] at hc
      show s.ran.count t + (s.workers.set i .asleep).countP _ = _
      try dsimp only
      omega
  | fetch h1 =>
    have hc := countP_set Worker.isBusy s.workers i .fetch (.got s.next) h1
    refine ⟨by simpa using hi.len, hi.term, ?_, Or.inr (hi.own' h1 rfl), fun j my h => ?_, fun j my h => ?_, fun j h => ?_, fun j h => ?_, fun t ht => ?_, hi.only, hi.calls⟩
    · show s.busy = _
      try dsimp only
      rw [hi.busy]; simp only [Worker.isBusy, Bool.toNat_true] at hc; omega
    · rcases get_set h with ⟨_, h⟩ | ⟨_, h⟩
      · cases h
      · exact hi.run j my h
    · show my < s.next + 1
      rcases get_set h with ⟨_, h⟩ | ⟨_, h⟩
      · cases h; omega
      · have := hi.got j my h; omega
    · show s.num < s.next + 1
      rcases get_set h with ⟨_, h⟩ | ⟨_, h⟩
      · cases h
      · have := hi.leave j h; omega
    · rcases get_set h with ⟨_, h⟩ | ⟨_, h⟩
      · cases h
      · exact hi.gone j h
    · have := hi.once t ht
      have hc := countP_set (Worker.holds t) s.workers i .fetch (.got s.next) h1
      simp only [Worker.holds, Bool.toNat_false] at hc
      show s.ran.count t + (s.workers.set i (.got s.next)).countP _ = if t < s.next + 1 then 1 else 0
      by_cases e : s.next = t
      · simp only [e, decide_true, Bool.toNat_true] at hc this ⊢
        rw [if_neg (by omega)] at this
        rw [if_pos (by omega)]; omega
      · simp only [e, decide_false, Bool.toNat_false] at hc
        by_cases h' : t < s.next
        · rw [if_pos h'] at this; rw [if_pos (by omega)]; omega
        · rw [if_neg h'] at this; rw [if_neg (by omega)]; omega
  | over my h1 h2 =>
    have hc := countP_set Worker.isBusy s.workers i (.got my) .leave h1
    refine ⟨by simpa using hi.len, hi.term, ?_, hi.own, fun j my h => ?_, fun j my h => ?_, fun j h => ?_, fun j h => ?_, fun t ht => ?_, hi.only, hi.calls⟩
    · show s.busy = _
      try dsimp only
      rw [hi.busy]; simp only [Worker.isBusy, Bool.toNat_true] at hc; omega
    · rcases get_set h with ⟨_, h⟩ | ⟨_, h⟩
      · cases h
      · exact hi.run j my h
    · rcases get_set h with ⟨_, h⟩ | ⟨_, h⟩
      · cases h
      · exact hi.got j my h
    · rcases get_set h with ⟨_, h⟩ | ⟨_, h⟩
      · have := hi.got i my h1
        show s.num < s.next
        omega
      · exact hi.leave j h
    · rcases get_set h with ⟨_, h⟩ | ⟨_, h⟩
      · cases h
      · exact hi.gone j h
    · have := hi.once t ht
      have ht : t < s.num := ht
      have hc := countP_set (Worker.holds t) s.workers i (.got my) .leave h1
      have e : my ≠ t := by omega
      simp only [Worker.holds, e, decide_false, Bool.toNat_false] at hc
      show s.ran.count t + (s.workers.set i .leave).countP _ = _
      try dsimp only
      omega
  | start my h1 h2 =>
    have hc := countP_set Worker.isBusy s.workers i (.got my) (.run my) h1
    refine ⟨by simpa using hi.len, hi.term, ?_, hi.own, fun j my' h => ?_, fun j my h => ?_, fun j h => ?_, fun j h => ?_, fun t ht => ?_, hi.only, hi.calls⟩
    · show s.busy = _
      try dsimp only
      rw [hi.busy]; simp only [Worker.isBusy, Bool.toNat_true] at hc; omega
    · rcases get_set h with ⟨_, h⟩ | ⟨_, h⟩
      · cases h; exact h2
      · exact hi.run j my' h
    · rcases get_set h with ⟨_, h⟩ | ⟨_, h⟩
      · cases h
      · exact hi.got j my h
    · rcases get_set h with ⟨_, h⟩ | ⟨_, h⟩
      · cases h
      · exact hi.leave j h
    · rcases get_set h with ⟨_, h⟩ | ⟨_, h⟩
      · cases h
      · exact hi.gone j h
    · have := hi.once t ht
      have hc := countP_set (Worker.holds t) s.workers i (.got my) (.run my) h1
      simp only [Worker.holds] at hc
      show s.ran.count t + (s.workers.set i (.run my)).countP _ = _
      try dsimp only
      omega
  | finish my h1 =>
    have hc := countP_set Worker.isBusy s.workers i (.run my) .fetch h1
    refine ⟨by simpa using hi.len, hi.term, ?_, hi.own, fun j my h => ?_, fun j my h => ?_, fun j h => ?_, fun j h => ?_, fun t ht => ?_, fun t ht => ?_, hi.calls⟩
    · show s.busy = _
      try dsimp only
      rw [hi.busy]; simp only [Worker.isBusy, Bool.toNat_true] at hc; omega
    · rcases get_set h with ⟨_, h⟩ | ⟨_, h⟩
      · cases h
      · exact hi.run j my h
    · rcases get_set h with ⟨_, h⟩ | ⟨_, h⟩
      · cases h
      · exact hi.got j my h
    · rcases get_set h with ⟨_, h⟩ | ⟨_, h⟩
      · cases h
      · exact hi.leave j h
    · rcases get_set h with ⟨_, h⟩ | ⟨_, h⟩
      · cases h
      · exact hi.gone j h
    · have := hi.once t ht
      have hc := countP_set (Worker.holds t) s.workers i (.run my) .fetch h1
      simp only [Worker.holds, Bool.toNat_false] at hc
      show (s.ran ++ [my]).count t + (s.workers.set i .fetch).countP _ = _
      try dsimp only
      rw [List.count_append, List.count_singleton]
      by_cases e : my = t
      · simp only [e, decide_true, Bool.toNat_true, beq_self_eq_true, ↓reduceIte] at hc ⊢; omega
      · simp only [e, decide_false, Bool.toNat_false, beq_iff_eq, ↓reduceIte] at hc ⊢; omega
    · rcases List.mem_append.mp ht with h | h
      · exact hi.only t h
      · simp only [List.mem_singleton] at h; subst h; exact hi.run i t h1
  | leave h1 =>
    have hc := countP_set Worker.isBusy s.workers i .leave .top h1
    have hown := hi.own' h1 rfl
    have hpos := busy_pos hi h1 rfl
    refine ⟨by simpa using hi.len, hi.term, ?_, Or.inr (Or.inl (wakeOwner_inv hown)), fun j my h => ?_, fun j my h => ?_, fun j h => ?_, fun j h => ?_, fun t ht => ?_, hi.only, hi.calls⟩
    · show s.busy - 1 = _
      try dsimp only
      have := hi.busy
      simp only [Worker.isBusy, Bool.toNat_true, Bool.toNat_false] at hc; omega
    · rcases get_set h with ⟨_, h⟩ | ⟨_, h⟩
      · cases h
      · exact hi.run j my h
    · rcases get_set h with ⟨_, h⟩ | ⟨_, h⟩
      · cases h
      · exact hi.got j my h
    · rcases get_set h with ⟨_, h⟩ | ⟨_, h⟩
      · cases h
      · exact hi.leave j h
    · rcases get_set h with ⟨_, h⟩ | ⟨_, h⟩
      · cases h
      · exact hi.gone j h
    · have := hi.once t ht
      have hc := countP_set (Worker.holds t) s.workers i .leave .top h1
      simp only [Worker.holds, Bool.toNat_false] at hc
      show s.ran.count t + (s.workers.set i .top).countP _ = _
      try dsimp only
      omega

/-- No worker is busy when `busy_count` is zero. -/
theorem Inv.quiet {threads : Nat} {s : St} (hi : Inv threads s) (hb : s.busy = 0) : ∀ w ∈ s.workers, w = .top ∨ w = .asleep := by
  intro w hw
  have h0 := hi.busy
  rw [hb] at h0
  have := List.countP_eq_zero.mp h0.symm w hw
  cases w <;> simp_all [Worker.isBusy]

theorem Inv.quiet_holds {threads : Nat} {s : St} (hi : Inv threads s) (hb : s.busy = 0) (t : Nat) : s.workers.countP (Worker.holds t) = 0 := by
  rw [List.countP_eq_zero]
  intro w hw
  rcases hi.quiet hb w hw with rfl | rfl <;> simp [Worker.holds]

theorem Inv.quiet_get {threads : Nat} {s : St} (hi : Inv threads s) (hb : s.busy = 0) {j : Nat} {w : Worker} (h : s.workers[j]? = some w) :
    w = .top ∨ w = .asleep := hi.quiet hb w (List.mem_of_getElem? h)

theorem Inv.ostep {threads : Nat} {s t : St} (hi : Inv threads s) (h : OStep s t) : Inv threads t ∨ Dead threads t := by
  cases h with
  | call n h1 =>
    have hb : s.busy = 0 := by
      rcases hi.own with h | h | h
      · exact h.2.1
      · rw [h1] at h; cases h
      · rw [h1] at h; cases h
    have hw : ∀ {j : Nat} {w : Worker}, (s.workers.map wake)[j]? = some w → w = .top := by
      intro j w h
      by_cases e : w = .top
      · exact e
      · rcases hi.quiet_get hb (get_wake h e) with rfl | rfl
        · rfl
        · rw [List.getElem?_map] at h
          cases hx : s.workers[j]? with
          | none => rw [hx] at h; cases h
          | some x =>
            rw [hx] at h
            simp only [Option.map_some, Option.some.injEq] at h
            cases x <;> simp [wake] at h
    refine Or.inl ⟨by simpa using hi.len, hi.term, ?_, Or.inr (Or.inl rfl), fun j my h => ?_, fun j my h => ?_, fun j h => ?_, fun j h => ?_, fun t _ => ?_, ?_, hi.calls⟩
    · show s.busy = _
      try dsimp only
      rw [countP_wake _ rfl, hi.busy]
    · cases hw h
    · cases hw h
    · cases hw h
    · cases hw h
    · show ([] : List Nat).count t + (s.workers.map wake).countP _ = if t < 0 then 1 else 0
      rw [countP_wake _ rfl, hi.quiet_holds hb]; simp
    · intro t ht; cases ht
  | ret n h1 h2 h3 =>
    have hn : n = s.num := by
      rcases hi.own with h | h | h
      · rw [h1] at h; cases h.1
      · rw [h1] at h; cases h; rfl
      · rw [h1] at h; cases h
    refine Or.inl ⟨hi.len, hi.term, hi.busy, Or.inl ⟨rfl, h3, by show s.num ≤ s.next; omega⟩, hi.run, hi.got, hi.leave, hi.gone, hi.once, hi.only, fun c hc => ?_⟩
    rcases List.mem_append.mp hc with h | h
    · exact hi.calls c h
    · simp only [List.mem_singleton] at h
      subst h
      refine perm_range (fun t ht => ?_) fun t ht => ?_
      · have ht : t < n := ht
        have := hi.once t (by omega)
        rw [hi.quiet_holds h3, if_pos (by omega)] at this
        exact this
      · have := hi.only t ht
        show t < n
        omega
  | wait n h1 h2 =>
    have hn : n = s.num := by
      rcases hi.own with h | h | h
      · rw [h1] at h; cases h.1
      · rw [h1] at h; cases h; rfl
      · rw [h1] at h; cases h
    exact Or.inl ⟨hi.len, hi.term, hi.busy, Or.inr (Or.inr (by rw [hn])), hi.run, hi.got, hi.leave, hi.gone, hi.once, hi.only, hi.calls⟩
  | destroy h1 =>
    have hb : s.busy = 0 := by
      rcases hi.own with h | h | h
      · exact h.2.1
      · rw [h1] at h; cases h
      · rw [h1] at h; cases h
    refine Or.inr ⟨by simpa using hi.len, rfl, rfl, hb, fun w hw => ?_, Or.inl rfl⟩
    obtain ⟨x, hx, rfl⟩ := List.mem_map.mp hw
    rcases hi.quiet hb x hx with rfl | rfl <;> simp [wake]
  | destroyed h1 _ =>
    exfalso
    rcases hi.own with h | h | h
    · rw [h1] at h; cases h.1
    · rw [h1] at h; cases h
    · rw [h1] at h; cases h
  | dwait h1 _ =>
    exfalso
    rcases hi.own with h | h | h
    · rw [h1] at h; cases h.1
    · rw [h1] at h; cases h
    · rw [h1] at h; cases h

theorem Inv.spurious {threads : Nat} {s t : St} (hi : Inv threads s) (h : Spurious s t) : Inv threads t := by
  cases h with
  | worker i h1 =>
    have hc := countP_set Worker.isBusy s.workers i .asleep .top h1
    refine ⟨by simpa using hi.len, hi.term, ?_, hi.own, fun j my h => ?_, fun j my h => ?_, fun j h => ?_, fun j h => ?_, fun t ht => ?_, hi.only, hi.calls⟩
    · show s.busy = _
      try dsimp only
      rw [hi.busy]; simp only [Worker.isBusy, Bool.toNat_false] at hc; omega
    · rcases get_set h with ⟨_, h⟩ | ⟨_, h⟩
      · cases h
      · exact hi.run j my h
    · rcases get_set h with ⟨_, h⟩ | ⟨_, h⟩
      · cases h
      · exact hi.got j my h
    · rcases get_set h with ⟨_, h⟩ | ⟨_, h⟩
      · cases h
      · exact hi.leave j h
    · rcases get_set h with ⟨_, h⟩ | ⟨_, h⟩
      · cases h
      · exact hi.gone j h
    · have := hi.once t ht
      have hc := countP_set (Worker.holds t) s.workers i .asleep .top h1
      simp only [Worker.holds, Bool.toNat_false] at hc
      show s.ran.count t + (s.workers.set i .top).countP _ = _
      try dsimp only
      omega
  | owner =>
    refine ⟨hi.len, hi.term, hi.busy, ?_, hi.run, hi.got, hi.leave, hi.gone, hi.once, hi.only, hi.calls⟩
    rcases hi.own with ⟨h, h'⟩ | h
    · exact Or.inl ⟨by show wakeOwner s.owner = _; rw [h]; rfl, h'⟩
    · exact Or.inr (Or.inl (wakeOwner_inv h))

theorem Dead.step {threads : Nat} {s t : St} (hd : Dead threads s) (h : Step s t) : Dead threads t := by
  have hw : ∀ {i : Nat} {w : Worker}, s.workers[i]? = some w → w = .top ∨ w = .asleep := fun h => hd.workers _ (List.mem_of_getElem? h)
  have hnext := hd.next
  have hnum := hd.num
  have hset : ∀ (i : Nat) (w : Worker), (w = .top ∨ w = .asleep) → ∀ x ∈ s.workers.set i w, x = .top ∨ x = .asleep := by
    intro i w hw' x hx
    rcases List.mem_or_eq_of_mem_set hx with h | h
    · exact hd.workers x h
    · subst h; exact hw'
  cases h with
  | worker i h =>
    cases h with
    | enter h1 h2 _ => omega
    | quit h1 h2 _ => omega
    | sleep h1 _ => exact ⟨by simpa using hd.len, hd.next, hd.num, hd.busy, hset i _ (Or.inr rfl), hd.own⟩
    | fetch h1 => rcases hw h1 with h | h <;> cases h
    | over _ h1 _ => rcases hw h1 with h | h <;> cases h
    | start _ h1 _ => rcases hw h1 with h | h <;> cases h
    | finish _ h1 => rcases hw h1 with h | h <;> cases h
    | leave h1 => rcases hw h1 with h | h <;> cases h
  | owner h =>
    cases h with
    | call n h1 => rcases hd.own with h | h | ⟨h, _⟩ <;> (rw [h1] at h; cases h)
    | ret n h1 _ _ => rcases hd.own with h | h | ⟨h, _⟩ <;> (rw [h1] at h; cases h)
    | wait n h1 _ => rcases hd.own with h | h | ⟨h, _⟩ <;> (rw [h1] at h; cases h)
    | destroy h1 => rcases hd.own with h | h | ⟨h, _⟩ <;> (rw [h1] at h; cases h)
    | destroyed h1 h2 =>
      refine ⟨hd.len, hd.next, hd.num, hd.busy, hd.workers, Or.inr (Or.inr ⟨rfl, ?_⟩)⟩
      have := hd.busy
      have := hd.len
      omega
    | dwait h1 h2 => exact ⟨hd.len, hd.next, hd.num, hd.busy, hd.workers, Or.inr (Or.inl rfl)⟩
  | spurious h =>
    cases h with
    | worker i h1 => exact ⟨by simpa using hd.len, hd.next, hd.num, hd.busy, hset i _ (Or.inl rfl), hd.own⟩
    | owner =>
      refine ⟨hd.len, hd.next, hd.num, hd.busy, hd.workers, ?_⟩
      rcases hd.own with h | h | ⟨h, h'⟩
      · exact Or.inl (by show wakeOwner s.owner = _; rw [h]; rfl)
      · exact Or.inl (by show wakeOwner s.owner = _; rw [h]; rfl)
      · exact Or.inr (Or.inr ⟨by show wakeOwner s.owner = _; rw [h]; rfl, h'⟩)

theorem reach_inv {threads : Nat} {s : St} (h : Reach threads s) : Inv threads s ∨ Dead threads s := by
  induction h with
  | init => exact Or.inl (Inv.init threads)
  | step _ hs ih =>
    rcases ih with hi | hd
    · cases hs with
      | worker i h => exact Or.inl (hi.wstep h)
      | owner h => exact hi.ostep h
      | spurious h => exact Or.inl (hi.spurious h)
    · exact Or.inr (hd.step hs)

/-- Every call that returned ran its tasks exactly once, also when the pool is being destroyed. -/
theorem reach_calls {threads : Nat} {s : St} (h : Reach threads s) : ∀ c ∈ s.calls, c.2.Perm (List.range c.1) := by
  induction h with
  | init => simp [St.init]
  | @step s t hr hs ih =>
    rcases reach_inv hr with hi | hd
    · cases hs with
      | worker i h => exact (hi.wstep h).calls
      | owner h =>
        cases h with
        | destroy h1 => exact ih
        | call n h1 => exact ih
        | wait n h1 h2 => exact ih
        | destroyed h1 _ => exact ih
        | dwait h1 _ => exact ih
        | ret n h1 h2 h3 =>
          rcases hi.ostep (OStep.ret s n h1 h2 h3) with h | h
          · exact h.calls
          · rcases h.own with h | h | ⟨h, _⟩ <;> cases h
      | spurious h => exact (hi.spurious h).calls
    · have : t.calls = s.calls := by
        cases hs with
        | worker i h => cases h <;> rfl
        | owner h =>
          cases h with
          | ret n h1 _ _ => rcases hd.own with h | h | ⟨h, _⟩ <;> (rw [h1] at h; cases h)
          | _ => rfl
        | spurious h => cases h <;> rfl
      rw [this]
      exact ih

/-! ## Termination of a call -/

/-- Steps a thread has left in it, while tasks are left (`more`) or not. -/
def Worker.weight (more : Bool) : Worker → Nat
  | .top => if more then 6 else 1
  | .asleep => 0
  | .fetch => 5
  | .got _ => 4
  | .run _ => 9
  | .leave => 3
  | .gone => 0

def Owner.weight : Owner → Nat
  | .check _ => 1
  | _ => 0

/-- Tasks given but not started count more. -/
def gotMore (num : Nat) : Worker → Nat
  | .got my => if my < num then 6 else 0
  | _ => 0

/-- What a worker adds to the measure. -/
def cost (more : Bool) (num : Nat) (w : Worker) : Nat := w.weight more + gotMore num w

def St.measure (s : St) : Nat :=
  12 * (s.num - s.next) + (s.workers.map (cost (decide (s.next < s.num)) s.num)).sum + s.owner.weight

theorem sum_set (f : Worker → Nat) (l : List Worker) (i : Nat) (a b : Worker) (h : l[i]? = some a) :
    ((l.set i b).map f).sum + f a = (l.map f).sum + f b := by
  induction l generalizing i with
  | nil => simp at h
  | cons x l ih =>
    cases i with
    | zero =>
      simp only [List.getElem?_cons_zero, Option.some.injEq] at h
      subst h
      simp only [List.set_cons_zero, List.map_cons, List.sum_cons]; omega
    | succ i =>
      simp only [List.getElem?_cons_succ] at h
      have := ih i h
      simp only [List.set_cons_succ, List.map_cons, List.sum_cons]; omega

theorem sum_le (f g : Worker → Nat) (h : ∀ w, f w ≤ g w) (l : List Worker) : (l.map f).sum ≤ (l.map g).sum := by
  induction l with
  | nil => simp
  | cons x l ih => simp only [List.map_cons, List.sum_cons]; have := h x; omega

theorem cost_top (more : Bool) (num : Nat) : cost more num .top = if more then 6 else 1 := rfl
theorem cost_asleep (more : Bool) (num : Nat) : cost more num .asleep = 0 := rfl
theorem cost_fetch (more : Bool) (num : Nat) : cost more num .fetch = 5 := rfl
theorem cost_got (more : Bool) (num my : Nat) : cost more num (.got my) = 4 + if my < num then 6 else 0 := rfl
theorem cost_run (more : Bool) (num my : Nat) : cost more num (.run my) = 9 := rfl
theorem cost_leave (more : Bool) (num : Nat) : cost more num .leave = 3 := rfl

/-- Every step of a worker during a call makes the measure smaller. -/
theorem measure_wstep {threads i : Nat} {s t : St} (hi : Inv threads s) (h : WStep i s t) : t.measure < s.measure := by
  have hf := fun (a b : Worker) (h : s.workers[i]? = some a) =>
    sum_set (cost (decide (s.next < s.num)) s.num) s.workers i a b h
  cases h with
  | enter h1 h2 h3 =>
    have := hf _ .fetch h1
    simp only [cost_top, cost_asleep, cost_fetch, cost_got, cost_run, cost_leave, h2, decide_true, ↓reduceIte] at this
    simp only [St.measure, h2, decide_true]
    omega
  | quit h1 h2 h3 => rw [hi.term] at h3; cases h3
  | sleep h1 h2 =>
    have := hf _ .asleep h1
    simp only [cost_top, cost_asleep, cost_fetch, cost_got, cost_run, cost_leave, h2, decide_false, Bool.false_eq_true, ↓reduceIte] at this
    simp only [St.measure, h2, decide_false]
    omega
  | fetch h1 =>
    have := hf _ (.got s.next) h1
    have hle := sum_le (cost (decide (s.next + 1 < s.num)) s.num) (cost (decide (s.next < s.num)) s.num)
      (fun w => by
        cases w with
        | top =>
          simp only [cost_top]
          by_cases h : s.next + 1 < s.num
          · simp [h, show s.next < s.num by omega]
          · simp only [h, decide_false, Bool.false_eq_true, ↓reduceIte]; split <;> omega
        | _ => exact Nat.le_refl _) (s.workers.set i (.got s.next))
    simp only [cost_top, cost_asleep, cost_fetch, cost_got, cost_run, cost_leave] at this
    simp only [St.measure]
    by_cases h : s.next < s.num
    · rw [if_pos h] at this
      omega
    · rw [if_neg h] at this
      omega
  | over my h1 h2 =>
    have := hf _ .leave h1
    simp only [cost_top, cost_asleep, cost_fetch, cost_got, cost_run, cost_leave, show ¬ my < s.num by omega, ↓reduceIte] at this
    simp only [St.measure]
    omega
  | start my h1 h2 =>
    have := hf _ (.run my) h1
    simp only [cost_top, cost_asleep, cost_fetch, cost_got, cost_run, cost_leave, h2, ↓reduceIte] at this
    simp only [St.measure]
    omega
  | finish my h1 =>
    have := hf _ .fetch h1
    simp only [cost_top, cost_asleep, cost_fetch, cost_got, cost_run, cost_leave] at this
    simp only [St.measure]
    omega
  | leave h1 =>
    have := hf _ .top h1
    have hl := hi.leave i h1
    simp only [cost_top, cost_asleep, cost_fetch, cost_got, cost_run, cost_leave, show ¬ s.next < s.num by omega, decide_false, Bool.false_eq_true, ↓reduceIte] at this
    simp only [St.measure, show ¬ s.next < s.num by omega, decide_false]
    have ho : (wakeOwner s.owner).weight ≤ s.owner.weight + 1 := by cases s.owner <;> simp [wakeOwner, Owner.weight]
    omega

/-- What rules out a lost wake-up. -/
structure Live (s : St) : Prop where
  /-- While there is a task to take, no worker sleeps. -/
  workers : s.next < s.num → ∀ w ∈ s.workers, w ≠ .asleep
  /-- While the owner sleeps, a task is left or a worker has yet to leave. -/
  owner : ∀ n, s.owner = .asleep n → s.num ≤ s.next → s.busy ≠ 0

theorem mem_set {l : List Worker} {i : Nat} {a w : Worker} (h : w ∈ l.set i a) : w ∈ l ∨ w = a := List.mem_or_eq_of_mem_set h

theorem wakeOwner_ne (o : Owner) (n : Nat) : wakeOwner o ≠ .asleep n := by
  cases o <;> simp [wakeOwner]

theorem Live.step {threads : Nat} {s t : St} (hi : Inv threads s) (hl : Live s) (h : Step s t) : Live t := by
  cases h with
  | worker i h =>
    cases h with
    | enter h1 h2 h3 =>
      refine ⟨fun h w hw => ?_, fun n h => ?_⟩
      · rcases mem_set hw with hw | rfl
        · exact hl.workers h w hw
        · exact fun h => (by cases h)
      · intro _; exact Nat.succ_ne_zero _
    | quit h1 h2 h3 => rw [hi.term] at h3; cases h3
    | sleep h1 h2 => exact ⟨fun h => absurd h h2, hl.owner⟩
    | fetch h1 =>
      have hb : 0 < s.busy := busy_pos hi h1 rfl
      refine ⟨fun h w hw => ?_, fun n h _ => Nat.ne_of_gt hb⟩
      have h : s.next + 1 < s.num := h
      rcases mem_set hw with hw | rfl
      · exact hl.workers (by omega) w hw
      · exact fun h => (by cases h)
    | over my h1 h2 =>
      refine ⟨fun h w hw => ?_, hl.owner⟩
      rcases mem_set hw with hw | rfl
      · exact hl.workers h w hw
      · exact fun h => (by cases h)
    | start my h1 h2 =>
      refine ⟨fun h w hw => ?_, hl.owner⟩
      rcases mem_set hw with hw | rfl
      · exact hl.workers h w hw
      · exact fun h => (by cases h)
    | finish my h1 =>
      refine ⟨fun h w hw => ?_, hl.owner⟩
      rcases mem_set hw with hw | rfl
      · exact hl.workers h w hw
      · exact fun h => (by cases h)
    | leave h1 =>
      refine ⟨fun h w hw => ?_, fun n h => absurd h (wakeOwner_ne _ _)⟩
      rcases mem_set hw with hw | rfl
      · exact hl.workers h w hw
      · exact fun h => (by cases h)
  | owner h =>
    cases h with
    | call n h1 =>
      refine ⟨fun h w hw => ?_, fun n h => (by cases h)⟩
      obtain ⟨x, _, rfl⟩ := List.mem_map.mp hw
      cases x <;> simp [wake]
    | ret n h1 h2 h3 => exact ⟨hl.workers, fun n h => (by cases h)⟩
    | wait n h1 h2 =>
      have hn : n = s.num := by
        rcases hi.own with h | h | h
        · rw [h1] at h; cases h.1
        · rw [h1] at h; cases h; rfl
        · rw [h1] at h; cases h
      refine ⟨hl.workers, fun m _ h => ?_⟩
      have h : s.num ≤ s.next := h
      exact fun hb => h2 ⟨by omega, hb⟩
    | destroy h1 => exact ⟨fun h => absurd h (by show ¬ 1 < 1; omega), fun n h => (by cases h)⟩
    | destroyed h1 h2 => exact ⟨hl.workers, fun n h => (by cases h)⟩
    | dwait h1 h2 => exact ⟨hl.workers, fun n h => (by cases h)⟩
  | spurious h =>
    cases h with
    | worker i h1 =>
      refine ⟨fun h w hw => ?_, hl.owner⟩
      rcases mem_set hw with hw | rfl
      · exact hl.workers h w hw
      · exact fun h => (by cases h)
    | owner => exact ⟨hl.workers, fun n h => absurd h (wakeOwner_ne _ _)⟩

theorem reach_live {threads : Nat} {s : St} (h : Reach threads s) : Dead threads s ∨ (Inv threads s ∧ Live s) := by
  induction h with
  | init => exact Or.inr ⟨Inv.init threads, ⟨fun h => absurd h (by simp [St.init]), fun n h => (by cases h)⟩⟩
  | @step s t hr hs ih =>
    rcases ih with hd | ⟨hi, hl⟩
    · exact Or.inl (hd.step hs)
    · cases hs with
      | worker i h => exact Or.inr ⟨hi.wstep h, hl.step hi (.worker i h)⟩
      | spurious h => exact Or.inr ⟨hi.spurious h, hl.step hi (.spurious h)⟩
      | owner h =>
        rcases hi.ostep h with h' | h'
        · exact Or.inr ⟨h', hl.step hi (.owner h)⟩
        · exact Or.inl h'

/-- A call is in progress. -/
def St.inCall (s : St) : Prop := ∃ n, s.owner = .check n ∨ s.owner = .asleep n

theorem inCall_inv {threads : Nat} {s : St} (h : Reach threads s) (ho : s.inCall) : Inv threads s ∧ Live s := by
  rcases reach_live h with h | h
  · obtain ⟨n, hn⟩ := ho
    rcases h.own with h | h | ⟨h, _⟩ <;> rcases hn with hn | hn <;> (rw [hn] at h; cases h)
  · exact h

/-- **No deadlock**: as long as a call has not returned, a worker or the owner can go on without a spurious wake-up. -/
theorem no_deadlock {threads : Nat} {s : St} (ht : 0 < threads) (h : Reach threads s) (ho : s.inCall) :
    (∃ i t, WStep i s t) ∨ ∃ t, OStep s t := by
  obtain ⟨hi, hl⟩ := inCall_inv h ho
  obtain ⟨n, hn | hn⟩ := ho
  · right
    by_cases h : n ≤ s.next ∧ s.busy = 0
    · exact ⟨_, OStep.ret s n hn h.1 h.2⟩
    · exact ⟨_, OStep.wait s n hn h⟩
  · left
    have hex : ∃ (i : Nat) (w : Worker), s.workers[i]? = some w ∧ w ≠ .asleep := by
      by_cases h : s.next < s.num
      · have hlen : 0 < s.workers.length := by rw [hi.len]; exact ht
        refine ⟨0, s.workers[0], List.getElem?_eq_getElem hlen, hl.workers h _ (List.getElem_mem hlen)⟩
      · have hb := hl.owner n hn (by omega)
        rw [hi.busy] at hb
        obtain ⟨w, hw, hbusy⟩ := List.countP_pos_iff.mp (Nat.pos_of_ne_zero hb)
        obtain ⟨i, hi'⟩ := List.mem_iff_getElem?.mp hw
        exact ⟨i, w, hi', by rintro rfl; cases hbusy⟩
    obtain ⟨i, w, hw, hne⟩ := hex
    cases w with
    | top =>
      by_cases h : s.next < s.num
      · exact ⟨i, _, WStep.enter s hw h hi.term⟩
      · exact ⟨i, _, WStep.sleep s hw h⟩
    | asleep => exact absurd rfl hne
    | fetch => exact ⟨i, _, WStep.fetch s hw⟩
    | got my =>
      by_cases h : my < s.num
      · exact ⟨i, _, WStep.start s my hw h⟩
      · exact ⟨i, _, WStep.over s my hw (by omega)⟩
    | run my => exact ⟨i, _, WStep.finish s my hw⟩
    | leave => exact ⟨i, _, WStep.leave s hw⟩
    | gone => exact absurd hw (hi.gone i)

/-- A step of the program, that is, not a spurious wake-up. -/
def PStep (s t : St) : Prop := (∃ i, WStep i s t) ∨ OStep s t

/-- During a call every step of the program that does not end it makes the measure smaller. -/
theorem measure_step {threads : Nat} {s t : St} (h : Reach threads s) (ho : s.inCall) (hs : PStep s t) :
    t.measure < s.measure ∨ ∃ n ran, s.owner = .check n ∧ t.owner = .idle ∧ t.calls = s.calls ++ [(n, ran)] := by
  obtain ⟨hi, _⟩ := inCall_inv h ho
  rcases hs with ⟨i, hs⟩ | hs
  · exact Or.inl (measure_wstep hi hs)
  · obtain ⟨n, hn⟩ := ho
    cases hs with
    | ret m h1 h2 h3 => exact Or.inr ⟨m, s.ran, h1, rfl, rfl⟩
    | wait m h1 h2 => exact Or.inl (by simp only [St.measure, h1, Owner.weight]; omega)
    | call m h1 => rcases hn with hn | hn <;> (rw [hn] at h1; cases h1)
    | destroy h1 => rcases hn with hn | hn <;> (rw [hn] at h1; cases h1)
    | destroyed h1 _ => rcases hn with hn | hn <;> (rw [hn] at h1; cases h1)
    | dwait h1 _ => rcases hn with hn | hn <;> (rw [hn] at h1; cases h1)

/-- The owner stays in the same call until it returns. -/
theorem inCall_step {s t : St} {n : Nat} (ho : s.owner = .check n ∨ s.owner = .asleep n) (hs : Step s t) :
    (t.owner = .check n ∨ t.owner = .asleep n) ∨ (t.owner = .idle ∧ ∃ ran, t.calls = s.calls ++ [(n, ran)]) := by
  have hw : wakeOwner s.owner = .check n := by rcases ho with ho | ho <;> rw [ho] <;> rfl
  cases hs with
  | worker i h =>
    cases h with
    | quit _ _ _ => exact Or.inl (Or.inl hw)
    | leave _ => exact Or.inl (Or.inl hw)
    | _ => exact Or.inl ho
  | owner h =>
    cases h with
    | ret m h1 h2 h3 =>
      rcases ho with ho | ho
      · rw [h1] at ho; cases ho; exact Or.inr ⟨rfl, s.ran, rfl⟩
      · rw [h1] at ho; cases ho
    | wait m h1 h2 =>
      rcases ho with ho | ho
      · rw [h1] at ho; cases ho; exact Or.inl (Or.inr rfl)
      · rw [h1] at ho; cases ho
    | call m h1 => rcases ho with hn | hn <;> (rw [hn] at h1; cases h1)
    | destroy h1 => rcases ho with hn | hn <;> (rw [hn] at h1; cases h1)
    | destroyed h1 _ => rcases ho with hn | hn <;> (rw [hn] at h1; cases h1)
    | dwait h1 _ => rcases ho with hn | hn <;> (rw [hn] at h1; cases h1)
  | spurious h =>
    cases h with
    | worker _ _ => exact Or.inl ho
    | owner => exact Or.inl (Or.inl hw)

/-- Whatever the order in which threads go on, the call in progress returns. -/
inductive Returns (n : Nat) : St → Prop where
  | now (s ran) : s.owner = .idle → s.calls.getLast? = some (n, ran) → Returns n s
  | later (s) : (∃ t, PStep s t) → (∀ t, PStep s t → Returns n t) → Returns n s

theorem PStep.step {s t : St} (h : PStep s t) : Step s t := by
  rcases h with ⟨i, h⟩ | h
  · exact .worker i h
  · exact .owner h

theorem returns {threads n : Nat} (ht : 0 < threads) : ∀ (k : Nat) (s : St), s.measure < k → Reach threads s →
    (s.owner = .check n ∨ s.owner = .asleep n) → Returns n s := by
  intro k
  induction k with
  | zero => intro s h; omega
  | succ k ih =>
    intro s hk hr ho
    refine .later s ?_ fun t hst => ?_
    · rcases no_deadlock ht hr ⟨n, ho⟩ with ⟨i, t, h⟩ | ⟨t, h⟩
      · exact ⟨t, Or.inl ⟨i, h⟩⟩
      · exact ⟨t, Or.inr h⟩
    · rcases inCall_step ho hst.step with ho' | ⟨hid, ran, hc⟩
      · rcases measure_step hr ⟨n, ho⟩ hst with h | ⟨m, _, _, h, _⟩
        · exact ih t (by omega) (.step hr hst.step) ho'
        · rcases ho' with ho' | ho' <;> (rw [h] at ho'; cases ho')
      · exact .now t ran hid (by rw [hc]; simp)

end Pool

end Brunsli
