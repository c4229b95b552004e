import Verif.BitProg
/-!
# Users of the bit reader

The functions that read bits call `BrunsliBitReaderGet`, `BrunsliBitReaderDrop` and `BrunsliBitReaderIsHealthy` (c/dec/bit_reader.h).
They are written as programs over these calls, so that they can be run both on a list of bits and on the reader itself.
-/

namespace Brunsli

open P

/-- A program that uses a bit reader between two tests of `BrunsliBitReaderCanRead`. -/
inductive BC (α : Type) where
  | ret (a : α)
  | fail
  /-- A table is read out of its bounds. -/
  | ub
  /-- `BrunsliBitReaderGet` (c/dec/bit_reader.h:111-120). -/
  | get (n : Nat) (k : Nat → BC α)
  /-- `BrunsliBitReaderDrop` (c/dec/bit_reader.h:122-127). -/
  | drop (n : Nat) (k : BC α)
  /-- `BrunsliBitReaderIsHealthy`, and failure if it is not (c/dec/bit_reader.cc:69-72). -/
  | healthy (k : BC α)

namespace BC

variable {α β : Type}

/-- Sequencing. -/
def bind : BC α → (α → BC β) → BC β
  | ret a, f => f a
  | fail, _ => fail
  | ub, _ => ub
  | get n k, f => get n fun v => bind (k v) f
  | drop n k, f => drop n (bind k f)
  | healthy k, f => healthy (bind k f)

instance : Monad BC where
  pure := ret
  bind := bind

theorem bind_def (p : BC α) (f : α → BC β) : (p >>= f) = bind p f := rfl

/-- The value read and the number of bits dropped, when zeros follow the given bits. -/
def count : BC α → List Bool → Option (α × Nat)
  | ret a, _ => some (a, 0)
  | fail, _ => none
  | ub, _ => none
  | get n k, bs => count (k (ofBits (bs.take n))) bs
  | drop n k, bs => (count k (bs.drop n)).map fun y => (y.1, n + y.2)
  | healthy k, bs => count k bs

/-- The same where dropping more bits than there are is a failure. -/
def sem (p : BC α) : P Bool α := fun bs =>
  match count p bs with
  | none => none
  | some (a, c) => if c ≤ bs.length then some (a, bs.drop c) else none

/-- Every read is of at most 24 bits, and no more bits are dropped than are held; no table is read out of bounds (on the way that the
given bits, followed by zeros, lead).  `h` is the number of bits held. -/
def Held : BC α → Nat → List Bool → Prop
  | ret _, _, _ => True
  | fail, _, _ => True
  | ub, _, _ => False
  | get n k, h, bs => n ≤ 24 ∧ Held (k (ofBits (bs.take n))) (max h n) bs
  | drop n k, h, bs => n ≤ h ∧ Held k (h - n) (bs.drop n)
  | healthy k, _, bs => Held k 0 bs

/-- `Held` for all bits. -/
def Safe (p : BC α) : Prop := ∀ bs, Held p 0 bs

theorem Held.mono {p : BC α} : ∀ {h h' : Nat} {bs : List Bool}, Held p h bs → h ≤ h' → Held p h' bs := by
  induction p with
  | ret a => intros; trivial
  | fail => intros; trivial
  | ub => intro _ _ _ h _; exact h
  | get n k ih => intro h h' bs hh hle; exact ⟨hh.1, ih _ hh.2 (by omega)⟩
  | drop n k ih => intro h h' bs hh hle; exact ⟨Nat.le_trans hh.1 hle, ih hh.2 (by omega)⟩
  | healthy k ih => intro h h' bs hh _; exact hh

theorem count_bind (p : BC α) (f : α → BC β) : ∀ bs, count (bind p f) bs =
    match count p bs with
    | none => none
    | some (a, c) => (count (f a) (bs.drop c)).map fun y => (y.1, c + y.2) := by
  induction p with
  | ret a => intro bs; simp [bind, count]
  | fail => intro bs; rfl
  | ub => intro bs; rfl
  | get n k ih => intro bs; simp only [bind, count]; exact ih _ bs
  | drop n k ih =>
    intro bs
    simp only [bind, count]
    rw [ih (bs.drop n)]
    cases count k (bs.drop n) with
    | none => rfl
    | some y =>
      obtain ⟨a, c⟩ := y
      simp only [Option.map_some, Option.map_map, List.drop_drop]
      cases count (f a) (bs.drop (n + c)) with
      | none => rfl
      | some z => simp [Nat.add_assoc]
  | healthy k ih => intro bs; simp only [bind, count]; exact ih bs

theorem Held.bind {f : α → BC β} {p : BC α} : ∀ {h : Nat} {bs : List Bool}, Held p h bs →
    (∀ a c, count p bs = some (a, c) → Held (f a) 0 (bs.drop c)) → Held (BC.bind p f) h bs := by
  induction p with
  | ret a => intro h bs _ hf; exact (hf a 0 rfl).mono (Nat.zero_le _)
  | fail => intros; trivial
  | ub => intro _ _ h _; exact h
  | get n k ih => intro h bs hh hf; exact ⟨hh.1, ih _ hh.2 fun a c e => hf a c e⟩
  | drop n k ih =>
    intro h bs hh hf
    refine ⟨hh.1, ih hh.2 fun a c e => ?_⟩
    have := hf a (n + c) (by simp only [count, e]; rfl)
    rwa [List.drop_drop]
  | healthy k ih => intro h bs hh hf; exact ih hh fun a c e => hf a c e

theorem ofBits_zeros (bs : List Bool) (k n : Nat) : ofBits ((bs ++ List.replicate k false).take n) = ofBits (bs.take n) := by
  rw [List.take_append, ofBits_append, List.take_replicate, ofBits_replicate_false, Nat.mul_zero, Nat.add_zero]

/-- Zeros behind the bits do not matter. -/
theorem count_zeros (p : BC α) : ∀ (bs : List Bool) (k : Nat), count p (bs ++ List.replicate k false) = count p bs := by
  induction p with
  | ret a => intros; rfl
  | fail => intros; rfl
  | ub => intros; rfl
  | get n g ih => intro bs k; simp only [count]; rw [ofBits_zeros, ih]
  | drop n g ih =>
    intro bs k
    simp only [count]
    rw [List.drop_append, List.drop_replicate, ih]
  | healthy g ih => intro bs k; exact ih bs k

/-- Whatever is read, some bits lead there. -/
theorem sem_of_count {p : BC α} {bs : List Bool} {a : α} {c : Nat} (h : count p bs = some (a, c)) :
    ∃ rest, sem p (bs ++ List.replicate c false) = some (a, rest) := by
  refine ⟨(bs ++ List.replicate c false).drop c, ?_⟩
  unfold sem
  rw [count_zeros, h]
  simp only
  rw [if_pos (by simp)]

theorem sem_some {p : BC α} {bs rest : List Bool} {a : α} (h : sem p bs = some (a, rest)) :
    ∃ c, count p bs = some (a, c) ∧ c ≤ bs.length ∧ rest = bs.drop c := by
  unfold sem at h
  cases hc : count p bs with
  | none => rw [hc] at h; cases h
  | some y =>
    obtain ⟨b, c⟩ := y
    rw [hc] at h
    simp only at h
    by_cases hl : c ≤ bs.length
    · rw [if_pos hl] at h; cases h; exact ⟨c, rfl, hl, rfl⟩
    · rw [if_neg hl] at h; cases h

theorem Safe.bind {f : α → BC β} {p : BC α} (hp : Safe p) (hf : ∀ a, (∃ bs rest, sem p bs = some (a, rest)) → Safe (f a)) :
    Safe (BC.bind p f) := fun bs =>
  (hp bs).bind fun a _ e => hf a ⟨_, sem_of_count e⟩ _

theorem Safe.seq {f : α → BC β} {p : BC α} (hp : Safe p) (hf : ∀ a, Safe (f a)) : Safe (p >>= f) := hp.bind fun a _ => hf a

theorem Safe.pure (a : α) : Safe (Pure.pure a : BC α) := fun _ => trivial
theorem Safe.ret (a : α) : Safe (BC.ret a) := fun _ => trivial
theorem Safe.fail : Safe (BC.fail : BC α) := fun _ => trivial

theorem Safe.ite {c : Prop} [Decidable c] {p q : BC α} (h1 : c → Safe p) (h2 : ¬c → Safe q) : Safe (if c then p else q) := by
  split
  · exact h1 (by assumption)
  · exact h2 (by assumption)

theorem sem_bind (p : BC α) (f : α → BC β) : sem (p >>= f) = (sem p >>= fun a => sem (f a)) := by
  funext bs
  rw [bind_apply]
  simp only [sem, bind_def]
  rw [count_bind]
  cases hc : count p bs with
  | none => rfl
  | some y =>
    obtain ⟨a, c⟩ := y
    simp only
    by_cases hl : c ≤ bs.length
    · rw [if_pos hl]
      simp only
      cases count (f a) (bs.drop c) with
      | none => rfl
      | some z =>
        simp only [Option.map_some, List.length_drop, List.drop_drop]
        by_cases h2 : z.2 ≤ bs.length - c
        · rw [if_pos (by omega), if_pos h2]
        · rw [if_neg (by omega), if_neg h2]
    · rw [if_neg hl]
      cases count (f a) (bs.drop c) with
      | none => rfl
      | some z => simp only [Option.map_some]; rw [if_neg (by omega)]

theorem sem_pure (a : α) : sem (Pure.pure a : BC α) = Pure.pure a := by
  funext bs; simp [sem, Pure.pure, count]; rfl

theorem sem_ret (a : α) : sem (BC.ret a : BC α) = Pure.pure a := sem_pure a

theorem sem_fail : sem (BC.fail : BC α) = P.fail := by funext bs; rfl

theorem sem_ite {c : Prop} [Decidable c] (p q : BC α) : sem (if c then p else q) = if c then sem p else sem q := by split <;> rfl

/-- Failure unless `c`. -/
def check (c : Prop) [Decidable c] : BC Unit := if c then ret () else fail

theorem sem_check (c : Prop) [Decidable c] : sem (check c) = P.guard c := by
  unfold check
  rw [sem_ite, sem_ret, sem_fail]
  funext bs
  rw [guard_apply]
  split <;> rfl

theorem Safe.check {c : Prop} [Decidable c] : Safe (BC.check c) := by
  unfold BC.check; exact Safe.ite (fun _ => Safe.ret _) fun _ => Safe.fail

/-- `BrunsliBitReaderRead` (c/dec/bit_reader.h:129-134). -/
def bits (n : Nat) : BC Nat := get n fun v => drop n (ret v)

theorem sem_bits (n : Nat) : sem (bits n) = readBits n := by
  funext bs
  simp only [sem, bits, count, Option.map_some, Nat.add_zero, readBits]

theorem Safe.bits {n : Nat} (h : n ≤ 24) : Safe (BC.bits n) := fun bs => ⟨h, by omega, trivial⟩

/-- The loop of `n` equal reads. -/
def replicate (n : Nat) (p : BC α) : BC (List α) :=
  match n with
  | 0 => pure []
  | n + 1 => do
    let a ← p
    let as ← replicate n p
    pure (a :: as)

theorem sem_replicate (p : BC α) : ∀ n, sem (replicate n p) = P.replicate n (sem p)
  | 0 => sem_pure _
  | n + 1 => by
    simp only [replicate, P.replicate, sem_bind, sem_pure, sem_replicate p n]

theorem Safe.replicate {p : BC α} (h : Safe p) : ∀ n, Safe (BC.replicate n p)
  | 0 => Safe.pure _
  | n + 1 => h.seq fun _ => (Safe.replicate h n).seq fun _ => Safe.pure _

/-- The check at the end of a function. -/
def checked (p : BC α) : BC α := p >>= fun a => healthy (ret a)

theorem sem_checked (p : BC α) : sem (checked p) = sem p := by
  have : ∀ a : α, sem (healthy (ret a)) = Pure.pure a := fun a => by funext bs; simp [sem, count]
  unfold checked
  rw [sem_bind]
  simp only [this]
  funext bs
  rw [bind_apply]
  cases sem p bs <;> rfl

theorem Safe.checked {p : BC α} (h : Safe p) : Safe (BC.checked p) := h.seq fun _ _ => trivial

end BC

end Brunsli
