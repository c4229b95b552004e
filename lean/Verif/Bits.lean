/-!
# Bit lists and parsers

Shared vocabulary of the model.  A bit stream is a `List Bool`, in the order in which
`c/enc/write_bits.h` emits bits (least significant bit of each group first).
-/

namespace Brunsli

/-- The `n` low bits of `v`, least significant first: what `WriteBits(n, v)` appends to the stream
(c/enc/write_bits.h:27-60; precondition there, a DCHECK: `v < 2^n`). -/
def bitsOf : Nat → Nat → List Bool
  | 0, _ => []
  | n + 1, v => decide (v % 2 = 1) :: bitsOf n (v / 2)

/-- The number denoted by a bit list, least significant bit first. -/
def ofBits : List Bool → Nat
  | [] => 0
  | b :: bs => b.toNat + 2 * ofBits bs

@[simp] theorem bitsOf_length (n v : Nat) : (bitsOf n v).length = n := by
  induction n generalizing v with
  | zero => rfl
  | succ n ih => simp [bitsOf, ih]

theorem ofBits_bitsOf (n v : Nat) : ofBits (bitsOf n v) = v % 2 ^ n := by
  induction n generalizing v with
  | zero => simp [bitsOf, ofBits, Nat.mod_one]
  | succ n ih =>
    simp only [bitsOf, ofBits, ih]
    have h : v % 2 ^ (n + 1) = v % 2 + 2 * (v / 2 % 2 ^ n) := by
      rw [Nat.pow_succ, Nat.mul_comm, Nat.mod_mul]
    rw [h]
    rcases Nat.mod_two_eq_zero_or_one v with h | h <;> simp [h]

theorem ofBits_bitsOf_lt {n v : Nat} (h : v < 2 ^ n) : ofBits (bitsOf n v) = v := by
  rw [ofBits_bitsOf, Nat.mod_eq_of_lt h]

theorem ofBits_lt (bs : List Bool) : ofBits bs < 2 ^ bs.length := by
  induction bs with
  | nil => simp [ofBits]
  | cons b bs ih =>
    simp only [ofBits, List.length_cons, Nat.pow_succ]
    cases b <;> simp <;> omega

theorem bitsOf_ofBits (bs : List Bool) : bitsOf bs.length (ofBits bs) = bs := by
  induction bs with
  | nil => rfl
  | cons b bs ih =>
    simp only [List.length_cons, bitsOf, ofBits]
    have h1 : (b.toNat + 2 * ofBits bs) / 2 = ofBits bs := by cases b <;> simp <;> omega
    have h2 : (b.toNat + 2 * ofBits bs) % 2 = b.toNat := by cases b <;> simp <;> omega
    rw [h1, h2, ih]
    cases b <;> simp

/-- Parsers over a token list: `none` is rejection. -/
def P (τ α : Type) : Type := List τ → Option (α × List τ)

namespace P
variable {τ α β : Type}

/-- Sequencing of parsers. -/
def bind (p : P τ α) (f : α → P τ β) : P τ β := fun s =>
  match p s with
  | none => none
  | some (a, s') => f a s'

/-- The parser consuming nothing. -/
def pure (a : α) : P τ α := fun s => some (a, s)

/-- The rejecting parser. -/
def fail : P τ α := fun _ => none

instance : Monad (P τ) where
  bind := P.bind
  pure := P.pure

/-- Reject unless `c`. -/
def guard (c : Prop) [Decidable c] : P τ Unit := if c then P.pure () else P.fail

@[simp] theorem bind_apply (p : P τ α) (f : α → P τ β) (s : List τ) :
    (p >>= f) s = (match p s with | none => none | some (a, s') => f a s') := rfl

@[simp] theorem pure_apply (a : α) (s : List τ) : (Pure.pure a : P τ α) s = some (a, s) := rfl

@[simp] theorem fail_apply (s : List τ) : (fail : P τ α) s = none := rfl

@[simp] theorem guard_apply (c : Prop) [Decidable c] (s : List τ) :
    (guard c : P τ Unit) s = if c then some ((), s) else none := by
  unfold guard; split <;> rfl

/-- What an accepting sequence has done. -/
theorem bind_some {p : P τ α} {f : α → P τ β} {s r : List τ} {b : β} (h : (p >>= f) s = some (b, r)) :
    ∃ a s', p s = some (a, s') ∧ f a s' = some (b, r) := by
  rw [bind_apply] at h
  split at h
  · cases h
  · exact ⟨_, _, ‹_›, h⟩

theorem guard_some {c : Prop} [Decidable c] {s r : List τ} {u : Unit} (h : (guard c : P τ Unit) s = some (u, r)) : c ∧ r = s := by
  rw [guard_apply] at h
  split at h
  · simp only [Option.some.injEq, Prod.mk.injEq] at h; exact ⟨‹_›, h.2.symm⟩
  · cases h

theorem pure_some {a b : α} {s r : List τ} (h : (Pure.pure a : P τ α) s = some (b, r)) : a = b ∧ r = s := by
  simp only [pure_apply, Option.some.injEq, Prod.mk.injEq] at h; exact ⟨h.1, h.2.symm⟩

/-- `p` reads the encoding `e` as the value `a`, whatever follows, and consumes exactly `e`. -/
def Reads (p : P τ α) (e : List τ) (a : α) : Prop := ∀ rest, p (e ++ rest) = some (a, rest)

theorem Reads.pure (a : α) : Reads (Pure.pure a : P τ α) [] a := fun _ => rfl

theorem Reads.pure' {a b : α} (h : a = b) : Reads (Pure.pure a : P τ α) [] b := by
  subst h; exact Reads.pure a

theorem Reads.congr {p : P τ α} {e e' : List τ} {a a' : α} (h : Reads p e a) (he : e' = e)
    (ha : a' = a) : Reads p e' a' := by subst he ha; exact h

theorem Reads.bind {p : P τ α} {f : α → P τ β} {e₁ e₂ : List τ} {a : α} {b : β}
    (h₁ : Reads p e₁ a) (h₂ : Reads (f a) e₂ b) : Reads (p >>= f) (e₁ ++ e₂) b := by
  intro rest
  simp [List.append_assoc, h₁ (e₂ ++ rest), h₂ rest]

theorem Reads.bind' {p : P τ α} {f : α → P τ β} {e e₁ e₂ : List τ} {a : α} {b : β}
    (h₁ : Reads p e₁ a) (h₂ : Reads (f a) e₂ b) (he : e = e₁ ++ e₂) : Reads (p >>= f) e b := by
  subst he; exact h₁.bind h₂

theorem Reads.guard {c : Prop} [Decidable c] (h : c) : Reads (P.guard c : P τ Unit) [] () := by
  intro rest; simp [h]

theorem Reads.seqGuard {c : Prop} [Decidable c] {f : Unit → P τ β} {e : List τ} {b : β}
    (h : c) (h₂ : Reads (f ()) e b) : Reads (P.guard c >>= f) e b := by
  intro rest; simp [h, h₂ rest]

theorem Reads.unique {p : P τ α} {e : List τ} {a b : α} (h₁ : Reads p e a) (h₂ : Reads p e b) : a = b := by
  have := (h₁ []).symm.trans (h₂ [])
  simpa using this

/-- Run `p` for each element of a list of arguments, collecting results. -/
def mapM' (f : α → P τ β) : List α → P τ (List β)
  | [] => Pure.pure []
  | a :: as => do
    let b ← f a
    let bs ← mapM' f as
    Pure.pure (b :: bs)

/-- Run `p` `n` times. -/
def replicate (n : Nat) (p : P τ α) : P τ (List α) :=
  match n with
  | 0 => Pure.pure []
  | n + 1 => do
    let a ← p
    let as ← replicate n p
    Pure.pure (a :: as)

theorem Reads.replicate {p : P τ α} (enc : α → List τ) (as : List α)
    (h : ∀ a ∈ as, Reads p (enc a) a) :
    Reads (P.replicate as.length p) (as.flatMap enc) as := by
  induction as with
  | nil => exact Reads.pure _
  | cons a as ih =>
    have h1 := h a (by simp)
    have h2 := ih (fun x hx => h x (by simp [hx]))
    refine Reads.bind' h1 (Reads.bind' h2 (Reads.pure _) rfl) ?_
    simp

end P

/-- Read an `n`-bit group (c/dec/bit_reader.h: BrunsliBitReaderRead; on a bit list). -/
def readBits (n : Nat) : P Bool Nat := fun bs =>
  if n ≤ bs.length then some (ofBits (bs.take n), bs.drop n) else none

/-- Read one bit as a flag. -/
def readBit : P Bool Bool
  | [] => none
  | b :: bs => some (b, bs)

open P

theorem readBits_reads {n v : Nat} (h : v < 2 ^ n) : Reads (readBits n) (bitsOf n v) v := by
  intro rest
  unfold readBits
  have hl : (bitsOf n v).length = n := bitsOf_length n v
  rw [if_pos (by simp), List.take_left' hl, List.drop_left' hl, ofBits_bitsOf_lt h]

theorem readBits_lt {n : Nat} {bs rest : List Bool} {v : Nat}
    (h : readBits n bs = some (v, rest)) : v < 2 ^ n := by
  unfold readBits at h
  split at h
  · simp only [Option.some.injEq, Prod.mk.injEq] at h
    have := ofBits_lt (bs.take n)
    rw [List.length_take] at this
    rw [h.1] at this
    rwa [Nat.min_eq_left (by assumption)] at this
  · cases h

theorem readBits_rest {n : Nat} {bs rest : List Bool} {v : Nat}
    (h : readBits n bs = some (v, rest)) : bs = bitsOf n v ++ rest := by
  unfold readBits at h
  split at h
  · rename_i hn
    simp only [Option.some.injEq, Prod.mk.injEq] at h
    have := bitsOf_ofBits (bs.take n)
    rw [List.length_take, Nat.min_eq_left hn, h.1] at this
    rw [this, ← h.2, List.take_append_drop]
  · cases h

theorem readBit_reads (b : Bool) : Reads readBit [b] b := fun _ => rfl

end Brunsli
