import Verif.Section
/-!
# Byte readers

Readers of bytes with the three outcomes of the container parser, their sequencing, and what it means for a reader to
behave the same whatever follows its input.
-/

namespace Brunsli

/-- A reader of bytes. -/
abbrev Rd (α : Type) : Type := List Nat → Res α

namespace Rd

/-- Do nothing. -/
def ret {α : Type} (a : α) : Rd α := fun bs => .ok a bs

/-- Reject. -/
def fail {α : Type} : Rd α := fun _ => .invalid

/-- Sequencing: stop at the first reader that does not succeed. -/
def andThen {α β : Type} (p : Rd α) (f : α → Rd β) : Rd β := fun bs =>
  match p bs with
  | .ok a rest => f a rest
  | .needMore => .needMore
  | .invalid => .invalid

/-- The number of bytes a reader takes. -/
def counted {α : Type} (p : Rd α) : Rd (α × Nat) := fun bs =>
  match p bs with
  | .ok a rest => .ok (a, bs.length - rest.length) rest
  | .needMore => .needMore
  | .invalid => .invalid

/-- The next `n` bytes. -/
def bytes (n : Nat) : Rd (List Nat) := fun bs => if bs.length < n then .needMore else .ok (bs.take n) (bs.drop n)

/-- Succeed with `a` if it is there. -/
def ofOption {α : Type} : Option α → Rd α
  | some a => ret a
  | none => fail

/-- Success and rejection do not depend on what follows. -/
structure Mono {α : Type} (p : Rd α) : Prop where
  ok : ∀ {bs rest : List Nat} {a : α}, p bs = .ok a rest → ∀ ext, p (bs ++ ext) = .ok a (rest ++ ext)
  invalid : ∀ {bs : List Nat}, p bs = .invalid → ∀ ext, p (bs ++ ext) = .invalid
  suffix : ∀ {bs rest : List Nat} {a : α}, p bs = .ok a rest → ∃ used, bs = used ++ rest

theorem Mono.ret {α : Type} (a : α) : Mono (ret a) :=
  ⟨fun h ext => (by cases h; rfl), fun h => (by cases h), fun h => (by cases h; exact ⟨[], rfl⟩)⟩

theorem Mono.fail {α : Type} : Mono (fail : Rd α) := ⟨fun h => (by cases h), fun _ _ => rfl, fun h => (by cases h)⟩

theorem Mono.ofOption {α : Type} (o : Option α) : Mono (Rd.ofOption o) := by
  cases o with
  | none => exact Mono.fail
  | some a => exact Mono.ret a

theorem andThen_ok {α β : Type} {p : Rd α} {f : α → Rd β} {bs rest : List Nat} {b : β} (h : andThen p f bs = .ok b rest) :
    ∃ a mid, p bs = .ok a mid ∧ f a mid = .ok b rest := by
  unfold andThen at h
  cases hp : p bs with
  | ok a mid => rw [hp] at h; exact ⟨a, mid, rfl, h⟩
  | needMore => rw [hp] at h; cases h
  | invalid => rw [hp] at h; cases h

theorem Mono.andThen {α β : Type} {p : Rd α} {f : α → Rd β} (hp : Mono p) (hf : ∀ a, Mono (f a)) : Mono (andThen p f) := by
  refine ⟨fun {bs rest b} h ext => ?_, fun {bs} h ext => ?_, fun {bs rest b} h => ?_⟩
  · obtain ⟨a, mid, h1, h2⟩ := andThen_ok h
    unfold Rd.andThen
    rw [hp.ok h1 ext]
    exact (hf a).ok h2 ext
  · unfold Rd.andThen at h ⊢
    cases h1 : p bs with
    | ok a mid => rw [h1] at h; rw [hp.ok h1 ext]; exact (hf a).invalid h ext
    | needMore => rw [h1] at h; cases h
    | invalid => rw [hp.invalid h1 ext]
  · obtain ⟨a, mid, h1, h2⟩ := andThen_ok h
    obtain ⟨u, rfl⟩ := hp.suffix h1
    obtain ⟨v, rfl⟩ := (hf a).suffix h2
    exact ⟨u ++ v, by simp⟩

theorem Mono.counted {α : Type} {p : Rd α} (hp : Mono p) : Mono (counted p) := by
  refine ⟨fun {bs rest a} h ext => ?_, fun {bs} h ext => ?_, fun {bs rest a} h => ?_⟩
  · unfold Rd.counted at h ⊢
    cases h1 : p bs with
    | ok b mid =>
      rw [h1] at h; cases h
      rw [hp.ok h1 ext]
      simp only [List.length_append]
      rw [Nat.add_sub_add_right]
    | needMore => rw [h1] at h; cases h
    | invalid => rw [h1] at h; cases h
  · unfold Rd.counted at h ⊢
    cases h1 : p bs with
    | ok b mid => rw [h1] at h; cases h
    | needMore => rw [h1] at h; cases h
    | invalid => rw [hp.invalid h1 ext]
  · unfold Rd.counted at h
    cases h1 : p bs with
    | ok b mid => rw [h1] at h; cases h; exact hp.suffix h1
    | needMore => rw [h1] at h; cases h
    | invalid => rw [h1] at h; cases h

theorem Mono.bytes (n : Nat) : Mono (bytes n) := by
  refine ⟨fun {bs rest a} h ext => ?_, fun {bs} h ext => ?_, fun {bs rest a} h => ?_⟩
  · unfold Rd.bytes at h ⊢
    split at h
    · cases h
    · rename_i hl
      cases h
      rw [if_neg (by rw [List.length_append]; omega), List.take_append_of_le_length (by omega), List.drop_append_of_le_length (by omega)]
  · unfold Rd.bytes at h
    split at h <;> cases h
  · unfold Rd.bytes at h
    split at h
    · cases h
    · cases h; exact ⟨_, (List.take_append_drop n bs).symm⟩

theorem Mono.ite {α : Type} {c : Prop} [Decidable c] {p q : Rd α} (hp : Mono p) (hq : Mono q) : Mono (if c then p else q) := by
  split <;> assumption

theorem Mono.readTag (met : List Nat) : Mono (readTag met) := by
  have key : ∀ m bs ext, Brunsli.readTag met (m :: (bs ++ ext)) = (match Brunsli.readTag met (m :: bs) with
      | .ok a rest => .ok a (rest ++ ext)
      | .needMore => .needMore
      | .invalid => .invalid) := by
    intro m bs ext
    unfold Brunsli.readTag
    simp only
    by_cases h1 : m / 8 = 0 ∨ m / 8 > 15
    · rw [if_pos h1, if_pos h1]
    · rw [if_neg h1, if_neg h1]
      by_cases h2 : m % 8 ≠ 0 ∧ m % 8 ≠ 2
      · rw [if_pos h2, if_pos h2]
      · rw [if_neg h2, if_neg h2]
        by_cases h3 : m / 8 ∈ met
        · rw [if_pos h3, if_pos h3]
        · rw [if_neg h3, if_neg h3]
  refine ⟨fun {bs rest a} h ext => ?_, fun {bs} h ext => ?_, fun {bs rest a} h => ?_⟩
  · cases bs with
    | nil => cases h
    | cons m bs => rw [List.cons_append, key, h]
  · cases bs with
    | nil => cases h
    | cons m bs => rw [List.cons_append, key, h]
  · cases bs with
    | nil => cases h
    | cons m bs =>
      simp only [Brunsli.readTag] at h
      (repeat' split at h) <;> cases h
      exact ⟨[m], rfl⟩

theorem loopMono : ∀ n i v, Mono (decodeBase128Loop n i v) := by
    intro n
    induction n with
    | zero => intro i v; exact Mono.fail
    | succ n ih =>
      intro i v
      refine ⟨fun {bs rest a} h ext => ?_, fun {bs} h ext => ?_, fun {bs rest a} h => ?_⟩
      · cases bs with
        | nil => cases h
        | cons b bs =>
          simp only [List.cons_append, decodeBase128Loop] at h ⊢
          split at h
          · rename_i hc; cases h; rw [if_pos hc]
          · rename_i hc; rw [if_neg hc]; exact (ih _ _).ok h ext
      · cases bs with
        | nil => cases h
        | cons b bs =>
          simp only [List.cons_append, decodeBase128Loop] at h ⊢
          split at h
          · cases h
          · rename_i hc; rw [if_neg hc]; exact (ih _ _).invalid h ext
      · cases bs with
        | nil => cases h
        | cons b bs =>
          simp only [decodeBase128Loop] at h
          split at h
          · cases h; exact ⟨[b], rfl⟩
          · obtain ⟨u, hu⟩ := (ih _ _).suffix h
            exact ⟨b :: u, by rw [hu]; rfl⟩

theorem Mono.decodeBase128 : Mono decodeBase128 := loopMono 9 0 0

/-- What a reader needs: cut short, its input is incomplete. -/
theorem Mono.prefix {α : Type} {p : Rd α} (hp : Mono p) {bs ext rest : List Nat} {a : α} (h : p (bs ++ ext) = .ok a rest)
    (hshort : rest.length < ext.length) : p bs = .needMore := by
  cases h1 : p bs with
  | needMore => rfl
  | invalid => rw [hp.invalid h1 ext] at h; cases h
  | ok b mid =>
    rw [hp.ok h1 ext] at h
    cases h
    rw [List.length_append] at hshort
    omega

end Rd

end Brunsli
