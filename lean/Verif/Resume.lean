/-!
# Readers of a section that can stop and go on

The decoder reads a section while the file is still arriving (c/dec/brunsli_decode.cc: `ProcessSection` and the functions
it calls).  Such a reader sees the bytes that have arrived and were not yet consumed, and knows how many bytes of
the section are left.  It proceeds by steps; a step either consumes bytes and goes on, or finishes, or needs more bytes,
or rejects the file.
-/

namespace Brunsli

/-- What a step does. -/
inductive BOut (τ α : Type) where
  /-- Some bytes are consumed; go on in the new state. -/
  | more (t : τ) (n : Nat)
  /-- Some bytes are consumed; the section is read. -/
  | done (a : α) (n : Nat)
  /-- Some bytes are consumed; more have to arrive (`BRUNSLI_NOT_ENOUGH_DATA`). -/
  | wait (t : τ) (n : Nat)
  /-- The file is rejected (`BRUNSLI_INVALID_BRN`). -/
  | bad

/-- The same step after `n` further bytes. -/
def BOut.shift {τ α : Type} (n : Nat) : BOut τ α → BOut τ α
  | more t m => more t (n + m)
  | done a m => done a (n + m)
  | wait t m => wait t (n + m)
  | bad => bad

theorem BOut.shift_zero {τ α : Type} (o : BOut τ α) : o.shift 0 = o := by
  cases o <;> simp [BOut.shift]

/-- A reader: the step from a state, the number of bytes left in the section, and the bytes in view.  The bytes in view may
extend beyond the section. -/
abbrev Body (τ α : Type) : Type := τ → Nat → List Nat → BOut τ α

/-- The course of a reader when the rest of the section is in view. -/
inductive Verdict {τ α : Type} (B : Body τ α) : τ → Nat → List Nat → Option (α × List Nat) → Prop where
  | done {t : τ} {rem : Nat} {w : List Nat} {a : α} {n : Nat} (h : B t rem w = .done a n) :
      Verdict B t rem w (some (a, (w.take rem).drop n))
  | bad {t : τ} {rem : Nat} {w : List Nat} (h : B t rem w = .bad) : Verdict B t rem w none
  | wait {t t' : τ} {rem n : Nat} {w : List Nat} (h : B t rem w = .wait t' n) : Verdict B t rem w none
  | more {t t' : τ} {rem n : Nat} {w : List Nat} {r : Option (α × List Nat)} (h : B t rem w = .more t' n)
      (v : Verdict B t' (rem - n) (w.drop n) r) : Verdict B t rem w r

/-- The conditions on one step: it consumes bytes in view and in the section, waits only with a short rest unread, is not
affected by later bytes unless it waits, and if it waits then going on later is the same as having waited from the
beginning. -/
def Fits {τ α : Type} (B : Body τ α) (inv : τ → Nat → Prop) (post : α → Prop) (t : τ) (rem : Nat) (w : List Nat) :
    BOut τ α → Prop
  | .more t' n => n ≤ w.length ∧ n ≤ rem ∧ inv t' (rem - n) ∧ ∀ x, B t rem (w ++ x) = .more t' n
  | .done a n => n ≤ w.length ∧ n ≤ rem ∧ post a ∧ ∀ x, B t rem (w ++ x) = .done a n
  | .wait t' n => n ≤ w.length ∧ n ≤ rem ∧ inv t' (rem - n) ∧ w.length - n < 600 ∧
      ∀ x, B t rem (w ++ x) = (B t' (rem - n) (w.drop n ++ x)).shift n
  | .bad => ∀ x, B t rem (w ++ x) = .bad

/-- A reader that can be resumed, and that reads what `sem` reads from the whole rest of the section. -/
structure Resumes {τ α : Type} (B : Body τ α) (sem : τ → List Nat → Option (α × List Nat)) (inv : τ → Nat → Prop)
    (post : α → Prop) : Prop where
  fits : ∀ t rem w, inv t rem → Fits B inv post t rem w (B t rem w)
  total : ∀ t rem w, inv t rem → rem ≤ w.length → Verdict B t rem w (sem t (w.take rem))

theorem take_append_ge {α : Type} {n : Nat} {w : List α} (x : List α) (h : n ≤ w.length) : (w ++ x).take n = w.take n := by
  rw [List.take_append_of_le_length h]

/-! ## Two readers in a row -/

/-- One reader after another in the same section. -/
def seqBody {τ₁ τ₂ β α : Type} (A : Body τ₁ β) (f : β → τ₂) (B : Body τ₂ α) : Body (τ₁ ⊕ τ₂) α
  | .inl t, rem, w =>
    match A t rem w with
    | .more t n => .more (.inl t) n
    | .done b n => .more (.inr (f b)) n
    | .wait t n => .wait (.inl t) n
    | .bad => .bad
  | .inr t, rem, w =>
    match B t rem w with
    | .more t n => .more (.inr t) n
    | .done a n => .done a n
    | .wait t n => .wait (.inr t) n
    | .bad => .bad

/-- What two readers in a row read. -/
def seqSem {τ₁ τ₂ β α : Type} (sa : τ₁ → List Nat → Option (β × List Nat)) (f : β → τ₂)
    (sb : τ₂ → List Nat → Option (α × List Nat)) : τ₁ ⊕ τ₂ → List Nat → Option (α × List Nat)
  | .inl t, p =>
    match sa t p with
    | none => none
    | some (b, rest) => sb (f b) rest
  | .inr t, p => sb t p

/-- The condition on the states of two readers in a row. -/
def seqInv {τ₁ τ₂ : Type} (ia : τ₁ → Nat → Prop) (ib : τ₂ → Nat → Prop) : τ₁ ⊕ τ₂ → Nat → Prop
  | .inl t, rem => ia t rem
  | .inr t, rem => ib t rem

theorem seqBody_resumes {τ₁ τ₂ β α : Type} {A : Body τ₁ β} {f : β → τ₂} {B : Body τ₂ α} {sa sb ia ib pa pb}
    (ha : Resumes A sa ia pa) (hb : Resumes B sb ib pb) (hf : ∀ b rem, pa b → ib (f b) rem) :
    Resumes (seqBody A f B) (seqSem sa f sb) (seqInv ia ib) pb := by
  have inr : ∀ t rem w r, Verdict B t rem w r → Verdict (seqBody A f B) (.inr t) rem w r := by
    intro t rem w r v
    induction v with
    | @done t rem w a n h => exact .done (by simp only [seqBody, h])
    | @bad t rem w h => exact .bad (by simp only [seqBody, h])
    | @wait t t' rem n w h => exact .wait (t' := .inr t') (n := n) (by simp only [seqBody, h])
    | @more t t' rem n w r h v ih => exact .more (t' := .inr t') (n := n) (by simp only [seqBody, h]) ih
  constructor
  · intro t rem w hi
    cases t with
    | inl t =>
      have := ha.fits t rem w hi
      simp only [seqBody]
      cases h : A t rem w with
      | more t' n =>
        rw [h] at this
        obtain ⟨h1, h2, h3, h4⟩ := this
        exact ⟨h1, h2, h3, fun x => by simp only [seqBody, h4 x]⟩
      | done b n =>
        rw [h] at this
        obtain ⟨h1, h2, h3, h4⟩ := this
        exact ⟨h1, h2, hf b _ h3, fun x => by simp only [seqBody, h4 x]⟩
      | wait t' n =>
        rw [h] at this
        obtain ⟨h1, h2, h3, h4, h5⟩ := this
        refine ⟨h1, h2, h3, h4, fun x => ?_⟩
        simp only [seqBody, h5 x]
        cases A t' (rem - n) (w.drop n ++ x) <;> rfl
      | bad =>
        rw [h] at this
        exact fun x => by simp only [seqBody, this x]
    | inr t =>
      have := hb.fits t rem w hi
      simp only [seqBody]
      cases h : B t rem w with
      | more t' n =>
        rw [h] at this
        obtain ⟨h1, h2, h3, h4⟩ := this
        exact ⟨h1, h2, h3, fun x => by simp only [seqBody, h4 x]⟩
      | done b n =>
        rw [h] at this
        obtain ⟨h1, h2, h3, h4⟩ := this
        exact ⟨h1, h2, h3, fun x => by simp only [seqBody, h4 x]⟩
      | wait t' n =>
        rw [h] at this
        obtain ⟨h1, h2, h3, h4, h5⟩ := this
        refine ⟨h1, h2, h3, h4, fun x => ?_⟩
        simp only [seqBody, h5 x]
        cases B t' (rem - n) (w.drop n ++ x) <;> rfl
      | bad =>
        rw [h] at this
        exact fun x => by simp only [seqBody, this x]
  · intro t rem w hi hr
    cases t with
    | inr t => exact inr t rem w _ (hb.total t rem w hi hr)
    | inl t =>
      have key : ∀ t rem w r, Verdict A t rem w r → ia t rem → rem ≤ w.length →
          Verdict (seqBody A f B) (.inl t) rem w (match r with | none => none | some (b, rest) => sb (f b) rest) := by
        intro t rem w r v
        induction v with
        | @done t rem w b n h =>
          intro hi hr
          have hfit := ha.fits t rem w hi
          rw [h] at hfit
          obtain ⟨h1, h2, h3, _⟩ := hfit
          refine .more (t' := .inr (f b)) (n := n) (by simp only [seqBody, h]) (inr _ _ _ _ ?_)
          have := hb.total (f b) (rem - n) (w.drop n) (hf b _ h3) (by rw [List.length_drop]; omega)
          rwa [List.take_drop, show n + (rem - n) = rem by omega] at this
        | @bad t rem w h => intro _ _; exact .bad (by simp only [seqBody, h])
        | @wait t t' rem n w h => intro _ _; exact .wait (t' := .inl t') (n := n) (by simp only [seqBody, h])
        | @more t t' rem n w r h v ih =>
          intro hi hr
          have hfit := ha.fits t rem w hi
          rw [h] at hfit
          obtain ⟨h1, h2, h3, _⟩ := hfit
          exact .more (t' := .inl t') (n := n) (by simp only [seqBody, h]) (ih h3 (by rw [List.length_drop]; omega))
      have := key t rem w _ (ha.total t rem w hi hr) hi hr
      simp only [seqSem]
      exact this

end Brunsli
