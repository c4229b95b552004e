import Verif.JReqs
/-!
# What the block decoders do to the coefficients

Which coefficients change and how, when a reset point is recorded, how many bits are read at a time, and that a block outside of an end-of-band
run takes at least one bit.
-/

namespace Brunsli

/-! ## Which coefficients change -/

theorem decRest_frame {ac : HSlot} {Ss Se Al : Nat} {allowed : Bool} {last e : Int} {B : Blk} {as : List Atom} {o : BlkOut}
    (h : Eats (decRest ac Ss Se Al allowed last e B) as o) : ∀ j, j < Ss ∨ Se < j → o.blk j = B j := by
  unfold decRest at h
  split at h
  · cases h; exact fun _ _ => rfl
  · split at h
    · cases h; exact fun _ _ => rfl
    · exact (decAC_frame _ h).1

theorem i16_self {x : Int} (h : i16 x = x) : -32768 ≤ x ∧ x ≤ 32767 := by
  have := i16_range x
  omega

theorem decodeBlock_frame {dc ac : HSlot} {Ss Se Al : Nat} {last e : Int} {B : Blk} {as : List Atom} {o : BlkOut}
    (h : Eats (decodeBlock dc ac Ss Se Al last e B) as o) :
    (∀ j, j < Ss ∨ Se < j → 1 ≤ j ∨ Ss ≠ 0 → o.blk j = B j) ∧ (Ss = 0 → ∃ c : Int, o.blk 0 = c * 2 ^ Al ∧ -32768 ≤ o.blk 0 ∧ o.blk 0 ≤ 32767) := by
  unfold decodeBlock at h
  by_cases h0 : Ss = 0
  · rw [if_pos h0] at h
    cases h with
    | sym hv h =>
      rename_i sz as
      have key : ∃ as' diff, Eats (if i16 ((diff + last) * 2 ^ Al) = (diff + last) * 2 ^ Al then
            decRest ac 1 Se Al false (i16 (diff + last)) e (B.set 0 ((diff + last) * 2 ^ Al)) else .fail) as' o := by
        dsimp only at h
        by_cases c1 : 12 ≤ sz
        · rw [if_pos c1] at h; cases h
        · rw [if_neg c1] at h
          by_cases c2 : 0 < sz
          · rw [if_pos c2] at h
            cases h with
            | bits hl h => exact ⟨_, _, h⟩
          · rw [if_neg c2] at h
            exact ⟨as, 0, h⟩
      obtain ⟨as', diff, h⟩ := key
      split at h
      · rename_i hi
        have hf := decRest_frame h
        refine ⟨fun j h1 h2 => ?_, fun _ => ⟨diff + last, ?_⟩⟩
        · rw [hf j (by omega), Blk.set, if_neg (by omega)]
        · have h00 : o.blk 0 = (diff + last) * 2 ^ Al := by rw [hf 0 (by omega), Blk.set, if_pos rfl]
          rw [h00]
          exact ⟨rfl, i16_self hi⟩
      · cases h
  · rw [if_neg h0] at h
    exact ⟨fun j h1 _ => decRest_frame h j h1, fun h => absurd h h0⟩

theorem refRest_frame {ac : HSlot} {Ss Se Al : Nat} {allowed : Bool} {last e : Int} {B : Blk} {as : List Atom} {o : BlkOut}
    (h : Eats (refRest ac Ss Se Al allowed last e B) as o) :
    (∀ j, j < Ss ∨ Se < j → o.blk j = B j) ∧ (∀ j, Ss ≤ j → j ≤ Se → o.blk j = B j ∨ RStep Al (B j) (o.blk j)) := by
  unfold refRest at h
  split at h
  · cases h; exact ⟨fun _ _ => rfl, fun j h1 h2 => Or.inl rfl⟩
  · rename_i hlt
    obtain ⟨q, as1, as2, -, h1, h2⟩ := h.bind
    have key : Ss ≤ q.1 ∧ (∀ j, j < Ss ∨ q.1 ≤ j → q.2.2.1 j = B j) ∧ (∀ j, Se < j → q.2.2.1 j = B j) ∧
        (∀ j, Ss ≤ j → j < q.1 → j ≤ Se → RStep Al (B j) (q.2.2.1 j)) := by
      split at h1
      · exact refAC_frame _ h1
      · cases h1
        exact ⟨Nat.le_refl _, fun _ _ => rfl, fun _ _ => rfl, fun j h1 h2 => by simp only at h2; omega⟩
    obtain ⟨i1, i2, i3, i4⟩ := key
    split at h2
    · cases h2
    · split at h2
      · obtain ⟨B', as3, as4, -, h3, h4⟩ := h2.bind
        cases h4
        obtain ⟨t1, t2⟩ := refTail_frame _ h3
        refine ⟨?_, ?_⟩
        · intro j hj
          rcases hj with hj | hj
          · show B' j = _
            rw [t1 j (by omega), i2 j (by omega)]
          · show B' j = _
            rw [t1 j (by omega), i3 j hj]
        · intro j j1 j2
          show B' j = _ ∨ RStep Al (B j) (B' j)
          by_cases hjq : j < q.1
          · rw [t1 j (by omega)]
            exact Or.inr (i4 j j1 hjq j2)
          · have := t2 j
            rw [i2 j (by omega)] at this
            exact Or.inr (RStep.of_tail ⟨this.1, this.2 (by omega) (by omega)⟩)
      · cases h2
        refine ⟨?_, ?_⟩
        · intro j hj
          rcases hj with hj | hj
          · exact i2 j (by omega)
          · exact i3 j hj
        · intro j j1 j2
          by_cases hjq : j < q.1
          · exact Or.inr (i4 j j1 hjq j2)
          · exact Or.inl (i2 j (by omega))

theorem refineBlock_frame {ac : HSlot} {Ss Se Al : Nat} {last e : Int} {B : Blk} {as : List Atom} {o : BlkOut}
    (h : Eats (refineBlock ac Ss Se Al last e B) as o) :
    (∀ j, j < Ss ∨ Se < j → 1 ≤ j ∨ Ss ≠ 0 → o.blk j = B j) ∧ (∀ j, 1 ≤ j → Ss ≤ j → j ≤ Se → o.blk j = B j ∨ RStep Al (B j) (o.blk j)) ∧
    (Ss = 0 → o.blk 0 = B 0 ∨ o.blk 0 = B 0 + 2 ^ Al) := by
  unfold refineBlock at h
  by_cases h0 : Ss = 0
  · rw [if_pos h0] at h
    cases h with
    | bits hl h =>
      obtain ⟨f1, f2⟩ := refRest_frame h
      refine ⟨fun j h1 h2 => ?_, fun j h1 _ h3 => ?_, fun _ => ?_⟩
      · rw [f1 j (by omega), Blk.set, if_neg (by omega)]
      · have := f2 j h1 h3
        rwa [Blk.set, if_neg (by omega)] at this
      · rw [f1 0 (by omega), Blk.set, if_pos rfl]
        split
        · exact Or.inr rfl
        · exact Or.inl rfl
  · rw [if_neg h0] at h
    obtain ⟨f1, f2⟩ := refRest_frame h
    exact ⟨fun j h1 _ => f1 j h1, fun j _ h1 h2 => f2 j h1 h2, fun h => absurd h h0⟩

/-! ## Reset points -/

theorem decAC_reset {ac : HSlot} {Ss Se Al : Nat} {allowed : Bool} {last e : Int} (n : Nat) : ∀ {k nzr : Nat} {B : Blk} {as : List Atom} {o : BlkOut},
    Eats (decAC ac Ss Se Al allowed last e n k nzr B) as o → o.reset = true → e = 0 := by
  induction n with
  | zero =>
    intro k nzr B as o h
    rw [decAC] at h
    cases h
    exact fun h => by cases h
  | succ n ih =>
    intro k nzr B as o h
    rw [decAC] at h
    split at h
    · cases h
      exact fun h => by cases h
    · cases h with
      | sym hv h =>
        dsimp only at h
        split at h
        · split at h
          · cases h
          · split at h
            · cases h
            · cases h with
              | bits hl h => exact ih h
        · split at h
          · exact ih h
          · split at h
            · split at h
              · cases h with
                | bits hl h =>
                  cases h
                  intro h
                  simp only [Bool.and_eq_true, decide_eq_true_eq] at h
                  exact h.2
              · cases h
            · cases h
              intro h
              simp only [Bool.and_eq_true, decide_eq_true_eq] at h
              exact h.2

theorem decRest_reset {ac : HSlot} {Ss Se Al : Nat} {allowed : Bool} {last e : Int} {B : Blk} {as : List Atom} {o : BlkOut}
    (h : Eats (decRest ac Ss Se Al allowed last e B) as o) : o.reset = true → e = 0 := by
  unfold decRest at h
  split at h
  · cases h; exact fun h => by cases h
  · split at h
    · cases h; exact fun h => by cases h
    · exact decAC_reset _ h

theorem decodeBlock_reset {dc ac : HSlot} {Ss Se Al : Nat} {last e : Int} {B : Blk} {as : List Atom} {o : BlkOut}
    (h : Eats (decodeBlock dc ac Ss Se Al last e B) as o) : o.reset = true → e = 0 := by
  unfold decodeBlock at h
  split at h
  · cases h with
    | sym hv h =>
      dsimp only at h
      split at h
      · cases h
      · split at h
        · cases h with
          | bits hl h =>
            dsimp only at h
            split at h
            · exact decRest_reset h
            · cases h
        · split at h
          · exact decRest_reset h
          · cases h
  · exact decRest_reset h

theorem refAC_reset {ac : HSlot} {Ss Se Al : Nat} {allowed : Bool} {e : Int} (n : Nat) : ∀ {k : Nat} {z : Bool} {B : Blk} {as : List Atom} {o : Nat × Bool × Blk × Int × Bool},
    Eats (refAC ac Ss Se Al allowed e n k z B) as o → o.2.2.2.2 = true → e = 0 := by
  induction n with
  | zero =>
    intro k z B as o h
    rw [refAC] at h
    cases h
    exact fun h => by cases h
  | succ n ih =>
    intro k z B as o h
    rw [refAC] at h
    split at h
    · cases h
      exact fun h => by cases h
    · cases h with
      | sym hv h =>
        dsimp only at h
        split at h
        · split at h
          · cases h
          · cases h with
            | bits hl h =>
              obtain ⟨q, as1, as2, -, h1, h2⟩ := h.bind
              split at h2
              · cases h2
              · exact ih h2
        · split at h
          · split at h
            · split at h
              · cases h with
                | bits hl h =>
                  cases h
                  intro h
                  simp only [Bool.and_eq_true, decide_eq_true_eq] at h
                  exact h.2
              · cases h
            · cases h
              intro h
              simp only [Bool.and_eq_true, decide_eq_true_eq] at h
              exact h.2
          · obtain ⟨q, as1, as2, -, h1, h2⟩ := h.bind
            exact ih h2

theorem refRest_reset {ac : HSlot} {Ss Se Al : Nat} {allowed : Bool} {last e : Int} {B : Blk} {as : List Atom} {o : BlkOut}
    (h : Eats (refRest ac Ss Se Al allowed last e B) as o) : o.reset = true → e = 0 := by
  unfold refRest at h
  split at h
  · cases h; exact fun h => by cases h
  · obtain ⟨q, as1, as2, -, h1, h2⟩ := h.bind
    have key : q.2.2.2.2 = true → e = 0 := by
      split at h1
      · exact refAC_reset _ h1
      · cases h1
        exact fun h => by cases h
    split at h2
    · cases h2
    · split at h2
      · obtain ⟨B', as3, as4, -, h3, h4⟩ := h2.bind
        cases h4
        exact key
      · cases h2
        exact key

theorem refineBlock_reset {ac : HSlot} {Ss Se Al : Nat} {last e : Int} {B : Blk} {as : List Atom} {o : BlkOut}
    (h : Eats (refineBlock ac Ss Se Al last e B) as o) : o.reset = true → e = 0 := by
  unfold refineBlock at h
  split at h
  · cases h with
    | bits hl h => exact refRest_reset h
  · exact refRest_reset h

/-! ## Groups of at most 16 bits -/

theorem JProg.Small.bind {α β : Type} {p : JProg α} {f : α → JProg β} (hp : p.Small) (hf : ∀ a, (f a).Small) : (p.bind f).Small := by
  induction p with
  | pure a => exact hf a
  | fail => trivial
  | sym t k ih => exact fun v hv => ih v (hp v hv)
  | bits n k ih => exact ⟨hp.1, fun v => ih v (hp.2 v)⟩

theorem ite_small {α : Type} {c : Prop} [Decidable c] {p q : JProg α} (hp : p.Small) (hq : q.Small) : (if c then p else q).Small := by
  split <;> assumption

theorem decAC_small {ac : HSlot} {Ss Se Al : Nat} {allowed : Bool} {last e : Int} (n : Nat) : ∀ {k nzr : Nat} {B : Blk},
    (decAC ac Ss Se Al allowed last e n k nzr B).Small := by
  induction n with
  | zero => intro k nzr B; trivial
  | succ n ih =>
    intro k nzr B
    rw [decAC]
    refine ite_small trivial ?_
    intro sr hv
    dsimp only
    refine ite_small (ite_small trivial (ite_small trivial ⟨by omega, fun _ => ih⟩)) ?_
    refine ite_small ih (ite_small (ite_small ⟨by omega, fun _ => trivial⟩ trivial) trivial)

theorem decRest_small {ac : HSlot} {Ss Se Al : Nat} {allowed : Bool} {last e : Int} {B : Blk} : (decRest ac Ss Se Al allowed last e B).Small :=
  ite_small trivial (ite_small trivial (decAC_small _))

theorem decodeBlock_small {dc ac : HSlot} {Ss Se Al : Nat} {last e : Int} {B : Blk} : (decodeBlock dc ac Ss Se Al last e B).Small := by
  unfold decodeBlock
  refine ite_small ?_ decRest_small
  intro s _
  dsimp only
  by_cases h : 12 ≤ s
  · rw [if_pos h]; trivial
  · rw [if_neg h]
    exact ite_small ⟨by omega, fun _ => ite_small decRest_small trivial⟩ (ite_small decRest_small trivial)

theorem refSkip_small {Al : Nat} (n : Nat) : ∀ {k r : Nat} {B : Blk}, (refSkip Al n k r B).Small := by
  induction n with
  | zero => intro k r B; trivial
  | succ n ih =>
    intro k r B
    rw [refSkip]
    exact ite_small ⟨by omega, fun _ => ih⟩ (ite_small trivial ih)

theorem refAC_small {ac : HSlot} {Ss Se Al : Nat} {allowed : Bool} {e : Int} (n : Nat) : ∀ {k : Nat} {z : Bool} {B : Blk},
    (refAC ac Ss Se Al allowed e n k z B).Small := by
  induction n with
  | zero => intro k z B; trivial
  | succ n ih =>
    intro k z B
    rw [refAC]
    refine ite_small trivial ?_
    intro sr hv
    dsimp only
    refine ite_small (ite_small trivial ⟨by omega, fun _ => (refSkip_small _).bind fun q => ite_small trivial ih⟩) ?_
    exact ite_small (ite_small (ite_small ⟨by omega, fun _ => trivial⟩ trivial) trivial) ((refSkip_small _).bind fun q => ih)

theorem refTail_small {Al : Nat} (n : Nat) : ∀ {k : Nat} {B : Blk}, (refTail Al n k B).Small := by
  induction n with
  | zero => intro k B; trivial
  | succ n ih =>
    intro k B
    rw [refTail]
    exact ite_small ⟨by omega, fun _ => ih⟩ ih

theorem refRest_small {ac : HSlot} {Ss Se Al : Nat} {allowed : Bool} {last e : Int} {B : Blk} : (refRest ac Ss Se Al allowed last e B).Small := by
  unfold refRest
  refine ite_small trivial (JProg.Small.bind (ite_small (refAC_small _) trivial) fun q => ?_)
  exact ite_small trivial (ite_small ((refTail_small _).bind fun _ => trivial) trivial)

theorem refineBlock_small {ac : HSlot} {Ss Se Al : Nat} {last e : Int} {B : Blk} : (refineBlock ac Ss Se Al last e B).Small := by
  unfold refineBlock
  exact ite_small ⟨by omega, fun _ => refRest_small⟩ refRest_small

/-! ## The first bit -/

/-- The program begins by reading. -/
def JProg.Reads1 {α : Type} (p : JProg α) : Prop := (∃ t f, p = .sym t f) ∨ (∃ n f, p = .bits n f ∧ 1 ≤ n)

theorem decodeBlock_reads {dc ac : HSlot} {Ss Se Al : Nat} {last e : Int} {B : Blk} (he : e ≤ 0) (hs : Ss ≤ Se) : (decodeBlock dc ac Ss Se Al last e B).Reads1 := by
  unfold decodeBlock
  by_cases h0 : Ss = 0
  · rw [if_pos h0]; exact Or.inl ⟨_, _, rfl⟩
  · rw [if_neg h0]
    unfold decRest
    rw [if_neg (show ¬ Se < Ss by omega), if_neg (show ¬ 0 < e by omega), show Se + 1 - Ss = (Se - Ss) + 1 by omega, decAC, if_neg (show ¬ Se < Ss by omega)]
    exact Or.inl ⟨_, _, rfl⟩

theorem refineBlock_reads {ac : HSlot} {Ss Se Al : Nat} {last e : Int} {B : Blk} (he : e ≤ 0) (hs : Ss ≤ Se) : (refineBlock ac Ss Se Al last e B).Reads1 := by
  unfold refineBlock
  by_cases h0 : Ss = 0
  · rw [if_pos h0]; exact Or.inr ⟨_, _, rfl, Nat.le_refl _⟩
  · rw [if_neg h0]
    unfold refRest
    rw [if_neg (show ¬ Se < Ss by omega), if_pos he, show Se + 1 - Ss = (Se - Ss) + 1 by omega, refAC, if_neg (show ¬ Se < Ss by omega)]
    exact Or.inl ⟨_, _, rfl⟩

end Brunsli
