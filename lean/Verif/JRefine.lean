import Verif.JFirst
/-!
# Refinement scans: the encoder gives back what the decoder consumed
-/

namespace Brunsli

theorem bit_cases {bs : List Bool} (h : bs.length = 1) : ∃ b : Bool, bs = [b] ∧ ofMsb bs = b.toNat := by
  obtain ⟨b, rfl⟩ := List.length_eq_one_iff.mp h
  refine ⟨b, rfl, ?_⟩
  cases b <;> rfl

/-- A nonzero coefficient before the scan. -/
def Hist (Al : Nat) (v : Int) : Prop := ∃ c : Int, v = c * 2 ^ (Al + 1)

theorem refBit_spec {Al : Nat} {v : Int} (h : Hist Al v) (hv : v ≠ 0) (b : Bool) :
    ∃ c : Int, refBit Al v b.toNat = c * 2 ^ Al ∧ 2 ≤ c.natAbs ∧ c.natAbs % 2 = b.toNat ∧ c.natAbs * 2 ^ Al = v.natAbs + b.toNat * 2 ^ Al ∧
      (refBit Al v b.toNat < 0 ↔ v < 0) := by
  obtain ⟨c, rfl⟩ := h
  have hp : (0 : Int) < 2 ^ Al := Int.pow_pos (by decide)
  have hc : c ≠ 0 := by rintro rfl; simp at hv
  have e : c * 2 ^ (Al + 1) = (2 * c) * 2 ^ Al := by rw [Int.pow_succ]; ring
  rw [e]
  have hd : (2 * c) * 2 ^ Al / 2 ^ Al = 2 * c := Int.mul_ediv_cancel _ (by omega)
  have habs : ∀ x : Int, (x * 2 ^ Al).natAbs = x.natAbs * 2 ^ Al := by
    intro x
    rw [Int.natAbs_mul, Int.natAbs_pow]
    rfl
  unfold refBit
  cases b with
  | false =>
    refine ⟨2 * c, by simp, by omega, by simp; omega, ?_, by simp⟩
    rw [habs]; simp
  | true =>
    have h1 : (true.toNat ≠ 0) := by decide
    have h2 : (2 * c) * 2 ^ Al / 2 ^ Al % 2 = 0 := by rw [hd]; omega
    rw [if_pos h1, if_pos h2]
    by_cases hn : 0 ≤ 2 * c * 2 ^ Al
    · have hc0 : 0 < c := by
        by_contra hcn
        have := (mul_pow_neg (2 * c) Al).mpr (by omega)
        omega
      rw [if_pos hn]
      refine ⟨2 * c + 1, by ring, by omega, by show _ = 1; omega, ?_, ?_⟩
      · rw [habs, show (2 * c + 1).natAbs = (2 * c).natAbs + 1 by omega, Nat.add_mul]; rfl
      · constructor <;> intro h <;> omega
    · have hc0 : c < 0 := by
        by_contra hcn
        have : 0 ≤ 2 * c * 2 ^ Al := Int.mul_nonneg (by omega) (by omega)
        omega
      rw [if_neg hn]
      refine ⟨2 * c - 1, by ring, by omega, by show _ = 1; omega, ?_, ?_⟩
      · rw [habs, show (2 * c - 1).natAbs = (2 * c).natAbs + 1 by omega, Nat.add_mul]; rfl
      · constructor <;> intro h <;> omega

theorem refBit_abs {Al : Nat} {v : Int} (h : Hist Al v) (hv : v ≠ 0) (b : Bool) :
    1 < (refBit Al v b.toNat).natAbs / 2 ^ Al ∧ (refBit Al v b.toNat).natAbs / 2 ^ Al % 2 = b.toNat := by
  obtain ⟨c, e1, e2, e3, -⟩ := refBit_spec h hv b
  rw [e1, natAbs_mul_pow]
  omega

/-! ## What the decoder does to the block -/

/-- How a refinement scan may change a coefficient. -/
def RStep (Al : Nat) (v w : Int) : Prop :=
  (v ≠ 0 ∧ ∃ b : Bool, w = refBit Al v b.toNat) ∨ (v = 0 ∧ (w = 0 ∨ w = 2 ^ Al ∨ w = - 2 ^ Al))

theorem refSkip_frame {Al : Nat} (n : Nat) : ∀ {k r : Nat} {B : Blk} {as : List Atom} {q : Nat × Blk}, Eats (refSkip Al n k r B) as q →
    k ≤ q.1 ∧ q.1 ≤ k + n ∧ (∀ j, j < k ∨ q.1 ≤ j → q.2 j = B j) ∧ (q.1 < k + n → B q.1 = 0) ∧
    (∀ j, k ≤ j → j < q.1 → (B j = 0 → q.2 j = 0) ∧ (B j ≠ 0 → ∃ b : Bool, q.2 j = refBit Al (B j) b.toNat)) := by
  induction n with
  | zero =>
    intro k r B as q h
    rw [refSkip] at h
    cases h
    exact ⟨Nat.le_refl _, Nat.le_refl _, fun _ _ => rfl, fun h => by omega, fun j h1 h2 => by omega⟩
  | succ n ih =>
    intro k r B as q h
    rw [refSkip] at h
    split at h
    · rename_i hb
      cases h with
      | bits hl h =>
        obtain ⟨b, -, eb⟩ := bit_cases hl
        rw [eb] at h
        obtain ⟨i1, i2, i3, i4, i5⟩ := ih h
        refine ⟨by omega, by omega, ?_, ?_, ?_⟩
        · intro j hj
          rw [i3 j (by omega), Blk.set, if_neg (by omega)]
        · intro hlt
          have := i4 (by omega)
          rwa [Blk.set, if_neg (by omega)] at this
        · intro j h1 h2
          by_cases hk : j = k
          · subst hk
            refine ⟨fun h0 => absurd h0 hb, fun _ => ⟨b, ?_⟩⟩
            rw [i3 j (by omega), Blk.set, if_pos rfl]
          · have := i5 j (by omega) h2
            rwa [Blk.set, if_neg hk] at this
    · rename_i hb
      split at h
      · cases h
        exact ⟨Nat.le_refl _, by simp only; omega, fun _ _ => rfl, fun _ => by simpa using hb, fun j h1 h2 => by simp only at h2; omega⟩
      · obtain ⟨i1, i2, i3, i4, i5⟩ := ih h
        refine ⟨by omega, by omega, fun j hj => i3 j (by omega), fun hlt => i4 (by omega), ?_⟩
        intro j h1 h2
        by_cases hk : j = k
        · subst hk
          rw [i3 j (by omega)]
          exact ⟨fun h => h, fun h => absurd h hb⟩
        · exact i5 j (by omega) h2

theorem refTail_frame {Al : Nat} (n : Nat) : ∀ {k : Nat} {B : Blk} {as : List Atom} {B' : Blk}, Eats (refTail Al n k B) as B' →
    (∀ j, j < k ∨ k + n ≤ j → B' j = B j) ∧
    (∀ j, (B j = 0 → B' j = 0) ∧ (k ≤ j → j < k + n → B j ≠ 0 → ∃ b : Bool, B' j = refBit Al (B j) b.toNat)) := by
  induction n with
  | zero =>
    intro k B as q h
    rw [refTail] at h
    cases h
    exact ⟨fun _ _ => rfl, fun j => ⟨fun h => h, fun _ _ _ => by omega⟩⟩
  | succ n ih =>
    intro k B as B' h
    rw [refTail] at h
    split at h
    · rename_i hb
      cases h with
      | bits hl h =>
        obtain ⟨b, -, eb⟩ := bit_cases hl
        rw [eb] at h
        obtain ⟨i3, i5⟩ := ih h
        refine ⟨?_, ?_⟩
        · intro j hj
          rw [i3 j (by omega), Blk.set, if_neg (by omega)]
        · intro j
          by_cases hk : j = k
          · subst hk
            refine ⟨fun h0 => absurd h0 hb, fun _ _ _ => ⟨b, ?_⟩⟩
            rw [i3 j (by omega), Blk.set, if_pos rfl]
          · have := i5 j
            rw [Blk.set, if_neg hk] at this
            exact ⟨this.1, fun h1 h2 => this.2 (by omega) (by omega)⟩
    · rename_i hb
      obtain ⟨i3, i5⟩ := ih h
      refine ⟨fun j hj => i3 j (by omega), ?_⟩
      intro j
      refine ⟨(i5 j).1, fun h1 h2 h3 => (i5 j).2 ?_ (by omega) h3⟩
      by_contra hc
      have : j = k := by omega
      subst this
      exact hb h3

theorem refAC_frame {ac : HSlot} {Ss Se Al : Nat} {allowed : Bool} {e : Int} (n : Nat) : ∀ {k : Nat} {z : Bool} {B : Blk} {as : List Atom} {o : Nat × Bool × Blk × Int × Bool},
    Eats (refAC ac Ss Se Al allowed e n k z B) as o → k ≤ o.1 ∧ (∀ j, j < k ∨ o.1 ≤ j → o.2.2.1 j = B j) ∧ (∀ j, Se < j → o.2.2.1 j = B j) ∧
    (∀ j, k ≤ j → j < o.1 → j ≤ Se → RStep Al (B j) (o.2.2.1 j)) := by
  induction n with
  | zero =>
    intro k z B as o h
    rw [refAC] at h
    cases h
    exact ⟨Nat.le_refl _, fun _ _ => rfl, fun _ _ => rfl, fun j h1 h2 => by simp only at h2; omega⟩
  | succ n ih =>
    intro k z B as o h
    rw [refAC] at h
    split at h
    · cases h
      exact ⟨Nat.le_refl _, fun _ _ => rfl, fun _ _ => rfl, fun j h1 h2 => by simp only at h2; omega⟩
    · rename_i hk
      cases h with
      | sym hv h =>
        dsimp only at h
        split at h
        · split at h
          · cases h
          · cases h with
            | bits hl h =>
              obtain ⟨q, as1, as2, -, h1, h2⟩ := h.bind
              split at h2
              · cases h2
              · rename_i hq
                obtain ⟨f1, f2, f3, f4, f5⟩ := refSkip_frame _ h1
                obtain ⟨i1, i2, i3, i4⟩ := ih h2
                have hq0 := f4 (by omega)
                refine ⟨by omega, ?_, ?_, ?_⟩
                · intro j hj
                  rw [i2 j (by omega), Blk.set, if_neg (by omega), f3 j (by omega)]
                · intro j hj
                  rw [i3 j hj, Blk.set, if_neg (by omega), f3 j (by omega)]
                · intro j h1 h2 h3
                  by_cases c1 : j < q.1
                  · rw [i2 j (by omega), Blk.set, if_neg (by omega)]
                    by_cases c2 : B j = 0
                    · exact Or.inr ⟨c2, Or.inl ((f5 j h1 c1).1 c2)⟩
                    · exact Or.inl ⟨c2, (f5 j h1 c1).2 c2⟩
                  · by_cases c2 : j = q.1
                    · subst c2
                      rw [i2 _ (by omega), Blk.set, if_pos rfl]
                      refine Or.inr ⟨hq0, Or.inr ?_⟩
                      split
                      · exact Or.inl rfl
                      · exact Or.inr rfl
                    · have := i4 j (by omega) h2 h3
                      rwa [Blk.set, if_neg c2, f3 j (by omega)] at this
        · split at h
          · split at h
            · split at h
              · cases h with
                | bits hl h =>
                  cases h
                  exact ⟨Nat.le_refl _, fun _ _ => rfl, fun _ _ => rfl, fun j h1 h2 => by simp only at h2; omega⟩
              · cases h
            · cases h
              exact ⟨Nat.le_refl _, fun _ _ => rfl, fun _ _ => rfl, fun j h1 h2 => by simp only at h2; omega⟩
          · obtain ⟨q, as1, as2, -, h1, h2⟩ := h.bind
            obtain ⟨f1, f2, f3, f4, f5⟩ := refSkip_frame _ h1
            obtain ⟨i1, i2, i3, i4⟩ := ih h2
            refine ⟨by omega, ?_, ?_, ?_⟩
            · intro j hj
              rw [i2 j (by omega), f3 j (by omega)]
            · intro j hj
              rw [i3 j hj, f3 j (by omega)]
            · intro j h1 h2 h3
              by_cases c1 : j < q.1
              · rw [i2 j (by omega)]
                by_cases c2 : B j = 0
                · exact Or.inr ⟨c2, Or.inl ((f5 j h1 c1).1 c2)⟩
                · exact Or.inl ⟨c2, (f5 j h1 c1).2 c2⟩
              · by_cases c2 : j = q.1
                · subst c2
                  rw [i2 _ (by omega), f3 _ (by omega)]
                  have := f4 (by omega)
                  exact Or.inr ⟨this, Or.inl this⟩
                · have := i4 j (by omega) h2 h3
                  rwa [f3 j (by omega)] at this

/-- After a zero run there is a new coefficient. -/
theorem refAC_new {ac : HSlot} {Ss Se Al : Nat} {allowed : Bool} {e : Int} (n : Nat) : ∀ {k : Nat} {B : Blk} {as : List Atom} {o : Nat × Bool × Blk × Int × Bool},
    Eats (refAC ac Ss Se Al allowed e n k true B) as o → o.2.1 = false → ∃ j, k ≤ j ∧ j ≤ Se ∧ j < o.1 ∧ (o.2.2.1 j).natAbs / 2 ^ Al = 1 := by
  induction n with
  | zero =>
    intro k B as o h ho
    rw [refAC] at h
    cases h
    cases ho
  | succ n ih =>
    intro k B as o h ho
    rw [refAC] at h
    split at h
    · cases h
      cases ho
    · cases h with
      | sym hv h =>
        dsimp only at h
        split at h
        · split at h
          · cases h
          · cases h with
            | bits hl h =>
              obtain ⟨q, as1, as2, -, h1, h2⟩ := h.bind
              split at h2
              · cases h2
              · rename_i hq
                obtain ⟨f1, f2, f3, f4, f5⟩ := refSkip_frame _ h1
                obtain ⟨i1, i2, i3, i4⟩ := refAC_frame _ h2
                refine ⟨q.1, by omega, by omega, by omega, ?_⟩
                rw [i2 _ (by omega), Blk.set, if_pos rfl]
                split
                · have := natAbs_mul_pow 1 Al
                  rwa [Int.one_mul] at this
                · have := natAbs_mul_pow (-1) Al
                  rwa [Int.neg_mul, Int.one_mul] at this
        · split at h
          · split at h
            · split at h
              · cases h with
                | bits hl h =>
                  cases h
                  cases ho
              · cases h
            · cases h
              cases ho
          · obtain ⟨q, as1, as2, -, h1, h2⟩ := h.bind
            obtain ⟨f1, -⟩ := refSkip_frame _ h1
            obtain ⟨j, j1, j2⟩ := ih h2 ho
            exact ⟨j, by omega, j2⟩

theorem eobIndex_spec {Al : Nat} {F : Blk} (n : Nat) : ∀ {k eob : Nat},
    (eobIndex Al F n k eob = eob ∨ (k ≤ eobIndex Al F n k eob ∧ eobIndex Al F n k eob < k + n ∧ (F (eobIndex Al F n k eob)).natAbs / 2 ^ Al = 1)) ∧
    (∀ j, k ≤ j → j < k + n → (F j).natAbs / 2 ^ Al = 1 → j ≤ eobIndex Al F n k eob) := by
  induction n with
  | zero => intro k eob; exact ⟨Or.inl rfl, fun j _ _ => by omega⟩
  | succ n ih =>
    intro k eob
    rw [eobIndex]
    by_cases h : (F k).natAbs / 2 ^ Al = 1
    · rw [if_pos h]
      obtain ⟨i1, i2⟩ := ih (k := k + 1) (eob := k)
      refine ⟨Or.inr ?_, ?_⟩
      · rcases i1 with i1 | ⟨i1, i3, i4⟩
        · rw [i1]; exact ⟨Nat.le_refl _, by omega, h⟩
        · exact ⟨by omega, by omega, i4⟩
      · intro j h1 h2 h3
        by_cases c : j = k
        · rcases i1 with i1 | ⟨i1, i3, i4⟩ <;> omega
        · exact i2 j (by omega) (by omega) h3
    · rw [if_neg h]
      obtain ⟨i1, i2⟩ := ih (k := k + 1) (eob := eob)
      refine ⟨?_, ?_⟩
      · rcases i1 with i1 | ⟨i1, i3, i4⟩
        · exact Or.inl i1
        · exact Or.inr ⟨by omega, by omega, i4⟩
      · intro j h1 h2 h3
        by_cases c : j = k
        · subst c; exact absurd h3 h
        · exact i2 j (by omega) (by omega) h3

/-! ## The encoder in step -/

/-- Bits of the current symbol, which the encoder holds back. -/
def bitAtoms (bs : List Bool) : List Atom := bs.map .bit

/-- Zero runs that the encoder holds back, with the bits that belong to the first one. -/
def heldRuns (ac : HSlot) (q : Nat) (buf : List Bool) : List Atom := if q = 0 then [] else .sym ac 0xf0 :: (bitAtoms buf ++ zrls ac (q - 1))

theorem atomsOf_bits1 (buf : List Bool) : atomsOf (buf.map fun b => .bits 1 b.toNat) = bitAtoms buf := by
  unfold atomsOf bitAtoms
  induction buf with
  | nil => rfl
  | cons b l ih =>
    rw [List.map_cons, List.flatMap_cons, ih, List.map_cons]
    cases b <;> rfl

theorem refZrl_spec {ac : HSlot} (q : Nat) : ∀ {buf : List Bool} {s : CS},
    if q = 0 then refZrl ac q buf s = ([], buf, s)
    else atomsOf (refZrl ac q buf s).1 = s.pending ++ heldRuns ac q buf ∧ (refZrl ac q buf s).2.1 = [] ∧ (refZrl ac q buf s).2.2.Wf ∧
      (refZrl ac q buf s).2.2.eob = 0 ∧ (refZrl ac q buf s).2.2.count = 0 := by
  induction q with
  | zero => intro buf s; rw [if_pos rfl]; rfl
  | succ q ih =>
    intro buf s
    rw [if_neg (by omega), refZrl]
    simp only
    have := ih (buf := []) (s := s.flush.2)
    obtain ⟨w1, w2, w3⟩ := CS.flush_wf s
    by_cases h : q = 0
    · rw [if_pos h] at this
      rw [this]
      simp only [List.append_nil]
      refine ⟨?_, trivial, w1, w2, w3⟩
      rw [atomsOf_append, atomsOf_append, CS.flush_atoms, atomsOf_bits1, h]
      simp [heldRuns, zrls, atomsOf, reqAtoms]
    · rw [if_neg h] at this
      obtain ⟨i1, i2, i3⟩ := this
      refine ⟨?_, i2, i3⟩
      rw [atomsOf_append, atomsOf_append, atomsOf_append, CS.flush_atoms, atomsOf_bits1, i1, CS.flush_pending]
      obtain ⟨q', rfl⟩ : ∃ q', q = q' + 1 := ⟨q - 1, by omega⟩
      simp [heldRuns, atomsOf, reqAtoms, bitAtoms, zrls, List.replicate_succ]

/-- The coefficients that are passed over. -/
theorem refSkip_write {ac : HSlot} {Al eobk : Nat} {F : Blk} (n : Nat) : ∀ {k r : Nat} {B : Blk} {as : List Atom} {p : Nat × Blk}, Eats (refSkip Al n k r B) as p →
    p.1 < k + n → p.1 ≤ eobk → (∀ j, k ≤ j → j < k + n → Hist Al (B j)) → (∀ j, k ≤ j → j < p.1 → F j = p.2 j) →
    ∀ {q i : Nat} {buf : List Bool} {s : CS} {C E : List Atom}, i + r ≤ 15 → s.Wf → s.count ≤ 63 * s.eob → C = E ++ s.pending ++ heldRuns ac q buf →
    ∃ reqs q1 buf1 s1, refEnc ac Al eobk F n k (16 * q + i) buf s =
        (reqs ++ (refEnc ac Al eobk F (k + n - p.1) p.1 (16 * q1 + (i + r)) buf1 s1).1, (refEnc ac Al eobk F (k + n - p.1) p.1 (16 * q1 + (i + r)) buf1 s1).2) ∧
      s1.Wf ∧ s1.count ≤ 63 * s1.eob ∧ C = E ++ atomsOf reqs ++ s1.pending ++ heldRuns ac q1 buf1 ∧
      bitAtoms (if q1 = 0 then buf1 else []) = bitAtoms (if q = 0 then buf else []) ++ as := by
  induction n with
  | zero =>
    intro k r B as p h hp
    have := (refSkip_frame _ h).1
    omega
  | succ n ih =>
    intro k r B as p h hp heob hB hF q i buf s C E hir hwf hcnt hC
    have hfr := refSkip_frame _ h
    rw [refSkip] at h
    split at h
    · rename_i hb
      cases h with
      | bits hl h =>
        rename_i bs as
        obtain ⟨b, ebs, eb⟩ := bit_cases hl
        rw [eb] at h
        obtain ⟨f1, f2, f3, f4, f5⟩ := refSkip_frame _ h
        have hv : F k = refBit Al (B k) b.toNat := by
          rw [hF k (Nat.le_refl _) (by omega), f3 k (by omega), Blk.set, if_pos rfl]
        obtain ⟨v1, v2⟩ := refBit_abs (hB k (Nat.le_refl _) (by omega)) hb b
        rw [← hv] at v1 v2
        have hbit : decide ((F k).natAbs / 2 ^ Al % 2 = 1) = b := by rw [v2]; cases b <;> rfl
        have hB' : ∀ j, k + 1 ≤ j → j < k + 1 + n → Hist Al ((B.set k (refBit Al (B k) b.toNat)) j) := by
          intro j h1 h2
          rw [Blk.set, if_neg (by omega)]
          exact hB j (by omega) (by omega)
        have hz := refZrl_spec (ac := ac) q (buf := buf) (s := s)
        rw [refEnc]
        simp only
        rw [if_neg (by omega), if_pos (show k ≤ eobk by omega), if_pos (show k ≤ eobk by omega), if_pos v1, hbit,
          show (16 * q + i) / 16 = q by omega, show (16 * q + i) % 16 = i by omega]
        by_cases hq : q = 0
        · rw [if_pos hq] at hz
          rw [hz]
          obtain ⟨reqs, q1, buf1, s1, g1, g2, g3, g4, g5⟩ := ih h (by omega) heob hB' (fun j h1 h2 => hF j (by omega) h2) (q := 0) (i := i) (buf := buf ++ [b]) (s := s) (C := C) (E := E)
            hir hwf hcnt (by rw [hC]; simp [heldRuns, hq])
          rw [show 16 * 0 + i = i by omega] at g1
          refine ⟨reqs, q1, buf1, s1, ?_, g2, g3, g4, ?_⟩
          · simp only
            rw [g1, show k + (n + 1) - p.1 = k + 1 + n - p.1 by omega]
            rfl
          · rw [g5, ebs, if_pos hq]
            simp [bitAtoms]
        · rw [if_neg hq] at hz
          obtain ⟨z1, z2, z3, z4, z5⟩ := hz
          obtain ⟨reqs, q1, buf1, s1, g1, g2, g3, g4, g5⟩ := ih h (by omega) heob hB' (fun j h1 h2 => hF j (by omega) h2) (q := 0) (i := i) (buf := [] ++ [b]) (s := (refZrl ac q buf s).2.2) (C := C)
            (E := E ++ atomsOf (refZrl ac q buf s).1) hir z3 (by omega) (by rw [hC, z1, CS.pending_empty z4 z5]; simp [heldRuns])
          rw [show 16 * 0 + i = i by omega] at g1
          refine ⟨(refZrl ac q buf s).1 ++ reqs, q1, buf1, s1, ?_, g2, g3, ?_, ?_⟩
          · rw [z2, g1, show k + (n + 1) - p.1 = k + 1 + n - p.1 by omega]
            simp only [List.append_assoc]
          · rw [g4, atomsOf_append]
            simp only [List.append_assoc]
          · rw [g5, ebs, if_neg hq]
            simp [bitAtoms]
    · rename_i hb
      split at h
      · rename_i hr
        cases h
        refine ⟨[], q, buf, s, ?_, hwf, hcnt, by rw [hC]; simp [atomsOf], by simp⟩
        simp only [List.nil_append]
        rw [show k + (n + 1) - k = n + 1 by omega, hr, Nat.add_zero]
        rfl
      · rename_i hr
        obtain ⟨f1, f2, f3, f4, f5⟩ := refSkip_frame _ h
        have hb0 : B k = 0 := by simpa using hb
        have hv : F k = 0 := by rw [hF k (Nat.le_refl _) (by omega), f3 k (by omega), hb0]
        obtain ⟨reqs, q1, buf1, s1, g1, g2, g3, g4, g5⟩ := ih h (by omega) heob (fun j h1 h2 => hB j (by omega) (by omega)) (fun j h1 h2 => hF j (by omega) h2) (q := q) (i := i + 1) (buf := buf)
          (s := s) (C := C) (E := E) (by omega) hwf hcnt hC
        refine ⟨reqs, q1, buf1, s1, ?_, g2, g3, g4, g5⟩
        rw [refEnc]
        simp only
        rw [if_pos (by rw [hv]; simp), show 16 * q + i + 1 = 16 * q + (i + 1) by omega, g1, show k + (n + 1) - p.1 = k + 1 + n - p.1 by omega,
          show i + 1 + (r - 1) = i + r by omega]

/-- A new coefficient in the encoder. -/
theorem refEnc_new {ac : HSlot} {Al eobk : Nat} {F : Blk} {n k q r : Nat} {buf : List Bool} {s : CS} {sg : Bool} (hr : r < 16) (hk : k ≤ eobk)
    (hF : F k = if sg then 2 ^ Al else - 2 ^ Al) :
    ∃ reqs s1, refEnc ac Al eobk F (n + 1) k (16 * q + r) buf s = (reqs ++ (refEnc ac Al eobk F n (k + 1) 0 [] s1).1, (refEnc ac Al eobk F n (k + 1) 0 [] s1).2) ∧
      s1.Wf ∧ s1.eob = 0 ∧ s1.count = 0 ∧
      atomsOf reqs = s.pending ++ heldRuns ac q buf ++ (.sym ac (16 * r + 1) :: .bit sg :: bitAtoms (if q = 0 then buf else [])) := by
  have ha : (F k).natAbs / 2 ^ Al = 1 := by
    rw [hF]
    split
    · have := natAbs_mul_pow 1 Al
      rwa [Int.one_mul] at this
    · have := natAbs_mul_pow (-1) Al
      rwa [Int.neg_mul, Int.one_mul] at this
  have hp : (0 : Int) < 2 ^ Al := Int.pow_pos (by decide)
  have hs : (if F k < 0 then 0 else 1) = sg.toNat := by
    rw [hF]
    cases sg with
    | true => rw [if_neg]; rfl; simp only [if_true]; omega
    | false => rw [if_pos]; rfl; simp only [Bool.false_eq_true, if_false]; omega
  have hz := refZrl_spec (ac := ac) q (buf := buf) (s := s)
  rw [refEnc]
  simp only
  rw [if_neg (by omega), if_pos hk, if_pos hk, if_neg (by omega), hs, show (16 * q + r) / 16 = q by omega, show (16 * q + r) % 16 = r by omega]
  have hsg : ∀ l : List WReq, atomsOf (.sym ac (16 * r + 1) :: .bits 1 sg.toNat :: l) = .sym ac (16 * r + 1) :: .bit sg :: atomsOf l := by
    intro l
    cases sg <;> rfl
  refine ⟨(refZrl ac q buf s).1 ++ (refZrl ac q buf s).2.2.flush.1 ++ [.sym ac (16 * r + 1), .bits 1 sg.toNat] ++ (refZrl ac q buf s).2.1.map (fun b => .bits 1 b.toNat),
    (refZrl ac q buf s).2.2.flush.2, rfl, (CS.flush_wf _).1, rfl, rfl, ?_⟩
  rw [atomsOf_append, atomsOf_append, atomsOf_append, hsg, CS.flush_atoms, atomsOf_bits1]
  by_cases hq : q = 0
  · rw [if_pos hq] at hz
    rw [hz, if_pos hq]
    simp [heldRuns, hq, atomsOf]
  · rw [if_neg hq] at hz
    obtain ⟨z1, z2, z3, z4, z5⟩ := hz
    rw [z1, z2, CS.pending_empty z4 z5, if_neg hq]
    simp [bitAtoms, atomsOf]

/-- **The symbols of a refinement scan.** -/
theorem refAC_write {ac : HSlot} {Ss Se Al eobk : Nat} {allowed : Bool} {e : Int} {F : Blk} (n : Nat) :
    ∀ {k : Nat} {z : Bool} {B : Blk} {as : List Atom} {o : Nat × Bool × Blk × Int × Bool},
    Eats (refAC ac Ss Se Al allowed e n k z B) as o → o.2.1 = false → Se + 1 ≤ k + n → Ss ≤ k → (z = false → k ≤ Se + 1) → (∀ j, k ≤ j → j ≤ Se → Hist Al (B j)) →
    (∀ j, k ≤ j → j < o.1 → F j = o.2.2.1 j) → (∀ j, k ≤ j → j ≤ Se → (F j).natAbs / 2 ^ Al = 1 → j ≤ eobk) →
    ∀ {q : Nat} {buf : List Bool} {s : CS} {C E : List Atom}, (z = false → q = 0) → (z = true → q ≠ 0) → (q = 0 → buf = []) → s.Wf → s.count ≤ 63 * s.eob → (k ≠ Ss → q = 0 → s.eob = 0) →
    C = E ++ s.pending ++ heldRuns ac q buf →
    ∃ reqs s1 as1, refEnc ac Al eobk F (Se + 1 - k) k (16 * q) buf s =
        (reqs ++ (refEnc ac Al eobk F (Se + 1 - o.1) o.1 0 [] s1).1, (refEnc ac Al eobk F (Se + 1 - o.1) o.1 0 [] s1).2) ∧
      s1.Wf ∧ s1.count ≤ 63 * s1.eob ∧ C ++ as1 = E ++ atomsOf reqs ++ s1.pending ∧ (o.1 ≠ Ss → s1.eob = 0) ∧ (o.1 = Ss → s1 = s) ∧
      ((o.1 = Se + 1 ∧ as = as1 ∧ o.2.2.2 = (e, false)) ∨
       (o.1 ≤ Se ∧ ∃ run : Nat, 1 ≤ run ∧ run ≤ 0x7FFF ∧ (allowed = false → run = 1) ∧ as = as1 ++ eobAtoms ac run ∧
          o.2.2.2 = ((run : Int), allowed && decide (o.1 = Ss) && decide (e = 0)))) := by
  have fin : ∀ {k : Nat} {z : Bool} {B : Blk}, z = false → Se < k → (z = false → k ≤ Se + 1) →
    ∀ {q : Nat} {buf : List Bool} {s : CS} {C E : List Atom}, (z = false → q = 0) → (q = 0 → buf = []) → s.Wf → s.count ≤ 63 * s.eob → (k ≠ Ss → q = 0 → s.eob = 0) →
    C = E ++ s.pending ++ heldRuns ac q buf →
    ∃ reqs s1 as1, refEnc ac Al eobk F (Se + 1 - k) k (16 * q) buf s =
        (reqs ++ (refEnc ac Al eobk F (Se + 1 - k) k 0 [] s1).1, (refEnc ac Al eobk F (Se + 1 - k) k 0 [] s1).2) ∧
      s1.Wf ∧ s1.count ≤ 63 * s1.eob ∧ C ++ as1 = E ++ atomsOf reqs ++ s1.pending ∧ (k ≠ Ss → s1.eob = 0) ∧ (k = Ss → s1 = s) ∧
      ((k = Se + 1 ∧ [] = as1 ∧ (e, false) = (e, false)) ∨
       (k ≤ Se ∧ ∃ run : Nat, 1 ≤ run ∧ run ≤ 0x7FFF ∧ (allowed = false → run = 1) ∧ [] = as1 ++ eobAtoms ac run ∧
          (e, false) = ((run : Int), allowed && decide (k = Ss) && decide (e = 0)))) := by
    intro k z B hz hk hk2 q buf s C E hq hbuf hwf hcnt hemp hC
    have q0 := hq hz
    have b0 := hbuf q0
    subst q0 b0
    refine ⟨[], s, [], rfl, hwf, hcnt, ?_, fun h => hemp h rfl, fun _ => rfl, Or.inl ⟨by have := hk2 hz; omega, rfl, rfl⟩⟩
    rw [hC]
    simp [heldRuns, atomsOf]
  induction n with
  | zero =>
    intro k z B as o h ho hn hSs hk2 hB hF hnew q buf s C E hq hq1 hbuf hwf hcnt hemp hC
    rw [refAC] at h
    cases h
    exact fin (B := B) ho (by omega) hk2 hq hbuf hwf hcnt hemp hC
  | succ n ih =>
    intro k z B as o h ho hn hSs hk2 hB hF hnew q buf s C E hq hq1 hbuf hwf hcnt hemp hC
    rw [refAC] at h
    split at h
    · cases h
      exact fin (B := B) ho (by omega) hk2 hq hbuf hwf hcnt hemp hC
    · rename_i hkSe
      cases h with
      | sym hv h =>
        rename_i sr as
        dsimp only at h
        split at h
        · rename_i hs0
          split at h
          · cases h
          · rename_i hs1
            cases h with
            | bits hl h =>
              rename_i bs as
              obtain ⟨sg, esg, es⟩ := bit_cases hl
              rw [es] at h
              obtain ⟨p, as1, as2, eas, h1, h2⟩ := h.bind
              split at h2
              · cases h2
              · rename_i hp
                obtain ⟨f1, f2, f3, f4, f5⟩ := refSkip_frame _ h1
                obtain ⟨i1, i2, i3, i4⟩ := refAC_frame _ h2
                have hval : (if sg.toNat ≠ 0 then (2 : Int) ^ Al else - 2 ^ Al) = if sg then 2 ^ Al else - 2 ^ Al := by cases sg <;> rfl
                have hFp : F p.1 = if sg then 2 ^ Al else - 2 ^ Al := by
                  rw [hF p.1 f1 (by omega), i2 _ (by omega), Blk.set, if_pos rfl, hval]
                have hpe : p.1 ≤ eobk := by
                  apply hnew p.1 f1 (by omega)
                  rw [hFp]
                  split
                  · have := natAbs_mul_pow 1 Al
                    rwa [Int.one_mul] at this
                  · have := natAbs_mul_pow (-1) Al
                    rwa [Int.neg_mul, Int.one_mul] at this
                obtain ⟨r1, q1, buf1, s1, g1, g2, g3, g4, g5⟩ := refSkip_write (ac := ac) (eobk := eobk) (F := F) _ h1 (by omega) hpe (fun j h1 h2 => hB j h1 (by omega)) (by
                    intro j j1 j2
                    rw [hF j j1 (by omega), i2 j (by omega), Blk.set, if_neg (by omega)]) (q := q) (i := 0) (buf := buf) (s := s) (C := C) (E := E) (by omega) hwf hcnt hC
                rw [show k + (Se + 1 - k) - p.1 = (Se - p.1) + 1 by omega, Nat.zero_add] at g1
                obtain ⟨r2, s2, n1, n2, n3, n4, n5⟩ := refEnc_new (ac := ac) (Al := Al) (eobk := eobk) (F := F) (n := Se - p.1) (k := p.1) (q := q1) (r := sr / 16) (buf := buf1) (s := s1)
                  (by omega) hpe hFp
                rw [n1] at g1
                obtain ⟨r3, s3, as3, m1, m2, m3, m4, m5, m6, m7⟩ := ih h2 ho (by omega) (by omega) (fun _ => by omega) (by
                    intro j j1 j2
                    rw [Blk.set, if_neg (by omega), f3 j (by omega)]
                    exact hB j (by omega) j2) (fun j j1 j2 => hF j (by omega) j2) (fun j j1 j2 => hnew j (by omega) j2) (q := 0) (buf := []) (s := s2)
                  (C := C ++ (.sym ac sr :: .bit sg :: as1)) (E := C ++ (.sym ac sr :: .bit sg :: as1)) (fun _ => rfl) (by simp) (fun _ => rfl) n2 (by omega) (fun _ _ => n3)
                  (by rw [CS.pending_empty n3 n4]; simp [heldRuns])
                rw [Nat.mul_zero, show Se + 1 - (p.1 + 1) = Se - p.1 by omega] at m1
                rw [m1] at g1
                have hb : bitAtoms (if q1 = 0 then buf1 else []) = as1 := by
                  rw [g5]
                  by_cases c : q = 0
                  · rw [if_pos c, hbuf c]; rfl
                  · rw [if_neg c]; rfl
                refine ⟨r1 ++ (r2 ++ r3), s3, .sym ac sr :: .bit sg :: (as1 ++ as3), ?_, m2, m3, ?_, m5, ?_, ?_⟩
                · rw [show 16 * q = 16 * q + 0 by omega, g1]
                  simp only [List.append_assoc]
                · have hC2 : C ++ (.sym ac sr :: .bit sg :: as1) = E ++ atomsOf (r1 ++ r2) := by
                    rw [atomsOf_append, n5, g4, hb, show 16 * (sr / 16) + 1 = sr by omega]
                    simp
                  rw [← List.append_assoc r1, atomsOf_append, ← List.append_assoc E, ← hC2, ← m4]
                  simp
                · intro h; omega
                · rw [esg, eas]
                  rcases m7 with ⟨t1, t2, t3⟩ | ⟨t1, run, t2, t3, t4, t5, t6⟩
                  · exact Or.inl ⟨t1, by rw [t2]; rfl, t3⟩
                  · exact Or.inr ⟨t1, run, t2, t3, t4, by rw [t5]; simp, t6⟩
        · rename_i hs0
          split at h
          · rename_i hr15
            have keyEob : ∀ (run : Nat) (as' : List Atom) , o = (k, z, B, (run : Int), allowed && decide (k = Ss) && decide (e = 0)) → 1 ≤ run → run ≤ 0x7FFF → (allowed = false → run = 1) →
                as' = eobAtoms ac run → ∃ reqs s1 as1, refEnc ac Al eobk F (Se + 1 - k) k (16 * q) buf s =
                (reqs ++ (refEnc ac Al eobk F (Se + 1 - o.1) o.1 0 [] s1).1, (refEnc ac Al eobk F (Se + 1 - o.1) o.1 0 [] s1).2) ∧
              s1.Wf ∧ s1.count ≤ 63 * s1.eob ∧ C ++ as1 = E ++ atomsOf reqs ++ s1.pending ∧ (o.1 ≠ Ss → s1.eob = 0) ∧ (o.1 = Ss → s1 = s) ∧
              ((o.1 = Se + 1 ∧ as' = as1 ∧ o.2.2.2 = (e, false)) ∨
               (o.1 ≤ Se ∧ ∃ run : Nat, 1 ≤ run ∧ run ≤ 0x7FFF ∧ (allowed = false → run = 1) ∧ as' = as1 ++ eobAtoms ac run ∧
                  o.2.2.2 = ((run : Int), allowed && decide (o.1 = Ss) && decide (e = 0)))) := by
              intro run as' hoe k1 k2 k3 k4
              rw [hoe] at ho ⊢
              simp only at ho ⊢
              have q0 := hq ho
              have b0 := hbuf q0
              subst q0 b0
              refine ⟨[], s, [], rfl, hwf, hcnt, ?_, fun h => hemp h rfl, fun _ => rfl, Or.inr ⟨by omega, run, k1, k2, k3, k4, rfl⟩⟩
              rw [hC]
              simp [heldRuns, atomsOf]
            split at h
            · split at h
              · rename_i hall
                cases h with
                | bits hl h =>
                  rename_i bs as
                  cases h
                  have hx := ofMsb_lt bs
                  rw [hl] at hx
                  have hpw : 2 ^ (sr / 16) ≤ 2 ^ 14 := Nat.pow_le_pow_right (by omega) (by omega)
                  apply keyEob (2 ^ (sr / 16) + ofMsb bs) _ rfl (by omega) (by omega) (by intro h; rw [h] at hall; cases hall)
                  rw [eobAtoms_run hx, show 16 * (sr / 16) = sr by omega, ← hl, msb_ofMsb]
                  simp
              · cases h
            · cases h
              apply keyEob 1 _ rfl (by omega) (by omega) (fun _ => rfl)
              rw [show sr = 0 by omega]
              rfl
          · rename_i hr15
            obtain ⟨p, as1, as2, eas, h1, h2⟩ := h.bind
            obtain ⟨f1, f2, f3, f4, f5⟩ := refSkip_frame _ h1
            obtain ⟨i1, i2, i3, i4⟩ := refAC_frame _ h2
            obtain ⟨j, j1, j2, j3, j4⟩ := refAC_new _ h2 ho
            have hje : j ≤ eobk := by
              apply hnew j (by omega) j2
              rw [hF j (by omega) j3]
              exact j4
            obtain ⟨r1, q1, buf1, s1, g1, g2, g3, g4, g5⟩ := refSkip_write (ac := ac) (eobk := eobk) (F := F) _ h1 (by omega) (by omega) (fun j h1 h2 => hB j h1 (by omega)) (by
                intro j j1 j2
                rw [hF j j1 (by omega), i2 j (by omega)]) (q := q) (i := 0) (buf := buf) (s := s) (C := C) (E := E) (by omega) hwf hcnt hC
            rw [show k + (Se + 1 - k) - p.1 = (Se - p.1) + 1 by omega, Nat.zero_add] at g1
            have hFp : F p.1 = 0 := by
              rw [hF p.1 f1 (by omega), i2 _ (by omega), f3 _ (by omega), f4 (by omega)]
            have hstep : refEnc ac Al eobk F (Se - p.1 + 1) p.1 (16 * q1 + 15) buf1 s1 = refEnc ac Al eobk F (Se - p.1) (p.1 + 1) (16 * (q1 + 1)) buf1 s1 := by
              rw [refEnc]
              simp only
              rw [if_pos (by rw [hFp]; simp), show 16 * q1 + 15 + 1 = 16 * (q1 + 1) by omega]
            rw [hstep] at g1
            have hb : bitAtoms (if q1 = 0 then buf1 else []) = as1 := by
              rw [g5]
              by_cases c : q = 0
              · rw [if_pos c, hbuf c]; rfl
              · rw [if_neg c]; rfl
            have hsr : sr = 0xf0 := by omega
            have hheld : heldRuns ac q1 buf1 ++ (.sym ac 0xf0 :: as1) = heldRuns ac (q1 + 1) buf1 := by
              unfold heldRuns
              rw [if_neg (show ¬ q1 + 1 = 0 by omega), Nat.add_sub_cancel]
              by_cases c : q1 = 0
              · rw [if_pos c] at hb
                rw [if_pos c, ← hb, c]
                simp [zrls]
              · rw [if_neg c] at hb
                rw [if_neg c, ← hb, show zrls ac q1 = zrls ac (q1 - 1) ++ [.sym ac 0xf0] by rw [zrls_succ, show q1 - 1 + 1 = q1 by omega]]
                simp [bitAtoms]
            obtain ⟨r3, s3, as3, m1, m2, m3, m4, m5, m6, m7⟩ := ih h2 ho (by omega) (by omega) (fun h => by cases h) (by
                intro j j1 j2
                rw [f3 j (by omega)]
                exact hB j (by omega) j2) (fun j j1 j2 => hF j (by omega) j2) (fun j j1 j2 => hnew j (by omega) j2) (q := q1 + 1) (buf := buf1) (s := s1)
              (C := C ++ (.sym ac sr :: as1)) (E := E ++ atomsOf r1) (by simp) (by simp) (by simp) g2 g3 (fun _ h => by omega)
              (by rw [← hheld, hsr, g4]; simp)
            rw [show Se + 1 - (p.1 + 1) = Se - p.1 by omega] at m1
            rw [m1] at g1
            refine ⟨r1 ++ r3, s3, .sym ac sr :: (as1 ++ as3), ?_, m2, m3, ?_, m5, ?_, ?_⟩
            · rw [show 16 * q = 16 * q + 0 by omega, g1]
              simp only [List.append_assoc]
            · rw [atomsOf_append, ← List.append_assoc E, ← m4]
              simp
            · intro h; omega
            · rw [eas]
              rcases m7 with ⟨t1, t2, t3⟩ | ⟨t1, run, t2, t3, t4, t5, t6⟩
              · exact Or.inl ⟨t1, by rw [t2], t3⟩
              · exact Or.inr ⟨t1, run, t2, t3, t4, by rw [t5]; simp, t6⟩

/-- The rest of a block within an end-of-band run. -/
theorem refTail_write {ac : HSlot} {Al eobk : Nat} {F : Blk} (n : Nat) : ∀ {k : Nat} {B B' : Blk} {as : List Atom}, Eats (refTail Al n k B) as B' →
    (∀ j, k ≤ j → j < k + n → Hist Al (B j)) → (∀ j, k ≤ j → j < k + n → F j = B' j) → eobk < k → ∀ {r : Nat} {buf : List Bool} {s : CS},
    ∃ r1 bs, refEnc ac Al eobk F n k r buf s = ([], r1, buf ++ bs, s) ∧ as = bitAtoms bs ∧ bs.length ≤ n ∧ r ≤ r1 ∧ (0 < n → r < r1 ∨ bs ≠ []) := by
  induction n with
  | zero =>
    intro k B B' as h _ _ _ r buf s
    rw [refTail] at h
    cases h
    exact ⟨r, [], by simp [refEnc], rfl, by simp, Nat.le_refl _, fun h => by omega⟩
  | succ n ih =>
    intro k B B' as h hB hF hk r buf s
    rw [refTail] at h
    split at h
    · rename_i hb
      cases h with
      | bits hl h =>
        rename_i bs as
        obtain ⟨b, ebs, eb⟩ := bit_cases hl
        rw [eb] at h
        obtain ⟨f1, f2⟩ := refTail_frame _ h
        have hv : F k = refBit Al (B k) b.toNat := by
          rw [hF k (Nat.le_refl _) (by omega), f1 k (by omega), Blk.set, if_pos rfl]
        obtain ⟨v1, v2⟩ := refBit_abs (hB k (Nat.le_refl _) (by omega)) hb b
        rw [← hv] at v1 v2
        have hbit : decide ((F k).natAbs / 2 ^ Al % 2 = 1) = b := by rw [v2]; cases b <;> rfl
        obtain ⟨r1, bs1, g1, g2, g3, g4, g5⟩ := ih h (by
            intro j j1 j2
            rw [Blk.set, if_neg (by omega)]
            exact hB j (by omega) (by omega)) (fun j j1 j2 => hF j (by omega) (by omega)) (by omega) (r := r) (buf := buf ++ [b]) (s := s)
        refine ⟨r1, b :: bs1, ?_, ?_, by simp; omega, g4, fun _ => Or.inr (by simp)⟩
        · rw [refEnc]
          simp only
          rw [if_neg (by omega), if_neg (show ¬ k ≤ eobk by omega), if_neg (show ¬ k ≤ eobk by omega), if_pos v1, hbit, g1]
          simp
        · rw [ebs, g2]; rfl
    · rename_i hb
      obtain ⟨f1, f2⟩ := refTail_frame _ h
      have hb0 : B k = 0 := by simpa using hb
      have hv : F k = 0 := by rw [hF k (Nat.le_refl _) (by omega), (f2 k).1 hb0]
      obtain ⟨r1, bs1, g1, g2, g3, g4, g5⟩ := ih h (fun j j1 j2 => hB j (by omega) (by omega)) (fun j j1 j2 => hF j (by omega) (by omega)) (by omega) (r := r + 1) (buf := buf) (s := s)
      refine ⟨r1, bs1, ?_, g2, by omega, by omega, fun _ => Or.inl (by omega)⟩
      rw [refEnc]
      simp only
      rw [if_pos (by rw [hv]; simp), g1]

/-! ## Whole blocks -/

theorem RStep.of_tail {Al : Nat} {v w : Int} (h : (v = 0 → w = 0) ∧ (v ≠ 0 → ∃ b : Bool, w = refBit Al v b.toNat)) : RStep Al v w := by
  by_cases hv : v = 0
  · exact Or.inr ⟨hv, Or.inl (h.1 hv)⟩
  · exact Or.inl ⟨hv, h.2 hv⟩

/-- No new coefficient. -/
theorem not_one {Al : Nat} {v w : Int} (hv : Hist Al v) (h : (v = 0 → w = 0) ∧ (v ≠ 0 → ∃ b : Bool, w = refBit Al v b.toNat)) : w.natAbs / 2 ^ Al ≠ 1 := by
  by_cases h0 : v = 0
  · rw [h.1 h0]; simp
  · obtain ⟨b, rfl⟩ := h.2 h0
    have := (refBit_abs hv h0 b).1
    omega

theorem refEncRest_eq {ac : HSlot} {Ss Se Al : Nat} {allowed : Bool} {F : Blk} {s s1 : CS} {reqs : List WReq} {r1 : Nat} {bs : List Bool} (hlt : ¬ Se < Ss)
    (h : refEnc ac Al (eobIndex Al F (Se + 1 - Ss) Ss 0) F (Se + 1 - Ss) Ss 0 [] s = (reqs, r1, bs, s1)) (hne : 0 < r1 ∨ bs ≠ []) (hb : (s1.buffer ac bs).1 = true) :
    refEncRest ac Ss Se Al allowed F s = some (reqs ++ (if allowed then (s1.buffer ac bs).2.1 else (s1.buffer ac bs).2.1 ++ (s1.buffer ac bs).2.2.flush.1),
      if allowed then (s1.buffer ac bs).2.2 else (s1.buffer ac bs).2.2.flush.2) := by
  unfold refEncRest
  simp only
  rw [if_neg hlt, h]
  simp only
  rw [if_pos hne, if_pos hb]
  cases allowed <;> simp

/-- The AC part of a block of a refinement scan. -/
theorem refRest_write {ac : HSlot} {Ss Se Al : Nat} {allowed : Bool} {last e : Int} {B : Blk} {as : List Atom} {o : BlkOut}
    (h : Eats (refRest ac Ss Se Al allowed last e B) as o) (hSs : 1 ≤ Ss) (hSe : Se ≤ 63) (hB : ∀ j, Ss ≤ j → j ≤ Se → Hist Al (B j)) {s : CS} {C E : List Atom}
    (hj : Joint allowed e s C E) (hr : o.reset = true → s.eob = 0) :
    (∃ p, refEncRest ac Ss Se Al allowed o.blk s = some p ∧ Joint allowed o.eob p.2 (C ++ as) (E ++ atomsOf p.1)) ∧
      o.last = last ∧ o.nzr = 0 ∧ (∀ j, j < Ss ∨ Se < j → o.blk j = B j) ∧ (∀ j, Ss ≤ j → j ≤ Se → RStep Al (B j) (o.blk j)) := by
  unfold refRest at h
  split at h
  · rename_i hlt
    cases h
    refine ⟨⟨([], s), by unfold refEncRest; rw [if_pos hlt], by simpa [atomsOf] using hj⟩, rfl, rfl, fun _ _ => rfl, fun j h1 h2 => by omega⟩
  · rename_i hlt
    by_cases he : e ≤ 0
    · rw [if_pos he] at h
      obtain ⟨q, as1, as2, eas, h1, h2⟩ := h.bind
      obtain ⟨i1, i2, i3, i4⟩ := refAC_frame _ h1
      by_cases hz : q.2.1 = true
      · rw [if_pos hz] at h2; cases h2
      · rw [if_neg hz] at h2
        have hz' : q.2.1 = false := by simpa using hz
        -- the whole block, and whether the encoder's index of the last new coefficient lies before the stop
        have main : ∀ F : Blk, (∀ j, Ss ≤ j → j < q.1 → F j = q.2.2.1 j) →
            ∃ reqs s1 as1', refEnc ac Al (eobIndex Al F (Se + 1 - Ss) Ss 0) F (Se + 1 - Ss) Ss 0 [] s =
              (reqs ++ (refEnc ac Al (eobIndex Al F (Se + 1 - Ss) Ss 0) F (Se + 1 - q.1) q.1 0 [] s1).1, (refEnc ac Al (eobIndex Al F (Se + 1 - Ss) Ss 0) F (Se + 1 - q.1) q.1 0 [] s1).2) ∧
            s1.Wf ∧ s1.count ≤ 63 * s1.eob ∧ C ++ as1' = E ++ atomsOf reqs ++ s1.pending ∧ (q.1 ≠ Ss → s1.eob = 0) ∧ (q.1 = Ss → s1 = s) ∧
            ((q.1 = Se + 1 ∧ as1 = as1' ∧ q.2.2.2 = (e, false)) ∨
             (q.1 ≤ Se ∧ ∃ run : Nat, 1 ≤ run ∧ run ≤ 0x7FFF ∧ (allowed = false → run = 1) ∧ as1 = as1' ++ eobAtoms ac run ∧
                q.2.2.2 = ((run : Int), allowed && decide (q.1 = Ss) && decide (e = 0)))) := by
          intro F hF
          exact refAC_write _ h1 hz' (by omega) (Nat.le_refl _) (fun _ => by omega) hB hF
            (fun j j1 j2 j3 => (eobIndex_spec (Al := Al) (F := F) (Se + 1 - Ss) (k := Ss) (eob := 0)).2 j j1 (by omega) j3)
            (q := 0) (buf := []) (fun _ => rfl) (by simp) (fun _ => rfl) hj.wf hj.cnt (fun h => absurd rfl h) (by rw [hj.done he]; simp [heldRuns])
        by_cases hpos : 0 < q.2.2.2.1
        · rw [if_pos hpos] at h2
          obtain ⟨B', as3, as4, eas2, h3, h4⟩ := h2.bind
          cases h4
          obtain ⟨t1, t2⟩ := refTail_frame _ h3
          simp only at hr ⊢
          have hfr : ∀ j, j < Ss ∨ Se < j → B' j = B j := by
            intro j hj
            rcases hj with hj | hj
            · rw [t1 j (by omega), i2 j (by omega)]
            · rw [t1 j (by omega), i3 j hj]
          have hst : ∀ j, Ss ≤ j → j ≤ Se → RStep Al (B j) (B' j) := by
            intro j j1 j2
            by_cases hjq : j < q.1
            · rw [t1 j (by omega)]
              exact i4 j j1 hjq j2
            · have := t2 j
              rw [i2 j (by omega)] at this
              exact RStep.of_tail ⟨this.1, this.2 (by omega) (by omega)⟩
          obtain ⟨reqs, s1, as1', m1, m2, m3, m4, m5, m6, m7⟩ := main B' (fun j j1 j2 => t1 j (by omega))
          rcases m7 with ⟨-, -, m⟩ | ⟨hle, run, k1, k2, k3, k4, k5⟩
          · rw [m] at hpos; simp only at hpos; omega
          · have hHq : ∀ j, q.1 ≤ j → j ≤ Se → Hist Al (q.2.2.1 j) := by
              intro j j1 j2
              rw [i2 j (by omega)]
              exact hB j (by omega) j2
            have heobk : eobIndex Al B' (Se + 1 - Ss) Ss 0 < q.1 := by
              rcases (eobIndex_spec (Al := Al) (F := B') (Se + 1 - Ss) (k := Ss) (eob := 0)).1 with hh | ⟨hh1, hh2, hh3⟩
              · omega
              · by_contra hc
                exact not_one (hHq _ (by omega) (by omega)) ⟨(t2 _).1, (t2 _).2 (by omega) (by omega)⟩ hh3
            obtain ⟨r1, bs, g1, g2, g3, g4, g5⟩ := refTail_write (ac := ac) (F := B') (eobk := eobIndex Al B' (Se + 1 - Ss) Ss 0) _ h3 (fun j j1 j2 => hHq j j1 (by omega)) (fun j _ _ => rfl) heobk
              (r := 0) (buf := []) (s := s1)
            rw [g1, List.append_nil, List.nil_append] at m1
            have hs1 : s1.eob = 0 := by
              by_cases hq : q.1 = Ss
              · rw [m6 hq]
                by_cases h0 : allowed = false
                · exact (hj.plain h0).1
                · by_cases h1 : e < 0
                  · exact hj.idle h1
                  · apply hr
                    rw [k5]
                    have e0 : e = 0 := by omega
                    have a0 : allowed = true := by simpa using h0
                    simp [e0, hq, a0]
              · exact m5 hq
            have hc1 : s1.count = 0 := by omega
            obtain ⟨b1, b2⟩ := Joint.start (ac := ac) (allowed := allowed) (C := C ++ as1') (bs := bs) m2 hs1 hc1 (by omega) k1 k2 k3
            refine ⟨⟨_, refEncRest_eq hlt m1 (by rcases g5 (by omega) with h | h <;> [exact Or.inl h; exact Or.inr h]) b1, ?_⟩, trivial, trivial, hfr, hst⟩
            rw [CS.pending_empty hs1 hc1, List.append_nil] at m4
            rw [atomsOf_append, ← List.append_assoc, ← m4, k5, eas, eas2, k4, g2]
            simpa [bitAtoms] using b2
        · rw [if_neg hpos] at h2
          cases h2
          obtain ⟨reqs, s1, as1', m1, m2, m3, m4, m5, m6, m7⟩ := main q.2.2.1 (fun j j1 j2 => rfl)
          rcases m7 with ⟨k1, k2, k3⟩ | ⟨hle, run, k1, k2, k3, k4, k5⟩
          · refine ⟨⟨(reqs, s1), ?_, ?_⟩, rfl, rfl, ?_, ?_⟩
            · unfold refEncRest
              simp only
              rw [if_neg hlt, m1, show Se + 1 - q.1 = 0 by omega, refEnc]
              simp
            · have hs1 := m5 (by omega)
              rw [eas, k2, List.append_nil, k3]
              simp only
              constructor
              · exact m2
              · omega
              · exact m3
              · exact fun _ => hs1
              · exact fun _ => ⟨hs1, by omega⟩
              · exact fun _ => m4
              · intro h; omega
            · intro j hj
              rcases hj with hj | hj
              · exact i2 j (by omega)
              · exact i3 j hj
            · intro j j1 j2
              exact i4 j j1 (by omega) j2
          · rw [k5] at hpos; simp only at hpos; omega
    · rw [if_neg he] at h
      obtain ⟨q, as1, as2, eas, h1, h2⟩ := h.bind
      cases h1
      simp only [Bool.false_eq_true, if_false] at h2
      rw [if_pos (by omega)] at h2
      obtain ⟨B', as3, as4, eas2, h3, h4⟩ := h2.bind
      cases h4
      obtain ⟨t1, t2⟩ := refTail_frame _ h3
      have hall : allowed = true := by
        by_contra hc
        have := hj.plain (by simpa using hc)
        omega
      subst hall
      have hst : ∀ j, Ss ≤ j → j ≤ Se → RStep Al (B j) (B' j) := by
        intro j j1 j2
        exact RStep.of_tail ⟨(t2 j).1, (t2 j).2 (by omega) (by omega)⟩
      have heobk : eobIndex Al B' (Se + 1 - Ss) Ss 0 < Ss := by
        rcases (eobIndex_spec (Al := Al) (F := B') (Se + 1 - Ss) (k := Ss) (eob := 0)).1 with hh | ⟨hh1, hh2, hh3⟩
        · omega
        · by_contra hc
          exact not_one (hB _ (by omega) (by omega)) ⟨(t2 _).1, (t2 _).2 (by omega) (by omega)⟩ hh3
      obtain ⟨r1, bs, g1, g2, g3, g4, g5⟩ := refTail_write (ac := ac) (F := B') (eobk := eobIndex Al B' (Se + 1 - Ss) Ss 0) _ h3 (fun j j1 j2 => hB j j1 (by omega)) (fun j _ _ => rfl) heobk
        (r := 0) (buf := []) (s := s)
      rw [List.nil_append] at g1
      obtain ⟨b1, b2⟩ := Joint.next (ac := ac) (bs := bs) hj (by omega) (by omega)
      refine ⟨⟨_, refEncRest_eq hlt g1 (by rcases g5 (by omega) with h | h <;> [exact Or.inl h; exact Or.inr h]) b1, ?_⟩, rfl, rfl, fun j hj => t1 j (by omega), hst⟩
      simp only [if_true, List.nil_append]
      rw [eas, eas2, g2]
      simpa [bitAtoms] using b2

theorem refEnc_congr {ac : HSlot} {Al eobk : Nat} {F G : Blk} (n : Nat) : ∀ {k r : Nat} {buf : List Bool} {s : CS},
    (∀ j, k ≤ j → j < k + n → (F j).natAbs / 2 ^ Al = (G j).natAbs / 2 ^ Al ∧ ((F j).natAbs / 2 ^ Al ≠ 0 → (F j < 0 ↔ G j < 0))) →
    refEnc ac Al eobk F n k r buf s = refEnc ac Al eobk G n k r buf s := by
  induction n with
  | zero => intro k r buf s _; rfl
  | succ n ih =>
    intro k r buf s h
    have hk := h k (Nat.le_refl _) (by omega)
    have ih' : ∀ {r : Nat} {buf : List Bool} {s : CS}, refEnc ac Al eobk F n (k + 1) r buf s = refEnc ac Al eobk G n (k + 1) r buf s :=
      ih fun j h1 h2 => h j (by omega) (by omega)
    rw [refEnc, refEnc]
    simp only [ih', hk.1]
    by_cases hz : (G k).natAbs / 2 ^ Al = 0
    · rw [if_pos hz, if_pos hz]
    · rw [if_neg hz, if_neg hz]
      have : (F k < 0) = (G k < 0) := propext (hk.2 (by rw [hk.1]; exact hz))
      simp only [this]

theorem eobIndex_congr {Al : Nat} {F G : Blk} (n : Nat) : ∀ {k eob : Nat}, (∀ j, k ≤ j → j < k + n → (F j).natAbs / 2 ^ Al = (G j).natAbs / 2 ^ Al) →
    eobIndex Al F n k eob = eobIndex Al G n k eob := by
  induction n with
  | zero => intro k eob _; rfl
  | succ n ih =>
    intro k eob h
    rw [eobIndex, eobIndex, ih fun j h1 h2 => h j (by omega) (by omega), h k (Nat.le_refl _) (by omega)]

theorem encRefine_congr {ac : HSlot} {Ss Se Al : Nat} {F G : Blk} {s : CS} (h : SameFirst Ss Se Al F G) :
    encRefine ac Ss Se Al F s = encRefine ac Ss Se Al G s := by
  unfold encRefine refEncRest
  by_cases h0 : Ss = 0
  · rw [if_pos h0, if_pos h0, h.1 h0, eobIndex_congr _ fun j h1 h2 => (h.2 j h1 (by omega) (by omega)).1]
    by_cases h1 : Se < 1
    · rw [if_pos h1, if_pos h1]
    · rw [if_neg h1, if_neg h1, refEnc_congr _ fun j h1 h2 => h.2 j h1 (by omega) (by omega)]
  · rw [if_neg h0, if_neg h0, eobIndex_congr _ fun j h1 h2 => (h.2 j (by omega) h1 (by omega)).1]
    by_cases h1 : Se < Ss
    · rw [if_pos h1, if_pos h1]
    · rw [if_neg h1, if_neg h1, refEnc_congr _ fun j h1 h2 => h.2 j (by omega) h1 (by omega)]

/-- **Blocks of a refinement scan**: what the reader consumed is what the writer gives for the refined coefficients. -/
theorem refineBlock_write {ac : HSlot} {Ss Se Al : Nat} {last e : Int} {B : Blk} {as : List Atom} {o : BlkOut}
    (h : Eats (refineBlock ac Ss Se Al last e B) as o) (hSe : Se ≤ 63) (hB : ∀ j, Ss ≤ j → j ≤ Se → Hist Al (B j)) {s : CS} {C E : List Atom}
    (hj : Joint (decide (Ss ≠ 0)) e s C E) (hr : o.reset = true → s.eob = 0) {F : Blk} (hF : SameFirst Ss Se Al F o.blk) :
    (∃ p, encRefine ac Ss Se Al F s = some p ∧ Joint (decide (Ss ≠ 0)) o.eob p.2 (C ++ as) (E ++ atomsOf p.1)) ∧
      o.last = last ∧ o.nzr = 0 ∧ (∀ j, j < Ss ∨ Se < j → 1 ≤ j ∨ Ss ≠ 0 → o.blk j = B j) ∧ (∀ j, 1 ≤ j → Ss ≤ j → j ≤ Se → RStep Al (B j) (o.blk j)) ∧
      (Ss = 0 → o.blk 0 = B 0 ∨ o.blk 0 = B 0 + 2 ^ Al) := by
  rw [encRefine_congr hF]
  unfold refineBlock at h
  unfold encRefine
  by_cases h0 : Ss = 0
  · rw [if_pos h0] at h
    rw [if_pos h0]
    subst h0
    cases h with
    | bits hl h =>
      rename_i bs as
      obtain ⟨b, ebs, eb⟩ := bit_cases hl
      rw [eb] at h
      obtain ⟨pl1, pl2⟩ := hj.plain (by simp)
      have hemp : s.count = 0 := by have := hj.cnt; omega
      obtain ⟨⟨p, p1, p2⟩, d2, d3, d4, d5⟩ := refRest_write (C := C ++ [.bit b]) (E := E ++ [.bit b]) (s := s) h (Nat.le_refl _) hSe (by
          intro j h1 h2
          rw [Blk.set, if_neg (by omega)]
          exact hB j (by omega) h2) (by
          constructor
          · exact hj.wf
          · exact hj.small
          · exact hj.cnt
          · exact hj.idle
          · exact fun _ => ⟨pl1, pl2⟩
          · intro he
            rw [hj.done he, CS.pending_empty pl1 hemp]
            simp
          · intro he; omega) hr
      have hb0 : o.blk 0 = if b.toNat ≠ 0 ∧ B 0 / 2 ^ Al % 2 = 0 then B 0 + 2 ^ Al else B 0 := by
        rw [d4 0 (by omega), Blk.set, if_pos rfl]
      have hpos : (0 : Int) < 2 ^ Al := Int.pow_pos (by decide)
      have hbit : (o.blk 0 / 2 ^ Al % 2).toNat = b.toNat := by
        obtain ⟨c, hc⟩ := hB 0 (Nat.le_refl _) (Nat.zero_le _)
        rw [hb0]
        have e : B 0 = (2 * c) * 2 ^ Al := by rw [hc, Int.pow_succ]; ring
        have e2 : B 0 / 2 ^ Al = 2 * c := by rw [e]; exact Int.mul_ediv_cancel _ (by omega)
        cases b with
        | false =>
          rw [if_neg (by simp), e2]
          show _ = 0
          omega
        | true =>
          rw [if_pos ⟨by decide, by rw [e2]; omega⟩, e, show 2 * c * 2 ^ Al + 2 ^ Al = (2 * c + 1) * 2 ^ Al by ring, Int.mul_ediv_cancel _ (by omega)]
          show _ = 1
          omega
      refine ⟨⟨(.bits 1 (o.blk 0 / 2 ^ Al % 2).toNat :: p.1, p.2), by rw [p1]; rfl, ?_⟩, d2, d3, ?_, fun j h1 _ h3 => ?_, fun _ => ?_⟩
      · have : atomsOf (.bits 1 (o.blk 0 / 2 ^ Al % 2).toNat :: p.1) = .bit b :: atomsOf p.1 := by
          rw [hbit]
          cases b <;> rfl
        rw [this, ebs]
        simpa using p2
      · intro j hj1 hj2
        rw [d4 j (by omega), Blk.set, if_neg (by omega)]
      · have := d5 j h1 h3
        rwa [Blk.set, if_neg (by omega)] at this
      · rw [hb0]
        split
        · exact Or.inr rfl
        · exact Or.inl rfl
  · rw [if_neg h0] at h
    rw [if_neg h0]
    have hd : decide (Ss ≠ 0) = true := by simpa using h0
    rw [hd] at hj ⊢
    obtain ⟨d1, d2, d3, d4, d5⟩ := refRest_write h (by omega) hSe hB hj hr
    exact ⟨d1, d2, d3, fun j hj _ => d4 j hj, fun j _ h1 h2 => d5 j h1 h2, fun h => absurd h h0⟩

end Brunsli
