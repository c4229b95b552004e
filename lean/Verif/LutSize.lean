import Verif.LutSub
/-!
# The size of the two-level tables

For a complete code the total size is at most the number of symbols plus a constant; for 15-bit codes and
an 8-bit root this is the 376 of c/dec/huffman_decode.cc:238.
-/

namespace Brunsli

theorem succ_le_two_pow (d : Nat) : d + 1 ≤ 2 ^ d := by
  induction d with
  | zero => simp
  | succ d ih => rw [Nat.pow_succ]; omega

theorem two_pow_gap {a b : Nat} (h : a ≤ b) : 2 ^ a + (b - a) ≤ 2 ^ b := by
  obtain ⟨d, rfl⟩ := Nat.exists_eq_add_of_le h
  rw [Nat.pow_add]
  have h1 := succ_le_two_pow d
  have h2 := Nat.two_pow_pos a
  have h3 : 2 ^ a * (d + 1) ≤ 2 ^ a * 2 ^ d := Nat.mul_le_mul_left _ h1
  have h4 : d ≤ 2 ^ a * d := Nat.le_mul_of_pos_left _ h2
  rw [Nat.mul_add, Nat.mul_one] at h3
  omega

theorem kraftLe_cons_le {M t : Nat} {p : Nat × Nat} {L : List (Nat × Nat)} (h : p.1 ≤ t) :
    kraftLe M t (p :: L) = 2 ^ (M - p.1) + kraftLe M t L := by
  unfold kraftLe
  rw [List.filter_cons, if_pos (by simpa using h)]
  rfl

/-- The sizes, inside a group and at the start of a group. -/
theorem subTotal_bound {M root : Nat} (hroot : root ≤ M) (L : List (Nat × Nat)) :
    ∀ v key total, CodeOk M v L → v + kraft M L = 2 ^ M → (∀ p ∈ L, root < p.1) → (v < 2 ^ M → key = rev M v) →
    (∀ p L', L = p :: L' → ∀ R left B, p.1 ≤ R → R ≤ M → 0 < left → B < 2 ^ root → v / 2 ^ (M - root) = B →
      v + left * 2 ^ (M - p.1) = (B + 1) * 2 ^ (M - root) →
      (∀ x q, codeAt M v L x = some q → x < (B + 1) * 2 ^ (M - root) → q.1 ≤ R) →
      (∀ t, p.1 ≤ t → t < R → v + kraftLe M t L < (B + 1) * 2 ^ (M - root)) →
      subTotal M root key total (some (rev root B)) L + left + (R - p.1) + 2 ^ (R - root) + (M - R) ≤
        total + L.length + 2 ^ (M - root)) ∧
    (∀ p L', L = p :: L' → ∀ low, 2 ^ (M - root) ∣ v → low ≠ some (key % 2 ^ root) →
      subTotal M root key total low L + 2 ^ (p.1 - root) + (M - p.1) ≤ total + L.length + 2 ^ (M - root)) := by
  induction L with
  | nil =>
    intro v key total _ _ _ _
    exact ⟨fun p L' h => by simp at h, fun p L' h => by simp at h⟩
  | cons p L ih =>
    intro v key total hc hfull hroots hkey
    have hv := hc.lt
    have hk := hkey hv
    have hr := hc.range p List.mem_cons_self
    have hd := hc.dvd p List.mem_cons_self
    have hp := hroots p List.mem_cons_self
    have hpos := Nat.two_pow_pos (M - root)
    have hposl := Nat.two_pow_pos (M - p.1)
    have hklow : key % 2 ^ root = rev root (v / 2 ^ (M - root)) := by rw [hk]; exact key_low hroot
    have hmid : ∀ total R left B, p.1 ≤ R → R ≤ M → 0 < left → B < 2 ^ root → v / 2 ^ (M - root) = B →
      v + left * 2 ^ (M - p.1) = (B + 1) * 2 ^ (M - root) →
      (∀ x q, codeAt M v (p :: L) x = some q → x < (B + 1) * 2 ^ (M - root) → q.1 ≤ R) →
      (∀ t, p.1 ≤ t → t < R → v + kraftLe M t (p :: L) < (B + 1) * 2 ^ (M - root)) →
      subTotal M root key total (some (rev root B)) (p :: L) + left + (R - p.1) + 2 ^ (R - root) + (M - R) ≤
        total + (p :: L).length + 2 ^ (M - root) := by
      intro total R left B hpR hRM hleft hB hdiv heq hfits hgap
      have hih := ih (v + 2 ^ (M - p.1)) (nextKey key p.1) total hc.tail
        (by rw [← hfull]; simp only [kraft]; omega) (fun q hq => hroots q (List.mem_cons_of_mem _ hq))
        (by intro h; rw [hk]; exact nextKey_step hr.2 hd h)
      have hst : subTotal M root key total (some (rev root B)) (p :: L) =
          subTotal M root (nextKey key p.1) total (some (rev root B)) L := by
        simp only [subTotal, hklow, hdiv, ↓reduceIte]
      rw [hst, List.length_cons]
      by_cases hfl : left = 1
      · -- the group is full
        subst hfl
        rw [Nat.one_mul] at heq
        have hRp : R = p.1 := by
          apply Nat.le_antisymm _ hpR
          apply Nat.le_of_not_lt
          intro hlt
          have := hgap p.1 (Nat.le_refl _) hlt
          rw [kraftLe_cons_le (Nat.le_refl _)] at this
          omega
        subst hRp
        cases L with
        | nil =>
          simp only [subTotal, List.length_nil]
          have := two_pow_gap (a := p.1 - root) (b := M - root) (by omega)
          omega
        | cons q L' =>
          have hq := (List.pairwise_cons.mp hc.sorted).1 q List.mem_cons_self
          have hqr := hc.range q (List.mem_cons_of_mem _ List.mem_cons_self)
          have hv' := hc.tail.lt
          have h2 := hih.2 q L' rfl (some (rev root B)) (by rw [heq]; exact Nat.dvd_mul_left _ _) (by
            rw [hk, nextKey_step hr.2 hd hv', key_low hroot, heq, Nat.mul_div_cancel _ hpos]
            intro h
            rw [Option.some.injEq] at h
            have hB1 : B + 1 < 2 ^ root := by
              have e : 2 ^ M = 2 ^ root * 2 ^ (M - root) := by rw [← Nat.pow_add]; congr 1; omega
              rw [heq, e] at hv'
              exact Nat.lt_of_mul_lt_mul_right hv'
            have := rev_inj hB hB1 h
            omega)
          have := two_pow_gap (a := p.1 - root) (b := q.1 - root) (by omega)
          omega
      · -- the group goes on
        have hlt : v + 2 ^ (M - p.1) < (B + 1) * 2 ^ (M - root) := by
          rw [← heq]
          have : 2 * 2 ^ (M - p.1) ≤ left * 2 ^ (M - p.1) := Nat.mul_le_mul_right _ (by omega)
          omega
        have hend : (B + 1) * 2 ^ (M - root) ≤ 2 ^ M := by
          have e : 2 ^ M = 2 ^ root * 2 ^ (M - root) := by rw [← Nat.pow_add]; congr 1; omega
          rw [e]; exact Nat.mul_le_mul_right _ hB
        cases L with
        | nil => simp only [kraft] at hfull; omega
        | cons q L' =>
          have hq := (List.pairwise_cons.mp hc.sorted).1 q List.mem_cons_self
          have hqr := hc.range q (List.mem_cons_of_mem _ List.mem_cons_self)
          have hposq := Nat.two_pow_pos (M - q.1)
          have hqc : codeAt M v (p :: q :: L') (v + 2 ^ (M - p.1)) = some q := by
            simp only [codeAt]
            rw [if_neg (by omega), if_pos (by omega)]
          have hqR := hfits _ _ hqc hlt
          have hmeas : (left - 1) * 2 ^ (q.1 - p.1) * 2 ^ (M - q.1) = (left - 1) * 2 ^ (M - p.1) := by
            rw [Nat.mul_assoc, ← Nat.pow_add]; congr 2; omega
          have hsplit : left * 2 ^ (M - p.1) = (left - 1) * 2 ^ (M - p.1) + 2 ^ (M - p.1) := by
            rw [← Nat.succ_mul]; congr 1; omega
          have h1 := hih.1 q L' rfl R ((left - 1) * 2 ^ (q.1 - p.1)) B hqR hRM
            (Nat.mul_pos (by omega) (Nat.two_pow_pos _)) hB
            (by
              apply Nat.div_eq_of_lt_le
              · have := Nat.div_mul_le_self v (2 ^ (M - root)); rw [hdiv] at this; omega
              · exact hlt)
            (by rw [hmeas]; omega)
            (by
              intro x r hx hxl
              refine hfits x r ?_ hxl
              have hxg := codeAt_ge hx
              rw [codeAt, if_neg (by omega)]; exact hx)
            (by
              intro t ht1 ht2
              have := hgap t (by omega) ht2
              rw [kraftLe_cons_le (by omega)] at this
              omega)
          have hpw := succ_le_two_pow (q.1 - p.1)
          have h5 : (left - 1) * (q.1 - p.1 + 1) ≤ (left - 1) * 2 ^ (q.1 - p.1) := Nat.mul_le_mul_left _ hpw
          have h6 : q.1 - p.1 ≤ (left - 1) * (q.1 - p.1) := Nat.le_mul_of_pos_left _ (by omega)
          rw [Nat.mul_add, Nat.mul_one] at h5
          omega
    refine ⟨?_, ?_⟩
    · intro p' L' he
      obtain ⟨rfl, rfl⟩ := List.cons.inj he
      exact hmid total
    · intro p' L' he low hal hlow
      obtain ⟨rfl, rfl⟩ := List.cons.inj he
      obtain ⟨R, r1, r2, r3, r4, r5⟩ := nextTableBits_fits hc hp
      obtain ⟨c, hcv⟩ := hal
      have hdiv : v / 2 ^ (M - root) = c := by rw [hcv, Nat.mul_div_cancel_left _ hpos]
      have hend : v + 2 ^ (M - root) = (c + 1) * 2 ^ (M - root) := by
        rw [hcv, Nat.add_mul, Nat.one_mul, Nat.mul_comm]
      have hm := hmid (total + 2 ^ (R - root)) R (2 ^ (p.1 - root)) c r2 r3 (Nat.two_pow_pos _)
        (by rw [← hdiv]; exact bucket_lt hroot hv) hdiv
        (by rw [← hend, ← Nat.pow_add]; congr 2; omega)
        (by rw [← hend]; exact r4)
        (by
          intro t h1 h2
          have := r5 t h1 h2
          omega)
      have hst : subTotal M root key total low (p :: L) =
          subTotal M root key (total + 2 ^ (R - root)) (some (rev root c)) (p :: L) := by
        simp only [subTotal, ↓reduceIte, hklow, hdiv, r1]
        rw [if_neg (by rw [← hdiv, ← hklow]; exact hlow)]
      rw [hst]
      omega

end Brunsli
