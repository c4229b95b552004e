import Verif.Bits
/-!
# Canonical prefix codes

A canonical code is given by the list of its `(length, symbol)` pairs in order of increasing length.
With words padded to `M` bits, most significant bit first, the words of the code are consecutive
intervals: the code of length `l` that starts at `v` owns `[v, v + 2^(M-l))`, and the next one starts
where it ends.
-/

namespace Brunsli

/-! ## Bit reversal -/

/-- The `n` low bits of `x` in reverse order. -/
def rev (n x : Nat) : Nat := ofBits (bitsOf n x).reverse

theorem ofBits_append (a b : List Bool) : ofBits (a ++ b) = ofBits a + 2 ^ a.length * ofBits b := by
  induction a with
  | nil => simp [ofBits]
  | cons x a ih =>
    simp only [List.cons_append, ofBits, ih, List.length_cons, Nat.pow_succ]
    have : 2 * (2 ^ a.length * ofBits b) = 2 ^ a.length * 2 * ofBits b := by
      rw [← Nat.mul_assoc, Nat.mul_comm 2]
    omega

theorem bitsOf_add (a b x : Nat) : bitsOf (a + b) x = bitsOf a x ++ bitsOf b (x / 2 ^ a) := by
  induction a generalizing x with
  | zero => simp [bitsOf]
  | succ a ih =>
    rw [show a + 1 + b = (a + b) + 1 by omega, bitsOf, ih, bitsOf, List.cons_append,
      Nat.div_div_eq_div_mul, ← Nat.pow_succ']

theorem bitsOf_mod (n k x : Nat) (h : n ≤ k) : bitsOf n (x % 2 ^ k) = bitsOf n x := by
  induction n generalizing x k with
  | zero => rfl
  | succ n ih =>
    obtain ⟨k, rfl⟩ : ∃ j, k = j + 1 := ⟨k - 1, by omega⟩
    have e : x % 2 ^ (k + 1) = x % 2 + 2 * (x / 2 % 2 ^ k) := by
      rw [Nat.pow_succ, Nat.mul_comm, Nat.mod_mul]
    have e1 : x % 2 ^ (k + 1) % 2 = x % 2 := by omega
    have e2 : x % 2 ^ (k + 1) / 2 = x / 2 % 2 ^ k := by omega
    simp only [bitsOf, e1, e2, ih k (x / 2) (by omega)]

theorem rev_lt (n x : Nat) : rev n x < 2 ^ n := by
  have := ofBits_lt (bitsOf n x).reverse
  simpa [rev] using this

theorem rev_zero_bits (x : Nat) : rev 0 x = 0 := rfl

theorem bitsOf_zero (n : Nat) : bitsOf n 0 = List.replicate n false := by
  induction n with
  | zero => rfl
  | succ n ih => simp [bitsOf, ih, List.replicate_succ]

theorem ofBits_replicate_false (n : Nat) : ofBits (List.replicate n false) = 0 := by
  induction n with
  | zero => rfl
  | succ n ih => simp [List.replicate_succ, ofBits, ih]

theorem rev_zero (n : Nat) : rev n 0 = 0 := by
  rw [rev, bitsOf_zero, List.reverse_replicate, ofBits_replicate_false]

theorem rev_mod (n x : Nat) : rev n (x % 2 ^ n) = rev n x := by
  rw [rev, rev, bitsOf_mod _ _ _ (Nat.le_refl n)]

/-- The high part of `x` becomes the low part of the reversal. -/
theorem rev_split (a b x : Nat) : rev (b + a) x = rev a (x / 2 ^ b) + 2 ^ a * rev b x := by
  unfold rev
  rw [bitsOf_add, List.reverse_append, ofBits_append]
  simp

theorem rev_rev (n x : Nat) : rev n (rev n x) = x % 2 ^ n := by
  unfold rev
  have h := bitsOf_ofBits (bitsOf n x).reverse
  simp only [List.length_reverse, bitsOf_length] at h
  rw [h, List.reverse_reverse, ofBits_bitsOf]

theorem rev_inj {n x y : Nat} (hx : x < 2 ^ n) (hy : y < 2 ^ n) (h : rev n x = rev n y) : x = y := by
  have := congrArg (rev n) h
  rwa [rev_rev, rev_rev, Nat.mod_eq_of_lt hx, Nat.mod_eq_of_lt hy] at this

/-- The low `a` bits of a reversal are the reversed high bits. -/
theorem rev_mod_low {M l : Nat} (h : l ≤ M) (x : Nat) : rev M x % 2 ^ l = rev l (x / 2 ^ (M - l)) := by
  obtain ⟨b, rfl⟩ : ∃ b, M = b + l := ⟨M - l, by omega⟩
  rw [rev_split, Nat.add_sub_cancel, Nat.add_mul_mod_self_left, Nat.mod_eq_of_lt (rev_lt _ _)]

theorem rev_div_low {M l : Nat} (h : l ≤ M) (x : Nat) : rev M x / 2 ^ l = rev (M - l) x := by
  obtain ⟨b, rfl⟩ : ∃ b, M = b + l := ⟨M - l, by omega⟩
  rw [rev_split, Nat.add_sub_cancel, Nat.add_mul_div_left _ _ (Nat.two_pow_pos l),
    Nat.div_eq_of_lt (rev_lt _ _), Nat.zero_add]

/-- An aligned value has a short reversal. -/
theorem rev_aligned {M l v : Nat} (h : l ≤ M) (hd : 2 ^ (M - l) ∣ v) : rev M v = rev l (v / 2 ^ (M - l)) := by
  have h1 := rev_mod_low h v
  have h2 := rev_div_low h v
  have h3 : rev (M - l) v = 0 := by
    rw [← rev_mod, Nat.mod_eq_zero_of_dvd hd, rev_zero]
  rw [h3] at h2
  rw [← h1]
  have := Nat.div_add_mod (rev M v) (2 ^ l)
  rw [h2] at this
  omega

/-- `W` starts with the word of length `l` at `v` iff its reversal lies in the interval. -/
theorem mod_eq_rev_iff {M l v W : Nat} (hl : l ≤ M) (hd : 2 ^ (M - l) ∣ v) (hv : v < 2 ^ M) :
    W % 2 ^ l = rev M v ↔ v ≤ rev M W ∧ rev M W < v + 2 ^ (M - l) := by
  obtain ⟨c, rfl⟩ := hd
  have hpos := Nat.two_pow_pos (M - l)
  have hMl : 2 ^ M = 2 ^ (M - l) * 2 ^ l := by rw [← Nat.pow_add]; congr 1; omega
  have hc : c < 2 ^ l := by
    rw [hMl] at hv
    exact Nat.lt_of_mul_lt_mul_left hv
  have e1 : rev M W / 2 ^ (M - l) = rev l W := by
    have := rev_div_low (l := M - l) (M := M) (by omega) W
    rwa [show M - (M - l) = l by omega] at this
  have e2 : rev M (2 ^ (M - l) * c) = rev l c := by
    rw [rev_aligned hl (Nat.dvd_mul_right _ _), Nat.mul_div_cancel_left _ hpos]
  rw [e2]
  constructor
  · intro h
    have h3 : rev l W = c := by
      rw [← rev_mod, h, rev_rev, Nat.mod_eq_of_lt hc]
    rw [h3] at e1
    have := Nat.div_add_mod (rev M W) (2 ^ (M - l))
    have := Nat.mod_lt (rev M W) hpos
    rw [e1] at *
    omega
  · intro ⟨h1, h2⟩
    have h3 : rev M W / 2 ^ (M - l) = c := by
      apply Nat.div_eq_of_lt_le
      · rw [Nat.mul_comm]; exact h1
      · rw [Nat.add_mul, Nat.one_mul, Nat.mul_comm c]; exact h2
    rw [e1] at h3
    rw [← h3, rev_rev]

/-! ## Codes -/

/-- Total measure of the words of a code, in units of `2^-M`. -/
def kraft (M : Nat) : List (Nat × Nat) → Nat
  | [] => 0
  | p :: L => 2 ^ (M - p.1) + kraft M L

/-- Canonical decoding of the `M`-bit window `x` (most significant bit first): the pair whose interval contains it. -/
def codeAt (M v : Nat) : List (Nat × Nat) → Nat → Option (Nat × Nat)
  | [], _ => none
  | p :: L, x => if v ≤ x ∧ x < v + 2 ^ (M - p.1) then some p else codeAt M (v + 2 ^ (M - p.1)) L x

/-- A code in canonical order, all of whose words have between 1 and `M` bits, that starts at `v`. -/
structure CodeOk (M v : Nat) (L : List (Nat × Nat)) : Prop where
  sorted : L.Pairwise fun p q => p.1 ≤ q.1
  range : ∀ p ∈ L, 1 ≤ p.1 ∧ p.1 ≤ M
  dvd : ∀ p ∈ L, 2 ^ (M - p.1) ∣ v
  fits : v + kraft M L ≤ 2 ^ M

theorem CodeOk.tail {M v : Nat} {p : Nat × Nat} {L : List (Nat × Nat)} (h : CodeOk M v (p :: L)) :
    CodeOk M (v + 2 ^ (M - p.1)) L where
  sorted := (List.pairwise_cons.mp h.sorted).2
  range q hq := h.range q (List.mem_cons_of_mem _ hq)
  dvd q hq := by
    have h1 := (List.pairwise_cons.mp h.sorted).1 q hq
    refine Nat.dvd_add (h.dvd q (List.mem_cons_of_mem _ hq)) ?_
    exact Nat.pow_dvd_pow 2 (by omega)
  fits := by have := h.fits; simp only [kraft] at this; omega

theorem codeAt_ge {M v x : Nat} {p : Nat × Nat} {L : List (Nat × Nat)} (h : codeAt M v L x = some p) :
    v ≤ x ∧ x < v + kraft M L := by
  induction L generalizing v with
  | nil => simp [codeAt] at h
  | cons q L ih =>
    simp only [codeAt] at h
    simp only [kraft]
    split at h
    · omega
    · have := ih h
      have := Nat.two_pow_pos (M - q.1)
      omega

theorem codeAt_mem {M v x : Nat} {p : Nat × Nat} {L : List (Nat × Nat)} (h : codeAt M v L x = some p) : p ∈ L := by
  induction L generalizing v with
  | nil => simp [codeAt] at h
  | cons q L ih =>
    simp only [codeAt] at h
    split at h
    · simp at h; simp [h]
    · exact List.mem_cons_of_mem _ (ih h)

theorem codeAt_exists {M v x : Nat} {L : List (Nat × Nat)} (h1 : v ≤ x) (h2 : x < v + kraft M L) :
    ∃ p, codeAt M v L x = some p := by
  induction L generalizing v with
  | nil => simp [kraft] at h2; omega
  | cons q L ih =>
    simp only [codeAt]
    split
    · exact ⟨_, rfl⟩
    · apply ih <;> simp only [kraft] at h2 <;> omega

theorem codeAt_append (M v : Nat) (A B : List (Nat × Nat)) (x : Nat) :
    codeAt M v (A ++ B) x = (codeAt M v A x).or (codeAt M (v + kraft M A) B x) := by
  induction A generalizing v with
  | nil => simp [codeAt, kraft]
  | cons q A ih =>
    simp only [List.cons_append, codeAt, kraft]
    split
    · simp
    · rw [ih, Nat.add_assoc]

theorem kraft_append (M : Nat) (A B : List (Nat × Nat)) : kraft M (A ++ B) = kraft M A + kraft M B := by
  induction A with
  | nil => simp [kraft]
  | cons q A ih => simp only [List.cons_append, kraft, ih]; omega

/-- Codes of at most `t` bits only look at the first `t` bits of the window. -/
theorem codeAt_block {M t v x y : Nat} {L : List (Nat × Nat)} (h : CodeOk M v L) (ht : ∀ p ∈ L, p.1 ≤ t)
    (htM : t ≤ M) (hxy : x / 2 ^ (M - t) = y / 2 ^ (M - t)) : codeAt M v L x = codeAt M v L y := by
  induction L generalizing v with
  | nil => rfl
  | cons p L ih =>
    simp only [codeAt]
    have hp := ht p List.mem_cons_self
    have hr := h.range p List.mem_cons_self
    have key : ∀ z, (v ≤ z ∧ z < v + 2 ^ (M - p.1)) ↔
        (v / 2 ^ (M - t) ≤ z / 2 ^ (M - t) ∧ z / 2 ^ (M - t) < v / 2 ^ (M - t) + 2 ^ (t - p.1)) := by
      intro z
      have hpos := Nat.two_pow_pos (M - t)
      have hd : 2 ^ (M - t) ∣ v := Nat.dvd_trans (Nat.pow_dvd_pow 2 (by omega)) (h.dvd p List.mem_cons_self)
      obtain ⟨c, rfl⟩ := hd
      have e : 2 ^ (M - p.1) = 2 ^ (M - t) * 2 ^ (t - p.1) := by rw [← Nat.pow_add]; congr 1; omega
      rw [e, ← Nat.mul_add, Nat.mul_div_cancel_left _ hpos, Nat.le_div_iff_mul_le hpos,
        Nat.div_lt_iff_lt_mul hpos, Nat.mul_comm c, Nat.mul_comm (c + _)]
    by_cases hx : v ≤ x ∧ x < v + 2 ^ (M - p.1)
    · have hy : v ≤ y ∧ y < v + 2 ^ (M - p.1) := by rw [key]; rw [key] at hx; rwa [← hxy]
      rw [if_pos hx, if_pos hy]
    · have hy : ¬ (v ≤ y ∧ y < v + 2 ^ (M - p.1)) := by rw [key]; rw [key] at hx; rwa [← hxy]
      rw [if_neg hx, if_neg hy]
      exact ih h.tail fun q hq => ht q (List.mem_cons_of_mem _ hq)

/-- Measure of the words of at most `t` bits. -/
def kraftLe (M t : Nat) (L : List (Nat × Nat)) : Nat := kraft M (L.filter fun p => p.1 ≤ t)

/-- A word longer than `t` comes after all the words of at most `t` bits. -/
theorem codeAt_after {M v x t : Nat} {p : Nat × Nat} {L : List (Nat × Nat)} (h : CodeOk M v L)
    (hc : codeAt M v L x = some p) (ht : t < p.1) : v + kraftLe M t L ≤ x := by
  induction L generalizing v with
  | nil => simp [codeAt] at hc
  | cons q L ih =>
    simp only [codeAt] at hc
    split at hc
    · rename_i hx
      simp only [Option.some.injEq] at hc
      subst hc
      have : (q :: L).filter (fun p => decide (p.1 ≤ t)) = [] := by
        rw [List.filter_eq_nil_iff]
        intro r hr
        rw [List.mem_cons] at hr
        rcases hr with rfl | hr
        · simpa using ht
        · have := (List.pairwise_cons.mp h.sorted).1 r hr
          simp; omega
      rw [kraftLe, this]; simpa [kraft] using hx.1
    · have := ih h.tail hc
      have hk : kraftLe M t (q :: L) ≤ 2 ^ (M - q.1) + kraftLe M t L := by
        unfold kraftLe
        rw [List.filter_cons]
        split
        · simp [kraft]
        · exact Nat.le_add_left _ _
      omega

end Brunsli
