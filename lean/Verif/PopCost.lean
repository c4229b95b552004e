import Verif.ClusterSpec
import Mathlib.Tactic.Positivity
/-!
# `PopulationCost`

c/enc/histogram_encode.cc:193-297, c/enc/fast_log.h, with arithmetic as in `Rebalance`.  `none` is an overflow of `int`, a value that is
converted to `int` although it does not fit, or an access to a table out of bounds.
-/

namespace Brunsli

/-- What is used of `FastLog2` (c/enc/fast_log.h:110-116): logarithms have the right integer part, the one of 1024 is exact. -/
structure LogOk (L : Nat → ℚ) : Prop where
  zero : L 0 = 0
  pos : ∀ v, 0 < v → (Nat.log2 v : ℚ) ≤ L v ∧ L v < Nat.log2 v + 1
  exact : L 1024 = 10

/-- A number of type `int`. -/
def fitsInt (i : Int) : Option Int := if -2 ^ 31 ≤ i ∧ i < 2 ^ 31 then some i else none

/-- `static_cast<int>` of a floating point number. -/
def castInt (x : ℚ) : Option Int := fitsInt (if 0 ≤ x then ⌊x⌋ else ⌈x⌉)

/-- `kLogCountBitLengths` (c/enc/histogram_encode.cc:29-31). -/
def kLogCountBitLengths : List Nat := [5, 4, 4, 4, 3, 3, 2, 3, 3, 6, 6]

/-- `kHistogramLengthBitLengths` (c/enc/histogram_encode.cc:21-23). -/
def kHistogramLengthBitLengths : List Nat := [8, 8, 6, 6, 6, 5, 4, 3, 3, 3, 3, 3, 3, 4, 5, 7]

/-- An access to a table. -/
def tableAt (t : List Nat) (i : Int) : Option Nat := if 0 ≤ i then t[i.toNat]? else none

/-- `length`: one more than the last symbol that occurs. -/
def usedLength : List Nat → Nat
  | [] => 0
  | d :: l => if usedLength l = 0 then if d = 0 then 0 else 1 else usedLength l + 1

/-- `entropy_bits`, `histogram_bits`, `cumul`. -/
structure PopState where
  entropy : ℚ
  bits : Nat
  cumul : Nat

section
variable (F : Arith) (L : Nat → ℚ)

/-- One symbol of a histogram with more than 1024 symbols (c/enc/histogram_encode.cc:233-255); the first one is symbol 0. -/
def largeStep (minBase mult : Nat) (first : Bool) (s : PopState) (d : Nat) : Option PopState :=
  if d = 0 then some (if first then s else { s with bits := s.bits + 5 })
  else
    let c := (d + minBase) * mult + s.cumul
    if 2 ^ 31 ≤ c / 2 ^ 22 then none
    else
      let e := F.double (s.entropy - F.double (d * L (c / 2 ^ 22)))
      if first then some ⟨e, s.bits, c % 2 ^ 22⟩
      else (castInt (L (c / 2 ^ 22))).bind fun lf => (tableAt kLogCountBitLengths (lf + 1)).map fun b => ⟨e, s.bits + lf.toNat + b, c % 2 ^ 22⟩

/-- One symbol of a histogram with at most 1024 symbols (c/enc/histogram_encode.cc:258-278). -/
def smallStep (norm : ℚ) (first : Bool) (s : PopState) (d : Nat) : Option PopState :=
  if d = 0 then some (if first then s else { s with bits := s.bits + 5 })
  else
    let lc := F.double (L d + norm)
    let e := F.double (s.entropy - F.double (d * lc))
    if first then some ⟨e, s.bits, 0⟩
    else (castInt lc).bind fun lf =>
      let lf := if 10 ≤ lf then 9 else lf
      (tableAt kLogCountBitLengths (lf + 1)).map fun b => ⟨e, s.bits + (lf.toNat + 1) / 2 + b, 0⟩

/-- The loop over the symbols. -/
def popLoop (step : Bool → PopState → Nat → Option PopState) : Bool → List Nat → PopState → Option PopState
  | _, [], s => some s
  | first, d :: l, s => (step first s d).bind (popLoop step false l)

/-- The result (c/enc/histogram_encode.cc:282-296). -/
def popResult (count length : Nat) (s : PopState) : Option Int :=
  if count = 1 then some 7
  else if count = 2 then (castInt s.entropy).bind fun e => fitsInt (e + 1 + 12 + 10)
  else (tableAt kHistogramLengthBitLengths (length - 3)).bind fun b => (castInt s.entropy).bind fun e => fitsInt ((s.bits + b : Nat) + e + 1)

/-- `PopulationCost` (c/enc/histogram_encode.cc:193-297) of a histogram with fewer than `2^31` symbols.  No 64-bit operation overflows. -/
def popCost (h : List Nat) : Option Int :=
  let total := h.sum
  let count := h.countP (0 < ·)
  let length := usedLength h
  if total = 0 then some 7
  else if 2 ^ 31 ≤ total * 10 then none
  else if 1024 < total then
    if count = 1 then some 7
    else
      let max0 := total * length / 1024
      let max1 := max0 * length / 1024
      let minBase := (total + max0 + max1) / 1024
      let total' := total + minBase * count
      let mult := 2 ^ 32 / total' % 2 ^ 32
      let error := 2 ^ 32 % total' % 2 ^ 32
      let cumul := if error < 2 ^ 22 then error + (2 ^ 22 - error) / 2 else error
      (popLoop (largeStep F L minBase mult) true (h.take length) ⟨F.double (total * 10 : Nat), 0, cumul⟩).bind (popResult count length)
  else
    (popLoop (smallStep F L (F.double (10 - L total))) true h ⟨F.double (total * 10 : Nat), 0, 0⟩).bind (popResult count length)

/-- `ClusterCostDiff` (c/enc/cluster.h:41-45). -/
def clusterCostDiff (a b : Nat) : ℚ :=
  F.double (F.double (F.double (a * L a) + F.double (b * L b)) - F.double ((a + b : Nat) * L (a + b)))

/-- The costs of the code. -/
def realCosts : Costs ℚ where
  pop h := ((popCost F L h).getD 0 : Int)
  dom h := (popCost F L h).isSome
  diff a b c1 c2 := F.double (F.double (F.double (1 / 2 * clusterCostDiff F L a b) - c1) - c2)
  add a b := F.double (a + b)
  sub a b := F.double (a - b)
  zero := 0
  big := F.double (10 ^ 99)

end

/-! ## Entropy -/

theorem double_near {F : Arith} (hF : F.Ok) {x : ℚ} (h1 : -1000000000000 ≤ x) (h2 : x ≤ 1000000000000) : x - 1 / 4 ≤ F.double x ∧ F.double x ≤ x + 1 / 4 := by
  have h := abs_le.mp (hF.double x)
  have hx : |x| / 2 ^ 52 ≤ 1 / 4 := by
    rw [div_le_iff₀ (by norm_num)]
    exact (abs_le.mpr ⟨h1, h2⟩).trans (by norm_num)
  exact ⟨by linarith [h.1], by linarith [h.2]⟩

theorem double_nonneg {F : Arith} (hF : F.Ok) {x : ℚ} (h : 0 ≤ x) : 0 ≤ F.double x ∧ F.double x ≤ 2 * x := by
  have h1 := abs_le.mp (hF.double x)
  rw [abs_of_nonneg h] at h1
  have h2 : x / 2 ^ 52 ≤ x := div_le_self h (by norm_num)
  exact ⟨by linarith [h1.1], by linarith [h1.2]⟩

theorem entropy_step {F : Arith} (hF : F.Ok) {e lc k : ℚ} {d : Nat} (h1 : -100000000000 ≤ e) (h2 : e ≤ 100000000000) (hd : d < 2 ^ 31) (hl : 0 ≤ lc) (hk : lc ≤ k) (hk' : k ≤ 24) :
    e - k * d - 1 ≤ F.double (e - F.double (d * lc)) ∧ F.double (e - F.double (d * lc)) ≤ e + 1 := by
  have hd0 : (0 : ℚ) ≤ d := Nat.cast_nonneg d
  have hd1 : (d : ℚ) ≤ 2147483648 := by exact_mod_cast hd.le
  have p1 : 0 ≤ d * lc := mul_nonneg hd0 hl
  have p2 : d * lc ≤ k * d := by rw [mul_comm k]; exact mul_le_mul_of_nonneg_left hk hd0
  have p3 : k * d ≤ 24 * 2147483648 := mul_le_mul hk' hd1 hd0 (by norm_num)
  have a := double_near hF (x := d * lc) (by linarith) (by linarith)
  have b := double_near hF (x := e - F.double (d * lc)) (by linarith [a.2]) (by linarith [a.1])
  exact ⟨by linarith [a.2, b.1], by linarith [a.1, b.2]⟩

/-! ## Loops -/

theorem LogOk.nonneg {L : Nat → ℚ} (hL : LogOk L) (v : Nat) : 0 ≤ L v := by
  rcases Nat.eq_zero_or_pos v with rfl | h
  · rw [hL.zero]
  · exact le_trans (Nat.cast_nonneg _) (hL.pos v h).1

theorem LogOk.lt {L : Nat → ℚ} (hL : LogOk L) {v k : Nat} (h : v < 2 ^ (k + 1)) : L v < k + 1 := by
  rcases Nat.eq_zero_or_pos v with rfl | h0
  · rw [hL.zero]; positivity
  · refine lt_of_lt_of_le (hL.pos v h0).2 ?_
    have : Nat.log2 v < k + 1 := (Nat.log2_lt (by omega)).mpr h
    have : ((Nat.log2 v : Nat) : ℚ) ≤ k := by exact_mod_cast Nat.lt_succ_iff.mp this
    linarith

theorem castInt_nonneg {x : ℚ} (h0 : 0 ≤ x) {k : Nat} (hk : x < k + 1) (hk' : k < 2 ^ 31) : castInt x = some ⌊x⌋ ∧ 0 ≤ ⌊x⌋ ∧ ⌊x⌋ ≤ k := by
  have f0 : 0 ≤ ⌊x⌋ := Int.floor_nonneg.mpr h0
  have f1 : ⌊x⌋ < (k + 1 : Int) := Int.floor_lt.mpr (by push_cast; exact hk)
  refine ⟨?_, f0, by omega⟩
  unfold castInt fitsInt
  rw [if_pos h0, if_pos ⟨by omega, by omega⟩]

theorem tableAt_some {t : List Nat} {i : Int} (h0 : 0 ≤ i) (h1 : i < t.length) : ∃ b ∈ t, tableAt t i = some b := by
  have : i.toNat < t.length := by omega
  exact ⟨t[i.toNat], List.getElem_mem _, by rw [tableAt, if_pos h0, List.getElem?_eq_getElem this]⟩

theorem logCountBits_le : ∀ b ∈ kLogCountBitLengths, b ≤ 6 := by decide

/-- What the loops preserve: bounds of the entropy and of the bits of the histogram, `p` being what has been counted of `T` symbols. -/
structure PopState.Ok (s : PopState) (T : Nat) (k : ℚ) (p n : Nat) : Prop where
  low : 10 * T - k * p - n - 1 ≤ s.entropy
  high : s.entropy ≤ 10 * T + n + 1
  bits : s.bits ≤ 15 * n

theorem PopState.Ok.step {F : Arith} (hF : F.Ok) {s : PopState} {T p n d : Nat} {k lc : ℚ} (h : s.Ok T k p n) (hT : T < 2 ^ 31) (hn : n < 100) (hpd : p + d ≤ T) (hl : 0 ≤ lc) (hk : lc ≤ k) (hk' : k ≤ 24)
    {b c : Nat} (hb : b ≤ s.bits + 15) : PopState.Ok ⟨F.double (s.entropy - F.double (d * lc)), b, c⟩ T k (p + d) (n + 1) := by
  have hT' : (T : ℚ) ≤ 2147483648 := by exact_mod_cast hT.le
  have hn' : (n : ℚ) < 100 := by exact_mod_cast hn
  have hp : (p : ℚ) + d ≤ T := by exact_mod_cast hpd
  have hp0 : (0 : ℚ) ≤ p := Nat.cast_nonneg p
  have hd0 : (0 : ℚ) ≤ d := Nat.cast_nonneg d
  have hn0 : (0 : ℚ) ≤ n := Nat.cast_nonneg n
  have hk0 : 0 ≤ k := hl.trans hk
  have hkp : k * p ≤ 24 * 2147483648 := mul_le_mul hk' (by linarith) hp0 (by norm_num)
  have a := h.low
  have b' := h.high
  obtain ⟨x, y⟩ := entropy_step hF (e := s.entropy) (d := d) (by linarith) (by linarith) (by omega) hl hk hk'
  refine ⟨?_, ?_, ?_⟩
  · show _ ≤ F.double _
    push_cast
    linarith
  · show F.double _ ≤ _
    push_cast
    linarith
  · show b ≤ _
    have := h.bits
    omega

theorem PopState.Ok.skip {s : PopState} {T p n : Nat} {k : ℚ} (h : s.Ok T k p n) {b : Nat} (hb : b ≤ s.bits + 15) : PopState.Ok { s with bits := b } T k p (n + 1) := by
  refine ⟨?_, ?_, ?_⟩
  · have := h.low
    push_cast
    show _ ≤ s.entropy
    linarith
  · have := h.high
    push_cast
    show s.entropy ≤ _
    linarith
  · have := h.bits
    show b ≤ _
    omega

theorem smallLoop_ok {F : Arith} (hF : F.Ok) {L : Nat → ℚ} (hL : LogOk L) {norm : ℚ} (h0 : 0 ≤ norm) (h1 : norm ≤ 11) {T : Nat} (hT : T ≤ 1024) (l : List Nat) :
    ∀ (first : Bool) (s : PopState) (p n : Nat), s.Ok T 24 p n → p + l.sum ≤ T → n + l.length < 100 →
    ∃ s', popLoop (smallStep F L norm) first l s = some s' ∧ s'.Ok T 24 (p + l.sum) (n + l.length) := by
  induction l with
  | nil => intro first s p n h _ _; exact ⟨s, rfl, h⟩
  | cons d l ih =>
    intro first s p n h hp hn
    rw [List.sum_cons] at hp ⊢
    rw [List.length_cons] at hn ⊢
    have key : ∃ s1, smallStep F L norm first s d = some s1 ∧ s1.Ok T 24 (p + d) (n + 1) := by
      unfold smallStep
      by_cases hd : d = 0
      · subst hd
        rw [if_pos rfl]
        cases first
        · exact ⟨_, rfl, h.skip (by omega)⟩
        · exact ⟨_, rfl, h.skip (b := s.bits) (by omega)⟩
      · rw [if_neg hd]
        dsimp only
        have l1 : L d < 11 := by
          have := hL.lt (v := d) (k := 10) (by omega)
          norm_num at this; exact this
        have l2 := hL.nonneg d
        obtain ⟨r1, r2⟩ := double_near hF (x := L d + norm) (by norm_num; linarith) (by norm_num; linarith)
        have r0 := (double_nonneg hF (x := L d + norm) (by linarith)).1
        generalize F.double (L d + norm) = lc at *
        cases first
        · rw [if_neg (by simp)]
          obtain ⟨c1, c2, c3⟩ := castInt_nonneg (k := 23) r0 (by norm_num; linarith) (by omega)
          rw [c1, Option.bind_some]
          generalize ⌊lc⌋ = i at *
          generalize hj : (if (10 : Int) ≤ i then 9 else i) = j
          have hj1 : 0 ≤ j ∧ j ≤ 9 := by split at hj <;> omega
          obtain ⟨b, hb1, hb2⟩ := tableAt_some (t := kLogCountBitLengths) (i := j + 1) (by omega) (by show j + 1 < 11; omega)
          rw [hb2]
          have := logCountBits_le b hb1
          exact ⟨_, rfl, h.step hF (by omega) (by omega) (by omega) r0 (by linarith) le_rfl (by omega)⟩
        · rw [if_pos rfl]
          exact ⟨_, rfl, h.step hF (by omega) (by omega) (by omega) r0 (by linarith) le_rfl (by omega)⟩
    obtain ⟨s1, e1, o1⟩ := key
    obtain ⟨s', e2, o2⟩ := ih false s1 (p + d) (n + 1) o1 (by omega) (by omega)
    refine ⟨s', by rw [popLoop, e1, Option.bind_some]; exact e2, ?_⟩
    rwa [show p + (d + l.sum) = p + d + l.sum by omega, show n + (l.length + 1) = n + 1 + l.length by omega]

/-- The sum of the scaled counts of symbols that occur. -/
def scaled (mb mult : Nat) (l : List Nat) : Nat := (l.map fun d => if d = 0 then 0 else (d + mb) * mult).sum

theorem largeStep_ok {F : Arith} (hF : F.Ok) {L : Nat → ℚ} (hL : LogOk L) {mb mult T : Nat} (hT : T < 2 ^ 31) {first : Bool} {s : PopState} {d p n : Nat} (h : s.Ok T 12 p n) (hp : p + d ≤ T)
    (hn : n < 100) (hd : d ≠ 0) (hc : (d + mb) * mult + s.cumul < 2 ^ 32) :
    ∃ s', largeStep F L mb mult first s d = some s' ∧ s'.Ok T 12 (p + d) (n + 1) ∧ s'.cumul = ((d + mb) * mult + s.cumul) % 2 ^ 22 := by
  unfold largeStep
  rw [if_neg hd]
  dsimp only
  generalize (d + mb) * mult + s.cumul = c at *
  have hq : c / 2 ^ 22 < 1024 := by omega
  rw [if_neg (by omega)]
  have l1 : L (c / 2 ^ 22) < 10 := by
    have := hL.lt (v := c / 2 ^ 22) (k := 9) (by omega)
    norm_num at this; exact this
  have r0 := hL.nonneg (c / 2 ^ 22)
  generalize L (c / 2 ^ 22) = lc at *
  cases first
  · rw [if_neg (by simp)]
    obtain ⟨c1, c2, c3⟩ := castInt_nonneg (k := 9) r0 (by norm_num; linarith) (by omega)
    rw [c1, Option.bind_some]
    generalize ⌊lc⌋ = j at *
    obtain ⟨b, hb1, hb2⟩ := tableAt_some (t := kLogCountBitLengths) (i := j + 1) (by omega) (by show j + 1 < 11; omega)
    rw [hb2]
    have := logCountBits_le b hb1
    exact ⟨_, rfl, h.step hF hT hn (by omega) r0 (by linarith) (by norm_num) (by omega), rfl⟩
  · rw [if_pos rfl]
    exact ⟨_, rfl, h.step hF hT hn (by omega) r0 (by linarith) (by norm_num) (by omega), rfl⟩

theorem largeStep_zero {F : Arith} {L : Nat → ℚ} {mb mult T : Nat} {first : Bool} {s : PopState} {p n : Nat} (h : s.Ok T 12 p n) :
    ∃ s', largeStep F L mb mult first s 0 = some s' ∧ s'.Ok T 12 p (n + 1) ∧ s'.cumul = s.cumul := by
  unfold largeStep
  rw [if_pos rfl]
  cases first
  · exact ⟨_, rfl, h.skip (by omega), rfl⟩
  · exact ⟨_, rfl, h.skip (b := s.bits) (by omega), rfl⟩

theorem largeLoop_rest {F : Arith} (hF : F.Ok) {L : Nat → ℚ} (hL : LogOk L) {mb mult T : Nat} (hT : T < 2 ^ 31) (l : List Nat) :
    ∀ (first : Bool) (s : PopState) (p n : Nat), s.Ok T 12 p n → p + l.sum ≤ T → n + l.length < 100 → s.cumul + scaled mb mult l < 2 ^ 32 →
    ∃ s', popLoop (largeStep F L mb mult) first l s = some s' ∧ s'.Ok T 12 (p + l.sum) (n + l.length) := by
  induction l with
  | nil => intro first s p n h _ _ _; exact ⟨s, rfl, h⟩
  | cons d l ih =>
    intro first s p n h hp hn hs
    rw [List.sum_cons] at hp ⊢
    rw [List.length_cons] at hn ⊢
    have hsc : scaled mb mult (d :: l) = (if d = 0 then 0 else (d + mb) * mult) + scaled mb mult l := by simp [scaled]
    rw [hsc] at hs
    have key : ∃ s1, largeStep F L mb mult first s d = some s1 ∧ s1.Ok T 12 (p + d) (n + 1) ∧ s1.cumul + scaled mb mult l < 2 ^ 32 := by
      by_cases hd : d = 0
      · subst hd
        obtain ⟨s1, a, b, c⟩ := largeStep_zero (F := F) (L := L) (mb := mb) (mult := mult) (first := first) h
        rw [if_pos rfl] at hs
        exact ⟨s1, a, b, by rw [c]; omega⟩
      · rw [if_neg hd] at hs
        obtain ⟨s1, a, b, c⟩ := largeStep_ok hF hL (mb := mb) (mult := mult) hT (first := first) h (d := d) (by omega) (by omega) hd (by omega)
        refine ⟨s1, a, b, ?_⟩
        rw [c]
        generalize (d + mb) * mult = z at *
        omega
    obtain ⟨s1, e1, o1, c1⟩ := key
    obtain ⟨s', e2, o2⟩ := ih false s1 (p + d) (n + 1) o1 (by omega) (by omega) c1
    refine ⟨s', by rw [popLoop, e1, Option.bind_some]; exact e2, ?_⟩
    rwa [show p + (d + l.sum) = p + d + l.sum by omega, show n + (l.length + 1) = n + 1 + l.length by omega]

theorem scaled_ge (mb mult : Nat) {l : List Nat} (h : 1 ≤ l.countP (0 < ·)) : (1 + mb) * mult ≤ scaled mb mult l := by
  obtain ⟨d, hd, hp⟩ := List.countP_pos_iff.mp h
  have hp : 0 < d := of_decide_eq_true hp
  have : (if d = 0 then 0 else (d + mb) * mult) ≤ scaled mb mult l := List.single_le_sum (by simp) _ (List.mem_map_of_mem (f := fun d => if d = 0 then 0 else (d + mb) * mult) hd)
  rw [if_neg (by omega)] at this
  exact Nat.le_trans (Nat.mul_le_mul_right _ (by omega)) this

theorem largeLoop_ok {F : Arith} (hF : F.Ok) {L : Nat → ℚ} (hL : LogOk L) {mb mult error T : Nat} (hT : T < 2 ^ 31) (hm : error < 2 ^ 22 → 4000000 ≤ (1 + mb) * mult) (hm' : 1 ≤ mult) (l : List Nat) :
    ∀ (first : Bool) (s : PopState) (p n : Nat), s.Ok T 12 p n → p + l.sum ≤ T → n + l.length < 100 → 2 ≤ l.countP (0 < ·) → scaled mb mult l + error = 2 ^ 32 →
    s.cumul = (if error < 2 ^ 22 then error + (2 ^ 22 - error) / 2 else error) →
    ∃ s', popLoop (largeStep F L mb mult) first l s = some s' ∧ s'.Ok T 12 (p + l.sum) (n + l.length) := by
  induction l with
  | nil => intro first s p n h _ _ h2; simp at h2
  | cons d l ih =>
    intro first s p n h hp hn h2 hs hcu
    rw [List.sum_cons] at hp ⊢
    rw [List.length_cons] at hn ⊢
    have hsc : scaled mb mult (d :: l) = (if d = 0 then 0 else (d + mb) * mult) + scaled mb mult l := by simp [scaled]
    rw [hsc] at hs
    by_cases hd : d = 0
    · subst hd
      obtain ⟨s1, a, b, c⟩ := largeStep_zero (F := F) (L := L) (mb := mb) (mult := mult) (first := first) h
      rw [if_pos rfl, Nat.zero_add] at hs
      obtain ⟨s', e2, o2⟩ := ih false s1 p (n + 1) b (by omega) (by omega) (by simpa using h2) hs (by rw [c, hcu])
      refine ⟨s', by rw [popLoop, a, Option.bind_some]; exact e2, ?_⟩
      rwa [Nat.zero_add, show n + (l.length + 1) = n + 1 + l.length by omega]
    · rw [if_neg hd] at hs
      have hrest := scaled_ge mb mult (l := l) (by
        rw [List.countP_cons] at h2
        split at h2 <;> omega)
      have hx : (1 + mb) * mult ≤ (d + mb) * mult := Nat.mul_le_mul_right _ (by omega)
      have hone : 1 ≤ (1 + mb) * mult := Nat.le_trans hm' (Nat.le_mul_of_pos_left _ (by omega))
      generalize hz : (d + mb) * mult = z at *
      generalize (1 + mb) * mult = m at *
      have hc : z + s.cumul < 2 ^ 32 := by
        rw [hcu]
        split
        · have := hm ‹_›; omega
        · omega
      have hc2 : 2 ^ 22 ≤ z + s.cumul := by
        rw [hcu]
        split
        · have := hm ‹_›; omega
        · omega
      obtain ⟨s1, a, b, c⟩ := largeStep_ok hF hL (mb := mb) (mult := mult) hT (first := first) h (d := d) (by omega) (by omega) hd (by omega)
      obtain ⟨s', e2, o2⟩ := largeLoop_rest hF hL (mb := mb) (mult := mult) hT l false s1 (p + d) (n + 1) b (by omega) (by omega) (by
        rw [c, hz]
        have : (z + s.cumul) % 2 ^ 22 ≤ z + s.cumul - 2 ^ 22 := by omega
        have : s.cumul ≤ error + 2 ^ 21 := by rw [hcu]; split <;> omega
        omega)
      refine ⟨s', by rw [popLoop, a, Option.bind_some]; exact e2, ?_⟩
      rwa [show p + (d + l.sum) = p + d + l.sum by omega, show n + (l.length + 1) = n + 1 + l.length by omega]

/-! ## The result -/

theorem castInt_near {x : ℚ} (h1 : -2100000000 ≤ x) (h2 : x ≤ 2100000000) : ∃ i, castInt x = some i ∧ -2100000000 ≤ i ∧ i ≤ 2100000000 := by
  unfold castInt fitsInt
  by_cases h0 : 0 ≤ x
  · rw [if_pos h0]
    have f0 : 0 ≤ ⌊x⌋ := Int.floor_nonneg.mpr h0
    have f1 : ⌊x⌋ ≤ 2100000000 := by
      have : ⌊x⌋ < 2100000000 + 1 := Int.floor_lt.mpr (by push_cast; linarith)
      omega
    exact ⟨_, if_pos ⟨by omega, by omega⟩, by omega, by omega⟩
  · rw [if_neg h0]
    have f0 : ⌈x⌉ ≤ 0 := Int.ceil_le.mpr (by push_cast; linarith)
    have f1 : -2100000000 ≤ ⌈x⌉ := by
      have : (-2100000000 : ℚ) ≤ ⌈x⌉ := h1.trans (Int.le_ceil x)
      exact_mod_cast this
    exact ⟨_, if_pos ⟨by omega, by omega⟩, by omega, by omega⟩

theorem usedLength_le (l : List Nat) : usedLength l ≤ l.length := by
  induction l with
  | nil => exact Nat.le_refl 0
  | cons d l ih =>
    rw [usedLength, List.length_cons]
    split
    · split <;> omega
    · omega

theorem usedLength_count (l : List Nat) : l.countP (0 < ·) ≤ usedLength l := by
  induction l with
  | nil => exact Nat.le_refl 0
  | cons d l ih =>
    rw [usedLength, List.countP_cons]
    by_cases h : usedLength l = 0
    · rw [if_pos h]
      by_cases hd : d = 0
      · subst hd; rw [if_pos rfl, if_neg (by simp)]; omega
      · rw [if_neg hd, if_pos (by simp; omega)]; omega
    · rw [if_neg h]; split <;> omega

theorem usedLength_drop (l : List Nat) : ∀ d ∈ l.drop (usedLength l), d = 0 := by
  induction l with
  | nil => simp
  | cons d l ih =>
    rw [usedLength]
    by_cases h : usedLength l = 0
    · rw [h, List.drop_zero] at ih
      rw [if_pos h]
      by_cases hd : d = 0
      · rw [if_pos hd, List.drop_zero]
        intro x hx
        rcases List.mem_cons.mp hx with rfl | hx
        · exact hd
        · exact ih x hx
      · rw [if_neg hd]; exact ih
    · rw [if_neg h]; exact ih

theorem used_take (l : List Nat) : (l.take (usedLength l)).sum = l.sum ∧ (l.take (usedLength l)).countP (0 < ·) = l.countP (0 < ·) := by
  have h := usedLength_drop l
  have e := List.take_append_drop (usedLength l) l
  constructor
  · conv_rhs => rw [← e, List.sum_append, List.sum_eq_zero h, Nat.add_zero]
  · have hz : (l.drop (usedLength l)).countP (0 < ·) = 0 := List.countP_eq_zero.mpr fun x hx => by simp [h x hx]
    conv_rhs => rw [← e, List.countP_append, hz, Nat.add_zero]

theorem histogramLength_le : ∀ b ∈ kHistogramLengthBitLengths, b ≤ 8 := by decide

theorem popResult_ok {s : PopState} {count length T p n : Nat} {k : ℚ} (h : s.Ok T k p n) (hlow : (-2000000100 : ℚ) ≤ 10 * T - k * p) (hT : T ≤ 200000000) (hn : n ≤ 18) (hc : 1 ≤ count)
    (hcl : count ≤ length) (hl : length ≤ 18) : ∃ c, popResult count length s = some c := by
  have hT' : (T : ℚ) ≤ 200000000 := by exact_mod_cast hT
  have hn' : (n : ℚ) ≤ 18 := by exact_mod_cast hn
  obtain ⟨e, e1, e2, e3⟩ := castInt_near (x := s.entropy) (by linarith [h.low]) (by linarith [h.high])
  have hb := h.bits
  unfold popResult
  by_cases h1 : count = 1
  · exact ⟨_, if_pos h1⟩
  rw [if_neg h1]
  by_cases h2 : count = 2
  · rw [if_pos h2, e1, Option.bind_some, fitsInt, if_pos ⟨by omega, by omega⟩]
    exact ⟨_, rfl⟩
  · rw [if_neg h2]
    obtain ⟨b, b1, b2⟩ := tableAt_some (t := kHistogramLengthBitLengths) (i := (length : Int) - 3) (by omega) (by show (length : Int) - 3 < 16; omega)
    have := histogramLength_le b b1
    rw [b2, Option.bind_some, e1, Option.bind_some, fitsInt, if_pos ⟨by omega, by omega⟩]
    exact ⟨_, rfl⟩

theorem scaled_eq (mb mult : Nat) (l : List Nat) : scaled mb mult l = (l.sum + mb * l.countP (0 < ·)) * mult := by
  unfold scaled
  induction l with
  | nil => simp
  | cons d l ih =>
    rw [List.map_cons, List.sum_cons, ih, List.sum_cons, List.countP_cons]
    by_cases hd : d = 0
    · subst hd; simp
    · rw [if_neg hd, if_pos (by simp; omega)]; ring

theorem scale_large {T mb count : Nat} (hT : 1024 < T) (hT' : T < 2 ^ 31) (hc : count ≤ 18) (hm : T < 1024 * (mb + 1)) (hm2 : mb ≤ T / 512) :
    1 ≤ 2 ^ 32 / (T + mb * count) ∧ 2 ^ 32 / (T + mb * count) < 2 ^ 32 ∧ 2 ^ 32 % (T + mb * count) < 2 ^ 32 ∧
      (2 ^ 32 % (T + mb * count) < 2 ^ 22 → 4000000 ≤ (1 + mb) * (2 ^ 32 / (T + mb * count))) := by
  have hmc : mb * count ≤ mb * 18 := Nat.mul_le_mul_left _ hc
  generalize hN : T + mb * count = N
  have hN1 : 1024 < N := by omega
  have hN2 : N ≤ 2 ^ 32 := by omega
  have h1 : 1 ≤ 2 ^ 32 / N := (Nat.one_le_div_iff (by omega)).mpr hN2
  have h2 : 2 ^ 32 / N < 2 ^ 32 := Nat.div_lt_self (by decide) (by omega)
  have h3 : 2 ^ 32 % N < N := Nat.mod_lt _ (by omega)
  refine ⟨h1, h2, by omega, fun he => ?_⟩
  have hdm := Nat.div_add_mod (2 ^ 32) N
  generalize 2 ^ 32 / N = q at *
  generalize 2 ^ 32 % N = r at *
  have h4 : N * q ≤ ((1 + mb) * 1042) * q := Nat.mul_le_mul_right _ (by omega)
  rw [Nat.mul_right_comm] at h4
  generalize (1 + mb) * q = z at *
  omega

/-- The cost of a histogram of at most 200000000 symbols is defined. -/
theorem popCost_some {F : Arith} (hF : F.Ok) {L : Nat → ℚ} (hL : LogOk L) {h : List Nat} (hl : h.length = 18) (hs : h.sum ≤ 200000000) : ∃ c, popCost F L h = some c := by
  unfold popCost
  dsimp only
  by_cases h0 : h.sum = 0
  · exact ⟨_, if_pos h0⟩
  rw [if_neg h0, if_neg (by omega)]
  have hcount : 1 ≤ h.countP (0 < ·) := by
    by_contra hc
    apply h0
    refine List.sum_eq_zero fun x hx => ?_
    have := List.countP_eq_zero.mp (Nat.lt_one_iff.mp (Nat.lt_of_not_le hc)) x hx
    simpa using this
  have hu := usedLength_le h
  have huc := usedLength_count h
  have ht := used_take h
  have hE : ∀ (k : ℚ) (c : Nat), PopState.Ok ⟨F.double (h.sum * 10 : Nat), 0, c⟩ h.sum k 0 0 := by
    intro k c
    have hb : ((h.sum * 10 : Nat) : ℚ) ≤ 1000000000000 := by exact_mod_cast (by omega : h.sum * 10 ≤ 1000000000000)
    have hb0 : (0 : ℚ) ≤ ((h.sum * 10 : Nat) : ℚ) := Nat.cast_nonneg _
    obtain ⟨a, b⟩ := double_near hF (x := ((h.sum * 10 : Nat) : ℚ)) (by linarith) hb
    generalize F.double ((h.sum * 10 : Nat) : ℚ) = e at *
    push_cast at a b
    refine ⟨?_, ?_, Nat.zero_le _⟩
    · show _ ≤ e
      push_cast; linarith
    · show e ≤ _
      push_cast; linarith
  by_cases hbig : 1024 < h.sum
  · rw [if_pos hbig]
    by_cases h1 : h.countP (0 < ·) = 1
    · exact ⟨_, if_pos h1⟩
    rw [if_neg h1]
    have hmb : h.sum < 1024 * ((h.sum + h.sum * usedLength h / 1024 + h.sum * usedLength h / 1024 * usedLength h / 1024) / 1024 + 1) := by omega
    have hlen : usedLength h ≤ 18 := by omega
    have hp1 : h.sum * usedLength h ≤ h.sum * 18 := Nat.mul_le_mul_left _ hlen
    have hp2 : h.sum * usedLength h / 1024 * usedLength h ≤ h.sum * usedLength h / 1024 * 18 := Nat.mul_le_mul_left _ hlen
    have hmb2 : (h.sum + h.sum * usedLength h / 1024 + h.sum * usedLength h / 1024 * usedLength h / 1024) / 1024 ≤ h.sum / 512 := by
      generalize h.sum * usedLength h / 1024 * usedLength h = b at *
      generalize h.sum * usedLength h = a at *
      omega
    generalize (h.sum + h.sum * usedLength h / 1024 + h.sum * usedLength h / 1024 * usedLength h / 1024) / 1024 = mb at *
    obtain ⟨m1, m2, m3, m4⟩ := scale_large (count := h.countP (0 < ·)) hbig (by omega) (by omega) hmb hmb2
    have hdm := Nat.div_add_mod (2 ^ 32) (h.sum + mb * h.countP (0 < ·))
    rw [Nat.mod_eq_of_lt m2, Nat.mod_eq_of_lt m3]
    generalize hq : 2 ^ 32 / (h.sum + mb * h.countP (0 < ·)) = q at *
    generalize hr : 2 ^ 32 % (h.sum + mb * h.countP (0 < ·)) = r at *
    obtain ⟨s', e1, o1⟩ := largeLoop_ok hF hL (mb := mb) (mult := q) (error := r) (T := h.sum) (by omega) m4 m1 (h.take (usedLength h)) true
      ⟨F.double (h.sum * 10 : Nat), 0, if r < 2 ^ 22 then r + (2 ^ 22 - r) / 2 else r⟩ 0 0 (hE 12 _) (by rw [ht.1]; omega)
      (by rw [List.length_take]; omega) (by rw [ht.2]; omega) (by rw [scaled_eq, ht.1, ht.2]; exact hdm) rfl
    rw [e1, Option.bind_some]
    rw [ht.1] at o1
    refine popResult_ok o1 ?_ hs (by rw [List.length_take]; omega) hcount huc hlen
    have : (h.sum : ℚ) ≤ 200000000 := by exact_mod_cast hs
    push_cast
    linarith
  · rw [if_neg hbig]
    have n0 : 0 ≤ 10 - L h.sum ∧ 10 - L h.sum ≤ 10 := by
      refine ⟨?_, by linarith [hL.nonneg h.sum]⟩
      rcases Nat.lt_or_ge h.sum 1024 with hlt | hge
      · have := hL.lt (v := h.sum) (k := 9) (by omega)
        norm_num at this; linarith
      · rw [show h.sum = 1024 by omega, hL.exact]; norm_num
    obtain ⟨r1, r2⟩ := double_near hF (x := 10 - L h.sum) (by linarith [n0.1]) (by linarith [n0.2])
    obtain ⟨s', e1, o1⟩ := smallLoop_ok hF hL (norm := F.double (10 - L h.sum)) (double_nonneg hF n0.1).1 (by linarith [n0.2]) (T := h.sum) (by omega) h true
      ⟨F.double (h.sum * 10 : Nat), 0, 0⟩ 0 0 (hE 24 _) (by omega) (by omega)
    rw [e1, Option.bind_some]
    refine popResult_ok o1 ?_ hs (by omega) hcount huc (by omega)
    have : (h.sum : ℚ) ≤ 1024 := by exact_mod_cast (by omega : h.sum ≤ 1024)
    push_cast
    linarith

/-- The cost of a histogram of 214748365 or more symbols is not defined: `total_count * BRUNSLI_ANS_LOG_TAB_SIZE` overflows. -/
theorem popCost_none (F : Arith) (L : Nat → ℚ) {h : List Nat} (hs : 214748365 ≤ h.sum) : popCost F L h = none := by
  unfold popCost
  dsimp only
  rw [if_neg (by omega), if_pos (by omega)]

theorem fitsInt_range {i j : Int} (h : fitsInt i = some j) : -2 ^ 31 ≤ j ∧ j < 2 ^ 31 := by
  unfold fitsInt at h
  split at h
  · cases h; assumption
  · cases h

theorem popResult_range {count length : Nat} {s : PopState} {c : Int} (h : popResult count length s = some c) : -2 ^ 31 ≤ c ∧ c < 2 ^ 31 := by
  unfold popResult at h
  split at h
  · cases h; decide
  · split at h
    · obtain ⟨e, -, h⟩ := Option.bind_eq_some_iff.mp h
      exact fitsInt_range h
    · obtain ⟨b, -, h⟩ := Option.bind_eq_some_iff.mp h
      obtain ⟨e, -, h⟩ := Option.bind_eq_some_iff.mp h
      exact fitsInt_range h

theorem popCost_range {F : Arith} {L : Nat → ℚ} {h : List Nat} {c : Int} (hc : popCost F L h = some c) : -2 ^ 31 ≤ c ∧ c < 2 ^ 31 := by
  unfold popCost at hc
  dsimp only at hc
  split at hc
  · cases hc; decide
  · split at hc
    · cases hc
    · split at hc
      · split at hc
        · cases hc; decide
        · obtain ⟨s, -, h⟩ := Option.bind_eq_some_iff.mp hc
          exact popResult_range h
      · obtain ⟨s, -, h⟩ := Option.bind_eq_some_iff.mp hc
        exact popResult_range h

/-! ## The contract of the clustering -/

theorem double_abs {F : Arith} (hF : F.Ok) {x B : ℚ} (h : |x| ≤ B) : |F.double x| ≤ 2 * B := by
  have h1 := hF.double x
  have h2 : |x| / 2 ^ 52 ≤ |x| := div_le_self (abs_nonneg x) (by norm_num)
  have h3 := abs_sub_abs_le_abs_sub (F.double x) x
  linarith

theorem mulLog_abs {L : Nat → ℚ} (hL : LogOk L) {n : Nat} (hn : n < 2 ^ 15) : |(n : ℚ) * L n| ≤ 2 ^ 19 := by
  have h1 := hL.nonneg n
  have h2 := hL.lt (v := n) (k := 14) (by omega)
  have h3 : (0 : ℚ) ≤ n := Nat.cast_nonneg n
  have h4 : (n : ℚ) ≤ 2 ^ 15 := by exact_mod_cast hn.le
  rw [abs_of_nonneg (mul_nonneg h3 h1)]
  calc (n : ℚ) * L n ≤ 2 ^ 15 * 15 := mul_le_mul h4 (by push_cast at h2; linarith) h1 (by norm_num)
    _ ≤ 2 ^ 19 := by norm_num

theorem pop_abs (F : Arith) (L : Nat → ℚ) (h : List Nat) : |(realCosts F L).pop h| ≤ 2 ^ 31 := by
  show |(((popCost F L h).getD 0 : Int) : ℚ)| ≤ _
  cases hc : popCost F L h with
  | none => simp
  | some c =>
    obtain ⟨a, b⟩ := popCost_range hc
    rw [Option.getD_some, abs_le]
    constructor
    · exact_mod_cast a
    · exact_mod_cast b.le

theorem diff_abs {F : Arith} (hF : F.Ok) {L : Nat → ℚ} (hL : LogOk L) {a b : Nat} (hn : a + b < 2 ^ 15) {c1 c2 : ℚ} (h1 : |c1| ≤ 2 ^ 31) (h2 : |c2| ≤ 2 ^ 31) :
    |(realCosts F L).diff a b c1 c2| ≤ 2 ^ 36 := by
  have x1 := double_abs hF (mulLog_abs hL (n := a) (by omega))
  have x2 := double_abs hF (mulLog_abs hL (n := b) (by omega))
  have x3 := double_abs hF (mulLog_abs hL (n := a + b) hn)
  have x4 := double_abs hF ((abs_add_le (F.double (a * L a)) (F.double (b * L b))).trans (add_le_add x1 x2))
  have x5 := double_abs hF ((abs_sub _ _).trans (add_le_add x4 x3))
  have x6 : |F.double (1 / 2 * clusterCostDiff F L a b)| ≤ 2 ^ 25 := by
    refine (double_abs hF (B := 2 ^ 24) ?_).trans (by norm_num)
    rw [abs_mul, abs_of_pos (by norm_num : (0 : ℚ) < 1 / 2)]
    have : |clusterCostDiff F L a b| ≤ 2 * (2 * (2 * 2 ^ 19 + 2 * 2 ^ 19) + 2 * 2 ^ 19) := x5
    norm_num at this ⊢
    linarith
  have x7 := double_abs hF ((abs_sub _ _).trans (add_le_add x6 h1))
  have x8 := double_abs hF ((abs_sub _ _).trans (add_le_add x7 h2))
  refine le_trans x8 (by norm_num)

theorem big_large {F : Arith} (hF : F.Ok) : (10 : ℚ) ^ 98 ≤ (realCosts F L).big := by
  have h := abs_le.mp (hF.double (10 ^ 99))
  rw [abs_of_pos (by norm_num)] at h
  have := h.1
  show (10 : ℚ) ^ 98 ≤ F.double (10 ^ 99)
  norm_num at this ⊢
  linarith

/-- Costs are small in comparison with `1e99`, for any number of symbols. -/
theorem realCosts_small {F : Arith} (hF : F.Ok) {L : Nat → ℚ} (hL : LogOk L) {a b : Nat} (hn : a + b < 2 ^ 15) (h1 h2 h : List Nat) :
    (realCosts F L).pop h < (realCosts F L).sub (realCosts F L).big ((realCosts F L).diff a b ((realCosts F L).pop h1) ((realCosts F L).pop h2)) ∧
    (realCosts F L).add ((realCosts F L).diff a b ((realCosts F L).pop h1) ((realCosts F L).pop h2)) ((realCosts F L).pop h) < (realCosts F L).big := by
  have hb := big_large (L := L) hF
  have hd := diff_abs hF hL hn (pop_abs F L h1) (pop_abs F L h2)
  have hp := pop_abs F L h
  generalize (realCosts F L).diff a b ((realCosts F L).pop h1) ((realCosts F L).pop h2) = d at *
  generalize (realCosts F L).pop h = c at *
  generalize (realCosts F L).big = B at *
  obtain ⟨d1, d2⟩ := abs_le.mp hd
  obtain ⟨p1, p2⟩ := abs_le.mp hp
  constructor
  · show c < F.double (B - d)
    have hpos : (10 : ℚ) ^ 97 ≤ B - d := by norm_num at *; linarith
    have h := abs_le.mp (hF.double (B - d))
    rw [abs_of_nonneg (le_trans (by norm_num) hpos)] at h
    have h3 : (B - d) / 2 ^ 52 ≤ (B - d) / 2 := div_le_div_of_nonneg_left (le_trans (by norm_num) hpos) (by norm_num) (by norm_num)
    have h1 := h.1
    norm_num at *
    linarith
  · show F.double (d + c) < B
    have := (abs_le.mp (double_abs hF ((abs_add_le d c).trans (add_le_add hd hp)))).2
    norm_num at *
    linarith

theorem realCosts_ok {F : Arith} (hF : F.Ok) {L : Nat → ℚ} (hL : LogOk L) {B N : Nat} (hB : B ≤ 100000000) (hN : N < 2 ^ 15) : (realCosts F L).Ok B N where
  combo := fun sa sb h1 h2 h hs _ _ _ => (realCosts_small hF hL (by omega) h1 h2 h).1
  diff := fun sa sb h1 h2 h hs _ _ _ => (realCosts_small hF hL (by omega) h1 h2 h).2
  dom := fun h hl hs => by
    obtain ⟨c, hc⟩ := popCost_some hF hL hl (by omega : h.sum ≤ 200000000)
    show (popCost F L h).isSome = true
    rw [hc]; rfl

end Brunsli
