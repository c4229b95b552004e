import Verif.HistSection
import Mathlib.Tactic.Linarith
import Mathlib.Tactic.NormNum
import Mathlib.Tactic.Ring
import Mathlib.Data.Rat.Floor
import Mathlib.Data.Int.Log
/-!
# The floating point computations of `NormalizeCounts`

c/enc/histogram_encode.cc:46-128.  Floating point numbers are rationals, every operation is followed by a rounding, of which only the
relative error is used; `roundTo` is a concrete one.  No operation here overflows or underflows: the quotient is at least 2^-54.
-/

namespace Brunsli

/-- The roundings that follow operations in single and double precision. -/
structure Arith where
  single : ℚ → ℚ
  double : ℚ → ℚ

/-- The relative error of one operation. -/
structure Arith.Ok (F : Arith) : Prop where
  single : ∀ x, |F.single x - x| ≤ |x| / 2 ^ 23
  double : ∀ x, |F.double x - x| ≤ |x| / 2 ^ 52

/-- Rounding to `p` significant bits, to nearest (halfway cases up), exponents being unbounded. -/
def roundTo (p : Nat) (x : ℚ) : ℚ :=
  let u : ℚ := 2 ^ (Int.log 2 |x| - (p - 1 : Int))
  round (x / u) * u

theorem roundTo_error (p : Nat) (hp : 1 ≤ p) (x : ℚ) : |roundTo p x - x| ≤ |x| / 2 ^ p := by
  unfold roundTo
  rcases eq_or_ne x 0 with rfl | hx
  · simp
  have hpos : 0 < |x| := abs_pos.mpr hx
  have hu : (0 : ℚ) < 2 ^ (Int.log 2 |x| - (p - 1 : Int)) := zpow_pos (by norm_num) _
  have hle : (2 : ℚ) ^ Int.log 2 |x| ≤ |x| := Int.zpow_log_le_self (b := 2) (by decide) hpos
  have hup : (2 : ℚ) ^ (Int.log 2 |x| - (p - 1 : Int)) = 2 ^ Int.log 2 |x| * 2 / 2 ^ p := by
    rw [show Int.log 2 |x| - (p - 1 : Int) = Int.log 2 |x| + 1 - (p : Int) by ring, zpow_sub₀ (by norm_num), zpow_add_one₀ (by norm_num), zpow_natCast]
  have hk : (0 : ℚ) < 2 ^ p := pow_pos (by norm_num) _
  generalize hdef : (2 : ℚ) ^ (Int.log 2 |x| - (p - 1 : Int)) = u at *
  dsimp only
  have h1 := abs_sub_round (x / u)
  have e : (round (x / u) : ℚ) * u - x = -((x / u - round (x / u)) * u) := by
    rw [sub_mul, div_mul_cancel₀ _ (ne_of_gt hu)]; ring
  rw [e, abs_neg, abs_mul, abs_of_pos hu]
  calc |x / u - round (x / u)| * u ≤ 1 / 2 * u := mul_le_mul_of_nonneg_right h1 hu.le
    _ = 2 ^ Int.log 2 |x| / 2 ^ p := by rw [hup]; ring
    _ ≤ |x| / 2 ^ p := div_le_div_of_nonneg_right hle hk.le

/-- Arithmetic in 24 and 53 bits. -/
def nearest : Arith := ⟨roundTo 24, roundTo 53⟩

theorem nearest_ok : nearest.Ok := by
  have h : ∀ k, ∀ x : ℚ, |roundTo (k + 1) x - x| ≤ |x| / 2 ^ k := by
    intro k x
    refine (roundTo_error (k + 1) (by omega) x).trans ?_
    apply div_le_div_of_nonneg_left (abs_nonneg _) (by positivity)
    exact pow_le_pow_right₀ (by norm_num) (by omega)
  exact ⟨h 23, h 52⟩

/-- `targets` (c/enc/histogram_encode.cc:113-117); `total` and the counts are converted to single precision. -/
def floatTargets (F : Arith) (histo : List Nat) : List ℚ :=
  let norm := F.single (1024 / F.single histo.sum)
  histo.map fun c : Nat => F.single (norm * F.single c)

/-- `counts[n]` before it may be raised (c/enc/histogram_encode.cc:62-69). -/
def baseCount (r : Nat) : Nat :=
  let c := if r = 0 then 1 else r
  let c := if c = 1024 then 1023 else c
  c - c % smallestIncrement c

/-- `inc` (c/enc/histogram_encode.cc:68). -/
def baseInc (r : Nat) : Nat :=
  let c := if r = 0 then 1 else r
  smallestIncrement (if c = 1024 then 1023 else c)

/-- The decisions of `RebalanceHistogram` (c/enc/histogram_encode.cc:46-82), `sum` and `non` being `sum` and `sum_nonrounded` so far.
Integers below 2^24 are exact in single precision. -/
def floatDecisions (F : Arith) (minimize : Bool) : List ℚ → Nat → ℚ → List (Option Target)
  | [], _, _ => []
  | t :: ts, sum, non =>
    if 0 < t then
      let non := F.single (non + t)
      let r := ⌊F.double (t + 1 / 2)⌋₊
      let target := if minimize then F.single (non - sum) else t
      let d : Target := ⟨r, decide (target > (baseCount r + baseInc r / 2 : Nat))⟩
      some d :: floatDecisions F minimize ts (sum + roundCount d) non
    else none :: floatDecisions F minimize ts sum non

/-- `NormalizeCounts` (c/enc/histogram_encode.cc:89-128); `none` is the abort by `BRUNSLI_CHECK`. -/
def normalizeFloat (F : Arith) (histo : List Nat) : Option (List Nat × Nat) :=
  normalizeCounts histo (floatDecisions F false (floatTargets F histo) 0 0) (floatDecisions F true (floatTargets F histo) 0 0)

/-- The histogram with the decisions made about it. -/
def floatCluster (F : Arith) (histo : List Nat) : Cluster :=
  ⟨histo, floatDecisions F false (floatTargets F histo) 0 0, floatDecisions F true (floatTargets F histo) 0 0⟩

/-! ## Rounding of one count -/

theorem roundCount_eq (t : Target) : roundCount t = if baseCount t.rounded = 0 ∨ (t.up = true ∧ baseCount t.rounded + baseInc t.rounded < 1024)
    then baseCount t.rounded + baseInc t.rounded else baseCount t.rounded := rfl

theorem baseCount_table : ∀ r < 1025, 1 ≤ baseCount r ∧ baseCount r ≤ max r 1 ∧ (32 ≤ r → 32 ≤ baseCount r) ∧ baseInc r - baseInc r / 2 ≤ 8 := by
  decide +kernel

/-! ## Targets -/

theorem Arith.Ok.single_mul {F : Arith} (h : F.Ok) (x : ℚ) (hx : 0 ≤ x) : x * (1 - 1 / 2 ^ 23) ≤ F.single x ∧ F.single x ≤ x * (1 + 1 / 2 ^ 23) := by
  have := abs_le.mp (h.single x)
  rw [abs_of_nonneg hx] at this
  constructor <;> linarith [this.1, this.2]

theorem Arith.Ok.single_abs {F : Arith} (h : F.Ok) (x B : ℚ) (hx : |x| ≤ B) : x - B / 2 ^ 23 ≤ F.single x ∧ F.single x ≤ x + B / 2 ^ 23 := by
  have := abs_le.mp (h.single x)
  have hB : |x| / 2 ^ 23 ≤ B / 2 ^ 23 := div_le_div_of_nonneg_right hx (by norm_num)
  constructor <;> linarith [this.1, this.2]

/-- The target of a symbol, up to a relative error of 2^-20. -/
theorem floatTarget_bounds {F : Arith} (h : F.Ok) {total c : Nat} (ht : 0 < total) :
    (1024 * c / total : ℚ) * (1 - 1 / 2 ^ 20) ≤ F.single (F.single (1024 / F.single total) * F.single c) ∧
    F.single (F.single (1024 / F.single total) * F.single c) ≤ (1024 * c / total : ℚ) * (1 + 1 / 2 ^ 20) := by
  have hT : (0 : ℚ) < total := by exact_mod_cast ht
  have hC : (0 : ℚ) ≤ c := by positivity
  obtain ⟨a1, a2⟩ := h.single_mul total hT.le
  have hs : 0 < F.single total := lt_of_lt_of_le (by positivity) a1
  -- the quotient
  have q1 : 1024 / (total : ℚ) * (1 - 1 / 2 ^ 23) ≤ 1024 / F.single total := by
    rw [le_div_iff₀ hs]
    calc 1024 / (total : ℚ) * (1 - 1 / 2 ^ 23) * F.single total ≤ 1024 / (total : ℚ) * (1 - 1 / 2 ^ 23) * (total * (1 + 1 / 2 ^ 23)) :=
          mul_le_mul_of_nonneg_left a2 (by positivity)
      _ = 1024 * ((1 - 1 / 2 ^ 23) * (1 + 1 / 2 ^ 23)) := by field_simp
      _ ≤ 1024 := by norm_num
  have q2 : 1024 / F.single total ≤ 1024 / (total : ℚ) * (1 + 1 / 2 ^ 22) := by
    rw [div_le_iff₀ hs]
    calc (1024 : ℚ) ≤ 1024 * ((1 + 1 / 2 ^ 22) * (1 - 1 / 2 ^ 23)) := by norm_num
      _ = 1024 / (total : ℚ) * (1 + 1 / 2 ^ 22) * (total * (1 - 1 / 2 ^ 23)) := by field_simp
      _ ≤ 1024 / (total : ℚ) * (1 + 1 / 2 ^ 22) * F.single total := mul_le_mul_of_nonneg_left a1 (by positivity)
  have hq : 0 < 1024 / F.single total := by positivity
  generalize 1024 / F.single total = q at *
  obtain ⟨n1, n2⟩ := h.single_mul q hq.le
  have hD : (0 : ℚ) < 1024 / total := by positivity
  have hDe : (1024 * c / total : ℚ) = 1024 / total * c := by ring
  rw [hDe]
  generalize (1024 / total : ℚ) = D at *
  have m1 : D * (1 - 1 / 2 ^ 22) ≤ F.single q := by
    have : D * (1 - 1 / 2 ^ 23) * (1 - 1 / 2 ^ 23) ≤ q * (1 - 1 / 2 ^ 23) := mul_le_mul_of_nonneg_right q1 (by norm_num)
    have e : D * (1 - 1 / 2 ^ 22) ≤ D * (1 - 1 / 2 ^ 23) * (1 - 1 / 2 ^ 23) := by
      rw [mul_assoc]; exact mul_le_mul_of_nonneg_left (by norm_num) hD.le
    linarith
  have m2 : F.single q ≤ D * (1 + 1 / 2 ^ 21) := by
    have : q * (1 + 1 / 2 ^ 23) ≤ D * (1 + 1 / 2 ^ 22) * (1 + 1 / 2 ^ 23) := mul_le_mul_of_nonneg_right q2 (by norm_num)
    have e : D * (1 + 1 / 2 ^ 22) * (1 + 1 / 2 ^ 23) ≤ D * (1 + 1 / 2 ^ 21) := by
      rw [mul_assoc]; exact mul_le_mul_of_nonneg_left (by norm_num) hD.le
    linarith
  have hN : 0 ≤ F.single q := le_trans (mul_nonneg hD.le (by norm_num)) m1
  generalize F.single q = N at *
  obtain ⟨c1, c2⟩ := h.single_mul c hC
  have hC' : 0 ≤ F.single c := le_trans (mul_nonneg hC (by norm_num)) c1
  generalize F.single c = C at *
  have p1 : D * c * ((1 - 1 / 2 ^ 22) * (1 - 1 / 2 ^ 23)) ≤ N * C := by
    calc D * c * ((1 - 1 / 2 ^ 22) * (1 - 1 / 2 ^ 23)) = (D * (1 - 1 / 2 ^ 22)) * (c * (1 - 1 / 2 ^ 23)) := by ring
      _ ≤ N * (c * (1 - 1 / 2 ^ 23)) := mul_le_mul_of_nonneg_right m1 (mul_nonneg hC (by norm_num))
      _ ≤ N * C := mul_le_mul_of_nonneg_left c1 hN
  have p2 : N * C ≤ D * c * ((1 + 1 / 2 ^ 21) * (1 + 1 / 2 ^ 23)) := by
    calc N * C ≤ N * (c * (1 + 1 / 2 ^ 23)) := mul_le_mul_of_nonneg_left c2 hN
      _ ≤ (D * (1 + 1 / 2 ^ 21)) * (c * (1 + 1 / 2 ^ 23)) := mul_le_mul_of_nonneg_right m2 (mul_nonneg hC (by norm_num))
      _ = D * c * ((1 + 1 / 2 ^ 21) * (1 + 1 / 2 ^ 23)) := by ring
  have hDC : 0 ≤ D * c := mul_nonneg hD.le hC
  generalize D * (c : ℚ) = E at *
  obtain ⟨r1, r2⟩ := h.single_mul (N * C) (mul_nonneg hN hC')
  generalize N * C = P at *
  constructor
  · have e1 : E * (1 - 1 / 2 ^ 20) ≤ E * ((1 - 1 / 2 ^ 22) * (1 - 1 / 2 ^ 23)) * (1 - 1 / 2 ^ 23) := by
      rw [mul_assoc]; exact mul_le_mul_of_nonneg_left (by norm_num) hDC
    have e2 := mul_le_mul_of_nonneg_right p1 (show (0 : ℚ) ≤ 1 - 1 / 2 ^ 23 by norm_num)
    linarith
  · have e1 : E * ((1 + 1 / 2 ^ 21) * (1 + 1 / 2 ^ 23)) * (1 + 1 / 2 ^ 23) ≤ E * (1 + 1 / 2 ^ 20) := by
      rw [mul_assoc]; exact mul_le_mul_of_nonneg_left (by norm_num) hDC
    have e2 := mul_le_mul_of_nonneg_right p2 (show (0 : ℚ) ≤ 1 + 1 / 2 ^ 23 by norm_num)
    linarith

/-- The rounded target. -/
theorem floatRound_bounds {F : Arith} (h : F.Ok) {t : ℚ} (h0 : 0 ≤ t) (h1 : t ≤ 1024 + 1 / 1024) :
    (⌊F.double (t + 1 / 2)⌋₊ : ℚ) ≤ t + 1 / 2 + 1 / 4096 ∧ t - 1 / 2 - 1 / 4096 ≤ (⌊F.double (t + 1 / 2)⌋₊ : ℚ) ∧ ⌊F.double (t + 1 / 2)⌋₊ ≤ 1024 := by
  have hd := abs_le.mp (h.double (t + 1 / 2))
  rw [abs_of_nonneg (by linarith)] at hd
  have he : (t + 1 / 2) / 2 ^ 23 ≤ 1 / 4096 := by
    rw [div_le_iff₀ (by norm_num)]; norm_num; linarith
  have hx : 0 ≤ F.double (t + 1 / 2) := by
    have : (t + 1 / 2) / 2 ^ 23 ≤ t + 1 / 2 := div_le_self (by linarith) (by norm_num)
    linarith [hd.1]
  have f1 := Nat.floor_le hx
  have f2 := Nat.lt_floor_add_one (F.double (t + 1 / 2))
  refine ⟨by linarith [hd.2], by linarith [hd.1], ?_⟩
  have : (⌊F.double (t + 1 / 2)⌋₊ : ℚ) < 1025 := by linarith [hd.2]
  have : ⌊F.double (t + 1 / 2)⌋₊ < 1025 := by exact_mod_cast this
  omega

/-! ## The sum of the counts -/

/-- One step: the sum of the counts stays close to the sum of the targets. -/
theorem floatStep {F : Arith} (h : F.Ok) {t non : ℚ} {sum : Nat} {k : ℚ} (h0 : 0 ≤ t) (h1 : t ≤ 1024 + 1 / 1024) (hn0 : 0 ≤ non) (hn : non + t ≤ 1030) (hs : sum ≤ 2000)
    (hk0 : 0 ≤ k) (hi : (sum : ℚ) ≤ non + 9 + k) {r : Nat} (hr : r = ⌊F.double (t + 1 / 2)⌋₊) {non' : ℚ} (hnon : non' = F.single (non + t)) :
    non' ≤ non + t + 1 / 4096 ∧ 0 ≤ non' ∧
    ((sum + roundCount ⟨r, decide (F.single (non' - sum) > (baseCount r + baseInc r / 2 : Nat))⟩ : Nat) : ℚ) ≤ non' + 9 + (k + 1 + 1 / 4096) := by
  obtain ⟨r1, r2, r3⟩ := floatRound_bounds h h0 h1
  rw [← hr] at r1 r2 r3
  obtain ⟨b1, b2, -, b4⟩ := baseCount_table r (by omega)
  have hN := h.single_abs (non + t) 2048 (by rw [abs_of_nonneg (by linarith)]; linarith)
  rw [← hnon] at hN
  have hN1 : non + t - 1 / 4096 ≤ non' := by have := hN.1; norm_num at this ⊢; linarith
  have hN2 : non' ≤ non + t + 1 / 4096 := by have := hN.2; norm_num at this ⊢; linarith
  have hN0 : 0 ≤ non' := by
    have := (h.single_mul (non + t) (by linarith)).1
    rw [← hnon] at this
    exact le_trans (mul_nonneg (by linarith) (by norm_num)) this
  refine ⟨hN2, hN0, ?_⟩
  have hsQ : (sum : ℚ) ≤ 2000 := by exact_mod_cast hs
  have hs0 : (0 : ℚ) ≤ sum := by positivity
  rw [roundCount_eq]
  dsimp only
  by_cases hup : F.single (non' - sum) > (baseCount r + baseInc r / 2 : Nat)
  swap
  · rw [if_neg (by rintro (hz | ⟨hz, _⟩); · omega
                   · exact hup (of_decide_eq_true hz))]
    push_cast
    have : (baseCount r : ℚ) ≤ t + 1 := by
      have hb2 : (baseCount r : ℚ) ≤ max (r : ℚ) 1 := by exact_mod_cast b2
      rcases le_total (r : ℚ) 1 with hle | hle
      · rw [max_eq_right hle] at hb2; linarith
      · rw [max_eq_left hle] at hb2; linarith
    linarith
  · have hT := h.single_abs (non' - sum) 8192 (by rw [abs_le]; constructor <;> linarith)
    have hT2 : F.single (non' - sum) ≤ non' - sum + 1 / 1024 := by have := hT.2; norm_num at this ⊢; linarith
    push_cast at hup
    have h4 : (baseInc r : ℚ) ≤ 8 + (baseInc r / 2 : Nat) := by
      have : baseInc r ≤ 8 + baseInc r / 2 := by omega
      exact_mod_cast this
    split
    · push_cast
      push_cast at h4
      linarith
    · push_cast
      have : (0 : ℚ) ≤ (baseInc r / 2 : Nat) := by positivity
      push_cast at this
      linarith

def countsOf (ts : List (Option Target)) : List Nat := ts.map fun t => match t with
    | none => 0
    | some t => roundCount t

theorem rebalance_eq (ts : List (Option Target)) : rebalance ts = if (countsOf ts).sum < (countsOf ts).getD (remainderPos (countsOf ts) 0 0 0) 0 + 1024 then
    some ((countsOf ts).set (remainderPos (countsOf ts) 0 0 0) ((countsOf ts).getD (remainderPos (countsOf ts) 0 0 0) 0 + 1024 - (countsOf ts).sum),
      remainderPos (countsOf ts) 0 0 0) else none := rfl

theorem sum_nonneg_rat {ts : List ℚ} (h : ∀ t ∈ ts, 0 ≤ t) : 0 ≤ ts.sum := by
  induction ts with
  | nil => simp
  | cons t ts ih =>
    rw [List.sum_cons]
    exact add_nonneg (h t List.mem_cons_self) (ih fun x hx => h x (List.mem_cons_of_mem _ hx))

/-- The sum of the counts of the second way of rounding. -/
theorem floatDecisions_sum {F : Arith} (h : F.Ok) (ts : List ℚ) : ∀ (sum : Nat) (non k : ℚ), (∀ t ∈ ts, 0 ≤ t ∧ t ≤ 1024 + 1 / 1024) → 0 ≤ non → 0 ≤ k →
    non + ts.sum + ts.length / 4096 ≤ 1026 → k + 2 * ts.length ≤ 40 → (sum : ℚ) ≤ non + 9 + k →
    ((sum + (countsOf (floatDecisions F true ts sum non)).sum : Nat) : ℚ) ≤ non + ts.sum + ts.length / 4096 + 9 + (k + ts.length + ts.length / 4096) := by
  induction ts with
  | nil => intro sum non k _ _ _ _ _ hi; simp [countsOf, floatDecisions]; linarith
  | cons t ts ih =>
    intro sum non k ht hn hk hb hl hi
    obtain ⟨t0, t1⟩ := ht t List.mem_cons_self
    have hts : 0 ≤ ts.sum := sum_nonneg_rat fun x hx => (ht x (List.mem_cons_of_mem _ hx)).1
    have hlen : (0 : ℚ) ≤ ts.length := by positivity
    rw [List.sum_cons, List.length_cons] at *
    push_cast at hb hl ⊢
    have hsum : sum ≤ 2000 := by
      have : (sum : ℚ) ≤ 2000 := by linarith
      exact_mod_cast this
    unfold floatDecisions
    by_cases hpos : 0 < t
    · rw [if_pos hpos]
      obtain ⟨s1, s2, s3⟩ := floatStep h t0 t1 hn (by linarith) hsum hk hi (r := ⌊F.double (t + 1 / 2)⌋₊) rfl rfl
      dsimp only
      rw [if_pos rfl]
      generalize hd : (⟨⌊F.double (t + 1 / 2)⌋₊, decide (F.single (F.single (non + t) - sum) > (baseCount ⌊F.double (t + 1 / 2)⌋₊ + baseInc ⌊F.double (t + 1 / 2)⌋₊ / 2 : Nat))⟩ : Target) = d at *
      have := ih (sum + roundCount d) (F.single (non + t)) (k + 1 + 1 / 4096) (fun x hx => ht x (List.mem_cons_of_mem _ hx)) s2 (by linarith) (by linarith) (by linarith) s3
      rw [show countsOf (some d :: floatDecisions F true ts (sum + roundCount d) (F.single (non + t))) =
        roundCount d :: countsOf (floatDecisions F true ts (sum + roundCount d) (F.single (non + t))) from rfl, List.sum_cons]
      push_cast at this ⊢
      linarith
    · rw [if_neg hpos]
      have := ih sum non k (fun x hx => ht x (List.mem_cons_of_mem _ hx)) hn hk (by linarith) (by linarith) hi
      rw [show countsOf (none :: floatDecisions F true ts sum non) = 0 :: countsOf (floatDecisions F true ts sum non) from rfl, List.sum_cons, Nat.zero_add]
      push_cast at this ⊢
      linarith

/-! ## The decisions, one by one -/

theorem floatDecisions_length (F : Arith) (m : Bool) (ts : List ℚ) : ∀ sum non, (floatDecisions F m ts sum non).length = ts.length := by
  induction ts with
  | nil => intro _ _; rfl
  | cons t ts ih =>
    intro sum non
    unfold floatDecisions
    split
    · dsimp only; rw [List.length_cons, List.length_cons, ih]
    · rw [List.length_cons, List.length_cons, ih]

theorem floatDecisions_get (F : Arith) (m : Bool) (ts : List ℚ) : ∀ (sum : Nat) (non : ℚ) (i : Nat) (t : ℚ), ts[i]? = some t →
    (0 < t ∧ ∃ up, (floatDecisions F m ts sum non)[i]? = some (some (Target.mk ⌊F.double (t + 1 / 2)⌋₊ up))) ∨ (¬ 0 < t ∧ (floatDecisions F m ts sum non)[i]? = some none) := by
  induction ts with
  | nil => intro _ _ i t h; simp at h
  | cons t ts ih =>
    intro sum non i t' h
    unfold floatDecisions
    cases i with
    | zero =>
      rw [List.getElem?_cons_zero] at h
      cases h
      by_cases hp : 0 < t
      · rw [if_pos hp]; exact .inl ⟨hp, _, rfl⟩
      · rw [if_neg hp]; exact .inr ⟨hp, rfl⟩
    | succ i =>
      rw [List.getElem?_cons_succ] at h
      split
      · dsimp only; rw [List.getElem?_cons_succ]; exact ih _ _ i t' h
      · rw [List.getElem?_cons_succ]; exact ih _ _ i t' h

theorem Arith.Ok.single_zero {F : Arith} (h : F.Ok) : F.single 0 = 0 := by
  have := h.single 0
  rw [abs_zero, zero_div, sub_zero] at this
  exact abs_eq_zero.mp (le_antisymm this (abs_nonneg _))

theorem floatTargets_get {F : Arith} {histo : List Nat} {i c : Nat} (hi : histo[i]? = some c) :
    (floatTargets F histo)[i]? = some (F.single (F.single (1024 / F.single histo.sum) * F.single c)) := by
  unfold floatTargets
  dsimp only
  rw [List.getElem?_map, hi]; rfl

theorem floatTargets_pos {F : Arith} (h : F.Ok) {histo : List Nat} {i c : Nat} (hi : histo[i]? = some c) :
    (0 < F.single (F.single (1024 / F.single histo.sum) * F.single c) ↔ c ≠ 0) ∧ 0 ≤ F.single (F.single (1024 / F.single histo.sum) * F.single c) ∧
    F.single (F.single (1024 / F.single histo.sum) * F.single c) ≤ 1024 + 1 / 1024 := by
  rcases Nat.eq_zero_or_pos c with rfl | hc
  · rw [Nat.cast_zero, h.single_zero, mul_zero, h.single_zero]
    norm_num
  have hle : c ≤ histo.sum := by
    have := getD_le_sum (l := histo) i
    rw [List.getD_eq_getElem?_getD, hi] at this
    exact this
  have ht : 0 < histo.sum := by omega
  obtain ⟨b1, b2⟩ := floatTarget_bounds h (c := c) ht
  have hT : (0 : ℚ) < histo.sum := by exact_mod_cast ht
  have hC : (0 : ℚ) < c := by exact_mod_cast hc
  have hpos : (0 : ℚ) < 1024 * c / histo.sum * (1 - 1 / 2 ^ 20) := mul_pos (by positivity) (by norm_num)
  have hle' : (1024 * c / histo.sum : ℚ) ≤ 1024 := by
    rw [div_le_iff₀ hT]
    exact mul_le_mul_of_nonneg_left (by exact_mod_cast hle) (by norm_num)
  refine ⟨⟨fun _ => by omega, fun _ => lt_of_lt_of_le hpos b1⟩, (lt_of_lt_of_le hpos b1).le, b2.trans ?_⟩
  calc (1024 * c / histo.sum : ℚ) * (1 + 1 / 2 ^ 20) ≤ 1024 * (1 + 1 / 2 ^ 20) := mul_le_mul_of_nonneg_right hle' (by norm_num)
    _ ≤ 1024 + 1 / 1024 := by norm_num

theorem floatDecisions_targets {F : Arith} (h : F.Ok) {histo : List Nat} (hl : histo.length = 18) (m : Bool) :
    TargetsFor histo (floatDecisions F m (floatTargets F histo) 0 0) := by
  have hlen : (floatTargets F histo).length = 18 := by unfold floatTargets; simp [hl]
  have key : ∀ i < 18, ∃ c, histo[i]? = some c ∧ ((c ≠ 0 ∧ ∃ up r, r ≤ 1024 ∧ (floatDecisions F m (floatTargets F histo) 0 0)[i]? = some (some ⟨r, up⟩)) ∨
      (c = 0 ∧ (floatDecisions F m (floatTargets F histo) 0 0)[i]? = some none)) := by
    intro i hi
    have hc : histo[i]? = some histo[i] := List.getElem?_eq_getElem (by omega)
    refine ⟨_, hc, ?_⟩
    obtain ⟨p1, p2, p3⟩ := floatTargets_pos h hc
    rcases floatDecisions_get F m _ 0 0 i _ (floatTargets_get (F := F) hc) with ⟨q1, up, q2⟩ | ⟨q1, q2⟩
    · exact .inl ⟨p1.mp q1, up, _, (floatRound_bounds h p2 p3).2.2, q2⟩
    · exact .inr ⟨by by_contra hne; exact q1 (p1.mpr hne), q2⟩
  refine ⟨by rw [floatDecisions_length, hlen], ?_, ?_⟩
  · intro t ht
    obtain ⟨i, hi⟩ := List.getElem?_of_mem ht
    have hi18 : i < 18 := by
      have := (List.getElem?_eq_some_iff.mp hi).1
      rwa [floatDecisions_length, hlen] at this
    obtain ⟨c, _, ⟨_, up, r, q1, q2⟩ | ⟨_, q2⟩⟩ := key i hi18
    · rw [hi] at q2; cases q2; exact q1
    · rw [hi] at q2; cases q2
  · intro i hi
    obtain ⟨c, hc, ⟨c0, up, r, q1, q2⟩ | ⟨c0, q2⟩⟩ := key i hi
    · rw [List.getD_eq_getElem?_getD, hc]
      exact ⟨fun _ => ⟨_, q2⟩, fun _ => c0⟩
    · rw [List.getD_eq_getElem?_getD, hc]
      refine ⟨fun hn => absurd c0 hn, ?_⟩
      rintro ⟨t, ht⟩
      rw [q2] at ht; cases ht

/-! ## `NormalizeCounts` does not abort -/

theorem exists_large {l : List Nat} (hl : l.length = 18) : ∃ c ∈ l, l.sum ≤ 18 * c := by
  by_contra hno
  have : ∀ l' : List Nat, (∀ c ∈ l', 18 * c < l.sum) → 18 * l'.sum + l'.length ≤ l'.length * l.sum := by
    intro l'
    induction l' with
    | nil => simp
    | cons c l' ih =>
      intro h
      have h1 := ih fun x hx => h x (List.mem_cons_of_mem _ hx)
      have h2 := h c List.mem_cons_self
      rw [List.sum_cons, List.length_cons, Nat.add_mul, Nat.one_mul]
      omega
  have h1 := this l fun c hc => by
    by_contra hn
    exact hno ⟨c, hc, by omega⟩
  rw [hl] at h1
  omega

theorem floatTargets_sum {F : Arith} (h : F.Ok) {histo : List Nat} (h0 : 0 < histo.sum) : (floatTargets F histo).sum ≤ 1024 + 1 / 1024 := by
  have hT : (0 : ℚ) < histo.sum := by exact_mod_cast h0
  have : ∀ l : List Nat, (l.map fun c : Nat => F.single (F.single (1024 / F.single histo.sum) * F.single c)).sum ≤ (1024 * l.sum / histo.sum : ℚ) * (1 + 1 / 2 ^ 20) := by
    intro l
    induction l with
    | nil => simp
    | cons c l ih =>
      rw [List.map_cons, List.sum_cons, List.sum_cons]
      have := (floatTarget_bounds h (c := c) h0).2
      push_cast
      have e : (1024 * ((c : ℚ) + l.sum) / histo.sum : ℚ) * (1 + 1 / 2 ^ 20) = (1024 * c / histo.sum : ℚ) * (1 + 1 / 2 ^ 20) + (1024 * l.sum / histo.sum : ℚ) * (1 + 1 / 2 ^ 20) := by ring
      rw [e]
      linarith
  have h1 := this histo
  rw [mul_div_assoc, div_self (ne_of_gt hT)] at h1
  unfold floatTargets
  dsimp only
  linarith

theorem rebalance_float {F : Arith} (h : F.Ok) {histo : List Nat} (hl : histo.length = 18) (h0 : 0 < histo.sum) :
    (rebalance (floatDecisions F true (floatTargets F histo) 0 0)).isSome = true := by
  have hlen : (floatTargets F histo).length = 18 := by unfold floatTargets; simp [hl]
  have htb : ∀ t ∈ floatTargets F histo, 0 ≤ t ∧ t ≤ 1024 + 1 / 1024 := by
    intro t ht
    unfold floatTargets at ht
    dsimp only at ht
    obtain ⟨c, hc, rfl⟩ := List.mem_map.mp ht
    obtain ⟨i, hi⟩ := List.getElem?_of_mem hc
    exact (floatTargets_pos h hi).2
  have hts := floatTargets_sum h h0
  have hsum := floatDecisions_sum h (floatTargets F histo) 0 0 0 htb (le_refl _) (le_refl _) (by rw [hlen]; norm_num; norm_num at hts; linarith) (by rw [hlen]; norm_num)
    (by norm_num)
  rw [hlen] at hsum
  obtain ⟨c, hc, hbig⟩ := exists_large hl
  obtain ⟨i, hi⟩ := List.getElem?_of_mem hc
  obtain ⟨p1, p2, p3⟩ := floatTargets_pos h hi
  have hT : (0 : ℚ) < histo.sum := by exact_mod_cast h0
  have hlarge : 33 ≤ F.single (F.single (1024 / F.single histo.sum) * F.single c) := by
    refine le_trans ?_ (floatTarget_bounds h (c := c) h0).1
    have : (56 : ℚ) ≤ 1024 * c / histo.sum := by
      rw [le_div_iff₀ hT]
      have : (histo.sum : ℚ) ≤ 18 * c := by exact_mod_cast hbig
      linarith
    calc (33 : ℚ) ≤ 56 * (1 - 1 / 2 ^ 20) := by norm_num
      _ ≤ _ := mul_le_mul_of_nonneg_right this (by norm_num)
  have hr := floatRound_bounds h p2 p3
  rcases floatDecisions_get F true _ 0 0 i _ (floatTargets_get (F := F) hi) with ⟨-, up, hd⟩ | ⟨hn, -⟩
  swap
  · exact absurd (lt_of_lt_of_le (by norm_num) hlarge) hn
  have hr32 : 32 ≤ ⌊F.double (F.single (F.single (1024 / F.single histo.sum) * F.single c) + 1 / 2)⌋₊ := by
    have : (32 : ℚ) ≤ (⌊F.double (F.single (F.single (1024 / F.single histo.sum) * F.single c) + 1 / 2)⌋₊ : ℚ) := by linarith [hr.2.1]
    exact_mod_cast this
  have hr1024 := hr.2.2
  generalize ⌊F.double (F.single (F.single (1024 / F.single histo.sum) * F.single c) + 1 / 2)⌋₊ = r at *
  have hcount : 32 ≤ roundCount ⟨r, up⟩ := by
    have := (baseCount_table r (by omega)).2.2.1 hr32
    rw [roundCount_eq]
    dsimp only
    split <;> omega
  rw [rebalance_eq]
  have hget : (countsOf (floatDecisions F true (floatTargets F histo) 0 0)).getD i 0 = roundCount ⟨r, up⟩ := by
    unfold countsOf
    rw [List.getD_eq_getElem?_getD, List.getElem?_map, hd]; rfl
  generalize countsOf (floatDecisions F true (floatTargets F histo) 0 0) = cs at *
  have hs : cs.sum ≤ 1055 := by
    have : ((0 + cs.sum : Nat) : ℚ) ≤ 1055 := by
      refine hsum.trans ?_
      norm_num at hts ⊢
      linarith
    have : (0 + cs.sum : Nat) ≤ 1055 := by exact_mod_cast this
    omega
  have hlog : 6 ≤ logCount (cs.getD i 0) := by
    rw [hget]
    by_contra hlt
    have := logCount_le (c := roundCount ⟨r, up⟩) (k := 5) (by omega)
    omega
  rcases remainderPos_spec cs 0 0 0 with ⟨_, hall⟩ | ⟨j, hj, e, h1, h2, h3⟩
  · have := hall i
    omega
  rw [e, Nat.zero_add]
  have hjl : 32 ≤ cs.getD j 0 := by
    by_contra hlt
    have := logCount_lt (c := cs.getD j 0) (k := 5) (by omega)
    have := h3 i
    omega
  rw [if_pos (by omega)]
  rfl

theorem floatCluster_ok {F : Arith} (h : F.Ok) {histo : List Nat} (hl : histo.length = 18) : (floatCluster F histo).Ok where
  length := hl
  first := floatDecisions_targets h hl false
  second := floatDecisions_targets h hl true
  norm := by
    show (normalizeCounts histo _ _).isSome = true
    unfold normalizeCounts
    split
    · rfl
    · rfl
    · split
      · rfl
      · apply rebalance_float h hl
        by_contra h0
        rename_i hno _ _ _
        apply hno
        unfold occurring
        rw [List.filter_eq_nil_iff]
        intro i _
        have := getD_le_sum (l := histo) i
        have : histo.getD i 0 = 0 := by omega
        simpa using this

end Brunsli
