import Verif.Ac
/-!
# AC contexts stay inside their tables
-/

namespace Brunsli

/-- Array sizes and value ranges of `ComponentState`. -/
structure AcInv (w : Nat) (st : AcState) : Prop where
  isZero : Probs 704 st.isZero
  sign : Probs 1088 st.sign
  nnzProb : Probs 2016 st.nnzProb
  extra : Probs 640 st.extra
  nnz : Arr w (· ≤ 63) st.nnz
  abs : Arr (64 * 2 * (w + 3)) (· ≤ 2054) st.abs
  sgn : Arr (64 * (w + 1)) (· ≤ 2) st.sgn

theorem probs_init {n : Nat} {f : Nat → Nat} (h : (List.range n).all (fun i => decide (f i < 256)) = true) : Probs n (initProbs f n) := by
  refine ⟨by simp [initProbs], fun p hp => ?_⟩
  obtain ⟨i, hi, rfl⟩ := List.mem_map.mp hp
  have := List.all_eq_true.mp h i hi
  exact Prob.init_ok (by simpa using this)

theorem isZero_init : Probs 704 (initProbs isZeroInit 704) := probs_init (by decide +kernel)

theorem sign_init : Probs 1088 (initProbs signInit 1088) := probs_init (by decide +kernel)

theorem nnz_init : Probs 2016 (initProbs nnzInit 2016) := probs_init (by decide +kernel)

theorem extra_init (n : Nat) : Probs n (List.replicate n (Prob.init 158)) := Probs.replicate (Prob.init_ok (by decide))

attribute [local irreducible] initProbs in
theorem acInv_init (w : Nat) : AcInv w (AcState.init w) := by
  constructor
  case isZero => exact isZero_init
  case sign => exact sign_init
  case nnzProb => exact nnz_init
  case extra => exact extra_init 640
  case nnz => exact Arr.replicate (Nat.zero_le _)
  case abs => exact Arr.replicate (Nat.zero_le _)
  case sgn => exact Arr.replicate (Nat.zero_le _)

/-- A quantization table of 16 bit numbers without zeros. -/
def QuantOk (q : List Nat) : Prop := q.length = 64 ∧ ∀ v ∈ q, 1 ≤ v ∧ v ≤ 65535

theorem multAt_some {q : List Nat} (h : QuantOk q) {i j : Nat} (hi : i < 64) (hj : j < 64) : ∃ v, multAt q i j = some v ∧ v < 2147483648 := by
  unfold multAt
  have h1 : q[i]? = some (q[i]'(by rw [h.1]; exact hi)) := List.getElem?_eq_getElem _
  have h2 : q[j]? = some (q[j]'(by rw [h.1]; exact hj)) := List.getElem?_eq_getElem _
  have h3 := h.2 _ (List.getElem_mem (show j < q.length by rw [h.1]; exact hj))
  have h4 := h.2 _ (List.getElem_mem (show i < q.length by rw [h.1]; exact hi))
  rw [h1, h2]
  generalize q[i]'(by rw [h.1]; exact hi) = a at h4 ⊢
  generalize q[j]'(by rw [h.1]; exact hj) = b at h3 ⊢
  refine ⟨a * 11585 / b, ?_, Nat.lt_of_le_of_lt (Nat.div_le_self _ _) (by omega)⟩
  simp only [bind, Option.bind_some]
  rw [nat32_some (by omega), Option.bind_some, if_neg (by omega)]

theorem mapM_range {q : Nat → Prop} {f : Nat → Option Nat} {n : Nat} (h : ∀ i < n, ∃ v, f i = some v ∧ q v) :
    ∃ l, (List.range n).mapM f = some l ∧ l.length = n ∧ ∀ v ∈ l, q v := by
  refine ⟨(List.range n).map fun i => (f i).getD 0, mapM_some _ fun i hi => ?_, by simp, fun v hv => ?_⟩
  · obtain ⟨v, hv, -⟩ := h i (List.mem_range.mp hi)
    rw [hv]; rfl
  · obtain ⟨i, hi, rfl⟩ := List.mem_map.mp hv
    obtain ⟨v, hv, hq⟩ := h i (List.mem_range.mp hi)
    rw [hv]; exact hq

/-- The multipliers: 64 values of type `int`. -/
def MultOk (l : List Nat) : Prop := l.length = 64 ∧ ∀ v ∈ l, v < 2147483648

theorem multRow_some {q : List Nat} (h : QuantOk q) : ∃ l, multRow q = some l ∧ MultOk l :=
  mapM_range fun i hi => multAt_some h hi (by omega)

theorem multCol_some {q : List Nat} (h : QuantOk q) : ∃ l, multCol q = some l ∧ MultOk l :=
  mapM_range fun i hi => multAt_some h (by omega) (by omega)

/-- A value of type `coeff_t`. -/
def Short16 (v : Int) : Prop := -32768 ≤ v ∧ v < 32768

theorem acPredictContext_lt (p : Int) : (acPredictContext p).1 < 9 ∧ (acPredictContext p).2 < 17 := by
  have h1 : (acPredictContext p).1 < 9 := by
    unfold acPredictContext
    simp only
    split
    · decide
    · exact (Nat.log2_lt (by omega)).mpr (by omega)
  refine ⟨h1, ?_⟩
  unfold acPredictContext at h1 ⊢
  simp only at h1 ⊢
  split <;> omega

theorem acTerm_some {prev cur : Nat → Option Int} {mult : Nat → Option Nat} {step j : Nat} (h1 : ∃ v, cur (step * j) = some v ∧ Short16 v)
    (h2 : ∃ v, prev (step * j) = some v ∧ Short16 v) (h3 : ∃ v, mult j = some v ∧ v < 2147483648) :
    ∃ v, acTerm prev cur mult step j = some v ∧ -70368744177664 ≤ v ∧ v ≤ 70368744177664 := by
  obtain ⟨a, h1, a1, a2⟩ := h1
  obtain ⟨b, h2, b1, b2⟩ := h2
  obtain ⟨c, h3, c1⟩ := h3
  unfold acTerm
  rw [h1, h2, h3]
  simp only [bind, Option.bind_some]
  have hs : int32 (if j % 2 = 1 then a + b else a - b) = some (if j % 2 = 1 then a + b else a - b) :=
    int32_some (by split <;> omega) (by split <;> omega)
  generalize (if j % 2 = 1 then a + b else a - b) = s at hs ⊢
  have hw := wrap16_range s
  have hlo : -70368744177664 ≤ wrap16 s * (c : Int) := by
    have : -32768 * (c : Int) ≤ wrap16 s * (c : Int) := Int.mul_le_mul_of_nonneg_right hw.1 (by omega)
    omega
  have hhi : wrap16 s * (c : Int) ≤ 70368744177664 := by
    have : wrap16 s * (c : Int) ≤ 32768 * (c : Int) := Int.mul_le_mul_of_nonneg_right (by omega) (by omega)
    omega
  refine ⟨wrap16 s * (c : Int), ?_, hlo, hhi⟩
  rw [hs, Option.bind_some]
  exact int64_some (by omega) (by omega)

theorem acPredict_some {prev cur : Nat → Option Int} {mult : Nat → Option Nat} {step : Nat}
    (h1 : ∀ j, 1 ≤ j → j < 8 → ∃ v, cur (step * j) = some v ∧ Short16 v)
    (h2 : ∀ j, j < 8 → ∃ v, prev (step * j) = some v ∧ Short16 v) (h3 : ∀ j < 8, ∃ v, mult j = some v ∧ v < 2147483648) :
    ∃ r, acPredict prev cur mult step = some r ∧ r.1 < 9 ∧ r.2 < 17 := by
  have t : ∀ j, 1 ≤ j → j < 8 → ∃ v, acTerm prev cur mult step j = some v ∧ -70368744177664 ≤ v ∧ v ≤ 70368744177664 := fun j a b =>
    acTerm_some (h1 j a b) (h2 j b) (h3 j b)
  obtain ⟨t1, e1, b1⟩ := t 1 (by decide) (by decide)
  obtain ⟨t2, e2, b2⟩ := t 2 (by decide) (by decide)
  obtain ⟨t3, e3, b3⟩ := t 3 (by decide) (by decide)
  obtain ⟨t4, e4, b4⟩ := t 4 (by decide) (by decide)
  obtain ⟨t5, e5, b5⟩ := t 5 (by decide) (by decide)
  obtain ⟨t6, e6, b6⟩ := t 6 (by decide) (by decide)
  obtain ⟨t7, e7, b7⟩ := t 7 (by decide) (by decide)
  obtain ⟨p, e0, b0, b0'⟩ := h2 0 (by decide)
  rw [Nat.mul_zero] at e0
  have hd : acDelta prev cur mult step = some (t1 + t2 + t3 + t4 + t5 + t6 + t7) := by
    unfold acDelta
    rw [e1, e2, e3, e4, e5, e6, e7]
    simp only [bind, Option.bind_some]
    rw [int64_some (by omega) (by omega), Option.bind_some, int64_some (by omega) (by omega), Option.bind_some, int64_some (by omega) (by omega), Option.bind_some,
      int64_some (by omega) (by omega), Option.bind_some, int64_some (by omega) (by omega), Option.bind_some, int64_some (by omega) (by omega)]
  generalize hs : t1 + t2 + t3 + t4 + t5 + t6 + t7 = s at hd
  have hq : -492581209243648 ≤ s.tdiv 8192 ∧ s.tdiv 8192 ≤ 492581209243648 := by
    have := Int.natAbs_tdiv_le_natAbs s 8192
    omega
  generalize hr : s.tdiv 8192 = r at hq
  unfold acPredict
  rw [hd, e0]
  simp only [bind, Option.bind_some]
  rw [hr, int64_some (by omega) (by omega), Option.bind_some, int64_some (by omega) (by omega), Option.bind_some]
  exact ⟨_, rfl, acPredictContext_lt _⟩

theorem acPredict_congr {prev cur prev' cur' : Nat → Option Int} {mult : Nat → Option Nat} {step : Nat}
    (h1 : ∀ j, 1 ≤ j → j < 8 → cur (step * j) = cur' (step * j)) (h2 : ∀ j, j < 8 → prev (step * j) = prev' (step * j)) :
    acPredict prev cur mult step = acPredict prev' cur' mult step := by
  have t : ∀ j, 1 ≤ j → j < 8 → acTerm prev cur mult step j = acTerm prev' cur' mult step j := fun j a b => by
    unfold acTerm; rw [h1 j a b, h2 j b]
  have e0 := h2 0 (by decide)
  rw [Nat.mul_zero] at e0
  unfold acPredict acDelta
  rw [t 1 (by decide) (by decide), t 2 (by decide) (by decide), t 3 (by decide) (by decide), t 4 (by decide) (by decide),
    t 5 (by decide) (by decide), t 6 (by decide) (by decide), t 7 (by decide) (by decide), e0]

theorem absIx_lt {w y x k : Nat} (hx : x < w) (hk : k < 64) : 128 ≤ absIx w y x k ∧ absIx w y x k + 64 < 64 * 2 * (w + 3) := by
  unfold absIx
  rcases Nat.mod_two_eq_zero_or_one y with h | h <;> rw [h] <;> omega

theorem sgnIx_lt {w x k : Nat} (hx : x < w) (hk : k < 64) : 64 ≤ sgnIx x k ∧ sgnIx x k < 64 * (w + 1) := by
  unfold sgnIx; omega

theorem weightedAverage_some {w y x k : Nat} {abs : List Nat} (h : Arr (64 * 2 * (w + 3)) (· ≤ 2054) abs) (hx : x < w) (hk : k < 64) :
    ∃ c, weightedAverage abs w y x k = some c ∧ c < 9 := by
  have hy := absIx_lt (y := y) hx hk
  have hy1 := absIx_lt (y := y + 1) hx hk
  obtain ⟨a, e1, b1⟩ := h.get (i := absIx w y x k) (by omega)
  obtain ⟨b, e2, b2⟩ := h.get (i := absIx w y x k - 64) (by omega)
  obtain ⟨c, e3, b3⟩ := h.get (i := absIx w (y + 1) x k) (by omega)
  obtain ⟨d, e4, b4⟩ := h.get (i := absIx w y x k - 128) (by omega)
  obtain ⟨e, e5, b5⟩ := h.get (i := absIx w (y + 1) x k - 64) (by omega)
  obtain ⟨f, e6, b6⟩ := h.get (i := absIx w (y + 1) x k + 64) (by omega)
  clear hy hy1
  refine ⟨_, by
    unfold weightedAverage
    rw [e1, e2, e3, e4, e5, e6]
    show (nat32 (4 + a + (b + c) * 2 + d + e + f)).bind _ = _
    rw [nat32_some (by omega)]
    rfl, ?_⟩
  by_cases hs : (4 + a + (b + c) * 2 + d + e + f) / 2 ^ 10 ≠ 0
  · rw [if_pos hs]; decide
  · rw [if_neg hs]
    have : Nat.log2 (4 + a + (b + c) * 2 + d + e + f) < 10 := (Nat.log2_lt (by omega)).mpr (by omega)
    omega

/-- The parameters of a component. -/
structure ParamOk (pr : AcParam) : Prop where
  order : CoeffOrder pr.order
  mr : MultOk pr.mr
  mc : MultOk pr.mc

theorem acContext_some {modes mr mc : List Nat} {w y x : Nat} {abs sgn : List Nat} {prevRow prevCol cur : Nat → Option Int} {k kn : Nat}
    (hmo : 64 ≤ modes.length) (hmr : MultOk mr) (hmc : MultOk mc) (ha : Arr (64 * 2 * (w + 3)) (· ≤ 2054) abs)
    (hs : Arr (64 * (w + 1)) (· ≤ 2) sgn) (hx : x < w) (hk : k < 64) (hkn : kn < 64)
    (h1 : 0 < y → ∀ i < 64, ∃ v, prevRow i = some v ∧ Short16 v) (h2 : 0 < x → ∀ i < 64, ∃ v, prevCol i = some v ∧ Short16 v)
    (h3 : ∀ i < 64, ∃ v, cur i = some v ∧ Short16 v) :
    ∃ r, acContext modes mr mc w y x abs sgn prevRow prevCol cur k kn = some r ∧ r.1 < 9 ∧ r.2 < 17 := by
  unfold acContext
  have hm : modes[kn]? = some (modes[kn]'(by omega)) := List.getElem?_eq_getElem _
  rw [hm]
  generalize modes[kn]'(by omega) = t
  simp only [bind, Option.bind_some]
  by_cases c1 : t % 2 = 1 ∧ 0 < y
  · rw [if_pos c1]
    exact acPredict_some (fun j _ hj => h3 _ (by omega)) (fun j hj => h1 c1.2 _ (by omega))
      (fun j hj => ⟨_, List.getElem?_eq_getElem (by rw [hmc.1]; omega), hmc.2 _ (List.getElem_mem _)⟩)
  · rw [if_neg c1]
    by_cases c2 : t / 2 % 2 = 1 ∧ 0 < x
    · rw [if_pos c2]
      exact acPredict_some (fun j _ hj => h3 _ (by omega)) (fun j hj => h2 c2.2 _ (by omega))
        (fun j hj => ⟨_, List.getElem?_eq_getElem (by rw [hmr.1]; omega), hmr.2 _ (List.getElem_mem _)⟩)
    · rw [if_neg c2]
      by_cases c3 : t = 0
      · rw [if_pos c3]
        obtain ⟨avg, e, hav⟩ := weightedAverage_some (y := y) ha hx hk
        have hi := sgnIx_lt (k := k) hx hk
        obtain ⟨a, e1, k1⟩ := hs.get (i := sgnIx x k) (by omega)
        obtain ⟨b, e2, k2⟩ := hs.get (i := sgnIx x k - 64) (by omega)
        rw [e, e1, e2]
        exact ⟨_, rfl, hav, by simp only; omega⟩
      · rw [if_neg c3]
        exact ⟨_, rfl, by decide, by decide⟩

theorem acContext_congr {modes mr mc : List Nat} {w y x : Nat} {abs sgn : List Nat} {prevRow prevCol cur prevRow' prevCol' cur' : Nat → Option Int}
    {k kn : Nat} (hkn : kn < 64)
    (h1 : 0 < y → ∀ i < 64, prevRow i = prevRow' i) (h2 : 0 < x → ∀ i < 64, prevCol i = prevCol' i)
    (h3 : ∀ i < 64, 1 ≤ i → cur i = cur' i) :
    acContext modes mr mc w y x abs sgn prevRow prevCol cur k kn = acContext modes mr mc w y x abs sgn prevRow' prevCol' cur' k kn := by
  unfold acContext
  cases modes[kn]? with
  | none => rfl
  | some t =>
    simp only [bind, Option.bind_some]
    by_cases c1 : t % 2 = 1 ∧ 0 < y
    · rw [if_pos c1, if_pos c1]
      exact acPredict_congr (fun j _ hj => h3 _ (by omega) (by omega)) (fun j hj => h1 c1.2 _ (by omega))
    · rw [if_neg c1, if_neg c1]
      by_cases c2 : t / 2 % 2 = 1 ∧ 0 < x
      · rw [if_pos c2, if_pos c2]
        exact acPredict_congr (fun j _ hj => h3 _ (by omega) (by omega)) (fun j hj => h2 c2.2 _ (by omega))
      · rw [if_neg c2, if_neg c2]

theorem zeroDensity_table : (List.range 7).all (fun b => (List.range 64).all fun n => (List.range 64).all fun k =>
    decide (63 < n + k) || (zeroDensity n k b).any fun v => decide (v < kNumNonzeroContextSkip.getD b 0)) = true := by
  decide +kernel

theorem zeroDensity_some {n k b : Nat} (hb : b < 7) (h : n + k ≤ 63) :
    ∃ v, zeroDensity n k b = some v ∧ v < kNumNonzeroContextSkip.getD b 0 := by
  have h1 := List.all_eq_true.mp zeroDensity_table b (List.mem_range.mpr hb)
  have h2 := List.all_eq_true.mp h1 n (List.mem_range.mpr (by omega))
  have h3 := List.all_eq_true.mp h2 k (List.mem_range.mpr (by omega))
  rw [decide_eq_false (by omega : ¬ 63 < n + k), Bool.false_or] at h3
  cases hz : zeroDensity n k b with
  | none => rw [hz] at h3; cases h3
  | some v => rw [hz] at h3; exact ⟨v, rfl, by simpa using h3⟩

theorem isZeroIx_some {n k : Nat} (h1 : 1 ≤ n) (h2 : n ≤ 63) (hk : k < 64) : ∃ i, isZeroIx n k = some i ∧ i < 704 := by
  have : ∀ n < 64, kNonzeroBuckets.getD n 0 < 11 ∧ kNonzeroBuckets[n]? = some (kNonzeroBuckets.getD n 0) := by decide +kernel
  obtain ⟨a, b⟩ := this (n - 1) (by omega)
  unfold isZeroIx
  rw [if_neg (by omega), b]
  exact ⟨_, rfl, by simp only; omega⟩

theorem nnzContext_some {w x y : Nat} {prev : List Nat} (h : Arr w (· ≤ 63) prev) (hx : x < w) :
    ∃ c, nnzContext prev x y = some c ∧ c < 32 := by
  obtain ⟨a, e1, h1⟩ := h.get (i := x - 1) (by omega)
  obtain ⟨b, e2, h2⟩ := h.get (i := x) (by omega)
  unfold nnzContext
  rw [e1, e2]
  by_cases hy : y = 0
  · rw [if_pos hy]
    by_cases hx0 : x = 0
    · rw [if_pos hx0]; exact ⟨_, rfl, by decide⟩
    · rw [if_neg hx0]; exact ⟨_, rfl, by omega⟩
  · rw [if_neg hy]
    by_cases hx0 : x = 0
    · rw [if_pos hx0]; exact ⟨_, rfl, by omega⟩
    · rw [if_neg hx0]; exact ⟨_, rfl, by omega⟩

theorem zeroRange_some {n : Nat} {q : Nat → Prop} (hq : q 0) (c : Nat) : ∀ {l : List Nat} {i : Nat}, Arr n q l → i + c ≤ n →
    ∃ l', zeroRange l i c = some l' ∧ Arr n q l' := by
  induction c with
  | zero => intro l i h _; exact ⟨l, rfl, h⟩
  | succ c ih =>
    intro l i h hi
    obtain ⟨l1, e1, h1⟩ := h.wr (i := i) (v := 0) (by omega) hq
    obtain ⟨l2, e2, h2⟩ := ih (i := i + 1) h1 (by omega)
    refine ⟨l2, ?_, h2⟩
    rw [zeroRange, e1]
    exact e2

end Brunsli
