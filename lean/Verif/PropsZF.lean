import Verif.PropsE
/-!
# C65: the arithmetic of predictions and contexts does not overflow

`int32`, `int64` and `nat32` are undefined when a value does not fit its type; all sums, differences and products of `AdaptiveMedian`,
`PredictDCCoeffs`, `ComputeACPredictMultipliers`, `ACPredictContextCol`, `ACPredictContextRow`, `WeightedAverageContext` and
`WeightedAverageContextDC` are computed with them.
-/

namespace Brunsli

/-- **C65 (1).** The prediction of a DC coefficient from 16-bit neighbours is defined: it is the median of the left neighbour, the upper one, and their sum less the one between them. -/
theorem C65_median (w n nw : Int) (hw : -32768 ≤ w ∧ w < 32768) (hn : -32768 ≤ n ∧ n < 32768) (hnw : -32768 ≤ nw ∧ nw < 32768) :
    adaptiveMedian w n nw = some (max (min w n) (min (max w n) (w + n - nw))) := by
  unfold adaptiveMedian
  have hm : ∀ mx : Int, (mx = w ∧ w > n ∨ mx = n ∧ ¬ w > n) → ((int32 (w + n)).bind fun s => (int32 (s - mx)).bind fun mn =>
      if nw > mx then some mn else if nw < mn then some mx else (int32 (n + w)).bind fun t => int32 (t - nw)) = some (max (min w n) (min (max w n) (w + n - nw))) := by
    intro mx hmx
    rw [int32_some (by omega) (by omega), Option.bind_some, int32_some (by omega) (by omega), Option.bind_some]
    by_cases h1 : nw > mx
    · rw [if_pos h1]; exact congrArg some (by omega)
    · rw [if_neg h1]
      by_cases h2 : nw < w + n - mx
      · rw [if_pos h2]; exact congrArg some (by omega)
      · rw [if_neg h2, int32_some (by omega) (by omega), Option.bind_some, int32_some (by omega) (by omega)]
        exact congrArg some (by omega)
  refine hm _ ?_
  by_cases h : w > n
  · rw [if_pos h]; exact .inl ⟨rfl, h⟩
  · rw [if_neg h]; exact .inr ⟨rfl, h⟩

/-- **C65 (2).** The difference between any two 16-bit values, such as a coefficient and its prediction, and the sum of a decoded difference and a prediction are defined. -/
theorem C65_difference (c p : Int) (hc : -32768 ≤ c ∧ c < 32768) (hp : -32768 ≤ p ∧ p < 32768) : int32 (c - p) = some (c - p) ∧ int32 (c + p) = some (c + p) :=
  ⟨int32_some (by omega) (by omega), int32_some (by omega) (by omega)⟩

/-- **C65 (3).** The multipliers for a table of 64 nonzero 16-bit values are defined: `quant[i] * 11585 / quant[j]`, for the first value `j` of the row of `i`, or of its column. -/
theorem C65_multipliers (q : List Nat) (hl : q.length = 64) (hq : ∀ v ∈ q, 1 ≤ v ∧ v ≤ 65535) :
    multRow q = some ((List.range 64).map fun i => q.getD i 0 * 11585 / q.getD (i / 8 * 8) 0) ∧
    multCol q = some ((List.range 64).map fun i => q.getD (i / 8 + 8 * (i % 8)) 0 * 11585 / q.getD (i / 8) 0) := by
  have h : ∀ i j, i < 64 → j < 64 → multAt q i j = some (q.getD i 0 * 11585 / q.getD j 0) := by
    intro i j hi hj
    unfold multAt
    have h1 : q[i]? = some (q.getD i 0) := by rw [List.getD_eq_getElem?_getD, List.getElem?_eq_getElem (by omega)]; rfl
    have h2 : q[j]? = some (q.getD j 0) := by rw [List.getD_eq_getElem?_getD, List.getElem?_eq_getElem (by omega)]; rfl
    have h3 := hq _ (List.mem_of_getElem? h1)
    have h4 := hq _ (List.mem_of_getElem? h2)
    rw [h1, h2]
    simp only [bind, Option.bind_some]
    rw [nat32_some (by omega), Option.bind_some, if_neg (by omega)]
  exact ⟨mapM_some _ fun i hi => h _ _ (List.mem_range.mp hi) (by have := List.mem_range.mp hi; omega),
    mapM_some _ fun i hi => h _ _ (by have := List.mem_range.mp hi; omega) (by have := List.mem_range.mp hi; omega)⟩

theorem int64_eq {a b : Int} (h : int64 a = some b) : b = a := by
  unfold int64 at h
  split at h
  · exact (Option.some.inj h).symm
  · exact nomatch h

theorem wrap16_bmod (v : Int) : wrap16 v = Int.bmod v 65536 := by
  unfold wrap16
  omega

/-- A term of a prediction: the sum (for odd `j`) or the difference of two 16-bit values, reduced to 16 bits. -/
def exactTerm (prev cur : Nat → Int) (mult : Nat → Nat) (step j : Nat) : Int :=
  Int.bmod (if j % 2 = 1 then cur (step * j) + prev (step * j) else cur (step * j) - prev (step * j)) 65536 * mult j

/-- **C65 (4).** The contexts from the prediction of an AC coefficient are defined for all 16-bit coefficients and all multipliers of type `int`: they are those of the value `prev[0]` less
the sum of the seven terms, divided by 8192. -/
theorem C65_prediction (prev cur : Nat → Int) (mult : Nat → Nat) (step : Nat) (hp : ∀ j < 8, -32768 ≤ prev (step * j) ∧ prev (step * j) < 32768)
    (hc : ∀ j < 8, -32768 ≤ cur (step * j) ∧ cur (step * j) < 32768) (hm : ∀ j < 8, mult j < 2147483648) :
    acPredict (fun i => some (prev i)) (fun i => some (cur i)) (fun j => some (mult j)) step =
      some (acPredictContext (prev 0 - (((List.range' 1 7).map (exactTerm prev cur mult step)).sum).tdiv 8192)) := by
  have t : ∀ j, 1 ≤ j → j < 8 → acTerm (fun i => some (prev i)) (fun i => some (cur i)) (fun j => some (mult j)) step j = some (exactTerm prev cur mult step j) ∧
      -70368744177664 ≤ exactTerm prev cur mult step j ∧ exactTerm prev cur mult step j ≤ 70368744177664 := fun j a b => by
    obtain ⟨v, e, h1, h2⟩ := acTerm_some (prev := fun i => some (prev i)) (cur := fun i => some (cur i)) (mult := fun j => some (mult j)) (step := step) (j := j)
      ⟨_, rfl, hc j b⟩ ⟨_, rfl, hp j b⟩ ⟨_, rfl, hm j b⟩
    have ha := hp j b
    have hb := hc j b
    have e' := e
    unfold acTerm at e'
    simp only [bind, Option.bind_some] at e'
    rw [int32_some (by split <;> omega) (by split <;> omega), Option.bind_some] at e'
    have : v = exactTerm prev cur mult step j := by
      refine (int64_eq e').trans ?_
      unfold exactTerm
      rw [wrap16_bmod]
    subst this
    exact ⟨e, h1, h2⟩
  have b0 := hp 0 (by decide)
  rw [Nat.mul_zero] at b0
  obtain ⟨e1, b1⟩ := t 1 (by decide) (by decide)
  obtain ⟨e2, b2⟩ := t 2 (by decide) (by decide)
  obtain ⟨e3, b3⟩ := t 3 (by decide) (by decide)
  obtain ⟨e4, b4⟩ := t 4 (by decide) (by decide)
  obtain ⟨e5, b5⟩ := t 5 (by decide) (by decide)
  obtain ⟨e6, b6⟩ := t 6 (by decide) (by decide)
  obtain ⟨e7, b7⟩ := t 7 (by decide) (by decide)
  have hsum : ((List.range' 1 7).map (exactTerm prev cur mult step)).sum = exactTerm prev cur mult step 1 + exactTerm prev cur mult step 2 + exactTerm prev cur mult step 3 +
      exactTerm prev cur mult step 4 + exactTerm prev cur mult step 5 + exactTerm prev cur mult step 6 + exactTerm prev cur mult step 7 := by
    rw [show List.range' 1 7 = [1, 2, 3, 4, 5, 6, 7] by decide]
    simp only [List.map_cons, List.map_nil, List.sum_cons, List.sum_nil]
    omega
  rw [hsum]
  unfold acPredict acDelta
  rw [e1, e2, e3, e4, e5, e6, e7]
  generalize exactTerm prev cur mult step 1 = t1 at *
  generalize exactTerm prev cur mult step 2 = t2 at *
  generalize exactTerm prev cur mult step 3 = t3 at *
  generalize exactTerm prev cur mult step 4 = t4 at *
  generalize exactTerm prev cur mult step 5 = t5 at *
  generalize exactTerm prev cur mult step 6 = t6 at *
  generalize exactTerm prev cur mult step 7 = t7 at *
  simp only [bind, Option.bind_some]
  rw [int64_some (by omega) (by omega), Option.bind_some, int64_some (by omega) (by omega), Option.bind_some, int64_some (by omega) (by omega), Option.bind_some,
    int64_some (by omega) (by omega), Option.bind_some, int64_some (by omega) (by omega), Option.bind_some, int64_some (by omega) (by omega), Option.bind_some]
  generalize hs : t1 + t2 + t3 + t4 + t5 + t6 + t7 = s
  have hq : -492581209243648 ≤ s.tdiv 8192 ∧ s.tdiv 8192 ≤ 492581209243648 := by
    have := Int.natAbs_tdiv_le_natAbs s 8192
    omega
  generalize hr : s.tdiv 8192 = r at hq
  rw [int64_some (by omega) (by omega), Option.bind_some, int64_some (by omega) (by omega), Option.bind_some]

/-- **C65 (5).** Decoding the coefficients from any words, of components of any sizes, with any quantization tables of nonzero 16-bit values, overflows nowhere, and encoding any coefficients that the
encoder accepts does not either: both are defined. -/
theorem C65_defined (legacy : Bool) (rows : Nat) (ms : List Meta) (orders quants : List (List Nat)) (hlayout : ContextLayout ms) (hlo : orders.length = ms.length)
    (hlq : quants.length = ms.length) (ho : ∀ o ∈ orders, o.Perm (List.range 64) ∧ o.head? = some 0) (hq : ∀ q ∈ quants, q.length = 64 ∧ ∀ v ∈ q, 1 ≤ v ∧ v ≤ 65535) :
    (∀ (contextMap : List Nat) (histograms : List (List Nat)) (dcWords acWords : List Nat), (∀ h ∈ histograms, h.length ≤ 18) →
      decodeHitsUb (histMaps contextMap histograms) (decodeDC (contextCount ms) rows ms) dcWords = false ∧
      ∀ dc, decodeWords (histMaps contextMap histograms) (decodeDC (contextCount ms) rows ms) dcWords = some dc →
        decodeHitsUb (histMaps contextMap histograms) (decodeAC (contextCount ms) legacy rows ms quants (dc.map Prod.fst) (dc.map Prod.snd)) acWords = false) ∧
    (∀ (imgs : List (List Int)) (hli : imgs.length = ms.length), (∀ c (h : c < ms.length), (imgs[c]'(hli ▸ h)).length = ms[c].w * (rows * ms[c].vs) * 64) →
      (∀ img ∈ imgs, ∀ v ∈ img, -32768 ≤ v ∧ v < 32768) → (∀ c (h : c < ms.length), predictDCCoeffs (imgs[c]'(hli ▸ h)) ms[c].w (rows * ms[c].vs) = true) →
      (∀ img ∈ imgs, ∀ i (h : i < img.length), i % 64 ≠ 0 → img[i].natAbs ≤ 2054) →
      ∃ flags dcOps acOps, encodeDC rows ms imgs = some (flags, dcOps) ∧ encodeAC (contextCount ms) legacy rows ms orders quants imgs flags = some ((), acOps)) := by
  refine ⟨fun cm hs dw aw hh => C20_no_out_of_range legacy rows ms quants cm hs dw aw hlayout hlq hq hh, fun imgs hli hs hr hd ha => ?_⟩
  obtain ⟨f, d, a, h1, h2, -⟩ := C19_ac_roundtrip legacy rows ms orders quants imgs hlayout hlo hlq hli hs hr hd ha ho hq
  exact ⟨f, d, a, h1, h2⟩

/-- **C65 (6).** The test of the encoder on DC coefficients is itself defined for all planes of 16-bit coefficients: it never stops at an overflow, but accepts or refuses. -/
theorem C65_test_defined (img : List Int) (w h : Nat) (hl : img.length = w * h * 64) (hr : ∀ v ∈ img, -32768 ≤ v ∧ v < 32768) (y x : Nat) (hx : x < w) (hy : y < h) :
    ∃ e, dcErr img w y x = some e := by
  obtain ⟨p, hp, hp'⟩ := predictDC_some (cs := img) ⟨hl, hr⟩ hx hy
  have hpos := pos_lt hx hy
  have hg : img[(y * w + x) * 64]? = some (img[(y * w + x) * 64]'(by omega)) := List.getElem?_eq_getElem _
  have hv := hr _ (List.mem_of_getElem? hg)
  unfold dcErr
  rw [hg, hp]
  exact ⟨_, (C65_difference _ _ hv hp').1⟩

/-- Extreme coefficients and tables: the sums wrap around to 16 bits, but nothing overflows; values beyond 16 bits would overflow. -/
example : adaptiveMedian (-32768) (-32768) 32767 = some (-32768) ∧ multAt (List.replicate 63 65535 ++ [1]) 0 63 = some 759222975 ∧ multAt (List.replicate 64 185368) 0 1 = none ∧
    acPredict (fun _ => some (-32768)) (fun _ => some 16384) (fun _ => some 759222975) 8 ≠ none ∧ adaptiveMedian (2 ^ 31 - 1) 1 0 = none := by decide +kernel

end Brunsli
