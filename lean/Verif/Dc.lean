import Verif.Sched
/-!
# DC coefficients

`EncodeDC` (c/enc/brunsli_encode.cc:1086-1178) and `DecodeDC` (c/dec/brunsli_decode.cc:615-739).
-/

namespace Brunsli

/-- Narrowing to `coeff_t` = `int16_t` (c/include/brunsli/jpeg_data.h:75). -/
def wrap16 (v : Int) : Int := v.bmod 65536

/-- A value of type `int`; `none` is an overflow, which is undefined. -/
def int32 (v : Int) : Option Int := if -2147483648 ≤ v ∧ v < 2147483648 then some v else none

/-- A value of type `int64_t`; `none` is an overflow, which is undefined. -/
def int64 (v : Int) : Option Int := if -9223372036854775808 ≤ v ∧ v < 9223372036854775808 then some v else none

/-- A nonnegative value of type `int`; `none` is an overflow, which is undefined. -/
def nat32 (v : Nat) : Option Nat := if v < 2147483648 then some v else none

theorem int32_some {v : Int} (h1 : -2147483648 ≤ v) (h2 : v < 2147483648) : int32 v = some v := if_pos ⟨h1, h2⟩

theorem int64_some {v : Int} (h1 : -9223372036854775808 ≤ v) (h2 : v < 9223372036854775808) : int64 v = some v := if_pos ⟨h1, h2⟩

theorem nat32_some {v : Nat} (h : v < 2147483648) : nat32 v = some v := if_pos h

theorem int32_eq {v r : Int} (h : int32 v = some r) : r = v := by
  unfold int32 at h
  by_cases c : -2147483648 ≤ v ∧ v < 2147483648
  · rw [if_pos c] at h; exact (Option.some.inj h).symm
  · rw [if_neg c] at h; exact nomatch h

/-- `AdaptiveMedian` (c/common/predict.cc:15-25); `none` is an overflow. -/
def adaptiveMedian (w n nw : Int) : Option Int := do
  let mx := if w > n then w else n
  let s ← int32 (w + n)
  let mn ← int32 (s - mx)
  if nw > mx then some mn else if nw < mn then some mx else do
    let t ← int32 (n + w)
    int32 (t - nw)

/-- `PredictWithAdaptiveMedian` (c/common/predict.cc:29-42) for the block in column `x`, row `y` of a component `w`
blocks wide; `none` is an index out of bounds or an overflow. -/
def predictDC (coeffs : List Int) (w y x : Nat) : Option Int :=
  if y ≠ 0 then
    if x ≠ 0 then do
      let a ← coeffs[(y * w + x) * 64 - 64]?
      let b ← coeffs[(y * w + x) * 64 - w * 64]?
      let c ← coeffs[(y * w + x) * 64 - w * 64 - 64]?
      adaptiveMedian a b c
    else coeffs[(y * w + x) * 64 - w * 64]?
  else if x ≠ 0 then coeffs[(y * w + x) * 64 - 64]? else some 0

/-- The prediction error `PredictDCCoeffs` computes (c/enc/brunsli_encode.cc:1049-1050).  The model recomputes it
where the code stores it in `dc_prediction_errors`. -/
def dcErr (img : List Int) (w y x : Nat) : Option Int := do
  let c ← img[(y * w + x) * 64]?
  let p ← predictDC img w y x
  int32 (c - p)

/-- The acceptance test of `PredictDCCoeffs` (c/enc/brunsli_encode.cc:1051-1055) on a component of `h` rows. -/
def predictDCCoeffs (img : List Int) (w h : Nat) : Bool :=
  (List.range h).all fun y => (List.range w).all fun x => (dcErr img w y x).any fun e => decide (e.natAbs ≤ 2054)

/-- `ComponentStateDC` (c/common/context.h:321-350); `isZero` is an array of one. -/
structure DcState where
  isZero : List Prob
  isEmpty : List Prob
  sign : List Prob
  extra : List Prob
  nonempty : List Nat
  abs : List Nat
  sgn : List Nat
deriving DecidableEq, Repr

/-- `ComponentStateDC::InitAll` and `SetWidth` (c/common/context.cc:32-43, c/common/context.h:330-335). -/
def DcState.init (w : Nat) : DcState where
  isZero := [Prob.init 135]
  isEmpty := List.replicate 3 (Prob.init 74)
  sign := List.replicate 9 (Prob.init 128)
  extra := List.replicate 10 (Prob.init 150)
  nonempty := List.replicate (w + 1) 1
  abs := List.replicate (w + 3) 0
  sgn := List.replicate (w + 1) 0

/-- `IsEmptyBlockContext(&prev_is_nonempty[1], x)` (c/common/context.h:313-315). -/
def isEmptyContext (prev : List Nat) (x : Nat) : Option Nat := do
  let a ← prev[x]?
  let b ← prev[x + 1]?
  some (a + b)

/-- `WeightedAverageContextDC(&prev_abs_coeff[2], x)` (c/common/context.h:165-174); no part of the sum is negative, so that it is enough to test the whole for overflow. -/
def averageContextDC (abs : List Nat) (x : Nat) : Option Nat := do
  let a ← abs[x]?
  let b ← abs[x + 1]?
  let c ← abs[x + 2]?
  let d ← abs[x + 3]?
  let sum ← nat32 (1 + a + b + c + d)
  some (if sum / 2 ^ 8 ≠ 0 then 8 else Nat.log2 sum)

/-- `prev_sgn[x] * 3 + prev_sgn[x - 1]` with `prev_sgn = &prev_sign[1]` (c/enc/brunsli_encode.cc:1143,
c/dec/brunsli_decode.cc:689). -/
def signContextDC (sgn : List Nat) (x : Nat) : Option Nat := do
  let a ← sgn[x + 1]?
  let b ← sgn[x]?
  some (a * 3 + b)

/-! ## Encoder -/

/-- The nonzero value of a block (c/enc/brunsli_encode.cc:1145-1164). -/
def encDcNonzero (n c x : Nat) (st : DcState) (err : Int) : E DcState := do
  let avg ← E.lift (averageContextDC st.abs x)
  let sc ← E.lift (signContextDC st.sgn x)
  let sign ← E.bitAt st.sign sc (decide (err < 0))
  let extra ← encAbs n (c * 9 + avg) st.extra 0 err.natAbs
  Pure.pure { st with sign := sign, extra := extra }

/-- The value of a nonempty block (c/enc/brunsli_encode.cc:1142-1165). -/
def encDcValue (n c x : Nat) (st : DcState) (err : Int) : E DcState := do
  let z ← E.bitAt st.isZero 0 (decide (err = 0))
  if err = 0 then Pure.pure { st with isZero := z } else encDcNonzero n c x { st with isZero := z } err

/-- The `sign` of a value in the history (c/enc/brunsli_encode.cc:1132). -/
def signCode (v : Int) : Nat := if v > 0 then 1 else if v < 0 then 2 else 0

/-- One block (c/enc/brunsli_encode.cc:1130-1169); `n` histograms. -/
def encDcBlock (n c x : Nat) (st : DcState) (err : Int) (empty : Bool) : E DcState := do
  let ctx ← E.lift (isEmptyContext st.nonempty x)
  let pe ← E.bitAt st.isEmpty ctx (!empty)
  let ne ← E.lift (putAt st.nonempty (x + 1) (!empty).toNat)
  let st' ← (if empty then Pure.pure { st with isEmpty := pe, nonempty := ne }
    else encDcValue n c x { st with isEmpty := pe, nonempty := ne } err)
  let sgn ← E.lift (putAt st'.sgn (x + 1) (signCode err))
  let abs ← E.lift (putAt st'.abs (x + 2) err.natAbs)
  Pure.pure { st' with sgn := sgn, abs := abs }

/-- The 64 coefficients of block `b`. -/
def blockOf (img : List Int) (b : Nat) : Option (List Int) :=
  if (b + 1) * 64 ≤ img.length then some ((img.drop (b * 64)).take 64) else none

/-- What the encoder keeps for one component: the contexts and `block_state`. -/
structure DcEnc where
  st : DcState
  empty : List Bool
deriving DecidableEq, Repr

/-- One iteration of the loops of `EncodeDC` (c/enc/brunsli_encode.cc:1125-1173).  The test for an empty block is
`(coeff | CollectAllCoeffs(ac_coeffs_in)) == 0` (:1134-1135, 738-744). -/
def encDcStep (n : Nat) (ms : List Meta) (imgs : List (List Int)) (s : List DcEnc) (p : Nat × Nat × Nat) : E (List DcEnc) := do
  let m ← E.lift ms[p.1]?
  let img ← E.lift imgs[p.1]?
  let e ← E.lift s[p.1]?
  let err ← E.lift (dcErr img m.w p.2.1 p.2.2)
  let blk ← E.lift (blockOf img (p.2.1 * m.w + p.2.2))
  let empty := decide (err = 0) && (blk.drop 1).all (· == 0)
  let st ← encDcBlock n p.1 p.2.2 e.st err empty
  let fl ← E.lift (putAt e.empty (p.2.1 * m.w + p.2.2) empty)
  E.lift (putAt s p.1 ⟨st, fl⟩)

/-- `EncodeDC` (c/enc/brunsli_encode.cc:1086-1178); `rows` is `mcu_rows`, and the height of a component is
`rows * v_samp` (:1078).  The result is `block_state` of each component. -/
def encodeDC (rows : Nat) (ms : List Meta) (imgs : List (List Int)) : E (List (List Bool)) := do
  let s ← E.loop (encDcStep (ms.length * 9) ms imgs)
    (ms.map fun m => ⟨DcState.init m.w, List.replicate (m.w * (rows * m.vs)) false⟩) (schedule rows ms)
  Pure.pure (s.map DcEnc.empty)

/-! ## Decoder -/

/-- The nonzero value of a block (c/dec/brunsli_decode.cc:687-711). -/
def decDcNonzero (n c x : Nat) (st : DcState) : Prog (DcState × Int) := do
  let avg ← Prog.lift (averageContextDC st.abs x)
  let sc ← Prog.lift (signContextDC st.sgn x)
  let sign ← Prog.bitAt st.sign sc
  let r ← decAbs n (c * 9 + avg) st.extra 0
  Pure.pure ({ st with sign := sign.2, extra := r.2 }, (1 - 2 * (sign.1.toNat : Int)) * r.1)

/-- The value of a nonempty block (c/dec/brunsli_decode.cc:682-712). -/
def decDcValue (n c x : Nat) (st : DcState) : Prog (DcState × Int) := do
  let z ← Prog.bitAt st.isZero 0
  if z.1 then Pure.pure ({ st with isZero := z.2 }, 0) else decDcNonzero n c x { st with isZero := z.2 }

/-- The history entry of a value: `abs_val ? sign + 1 : 0` (c/dec/brunsli_decode.cc:714-715). -/
def decSign (v : Int) : Nat := if v = 0 then 0 else if v < 0 then 2 else 1

/-- One block (c/dec/brunsli_decode.cc:670-715): the contexts, whether it is empty, and the prediction error. -/
def decDcBlock (n c x : Nat) (st : DcState) : Prog (DcState × Bool × Int) := do
  let ctx ← Prog.lift (isEmptyContext st.nonempty x)
  let pe ← Prog.bitAt st.isEmpty ctx
  let ne ← Prog.lift (putAt st.nonempty (x + 1) pe.1.toNat)
  let r ← (if pe.1 then decDcValue n c x { st with isEmpty := pe.2, nonempty := ne }
    else Pure.pure ({ st with isEmpty := pe.2, nonempty := ne }, 0))
  let abs ← Prog.lift (putAt r.1.abs (x + 2) r.2.natAbs)
  let sgn ← Prog.lift (putAt r.1.sgn (x + 1) (decSign r.2))
  Pure.pure ({ r.1 with sgn := sgn, abs := abs }, !pe.1, r.2)

/-- What the decoder keeps for one component: the contexts, `ac_coeffs` and `block_state`. -/
structure DcDec where
  st : DcState
  coeffs : List Int
  empty : List Bool
deriving DecidableEq, Repr

/-- One iteration of the loops of `DecodeDC` (c/dec/brunsli_decode.cc:657-720). -/
def decDcStep (n : Nat) (ms : List Meta) (s : List DcDec) (p : Nat × Nat × Nat) : Prog (List DcDec) := do
  let m ← Prog.lift ms[p.1]?
  let d ← Prog.lift s[p.1]?
  let r ← decDcBlock n p.1 p.2.2 d.st
  let fl ← Prog.lift (putAt d.empty (p.2.1 * m.w + p.2.2) r.2.1)
  let pred ← Prog.lift (predictDC d.coeffs m.w p.2.1 p.2.2)
  let val ← Prog.lift (int32 (r.2.2 + pred))
  let cs ← Prog.lift (putAt d.coeffs ((p.2.1 * m.w + p.2.2) * 64) (wrap16 val))
  Prog.lift (putAt s p.1 ⟨r.1, cs, fl⟩)

/-- `DecodeDC` (c/dec/brunsli_decode.cc:615-739), the whole section being available; `n` is the size of the context
map.  The buffers are zero-initialised (:2251-2252). -/
def decodeDC (n rows : Nat) (ms : List Meta) : Prog (List (List Int × List Bool)) := do
  let s ← Prog.loop (decDcStep n ms)
    (ms.map fun m => ⟨DcState.init m.w, List.replicate (m.w * (rows * m.vs) * 64) 0, List.replicate (m.w * (rows * m.vs)) false⟩)
    (schedule rows ms)
  Pure.pure (s.map fun d => (d.coeffs, d.empty))

/-! ## Invariant -/

/-- Array sizes and value ranges of `ComponentStateDC`. -/
structure DcInv (w : Nat) (st : DcState) : Prop where
  isZero : Probs 1 st.isZero
  isEmpty : Probs 3 st.isEmpty
  sign : Probs 9 st.sign
  extra : Probs 10 st.extra
  nonempty : Arr (w + 1) (· ≤ 1) st.nonempty
  abs : Arr (w + 3) (· ≤ 2054) st.abs
  sgn : Arr (w + 1) (· ≤ 2) st.sgn

theorem dcInv_init (w : Nat) : DcInv w (DcState.init w) where
  isZero := Probs.replicate (n := 1) (Prob.init_ok (by decide))
  isEmpty := Probs.replicate (Prob.init_ok (by decide))
  sign := Probs.replicate (Prob.init_ok (by decide))
  extra := Probs.replicate (Prob.init_ok (by decide))
  nonempty := Arr.replicate (Nat.le_refl 1)
  abs := Arr.replicate (Nat.zero_le _)
  sgn := Arr.replicate (Nat.zero_le _)

theorem isEmptyContext_lt {w x : Nat} {prev : List Nat} (h : Arr (w + 1) (· ≤ 1) prev) (hx : x < w) :
    ∃ c, isEmptyContext prev x = some c ∧ c < 3 := by
  obtain ⟨a, e1, h1⟩ := h.get (i := x) (by omega)
  obtain ⟨b, e2, h2⟩ := h.get (i := x + 1) (by omega)
  refine ⟨a + b, ?_, by omega⟩
  unfold isEmptyContext
  rw [e1, e2]; rfl

theorem averageContextDC_lt {w x : Nat} {abs : List Nat} (h : Arr (w + 3) (· ≤ 2054) abs) (hx : x < w) :
    ∃ c, averageContextDC abs x = some c ∧ c < 9 := by
  obtain ⟨a, e1, h1⟩ := h.get (i := x) (by omega)
  obtain ⟨b, e2, h2⟩ := h.get (i := x + 1) (by omega)
  obtain ⟨c, e3, h3⟩ := h.get (i := x + 2) (by omega)
  obtain ⟨d, e4, h4⟩ := h.get (i := x + 3) (by omega)
  refine ⟨_, by
    unfold averageContextDC
    rw [e1, e2, e3, e4]
    show (nat32 (1 + a + b + c + d)).bind _ = _
    rw [nat32_some (by omega)]
    rfl, ?_⟩
  by_cases hs : (1 + a + b + c + d) / 2 ^ 8 ≠ 0
  · rw [if_pos hs]; decide
  · rw [if_neg hs]
    have : 1 + a + b + c + d < 2 ^ 9 := by omega
    exact (Nat.log2_lt (by omega)).mpr this

theorem signContextDC_lt {w x : Nat} {sgn : List Nat} (h : Arr (w + 1) (· ≤ 2) sgn) (hx : x < w) :
    ∃ c, signContextDC sgn x = some c ∧ c < 9 := by
  obtain ⟨a, e1, h1⟩ := h.get (i := x + 1) (by omega)
  obtain ⟨b, e2, h2⟩ := h.get (i := x) (by omega)
  refine ⟨a * 3 + b, ?_, by omega⟩
  unfold signContextDC
  rw [e1, e2]; rfl

/-! ## One block -/

theorem dcNonzero_sim {N Nd c x w : Nat} {st : DcState} {err : Int} (hN : c * 9 + 9 ≤ N) (hd : N ≤ Nd) (hx : x < w) (hi : DcInv w st)
    (h0 : err ≠ 0) (he : err.natAbs ≤ 2054) :
    Sim N (fun st' r => r = (st', err) ∧ DcInv w st') (encDcNonzero N c x st err) (decDcNonzero Nd c x st) := by
  unfold encDcNonzero decDcNonzero
  obtain ⟨avg, e1, h1⟩ := averageContextDC_lt hi.abs hx
  obtain ⟨sc, e2, h2⟩ := signContextDC_lt hi.sgn hx
  refine Sim.liftL e1 (Sim.liftR e1 (Sim.liftL e2 (Sim.liftR e2 ?_)))
  refine Sim.bind (Sim.bitAt hi.sign h2) fun l r hr => ?_
  obtain ⟨rfl, hl⟩ := hr
  refine Sim.bind (abs_sim (by omega) hd hi.extra (by omega) (by omega) he) fun l' r hr => ?_
  obtain ⟨rfl, hl'⟩ := hr
  refine Sim.pure ⟨?_, { hi with sign := hl, extra := hl' }⟩
  simp only [Prod.mk.injEq, true_and]
  by_cases hneg : err < 0
  · simp only [hneg, decide_true, Bool.toNat_true]; omega
  · simp only [hneg, decide_false, Bool.toNat_false]; omega

theorem dcValue_sim {N Nd c x w : Nat} {st : DcState} {err : Int} (hN : c * 9 + 9 ≤ N) (hd : N ≤ Nd) (hx : x < w) (hi : DcInv w st)
    (he : err.natAbs ≤ 2054) :
    Sim N (fun st' r => r = (st', err) ∧ DcInv w st') (encDcValue N c x st err) (decDcValue Nd c x st) := by
  unfold encDcValue decDcValue
  refine Sim.bind (Sim.bitAt hi.isZero (by omega)) fun l r hr => ?_
  obtain ⟨rfl, hl⟩ := hr
  by_cases h0 : err = 0
  · rw [if_pos h0]
    simp only [h0, decide_true, ↓reduceIte]
    exact Sim.pure ⟨rfl, { hi with isZero := hl }⟩
  · rw [if_neg h0]
    simp only [h0, decide_false, Bool.false_eq_true, ↓reduceIte]
    exact dcNonzero_sim hN hd hx { hi with isZero := hl } h0 he

theorem signCode_eq (v : Int) : signCode v = decSign v := by
  unfold signCode decSign
  repeat' split
  all_goals omega

theorem decSign_le (v : Int) : decSign v ≤ 2 := by
  unfold decSign; split <;> (try split) <;> omega

theorem dcBlock_sim {N Nd c x w : Nat} {st : DcState} {err : Int} {empty : Bool} (hN : c * 9 + 9 ≤ N) (hd : N ≤ Nd) (hx : x < w)
    (hi : DcInv w st) (he : err.natAbs ≤ 2054) (hem : empty = true → err = 0) :
    Sim N (fun st' r => r = (st', empty, err) ∧ DcInv w st') (encDcBlock N c x st err empty) (decDcBlock Nd c x st) := by
  unfold encDcBlock decDcBlock
  obtain ⟨ctx, e1, h1⟩ := isEmptyContext_lt hi.nonempty hx
  refine Sim.liftL e1 (Sim.liftR e1 ?_)
  refine Sim.bind (Sim.bitAt hi.isEmpty h1) fun l r hr => ?_
  obtain ⟨rfl, hl⟩ := hr
  obtain ⟨ne, e2, h2⟩ := hi.nonempty.wr (i := x + 1) (v := (!empty).toNat) (by omega) (by cases empty <;> decide)
  refine Sim.liftL e2 (Sim.liftR e2 ?_)
  have hi2 : DcInv w { st with isEmpty := l, nonempty := ne } := { hi with isEmpty := hl, nonempty := h2 }
  refine Sim.bind (Q := fun st' r => r = (st', err) ∧ DcInv w st') ?_ fun st' r hr => ?_
  · cases empty with
    | true => exact Sim.pure ⟨by rw [hem rfl], hi2⟩
    | false => exact dcValue_sim hN hd hx hi2 he
  · obtain ⟨rfl, hi3⟩ := hr
    obtain ⟨sgn, e3, h3⟩ := hi3.sgn.wr (i := x + 1) (v := decSign err) (by omega) (decSign_le err)
    obtain ⟨ab, e4, h4⟩ := hi3.abs.wr (i := x + 2) (v := err.natAbs) (by omega) he
    refine Sim.liftL (by rw [signCode_eq]; exact e3) (Sim.liftL e4 (Sim.liftR e4 (Sim.liftR e3 ?_)))
    exact Sim.pure ⟨by simp, { hi3 with sgn := h3, abs := h4 }⟩

theorem decDcBlock_all {Nd c x w : Nat} {st : DcState} (hN : c * 9 + 9 ≤ Nd) (hx : x < w) (hi : DcInv w st) :
    (decDcBlock Nd c x st).All fun r => DcInv w r.1 ∧ r.2.2.natAbs ≤ 2054 := by
  unfold decDcBlock
  obtain ⟨ctx, e1, h1⟩ := isEmptyContext_lt hi.nonempty hx
  refine Prog.All.bind (Prog.lift_all (q := fun c => c < 3) ⟨ctx, e1, h1⟩) fun ctx h1 => ?_
  refine Prog.All.bind (Prog.bitAt_all hi.isEmpty h1) fun pe hl => ?_
  obtain ⟨ne, e2, h2⟩ := hi.nonempty.wr (i := x + 1) (v := pe.1.toNat) (by omega) (by cases pe.1 <;> decide)
  refine Prog.All.bind (Prog.lift_all (q := fun c => Arr (w + 1) (· ≤ 1) c) ⟨ne, e2, h2⟩) fun ne h2 => ?_
  have hi2 : DcInv w { st with isEmpty := pe.2, nonempty := ne } := { hi with isEmpty := hl, nonempty := h2 }
  refine Prog.All.bind (q := fun r => DcInv w r.1 ∧ r.2.natAbs ≤ 2054) ?_ fun r hr => ?_
  · by_cases hb : pe.1 = true
    · rw [if_pos hb]
      unfold decDcValue
      refine Prog.All.bind (Prog.bitAt_all hi2.isZero (by omega)) fun z hz => ?_
      have hi3 : DcInv w { st with isEmpty := pe.2, nonempty := ne, isZero := z.2 } := { hi2 with isZero := hz }
      by_cases hzb : z.1 = true
      · rw [if_pos hzb]; exact Prog.All.pure ⟨hi3, by simp⟩
      · rw [if_neg hzb]
        unfold decDcNonzero
        obtain ⟨avg, e3, h3⟩ := averageContextDC_lt hi3.abs hx
        obtain ⟨sc, e4, h4⟩ := signContextDC_lt hi3.sgn hx
        refine Prog.All.bind (Prog.lift_all (q := fun c => c < 9) ⟨avg, e3, h3⟩) fun avg h3 => ?_
        refine Prog.All.bind (Prog.lift_all (q := fun c => c < 9) ⟨sc, e4, h4⟩) fun sc h4 => ?_
        refine Prog.All.bind (Prog.bitAt_all hi3.sign h4) fun s hs => ?_
        refine Prog.All.bind (decAbs_all (by omega) hi3.extra (by omega)) fun a ha => ?_
        refine Prog.All.pure ⟨{ hi3 with sign := hs, extra := ha.2.2 }, ?_⟩
        cases s.1
        · simp only [Bool.toNat_false]; omega
        · simp only [Bool.toNat_true]; omega
    · rw [if_neg hb]; exact Prog.All.pure ⟨hi2, by simp⟩
  · obtain ⟨ab, e4, h4⟩ := hr.1.abs.wr (i := x + 2) (v := r.2.natAbs) (by omega) hr.2
    obtain ⟨sgn, e3, h3⟩ := hr.1.sgn.wr (i := x + 1) (v := decSign r.2) (by omega) (decSign_le r.2)
    refine Prog.All.bind (Prog.lift_all (q := fun l => Arr (w + 3) (· ≤ 2054) l) ⟨ab, e4, h4⟩) fun ab h4 => ?_
    refine Prog.All.bind (Prog.lift_all (q := fun l => Arr (w + 1) (· ≤ 2) l) ⟨sgn, e3, h3⟩) fun sgn h3 => ?_
    exact Prog.All.pure ⟨{ hr.1 with sgn := h3, abs := h4 }, hr.2⟩

end Brunsli
