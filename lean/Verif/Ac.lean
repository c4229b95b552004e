import Verif.DcImage
import Verif.CoeffOrder
import Verif.AcTables
/-!
# AC coefficients: the model

`EncodeAC` (c/enc/brunsli_encode.cc:1180-1346), `DecodeAC` and `DecodeAcBlock` (c/dec/brunsli_decode.cc:741-977) and
the contexts they share (c/common/context.h:133-307).
-/

namespace Brunsli

/-! ## Contexts -/

/-- `(quant[i] * kSqrt2FixedPoint) / quant[j]` (c/common/context.cc:14-16, 23-26); `none` is a division by zero or an overflow.
`kSqrt2FixedPoint` is `int(1.414213562 * 8192) = 11585`. -/
def multAt (quant : List Nat) (i j : Nat) : Option Nat := do
  let a ← quant[i]?
  let b ← quant[j]?
  let p ← nat32 (a * 11585)
  if b = 0 then none else some (p / b)

/-- The `mult_row` of `ComputeACPredictMultipliers` (c/common/context.cc:18-30). -/
def multRow (quant : List Nat) : Option (List Nat) := (List.range 64).mapM fun i => multAt quant i (i / 8 * 8)

/-- The (transposed) `mult_col` of `ComputeACPredictMultipliers` (c/common/context.cc:18-30). -/
def multCol (quant : List Nat) : Option (List Nat) := (List.range 64).mapM fun i => multAt quant (i / 8 + 8 * (i % 8)) (i / 8)

/-- `terms[j] * mult[j]` of `ACPredictContextCol` and `ACPredictContextRow` (c/common/context.h:237-281): the sum of
the coefficients for odd `j`, the difference for even `j`, computed as an `int` and stored as a `coeff_t`; the product is an `int64_t`. -/
def acTerm (prev cur : Nat → Option Int) (mult : Nat → Option Nat) (step j : Nat) : Option Int := do
  let c ← cur (step * j)
  let p ← prev (step * j)
  let m ← mult j
  let s ← int32 (if j % 2 = 1 then c + p else c - p)
  int64 (wrap16 s * m)

/-- `delta` (c/common/context.h:249-256, 272-279), summed up from left to right; the term 0 is zero. -/
def acDelta (prev cur : Nat → Option Int) (mult : Nat → Option Nat) (step : Nat) : Option Int := do
  let t1 ← acTerm prev cur mult step 1
  let t2 ← acTerm prev cur mult step 2
  let t3 ← acTerm prev cur mult step 3
  let t4 ← acTerm prev cur mult step 4
  let t5 ← acTerm prev cur mult step 5
  let t6 ← acTerm prev cur mult step 6
  let t7 ← acTerm prev cur mult step 7
  let s ← int64 (t1 + t2)
  let s ← int64 (s + t3)
  let s ← int64 (s + t4)
  let s ← int64 (s + t5)
  let s ← int64 (s + t6)
  int64 (s + t7)

/-- `ACPredictContext` (c/common/context.h:216-234): the average and the sign context. -/
def acPredictContext (p : Int) : Nat × Nat :=
  let ctx := if 256 ≤ p.natAbs then 8 else Nat.log2 (2 * p.natAbs + 1)
  (ctx, if 0 ≤ p then 8 + ctx else 8 - ctx)

/-- `ACPredictContextCol` (`step = 1`) and `ACPredictContextRow` (`step = 8`) (c/common/context.h:236-281).  `ACPredictContext` negates a negative difference. -/
def acPredict (prev cur : Nat → Option Int) (mult : Nat → Option Nat) (step : Nat) : Option (Nat × Nat) := do
  let d ← acDelta prev cur mult step
  let p ← prev 0
  let r ← int64 (p - d.tdiv 8192)
  let _ ← int64 (-r)
  some (acPredictContext r)

/-- Index of `prev_abs[k]` for the block in column `x` of row `y` (c/enc/brunsli_encode.cc:1239-1240,
c/dec/brunsli_decode.cc:933-935). -/
def absIx (w y x k : Nat) : Nat := (y % 2 * (w + 3) + 2 + x) * 64 + k

/-- Index of `prev_sgn[k]` (c/enc/brunsli_encode.cc:1238, c/dec/brunsli_decode.cc:932). -/
def sgnIx (x k : Nat) : Nat := 64 + x * 64 + k

/-- `WeightedAverageContext(prev_abs + k, prev_row_delta)` (c/common/context.h:197-205).  `prev_row_delta` leads to
the other of the two rows of the ring buffer (c/enc/brunsli_encode.cc:1232, 1342): `absIx w y x k + delta` is
`absIx w (y + 1) x k`.  No part of the sum is negative, so that it is enough to test the whole for overflow. -/
def weightedAverage (abs : List Nat) (w y x k : Nat) : Option Nat := do
  let a ← abs[absIx w y x k]?
  let b ← abs[absIx w y x k - 64]?
  let c ← abs[absIx w (y + 1) x k]?
  let d ← abs[absIx w y x k - 128]?
  let e ← abs[absIx w (y + 1) x k - 64]?
  let f ← abs[absIx w (y + 1) x k + 64]?
  let sum ← nat32 (4 + a + (b + c) * 2 + d + e + f)
  some (if sum / 2 ^ 10 ≠ 0 then 8 else Nat.log2 sum - 2)

/-- The average and sign contexts of a coefficient (c/enc/brunsli_encode.cc:1283-1301, c/dec/brunsli_decode.cc:811-827).
`prevRow`, `prevCol` and `cur` are the blocks above, to the left, and the current one as far as it is known. -/
def acContext (modes mr mc : List Nat) (w y x : Nat) (abs sgn : List Nat) (prevRow prevCol cur : Nat → Option Int) (k kn : Nat) :
    Option (Nat × Nat) := do
  let t ← modes[kn]?
  if t % 2 = 1 ∧ 0 < y then
    acPredict (fun i => prevRow (kn % 8 + i)) (fun i => cur (kn % 8 + i)) (fun j => mc[kn % 8 * 8 + j]?) 8
  else if t / 2 % 2 = 1 ∧ 0 < x then
    acPredict (fun i => prevCol (kn / 8 * 8 + i)) (fun i => cur (kn / 8 * 8 + i)) (fun j => mr[kn / 8 * 8 + j]?) 1
  else if t = 0 then do
    let avg ← weightedAverage abs w y x k
    let a ← sgn[sgnIx x k]?
    let b ← sgn[sgnIx x k - 64]?
    some (avg, a * 3 + b)
  else some (0, 8)

/-- `ZeroDensityContext` (c/common/context.h:160-163). -/
def zeroDensity (nnz k bits : Nat) : Option Nat := do
  let r ← kNumNonzeroContext[bits]?
  let a ← r[nnz]?
  let s ← kFreqContext[bits]?
  let b ← s[k]?
  some (a + b)

/-- `NumNonzerosContext` (c/common/context.h:288-307). -/
def nnzContext (prev : List Nat) (x y : Nat) : Option Nat := do
  if y = 0 then
    if x = 0 then some 0
    else do
      let a ← prev[x - 1]?
      some (a / 2)
  else if x = 0 then do
    let a ← prev[x]?
    some (a / 2)
  else do
    let a ← prev[x - 1]?
    let b ← prev[x]?
    some ((a + b + 1) / 2 / 2)

/-- The index into `is_zero_prob` (c/enc/brunsli_encode.cc:1269-1270, c/dec/brunsli_decode.cc:800-801);
`kNonzeroBuckets[-1]` is out of bounds. -/
def isZeroIx (nnz k : Nat) : Option Nat :=
  if nnz = 0 then none else (kNonzeroBuckets[nnz - 1]?).map fun b => b * 64 + k

/-! ## State -/

/-- The adaptive part of `ComponentState` (c/common/context.h:352-392). -/
structure AcState where
  isZero : List Prob
  sign : List Prob
  nnzProb : List Prob
  extra : List Prob
  nnz : List Nat
  abs : List Nat
  sgn : List Nat
deriving DecidableEq, Repr

/-- Initial `is_zero_prob` (c/common/context.cc:224-230). -/
def isZeroInit (i : Nat) : Nat := kInitProb.getD (i % 64) 0 + 9 * (i / 64) - 63

/-- Initial `sign_prob` (c/common/context.cc:231-239). -/
def signInit (i : Nat) : Nat := if i < 8 * 64 then 108 else if i < 9 * 64 then 128 else 148

/-- Initial `num_nonzero_prob` (c/common/context.cc:244-249). -/
def nnzInit (i : Nat) : Nat := (kInitProbNonzero.getD (i / 63) []).getD (i % 63) 0

/-- Probabilities from initial values. -/
def initProbs (f : Nat → Nat) (n : Nat) : List Prob := (List.range n).map fun i => Prob.init (f i)

/-- `ComponentState::InitAll` and `SetWidth` (c/common/context.cc:223-251, c/common/context.h:362-368). -/
def AcState.init (w : Nat) : AcState where
  isZero := initProbs isZeroInit 704
  sign := initProbs signInit 1088
  nnzProb := initProbs nnzInit 2016
  extra := List.replicate 640 (Prob.init 158)
  nnz := List.replicate w 0
  abs := List.replicate (64 * 2 * (w + 3)) 0
  sgn := List.replicate (64 * (w + 1)) 0

/-- The constant part of `ComponentState`. -/
structure AcParam where
  order : List Nat
  mr : List Nat
  mc : List Nat
deriving DecidableEq, Repr

/-- Zeroing `n` history entries from index `i` on (c/enc/brunsli_encode.cc:1259-1262, c/dec/brunsli_decode.cc:741-747,
793-796; the direction of the loop does not matter). -/
def zeroRange (l : List Nat) (i : Nat) : Nat → Option (List Nat)
  | 0 => some l
  | n + 1 => do
    let l ← putAt l i 0
    zeroRange l (i + 1) n

/-! ## Encoder -/

/-- `EncodeNumNonzeros` (c/enc/brunsli_encode.cc:722-734): `b` bits left, tree node `ctx`; `base` is the index of the
tree's first node in `num_nonzero_prob`. -/
def encNnz (base v : Nat) : Nat → Nat → List Prob → E (List Prob)
  | 0, _, l => Pure.pure l
  | b + 1, ctx, l => do
    let l ← E.bitAt l (base + ctx - 1) (decide (v / 2 ^ b % 2 = 1))
    encNnz base v b (2 * ctx + v / 2 ^ b % 2) l

/-- What changes while a block is coded: the contexts, `encoded_coeffs` and `num_nzeros`. -/
structure AcEncBlk where
  st : AcState
  cur : List Int
  nnz : Nat

/-- Everything that stays the same while a block is coded. -/
structure AcEnv where
  n : Nat
  modes : List Nat
  m : Meta
  pr : AcParam
  y : Nat
  x : Nat

/-- The `is_zero` flag (c/enc/brunsli_encode.cc:1268-1273). -/
def encIsZero (last k nnz : Nat) (isZero : List Prob) (z : Bool) : E (List Prob) :=
  if k < last then do
    let i ← E.lift (isZeroIx nnz k)
    E.bitAt isZero i z
  else Pure.pure isZero

/-- A nonzero coefficient (c/enc/brunsli_encode.cc:1275-1327). -/
def encAcNonzero (v : AcEnv) (prevRow prevCol : Nat → Option Int) (k : Nat) (coeff : Int) (s : AcEncBlk) : E AcEncBlk := do
  let kn ← E.lift v.pr.order[k]?
  let ctx ← E.lift (acContext v.modes v.pr.mr v.pr.mc v.m.w v.y v.x s.st.abs s.st.sgn prevRow prevCol (fun i => s.cur[i]?) k kn)
  let sign ← E.bitAt s.st.sign (ctx.2 * 64 + k) (decide (coeff < 0))
  let sgn ← E.lift (putAt s.st.sgn (sgnIx v.x k) ((decide (coeff < 0)).toNat + 1))
  let zd ← E.lift (zeroDensity s.nnz k v.m.ctxBits)
  let extra ← encAbs v.n ((v.m.ctxOffset + zd) * 9 + ctx.1) s.st.extra (k * 10) coeff.natAbs
  let cur ← E.lift (putAt s.cur kn coeff)
  let abs ← E.lift (putAt s.st.abs (absIx v.m.w v.y v.x k) coeff.natAbs)
  Pure.pure ⟨{ s.st with sign := sign, sgn := sgn, extra := extra, abs := abs }, cur, s.nnz + 1⟩

/-- A zero coefficient (c/enc/brunsli_encode.cc:1328-1331). -/
def encAcZero (v : AcEnv) (k : Nat) (s : AcEncBlk) : E AcEncBlk := do
  let sgn ← E.lift (putAt s.st.sgn (sgnIx v.x k) 0)
  let abs ← E.lift (putAt s.st.abs (absIx v.m.w v.y v.x k) 0)
  Pure.pure { s with st := { s.st with sgn := sgn, abs := abs } }

/-- One coefficient (c/enc/brunsli_encode.cc:1266-1331). -/
def encAcCoeff (v : AcEnv) (prevRow prevCol : Nat → Option Int) (cs : List Int) (last k : Nat) (s : AcEncBlk) : E AcEncBlk := do
  let coeff ← E.lift cs[k]?
  let z ← encIsZero last k s.nnz s.st.isZero (decide (coeff = 0))
  if coeff = 0 then encAcZero v k { s with st := { s.st with isZero := z } }
  else encAcNonzero v prevRow prevCol k coeff { s with st := { s.st with isZero := z } }

/-- The coefficients from `k` down to 1 (c/enc/brunsli_encode.cc:1265-1332). -/
def encAcCoeffs (v : AcEnv) (prevRow prevCol : Nat → Option Int) (cs : List Int) (last : Nat) : Nat → AcEncBlk → E AcEncBlk
  | 0, s => Pure.pure s
  | k + 1, s => do
    let s ← encAcCoeff v prevRow prevCol cs last (k + 1) s
    encAcCoeffs v prevRow prevCol cs last k s

/-- The largest position, up to `k`, of a nonzero coefficient (c/enc/brunsli_encode.cc:1246-1251). -/
def lastNz (cs : List Int) : Nat → Nat
  | 0 => 0
  | k + 1 => if cs.getD (k + 1) 0 ≠ 0 then k + 1 else lastNz cs k

/-- The number of the last nonzero coefficient (c/enc/brunsli_encode.cc:1252-1257). -/
def encLast (last x y : Nat) (st : AcState) : E (List Prob) := do
  let c ← E.lift (nnzContext st.nnz x y)
  encNnz (63 * c) last 6 1 st.nnzProb

/-- One block (c/enc/brunsli_encode.cc:1242-1334); `img` is the whole component, `b` the block.  `coeffs[0]`, which
is not read, is the DC coefficient here. -/
def encAcBlock (v : AcEnv) (img : List Int) (empty : Bool) (st : AcState) : E AcState := do
  let b := v.y * v.m.w + v.x
  let blk ← E.lift (blockOf img b)
  let cs ← E.lift (v.pr.order.mapM fun kn => blk[kn]?)
  let last := if empty then 0 else lastNz cs 63
  let np ← (if empty then Pure.pure st.nnzProb else encLast last v.x v.y st)
  let sgn ← E.lift (zeroRange st.sgn (sgnIx v.x (last + 1)) (63 - last))
  let abs ← E.lift (zeroRange st.abs (absIx v.m.w v.y v.x (last + 1)) (63 - last))
  let s ← encAcCoeffs v (fun i => img[(b - v.m.w) * 64 + i]?) (fun i => img[(b - 1) * 64 + i]?) cs last last
    ⟨{ st with nnzProb := np, sgn := sgn, abs := abs }, List.replicate 64 0, 0⟩
  let nnz ← E.lift (putAt s.st.nnz v.x s.nnz)
  Pure.pure { s.st with nnz := nnz }

/-- One iteration of the loops of `EncodeAC` (c/enc/brunsli_encode.cc:1241-1341). -/
def encAcStep (n : Nat) (modes : List Nat) (ms : List Meta) (prs : List AcParam) (imgs : List (List Int)) (flags : List (List Bool))
    (s : List AcState) (p : Nat × Nat × Nat) : E (List AcState) := do
  let m ← E.lift ms[p.1]?
  let pr ← E.lift prs[p.1]?
  let img ← E.lift imgs[p.1]?
  let fl ← E.lift flags[p.1]?
  let st ← E.lift s[p.1]?
  let empty ← E.lift fl[p.2.1 * m.w + p.2.2]?
  let st ← encAcBlock ⟨n, modes, m, pr, p.2.1, p.2.2⟩ img empty st
  E.lift (putAt s p.1 st)

/-- The multipliers of one component, with its order. -/
def acParam (order quant : List Nat) : Option AcParam := do
  let mr ← multRow quant
  let mc ← multCol quant
  some ⟨order, mr, mc⟩

/-- `kContextAlgorithm + (use_legacy_context_model ? 64 : 0)` (c/enc/brunsli_encode.cc:1186-1187,
c/dec/brunsli_decode.cc:905-906). -/
def contextModes (legacy : Bool) : List Nat := if legacy then kContextAlgorithm.drop 64 else kContextAlgorithm

/-- Calls on the stream. -/
def E.emit (o : Option (List Op)) : E Unit := o.map fun l => ((), l)

/-- `EncodeCoeffOrder` for every component (c/enc/brunsli_encode.cc:1207-1209). -/
def encOrders : List (List Nat) → E Unit
  | [] => Pure.pure ()
  | o :: os => do
    E.emit (encodeCoeffOrder o)
    encOrders os

/-- The parameters of all components. -/
def acParams : List (List Nat) → List (List Nat) → Option (List AcParam)
  | o :: os, q :: qs => do
    let p ← acParam o q
    let r ← acParams os qs
    some (p :: r)
  | [], [] => some []
  | _, _ => none

/-- `EncodeAC` (c/enc/brunsli_encode.cc:1180-1346); `n` histograms, `orders` the result of `ComputeCoeffOrder`,
`flags` the `block_state` left by `EncodeDC`. -/
def encodeAC (n : Nat) (legacy : Bool) (rows : Nat) (ms : List Meta) (orders quants : List (List Nat)) (imgs : List (List Int))
    (flags : List (List Bool)) : E Unit := do
  let prs ← E.lift (acParams orders quants)
  encOrders orders
  let _ ← E.loop (encAcStep n (contextModes legacy) ms prs imgs flags) (ms.map fun m => AcState.init m.w) (schedule rows ms)
  Pure.pure ()

/-! ## Decoder -/

/-- `DecodeNumNonzeros` (c/dec/brunsli_decode.cc:578-597) down to the leaf. -/
def decNnz (base : Nat) : Nat → Nat → List Prob → Prog (Nat × List Prob)
  | 0, ctx, l => Pure.pure (ctx, l)
  | b + 1, ctx, l => do
    let r ← Prog.bitAt l (base + ctx - 1)
    decNnz base b (2 * ctx + r.1.toNat) r.2

/-- What changes while a block is decoded: the contexts, the coefficients of the component and `num_nonzeros`. -/
structure AcDecBlk where
  st : AcState
  coeffs : List Int
  nnz : Nat

/-- The `is_zero` flag (c/dec/brunsli_decode.cc:798-805). -/
def decIsZero (last k nnz : Nat) (isZero : List Prob) : Prog (Bool × List Prob) :=
  if k < last then do
    let i ← Prog.lift (isZeroIx nnz k)
    Prog.bitAt isZero i
  else Pure.pure (false, isZero)

/-- A nonzero coefficient (c/dec/brunsli_decode.cc:809-855, 858-860). -/
def decAcNonzero (v : AcEnv) (k kn : Nat) (s : AcDecBlk) : Prog AcDecBlk := do
  let b := v.y * v.m.w + v.x
  let ctx ← Prog.lift (acContext v.modes v.pr.mr v.pr.mc v.m.w v.y v.x s.st.abs s.st.sgn (fun i => s.coeffs[(b - v.m.w) * 64 + i]?)
    (fun i => s.coeffs[(b - 1) * 64 + i]?) (fun i => s.coeffs[b * 64 + i]?) k kn)
  let sign ← Prog.bitAt s.st.sign (ctx.2 * 64 + k)
  let sgn ← Prog.lift (putAt s.st.sgn (sgnIx v.x k) (sign.1.toNat + 1))
  let zd ← Prog.lift (zeroDensity s.nnz k v.m.ctxBits)
  let r ← decAbs v.n ((v.m.ctxOffset + zd) * 9 + ctx.1) s.st.extra (k * 10)
  let cs ← Prog.lift (putAt s.coeffs (b * 64 + kn) (wrap16 ((1 - 2 * (sign.1.toNat : Int)) * r.1)))
  let abs ← Prog.lift (putAt s.st.abs (absIx v.m.w v.y v.x k) r.1)
  Pure.pure ⟨{ s.st with sign := sign.2, sgn := sgn, extra := r.2, abs := abs }, cs, s.nnz + 1⟩

/-- A zero coefficient (c/dec/brunsli_decode.cc:856-860). -/
def decAcZero (v : AcEnv) (k kn : Nat) (s : AcDecBlk) : Prog AcDecBlk := do
  let sgn ← Prog.lift (putAt s.st.sgn (sgnIx v.x k) 0)
  let cs ← Prog.lift (putAt s.coeffs ((v.y * v.m.w + v.x) * 64 + kn) 0)
  let abs ← Prog.lift (putAt s.st.abs (absIx v.m.w v.y v.x k) 0)
  Pure.pure ⟨{ s.st with sgn := sgn, abs := abs }, cs, s.nnz⟩

/-- One coefficient (c/dec/brunsli_decode.cc:797-861). -/
def decAcCoeff (v : AcEnv) (last k : Nat) (s : AcDecBlk) : Prog AcDecBlk := do
  let z ← decIsZero last k s.nnz s.st.isZero
  let kn ← Prog.lift v.pr.order[k]?
  if z.1 then decAcZero v k kn { s with st := { s.st with isZero := z.2 } }
  else decAcNonzero v k kn { s with st := { s.st with isZero := z.2 } }

/-- The coefficients from `k` down to 1 (c/dec/brunsli_decode.cc:797-861). -/
def decAcCoeffs (v : AcEnv) (last : Nat) : Nat → AcDecBlk → Prog AcDecBlk
  | 0, s => Pure.pure s
  | k + 1, s => do
    let s ← decAcCoeff v last (k + 1) s
    decAcCoeffs v last k s

/-- `last_nz` (c/dec/brunsli_decode.cc:790-792). -/
def decLast (x y : Nat) (st : AcState) : Prog (Nat × List Prob) := do
  let c ← Prog.lift (nnzContext st.nnz x y)
  let r ← decNnz (63 * c) 6 1 st.nnzProb
  Pure.pure (r.1 - 64, r.2)

/-- What the decoder keeps for one component: the contexts and `ac_coeffs`. -/
structure AcDec where
  st : AcState
  coeffs : List Int
deriving DecidableEq, Repr

/-- `DecodeAcBlock` (c/dec/brunsli_decode.cc:779-868) or `DecodeEmptyAcBlock` (:741-747), and the update of
`prev_num_nonzeros` (:936-953). -/
def decAcBlock (v : AcEnv) (empty : Bool) (d : AcDec) : Prog AcDec := do
  let r ← (if empty then Pure.pure (0, d.st.nnzProb) else decLast v.x v.y d.st)
  let sgn ← Prog.lift (zeroRange d.st.sgn (sgnIx v.x (r.1 + 1)) (63 - r.1))
  let abs ← Prog.lift (zeroRange d.st.abs (absIx v.m.w v.y v.x (r.1 + 1)) (63 - r.1))
  let s ← decAcCoeffs v r.1 r.1 ⟨{ d.st with nnzProb := r.2, sgn := sgn, abs := abs }, d.coeffs, 0⟩
  let nnz ← Prog.lift (putAt s.st.nnz v.x s.nnz)
  Pure.pure ⟨{ s.st with nnz := nnz }, s.coeffs⟩

/-- One iteration of the loops of `DecodeAC` (c/dec/brunsli_decode.cc:936-959). -/
def decAcStep (n : Nat) (modes : List Nat) (ms : List Meta) (prs : List AcParam) (flags : List (List Bool)) (s : List AcDec)
    (p : Nat × Nat × Nat) : Prog (List AcDec) := do
  let m ← Prog.lift ms[p.1]?
  let pr ← Prog.lift prs[p.1]?
  let fl ← Prog.lift flags[p.1]?
  let d ← Prog.lift s[p.1]?
  let empty ← Prog.lift fl[p.2.1 * m.w + p.2.2]?
  let d ← decAcBlock ⟨n, modes, m, pr, p.2.1, p.2.2⟩ empty d
  Prog.lift (putAt s p.1 d)

/-- `DecodeCoeffOrder` for `n` components (c/dec/brunsli_decode.cc:889-901). -/
def decOrders : Nat → Prog (List (List Nat))
  | 0 => Pure.pure []
  | n + 1 => do
    let o ← decodeCoeffOrder
    let os ← decOrders n
    Pure.pure (o :: os)

/-- The contexts and buffers `DecodeAC` starts with: `ac_coeffs` as `DecodeDC` left it. -/
def acDecInit : List Meta → List (List Int) → List AcDec
  | m :: ms, c :: cs => ⟨AcState.init m.w, c⟩ :: acDecInit ms cs
  | _, _ => []

/-- `DecodeAC` (c/dec/brunsli_decode.cc:870-977), the whole section being available; `n` is the size of the context
map, `coeffs` and `flags` what `DecodeDC` left.  The multipliers, which the code computes first (:879-886), are
computed after the orders have been read. -/
def decodeAC (n : Nat) (legacy : Bool) (rows : Nat) (ms : List Meta) (quants : List (List Nat)) (coeffs : List (List Int))
    (flags : List (List Bool)) : Prog (List (List Int)) := do
  let orders ← decOrders ms.length
  let prs ← Prog.lift (acParams orders quants)
  let s ← Prog.loop (decAcStep n (contextModes legacy) ms prs flags) (acDecInit ms coeffs) (schedule rows ms)
  Pure.pure (s.map AcDec.coeffs)

end Brunsli
