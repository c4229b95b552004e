import Verif.Bits
import Verif.ANS
/-!
# The multiplexed coefficient data stream

`DataStream` (c/enc/brunsli_encode.cc:603-720) interleaves three coders in one sequence of 16-bit
words: raw bits, a binary arithmetic coder, and ANS-coded symbols.  The decoder side is
`WordSource`, `BitSource` (c/dec/brunsli_input.h:22-95), `BinaryArithmeticDecoder`
(c/dec/arith_decode.h:18-57), `ANSDecoder` (c/dec/ans_decode.h:34-60), and the set-up and final checks
`EnsureSubdecodersInitialized`, `FinalizeSubdecoders` (c/dec/brunsli_decode.cc:597-613).
-/

namespace Brunsli

/-- One call on the encoder's `DataStream`. -/
inductive Op where
  /-- `AddCode` of symbol `sym` in context `ctx` (`band * kNumAvrgContexts + context`). -/
  | code (ctx sym : Nat)
  /-- `AddBits(n, v)`. -/
  | bits (n v : Nat)
  /-- `AddBit` with the probability `prob` that `Prob::get_proba` returned. -/
  | bit (prob : Nat) (b : Bool)
deriving DecidableEq, Repr

/-! ## Encoder: the imperative code -/

/-- `DataStream::CodeWord` (c/enc/state.h:108-116), by what `nbits` distinguishes: a finished 16-bit
word, or a symbol still to be ANS-coded. -/
inductive Slot where
  | word (v : Nat)
  | sym (ctx code : Nat)
deriving DecidableEq, Repr

/-- The fields of `DataStream` (c/enc/state.h:120-128).  `cw` is `code_words_[0 .. pos_)`; `none` is a
slot reserved but not written yet. -/
structure DS where
  cw : List (Option Slot)
  bwPos : Nat
  ac0 : Nat
  ac1 : Nat
  low : Nat
  high : Nat
  bwVal : Nat
  bwBit : Nat

/-- `DataStream::DataStream` (c/enc/brunsli_encode.cc:603-611). -/
def DS.init : DS :=
  { cw := [none, none, none], bwPos := 0, ac0 := 1, ac1 := 2, low := 0, high := 2 ^ 32 - 1,
    bwVal := 0, bwBit := 0 }

/-- The split point `low + ((uint64_t)(high - low) * prob >> 8)`
(c/enc/brunsli_encode.cc:676-677, c/dec/arith_decode.h:33-34). -/
def arithSplit (low high prob : Nat) : Nat := low + (high - low) * prob / 256

/-- The lower end after coding `b`: `low_ = split + 1` or unchanged
(c/enc/brunsli_encode.cc:678-682, c/dec/arith_decode.h:36-42). -/
def narrowLow (low high prob : Nat) (b : Bool) : Nat :=
  if b then arithSplit low high prob + 1 else low

/-- The upper end after coding `b`: unchanged or `high_ = split`
(c/enc/brunsli_encode.cc:678-682, c/dec/arith_decode.h:36-42). -/
def narrowHigh (low high prob : Nat) (b : Bool) : Nat :=
  if b then high else arithSplit low high prob

/-- One call on `DataStream`: `AddCode` (c/enc/brunsli_encode.cc:627-639), `AddBits` (:641-656) or
`AddBit` (:673-694).  The list grows as needed; for the vector of the code see `CodeBuf`.
Histogram counting in `AddCode` is modelled with the histograms. -/
def DS.step (d : DS) : Op → DS
  | .code ctx sym => { d with cw := d.cw ++ [some (.sym ctx sym)] }
  | .bits n v =>
    let val := d.bwVal ||| (v <<< d.bwBit)
    let bit := d.bwBit + n
    if bit > 16 then
      { d with cw := d.cw.set d.bwPos (some (.word (val % 65536))) ++ [none]
               bwPos := d.cw.length, bwVal := val / 65536, bwBit := bit - 16 }
    else { d with bwVal := val, bwBit := bit }
  | .bit prob b =>
    let low := narrowLow d.low d.high prob b
    let high := narrowHigh d.low d.high prob b
    if low / 65536 = high / 65536 then
      { d with cw := d.cw.set d.ac0 (some (.word (high / 65536))) ++ [none]
               ac0 := d.ac1, ac1 := d.cw.length
               low := low % 65536 * 65536, high := high % 65536 * 65536 + 65535 }
    else { d with low := low, high := high }

/-- `FlushBitWriter` and `FlushArithmeticCoder` (c/enc/brunsli_encode.cc:658-670), in the order
of `EncodeCodeWords` (:697-698). -/
def DS.flush (d : DS) : List (Option Slot) :=
  ((d.cw.set d.bwPos (some (.word (d.bwVal % 65536)))).set d.ac0 (some (.word (d.high / 65536)))).set
    d.ac1 (some (.word (d.high % 65536)))

/-- The backward ANS pass and the forward output pass of `EncodeCodeWords`
(c/enc/brunsli_encode.cc:699-720): the coder state and the emitted words.  `tabs ctx` are the
normalised counts of the histogram used for a context (`GetANSTable`, :598-601).
`none`: division by zero. -/
def ansPass (tabs : Nat → List Nat) : List Slot → Option (Nat × List Nat)
  | [] => some (ansInitState, [])
  | .word v :: T =>
    match ansPass tabs T with
    | none => none
    | some (x, ws) => some (x, v :: ws)
  | .sym c s :: T =>
    match ansPass tabs T with
    | none => none
    | some (x, ws) =>
      match putSymbol (ansFreq (tabs c) s) (ansStart (tabs c) s) x with
      | none => none
      | some (x', w) => some (x', w.toList ++ ws)

/-- All slots written; `none` if the encoder would read an unwritten slot. -/
def allWritten : List (Option Slot) → Option (List Slot)
  | [] => some []
  | none :: _ => none
  | some s :: r =>
    match allWritten r with
    | none => none
    | some r => some (s :: r)

/-- The words produced for a sequence of calls: `EncodeCodeWords` (c/enc/brunsli_encode.cc:696-720),
the state first, high half before low half. -/
def encodeWords (tabs : Nat → List Nat) (ops : List Op) : Option (List Nat) :=
  match allWritten (ops.foldl DS.step DS.init).flush with
  | none => none
  | some slots =>
    match ansPass tabs slots with
    | none => none
    | some (x, ws) => some (x / 65536 :: x % 65536 :: ws)

/-! ## Decoder -/

/-- The three sub-decoders: `ANSDecoder::state_`, `BitSource::{val_, bit_pos_}`,
`BinaryArithmeticDecoder::{low_, high_, value_}`. -/
structure DecSt where
  ans : Nat
  bval : Nat
  bpos : Nat
  low : Nat
  high : Nat
  value : Nat
deriving DecidableEq, Repr

/-- `EnsureSubdecodersInitialized` (c/dec/brunsli_decode.cc:597-605): ANS, then bits, then arithmetic. -/
def decInit : List Nat → Option (DecSt × List Nat)
  | w0 :: w1 :: w2 :: w3 :: w4 :: ws =>
    some ({ ans := w0 * 65536 + w1, bval := w2, bpos := 0, low := 0, high := 2 ^ 32 - 1,
            value := w3 * 65536 + w4 }, ws)
  | _ => none

/-- `FinalizeSubdecoders` (c/dec/brunsli_decode.cc:607-613): `CheckCRC` (c/dec/ans_decode.h:53) and
`BitSource::Finish` (c/dec/brunsli_input.h:84-91). -/
def decFinish (d : DecSt) : Bool :=
  d.ans = ansInitState && d.bval / 2 ^ d.bpos % 2 ^ (16 - d.bpos) = 0

/-- `ANSDecoder::ReadSymbol` on the state. -/
def decCode (maps : Nat → Option (List SymInfo)) (ctx : Nat) (d : DecSt) (ws : List Nat) :
    Option (Nat × DecSt × List Nat) :=
  match maps ctx with
  | none => none
  | some map =>
    match readSymbol map d.ans ws with
    | none => none
    | some (s, x, ws) => some (s, { d with ans := x }, ws)

/-- `BitSource::ReadBits` (c/dec/brunsli_input.h:68-82), after the optional word fetch. -/
def decBitsCore (n val : Nat) (d : DecSt) : Nat × DecSt :=
  let res := val / 2 ^ d.bpos % 2 ^ n
  let pos := d.bpos + n
  if pos > 16 then (res, { d with bval := val / 65536, bpos := pos - 16 })
  else (res, { d with bval := val, bpos := pos })

/-- `BitSource::ReadBits` (c/dec/brunsli_input.h:68-82). -/
def decBits (n : Nat) (d : DecSt) (ws : List Nat) : Option (Nat × DecSt × List Nat) :=
  if d.bpos + n > 16 then
    match ws with
    | [] => none
    | w :: ws =>
      let r := decBitsCore n (d.bval ||| (w <<< 16)) d
      some (r.1, r.2, ws)
  else
    let r := decBitsCore n d.bval d
    some (r.1, r.2, ws)

/-- `BinaryArithmeticDecoder::ReadBit` (c/dec/arith_decode.h:35-49), once the bit is known. -/
def decBitAs (b : Bool) (prob : Nat) (d : DecSt) (ws : List Nat) : Option (Bool × DecSt × List Nat) :=
  let low := narrowLow d.low d.high prob b
  let high := narrowHigh d.low d.high prob b
  if low / 65536 = high / 65536 then
    match ws with
    | [] => none
    | w :: ws =>
      some (b, { d with value := d.value % 65536 * 65536 + w
                        low := low % 65536 * 65536, high := high % 65536 * 65536 + 65535 }, ws)
  else some (b, { d with low := low, high := high }, ws)

/-- `BinaryArithmeticDecoder::ReadBit` (c/dec/arith_decode.h:32-50). -/
def decBit (prob : Nat) (d : DecSt) (ws : List Nat) : Option (Bool × DecSt × List Nat) :=
  decBitAs (decide (d.value > arithSplit d.low d.high prob)) prob d ws

/-- A decoding program: what the DC and AC decoders do with the stream.  The next request may depend
on everything decoded so far.  `fail` is the decoder rejecting the input; `ub` is undefined behaviour (an index out
of bounds), which only the absence of is ever proved. -/
inductive Prog (α : Type) where
  | ret (a : α)
  | fail
  | ub
  | code (ctx : Nat) (k : Nat → Prog α)
  | bits (n : Nat) (k : Nat → Prog α)
  | bit (prob : Nat) (k : Bool → Prog α)

namespace Prog
variable {α β : Type}

/-- Sequencing. -/
def bind : Prog α → (α → Prog β) → Prog β
  | .ret a, f => f a
  | .fail, _ => .fail
  | .ub, _ => .ub
  | .code c k, f => .code c fun s => (k s).bind f
  | .bits n k, f => .bits n fun v => (k v).bind f
  | .bit p k, f => .bit p fun b => (k b).bind f

instance : Monad Prog where
  pure := Prog.ret
  bind := Prog.bind

/-- Run a program on the real sub-decoders. -/
def run (maps : Nat → Option (List SymInfo)) : Prog α → DecSt → List Nat →
    Option (α × DecSt × List Nat)
  | .ret a, d, ws => some (a, d, ws)
  | .fail, _, _ => none
  | .ub, _, _ => none
  | .code c k, d, ws =>
    match decCode maps c d ws with
    | none => none
    | some (s, d, ws) => (k s).run maps d ws
  | .bits n k, d, ws =>
    match decBits n d ws with
    | none => none
    | some (v, d, ws) => (k v).run maps d ws
  | .bit p k, d, ws =>
    match decBit p d ws with
    | none => none
    | some (b, d, ws) => (k b).run maps d ws

theorem run_bind (maps : Nat → Option (List SymInfo)) (p : Prog α) (f : α → Prog β) (d : DecSt) (ws : List Nat) :
    (p.bind f).run maps d ws = (match p.run maps d ws with | none => none | some (a, d, ws) => (f a).run maps d ws) := by
  induction p generalizing d ws with
  | ret a => rfl
  | fail => rfl
  | ub => rfl
  | code c k ih =>
    simp only [bind, run]
    split
    · rfl
    · exact ih _ _ _
  | bits n k ih =>
    simp only [bind, run]
    split
    · rfl
    · exact ih _ _ _
  | bit p k ih =>
    simp only [bind, run]
    split
    · rfl
    · exact ih _ _ _

/-- Specification: run a program against a recorded list of encoder calls, each request
answered by the value of the call, which must be of the same kind, context, width, probability. -/
def feed : Prog α → P Op α
  | .ret a => fun ops => some (a, ops)
  | .fail => fun _ => none
  | .ub => fun _ => none
  | .code c k => fun ops =>
    match ops with
    | .code c' s :: ops => if c = c' then (k s).feed ops else none
    | _ => none
  | .bits n k => fun ops =>
    match ops with
    | .bits n' v :: ops => if n = n' then (k v).feed ops else none
    | _ => none
  | .bit p k => fun ops =>
    match ops with
    | .bit p' b :: ops => if p = p' then (k b).feed ops else none
    | _ => none

theorem feed_bind (p : Prog α) (f : α → Prog β) (ops : List Op) :
    (p >>= f).feed ops = (match p.feed ops with | none => none | some (a, ops) => (f a).feed ops) := by
  show (p.bind f).feed ops = _
  induction p generalizing ops with
  | ret a => rfl
  | fail => rfl
  | ub => rfl
  | code c k ih =>
    simp only [bind, feed]
    split
    · split
      · exact ih _ _
      · rfl
    · rfl
  | bits n k ih =>
    simp only [bind, feed]
    split
    · split
      · exact ih _ _
      · rfl
    · rfl
  | bit p k ih =>
    simp only [bind, feed]
    split
    · split
      · exact ih _ _
      · rfl
    · rfl

end Prog

/-- Decode a whole data section: set-up, program, final checks; the words must all be consumed. -/
def decodeWords {α : Type} (maps : Nat → Option (List SymInfo)) (p : Prog α) (ws : List Nat) :
    Option α :=
  match decInit ws with
  | none => none
  | some (d, ws) =>
    match p.run maps d ws with
    | some (a, d, []) => if decFinish d then some a else none
    | _ => none

/-! ## Proof -/

/-- Encoder state without the slot bookkeeping. -/
structure ESt where
  low : Nat
  high : Nat
  bwVal : Nat
  bwBit : Nat

/-- Final contents of the pending bit-writer slot, the two pending arithmetic slots, and the
slots the remaining calls create. -/
structure Fin4 where
  bw : Nat
  a0 : Nat
  a1 : Nat
  T : List Slot

def slotsRest (e : ESt) : List Op → Fin4
  | [] => ⟨e.bwVal % 65536, e.high / 65536, e.high % 65536, []⟩
  | .code c s :: ops =>
    let r := slotsRest e ops
    { r with T := .sym c s :: r.T }
  | .bits n v :: ops =>
    let val := e.bwVal ||| (v <<< e.bwBit)
    let bit := e.bwBit + n
    if bit > 16 then
      let r := slotsRest { e with bwVal := val / 65536, bwBit := bit - 16 } ops
      { r with bw := val % 65536, T := .word r.bw :: r.T }
    else slotsRest { e with bwVal := val, bwBit := bit } ops
  | .bit prob b :: ops =>
    let low := narrowLow e.low e.high prob b
    let high := narrowHigh e.low e.high prob b
    if low / 65536 = high / 65536 then
      let r := slotsRest { e with low := low % 65536 * 65536, high := high % 65536 * 65536 + 65535 } ops
      { r with a0 := high / 65536, a1 := r.a0, T := .word r.a1 :: r.T }
    else slotsRest { e with low := low, high := high } ops

def DS.est (d : DS) : ESt := ⟨d.low, d.high, d.bwVal, d.bwBit⟩

/-- The pending slots are distinct and reserved. -/
structure DS.Ok (d : DS) : Prop where
  b : d.bwPos < d.cw.length
  x : d.ac0 < d.cw.length
  y : d.ac1 < d.cw.length
  bx : d.bwPos ≠ d.ac0
  by' : d.bwPos ≠ d.ac1
  xy : d.ac0 ≠ d.ac1

theorem DS.init_ok : DS.init.Ok := by
  constructor <;> simp [DS.init]

theorem DS.step_ok {d : DS} (h : d.Ok) (op : Op) : (d.step op).Ok := by
  obtain ⟨h1, h2, h3, h4, h5, h6⟩ := h
  cases op with
  | code c s => constructor <;> simp [DS.step] <;> omega
  | bits n v =>
    simp only [DS.step]
    split
    · constructor <;> simp <;> omega
    · exact ⟨h1, h2, h3, h4, h5, h6⟩
  | bit p b =>
    simp only [DS.step]
    split
    · constructor <;> simp <;> omega
    · exact ⟨h1, h2, h3, h4, h5, h6⟩

theorem flush_run (ops : List Op) : ∀ d : DS, d.Ok →
    (ops.foldl DS.step d).flush =
      (let r := slotsRest d.est ops
       ((d.cw.set d.bwPos (some (.word r.bw))).set d.ac0 (some (.word r.a0))).set d.ac1
         (some (.word r.a1)) ++ r.T.map some) := by
  induction ops with
  | nil => intro d _; simp [slotsRest, DS.flush, DS.est]
  | cons op ops ih =>
    intro d hd
    rw [List.foldl_cons, ih _ (DS.step_ok hd op)]
    obtain ⟨h1, h2, h3, h4, h5, h6⟩ := hd
    cases op with
    | code c s =>
      have e : (d.step (.code c s)).est = d.est := rfl
      simp only [e, slotsRest]
      simp only [DS.step]
      rw [List.set_append_left _ _ h1, List.set_append_left _ _ (by simpa using h2),
        List.set_append_left _ _ (by simpa using h3)]
      simp
    | bits n v =>
      by_cases hc : d.bwBit + n > 16
      · simp only [DS.step, DS.est, slotsRest, hc, ↓reduceIte]
        rw [List.set_append_right _ _ (by simp), List.set_append_left _ _ (by simpa using h2),
          List.set_append_left _ _ (by simpa using h3)]
        simp
      · simp only [DS.step, DS.est, slotsRest, hc, ↓reduceIte]
    | bit p b =>
      by_cases hc : narrowLow d.low d.high p b / 65536 = narrowHigh d.low d.high p b / 65536
      · simp only [DS.step, DS.est, slotsRest, hc, ↓reduceIte]
        rw [List.set_append_left _ _ (by simpa using h1), List.set_append_left _ _ (by simpa using h3),
          List.set_append_right _ _ (by simp)]
        simp only [List.length_set, Nat.sub_self, List.set_cons_zero, List.map_cons, List.append_assoc,
          List.cons_append, List.nil_append]
        congr 1
        rw [List.set_comm _ _ h4]
      · simp only [DS.step, DS.est, slotsRest, hc, ↓reduceIte]

theorem allWritten_map (T : List Slot) : allWritten (T.map some) = some T := by
  induction T with
  | nil => rfl
  | cons s T ih => simp [allWritten, ih]

theorem slots_eq (ops : List Op) :
    allWritten (ops.foldl DS.step DS.init).flush =
      (let r := slotsRest DS.init.est ops
       some (.word r.bw :: .word r.a0 :: .word r.a1 :: r.T)) := by
  rw [flush_run ops _ DS.init_ok]
  simp [DS.init, allWritten, allWritten_map, DS.est]

/-- Well-formed encoder state. -/
structure ESt.Ok (e : ESt) : Prop where
  lt : e.low < e.high
  hi : e.high < 2 ^ 32
  bit : e.bwBit ≤ 16
  val : e.bwVal < 2 ^ e.bwBit

/-- A call the encoder may make. -/
def Op.Ok (maps : Nat → Option (List SymInfo)) (tabs : Nat → List Nat) : Op → Prop
  | .code c s => 0 < ansFreq (tabs c) s ∧ maps c = ansMap (tabs c) ∧ (ansMap (tabs c)).isSome
  | .bits n v => n ≤ 16 ∧ v < 2 ^ n
  | .bit p _ => p < 256

theorem or_shiftLeft {v a i : Nat} (h : v < 2 ^ i) : v ||| (a <<< i) = v + a * 2 ^ i := by
  rw [Nat.shiftLeft_eq, Nat.or_comm, Nat.mul_comm, ← Nat.two_pow_add_eq_or_of_lt h, Nat.add_comm]

theorem bits_val_lt {val bit n v : Nat} (hval : val < 2 ^ bit) (hv : v < 2 ^ n) :
    val + v * 2 ^ bit < 2 ^ (bit + n) := by
  have : v * 2 ^ bit ≤ (2 ^ n - 1) * 2 ^ bit := Nat.mul_le_mul_right _ (by omega)
  have e2 : (2 ^ n - 1) * 2 ^ bit + 2 ^ bit = 2 ^ (bit + n) := by
    rw [← Nat.succ_mul, Nat.pow_add, Nat.mul_comm]
    congr 1
    have := Nat.two_pow_pos n
    omega
  omega

theorem split_lt {low high prob : Nat} (h : low < high) (hp : prob < 256) :
    low ≤ arithSplit low high prob ∧ arithSplit low high prob < high := by
  unfold arithSplit
  have h1 : (high - low) * prob ≤ (high - low) * 255 := Nat.mul_le_mul_left _ (by omega)
  have h2 : (high - low) * prob / 256 < high - low := by
    rw [Nat.div_lt_iff_lt_mul (by omega)]; omega
  omega

theorem narrow_ok {low high prob : Nat} (b : Bool) (h : low < high) (hp : prob < 256) :
    low ≤ narrowLow low high prob b ∧ narrowLow low high prob b ≤ narrowHigh low high prob b ∧
      narrowHigh low high prob b ≤ high := by
  have := split_lt h hp
  unfold narrowLow narrowHigh
  cases b <;> simp <;> omega

/-- The encoder state after a call. -/
def ESt.step (e : ESt) : Op → ESt
  | .code _ _ => e
  | .bits n v =>
    let val := e.bwVal ||| (v <<< e.bwBit)
    let bit := e.bwBit + n
    if bit > 16 then { e with bwVal := val / 65536, bwBit := bit - 16 }
    else { e with bwVal := val, bwBit := bit }
  | .bit prob b =>
    let low := narrowLow e.low e.high prob b
    let high := narrowHigh e.low e.high prob b
    if low / 65536 = high / 65536 then
      { e with low := low % 65536 * 65536, high := high % 65536 * 65536 + 65535 }
    else { e with low := low, high := high }

theorem ESt.step_ok {maps tabs} {e : ESt} (h : e.Ok) {op : Op} (hop : op.Ok maps tabs) :
    (e.step op).Ok := by
  obtain ⟨h1, h2, h3, h4⟩ := h
  cases op with
  | code c s => exact ⟨h1, h2, h3, h4⟩
  | bits n v =>
    obtain ⟨hn, hv⟩ := hop
    have hb := bits_val_lt h4 hv
    simp only [ESt.step]
    rw [or_shiftLeft h4]
    split
    · refine ⟨h1, h2, by simp only; omega, ?_⟩
      simp only
      rw [Nat.div_lt_iff_lt_mul (by omega)]
      refine Nat.lt_of_lt_of_le hb ?_
      rw [show (65536 : Nat) = 2 ^ 16 by rfl, ← Nat.pow_add]
      exact Nat.pow_le_pow_right (by omega) (by omega)
    · exact ⟨h1, h2, by simp only; omega, hb⟩
  | bit p b =>
    have hs := narrow_ok b h1 (prob := p) hop
    simp only [ESt.step]
    generalize narrowLow e.low e.high p b = lo at *
    generalize narrowHigh e.low e.high p b = hi at *
    split <;> (refine ⟨?_, ?_, h3, h4⟩ <;> simp only <;> omega)

/-- The pending slots' final contents agree with the encoder state. -/
theorem slotsRest_inv {maps tabs} (ops : List Op) : ∀ e : ESt, e.Ok → (∀ op ∈ ops, op.Ok maps tabs) →
    (slotsRest e ops).bw < 65536 ∧ (slotsRest e ops).bw % 2 ^ e.bwBit = e.bwVal ∧
    (slotsRest e ops).a0 < 65536 ∧ (slotsRest e ops).a1 < 65536 ∧
    e.low ≤ (slotsRest e ops).a0 * 65536 + (slotsRest e ops).a1 ∧
    (slotsRest e ops).a0 * 65536 + (slotsRest e ops).a1 ≤ e.high := by
  induction ops with
  | nil =>
    intro e h _
    obtain ⟨h1, h2, h3, h4⟩ := h
    have : 2 ^ e.bwBit ≤ 2 ^ 16 := Nat.pow_le_pow_right (by omega) h3
    simp only [slotsRest]
    rw [Nat.mod_eq_of_lt (by omega : e.bwVal < 65536), Nat.mod_eq_of_lt h4]
    omega
  | cons op ops ih =>
    intro e h hops
    have hop := hops op (by simp)
    have hst := ESt.step_ok h hop
    have hI := ih (e.step op) hst (fun o ho => hops o (by simp [ho]))
    obtain ⟨h1, h2, h3, h4⟩ := h
    cases op with
    | code c s => simpa [slotsRest, ESt.step] using hI
    | bits n v =>
      obtain ⟨hn, hv⟩ := hop
      simp only [ESt.step, slotsRest] at hI ⊢
      rw [or_shiftLeft h4] at hI ⊢
      split
      · rename_i hgt
        rw [if_pos hgt] at hI
        simp only at hI ⊢
        obtain ⟨_, _, i3, i4, i5, i6⟩ := hI
        refine ⟨Nat.mod_lt _ (by omega), ?_, i3, i4, i5, i6⟩
        have hd : 2 ^ e.bwBit ∣ 65536 := by
          rw [show (65536 : Nat) = 2 ^ 16 by rfl]; exact Nat.pow_dvd_pow 2 h3
        rw [Nat.mod_mod_of_dvd _ hd, Nat.add_mul_mod_self_right, Nat.mod_eq_of_lt h4]
      · rename_i hgt
        rw [if_neg hgt] at hI
        obtain ⟨i1, i2, i3, i4, i5, i6⟩ := hI
        refine ⟨i1, ?_, i3, i4, i5, i6⟩
        simp only at i2
        have hd : 2 ^ e.bwBit ∣ 2 ^ (e.bwBit + n) := Nat.pow_dvd_pow 2 (by omega)
        rw [← Nat.mod_mod_of_dvd _ hd, i2, Nat.add_mul_mod_self_right, Nat.mod_eq_of_lt h4]
    | bit p b =>
      have hs := narrow_ok b h1 (prob := p) hop
      simp only [ESt.step, slotsRest] at hI ⊢
      generalize narrowLow e.low e.high p b = lo at *
      generalize narrowHigh e.low e.high p b = hi at *
      split
      · rename_i heq
        rw [if_pos heq] at hI
        simp only at hI ⊢
        omega
      · rename_i heq
        rw [if_neg heq] at hI
        simp only at hI ⊢
        omega

/-- The decoder state that corresponds to an encoder state and what is still to come. -/
def decOf (e : ESt) (r : Fin4) (x : Nat) : DecSt :=
  { ans := x, bval := r.bw, bpos := e.bwBit, low := e.low, high := e.high,
    value := r.a0 * 65536 + r.a1 }

theorem ansPass_ok {maps tabs} (ops : List Op) : ∀ e : ESt, (∀ op ∈ ops, op.Ok maps tabs) →
    ∃ x ws, ansPass tabs (slotsRest e ops).T = some (x, ws) ∧ AnsOk x := by
  induction ops with
  | nil => intro e _; exact ⟨_, _, rfl, ansInit_ok⟩
  | cons op ops ih =>
    intro e hops
    have hop := hops op (by simp)
    have hI := fun e => ih e (fun o ho => hops o (by simp [ho]))
    cases op with
    | code c s =>
      obtain ⟨x, ws, h1, h2⟩ := hI e
      obtain ⟨hf, _, hm⟩ := hop
      obtain ⟨m, hm⟩ := Option.isSome_iff_exists.1 hm
      obtain ⟨x', w, h3, h4, _⟩ := ans_inverse hm hf h2
      exact ⟨x', w.toList ++ ws, by simp [slotsRest, ansPass, h1, h3], h4⟩
    | bits n v =>
      simp only [slotsRest]
      split
      · obtain ⟨x, ws, h1, h2⟩ := hI { e with bwVal := (e.bwVal ||| (v <<< e.bwBit)) / 65536, bwBit := e.bwBit + n - 16 }
        simp only [ansPass, h1]
        exact ⟨_, _, rfl, h2⟩
      · exact hI _
    | bit p b =>
      simp only [slotsRest]
      split
      · simp only [ansPass]
        obtain ⟨x, ws, h1, h2⟩ := hI _
        rw [h1]
        exact ⟨_, _, rfl, h2⟩
      · exact hI _

theorem decBits_step {maps tabs} {e : ESt} {n v : Nat} {ops : List Op} {x : Nat} {ws : List Nat}
    (he : e.Ok) (hops : ∀ op ∈ (Op.bits n v :: ops), op.Ok maps tabs)
    (hp : ansPass tabs (slotsRest e (.bits n v :: ops)).T = some (x, ws)) (rest : List Nat) :
    ∃ ws', ansPass tabs (slotsRest (e.step (.bits n v)) ops).T = some (x, ws') ∧
      decBits n (decOf e (slotsRest e (.bits n v :: ops)) x) (ws ++ rest) =
        some (v, decOf (e.step (.bits n v)) (slotsRest (e.step (.bits n v)) ops) x, ws' ++ rest) := by
  have hop := hops (.bits n v) (by simp)
  have hI := slotsRest_inv ops (e.step (.bits n v)) (ESt.step_ok he hop)
    (fun o ho => hops o (by simp [ho]))
  obtain ⟨h1, h2, h3, h4⟩ := he
  obtain ⟨hn, hv⟩ := hop
  have hb := bits_val_lt h4 hv
  simp only [slotsRest, ESt.step] at hp hI ⊢
  rw [or_shiftLeft h4] at hp hI ⊢
  have hres : ∀ y, y % 2 ^ (e.bwBit + n) = e.bwVal + v * 2 ^ e.bwBit → y / 2 ^ e.bwBit % 2 ^ n = v := by
    intro y hy
    rw [Nat.pow_add, Nat.mod_mul] at hy
    have hpos := Nat.two_pow_pos e.bwBit
    have hlt := Nat.mod_lt y hpos
    have : (y % 2 ^ e.bwBit + 2 ^ e.bwBit * (y / 2 ^ e.bwBit % 2 ^ n)) / 2 ^ e.bwBit
        = (e.bwVal + v * 2 ^ e.bwBit) / 2 ^ e.bwBit := by rw [hy]
    rw [Nat.add_mul_div_left _ _ hpos, Nat.add_mul_div_right _ _ hpos, Nat.div_eq_of_lt hlt,
      Nat.div_eq_of_lt h4] at this
    omega
  split
  · rename_i hgt
    rw [if_pos hgt] at hp hI
    simp only [ansPass] at hp
    generalize hR : slotsRest ⟨e.low, e.high, (e.bwVal + v * 2 ^ e.bwBit) / 65536,
      e.bwBit + n - 16⟩ ops = R at *
    simp only at hp hI
    cases hA : ansPass tabs R.T with
    | none => rw [hA] at hp; cases hp
    | some xw =>
      obtain ⟨x1, ws1⟩ := xw
      rw [hA] at hp
      simp only [Option.some.injEq, Prod.mk.injEq] at hp
      obtain ⟨rfl, rfl⟩ := hp
      refine ⟨ws1, rfl, ?_⟩
      simp only [decBits, decOf, hgt, ↓reduceIte, List.cons_append, decBitsCore]
      obtain ⟨i1, i2, _⟩ := hI
      have hmod : (e.bwVal + v * 2 ^ e.bwBit) % 65536 < 2 ^ 16 := Nat.mod_lt _ (by omega)
      rw [or_shiftLeft hmod]
      have hq : ((e.bwVal + v * 2 ^ e.bwBit) % 65536 + R.bw * 2 ^ 16) / 65536 = R.bw := by omega
      have hm : ((e.bwVal + v * 2 ^ e.bwBit) % 65536 + R.bw * 2 ^ 16) % 2 ^ (e.bwBit + n)
          = e.bwVal + v * 2 ^ e.bwBit := by
        rw [show e.bwBit + n = 16 + (e.bwBit + n - 16) by omega, Nat.pow_add, Nat.mod_mul,
          show (2 : Nat) ^ 16 = 65536 by rfl]
        rw [show (65536 : Nat) = 2 ^ 16 by rfl] at hq
        rw [show ((e.bwVal + v * 2 ^ e.bwBit) % 65536 + R.bw * 65536) / 65536 = R.bw by omega, i2]
        omega
      rw [hq, hres _ hm]
  · rename_i hgt
    rw [if_neg hgt] at hp hI
    refine ⟨ws, hp, ?_⟩
    simp only [decBits, decOf, hgt, ↓reduceIte, decBitsCore]
    rw [hres _ hI.2.1]

theorem decBit_step {maps tabs} {e : ESt} {p : Nat} {b : Bool} {ops : List Op} {x : Nat} {ws : List Nat}
    (he : e.Ok) (hops : ∀ op ∈ (Op.bit p b :: ops), op.Ok maps tabs)
    (hp : ansPass tabs (slotsRest e (.bit p b :: ops)).T = some (x, ws)) (rest : List Nat) :
    ∃ ws', ansPass tabs (slotsRest (e.step (.bit p b)) ops).T = some (x, ws') ∧
      decBit p (decOf e (slotsRest e (.bit p b :: ops)) x) (ws ++ rest) =
        some (b, decOf (e.step (.bit p b)) (slotsRest (e.step (.bit p b)) ops) x, ws' ++ rest) := by
  have hop := hops (.bit p b) (by simp)
  have hI := slotsRest_inv ops (e.step (.bit p b)) (ESt.step_ok he hop)
    (fun o ho => hops o (by simp [ho]))
  obtain ⟨h1, h2, h3, h4⟩ := he
  have hs := split_lt h1 (prob := p) hop
  simp only [slotsRest, ESt.step] at hp hI ⊢
  generalize hlo : narrowLow e.low e.high p b = lo at *
  generalize hhi : narrowHigh e.low e.high p b = hi at *
  split
  · rename_i heq
    rw [if_pos heq] at hp hI
    simp only [ansPass] at hp
    generalize hR : slotsRest { e with low := lo % 65536 * 65536, high := hi % 65536 * 65536 + 65535 }
      ops = R at *
    simp only at hp hI
    cases hA : ansPass tabs R.T with
    | none => rw [hA] at hp; cases hp
    | some xw =>
      obtain ⟨x1, ws1⟩ := xw
      rw [hA] at hp
      simp only [Option.some.injEq, Prod.mk.injEq] at hp
      obtain ⟨rfl, rfl⟩ := hp
      refine ⟨ws1, rfl, ?_⟩
      have hb : ∀ y, y = hi / 65536 * 65536 + R.a0 →
          decide (y > arithSplit e.low e.high p) = b := by
        intro y hy
        cases b
        · simp only [narrowLow, narrowHigh, Bool.false_eq_true, if_false] at hlo hhi
          simp only [decide_eq_false_iff_not]
          omega
        · simp only [narrowLow, narrowHigh, if_true] at hlo hhi
          simp only [decide_eq_true_eq]
          omega
      unfold decBit
      rw [show decide ((decOf e { R with a0 := hi / 65536, a1 := R.a0, T := .word R.a1 :: R.T } x1).value >
          arithSplit (decOf e { R with a0 := hi / 65536, a1 := R.a0, T := .word R.a1 :: R.T } x1).low
          (decOf e { R with a0 := hi / 65536, a1 := R.a0, T := .word R.a1 :: R.T } x1).high p) = b
        from hb _ rfl]
      simp only [decBitAs, decOf, hlo, hhi, heq, ↓reduceIte, List.cons_append]
      have : (hi / 65536 * 65536 + R.a0) % 65536 = R.a0 := by omega
      rw [this]
  · rename_i heq
    rw [if_neg heq] at hp hI
    refine ⟨ws, hp, ?_⟩
    generalize hR : slotsRest { e with low := lo, high := hi } ops = R at *
    have hb : ∀ y, y = R.a0 * 65536 + R.a1 → decide (y > arithSplit e.low e.high p) = b := by
      intro y hy
      cases b
      · simp only [narrowLow, narrowHigh, Bool.false_eq_true, if_false] at hlo hhi
        simp only [decide_eq_false_iff_not]
        simp only at hI
        omega
      · simp only [narrowLow, narrowHigh, if_true] at hlo hhi
        simp only [decide_eq_true_eq]
        simp only at hI
        omega
    unfold decBit
    rw [show decide ((decOf e R x).value > arithSplit (decOf e R x).low (decOf e R x).high p) = b
      from hb _ rfl]
    simp only [decBitAs, decOf, hlo, hhi, heq, ↓reduceIte]

theorem run_feed {α : Type} {maps tabs} (p : Prog α) : ∀ (ops opsR : List Op) (a : α) (e : ESt)
    (x : Nat) (ws : List Nat),
    p.feed ops = some (a, opsR) → e.Ok → (∀ op ∈ ops, op.Ok maps tabs) →
    ansPass tabs (slotsRest e ops).T = some (x, ws) →
    ∃ e' x' ws', e'.Ok ∧ (∀ op ∈ opsR, op.Ok maps tabs) ∧
      ansPass tabs (slotsRest e' opsR).T = some (x', ws') ∧
      ∀ rest, p.run maps (decOf e (slotsRest e ops) x) (ws ++ rest) =
        some (a, decOf e' (slotsRest e' opsR) x', ws' ++ rest) := by
  induction p with
  | ret a =>
    intro ops opsR a' e x ws hf he hops hp
    simp only [Prog.feed, Option.some.injEq, Prod.mk.injEq] at hf
    obtain ⟨rfl, rfl⟩ := hf
    exact ⟨e, x, ws, he, hops, hp, fun rest => rfl⟩
  | fail => intro ops opsR a' e x ws hf; simp [Prog.feed] at hf
  | ub => intro ops opsR a' e x ws hf; simp [Prog.feed] at hf
  | code c k ih =>
    intro ops opsR a' e x ws hf he hops hp
    simp only [Prog.feed] at hf
    split at hf
    · rename_i c' s ops'
      split at hf
      · rename_i hc
        subst hc
        have hop := hops (.code c s) (by simp)
        have hops' : ∀ o ∈ ops', o.Ok maps tabs := fun o ho => hops o (by simp [ho])
        obtain ⟨x1, ws1, hA, hx1⟩ := ansPass_ok ops' e hops'
        obtain ⟨hfr, hmp, hm⟩ := hop
        obtain ⟨m, hm⟩ := Option.isSome_iff_exists.1 hm
        obtain ⟨x2, w, h3, h4, h5⟩ := ans_inverse hm hfr hx1
        simp only [slotsRest, ansPass, hA, h3, Option.some.injEq, Prod.mk.injEq] at hp
        obtain ⟨rfl, rfl⟩ := hp
        obtain ⟨e', x', ws', q1, q2, q3, q4⟩ := ih s ops' opsR a' e x1 ws1 hf he hops' hA
        refine ⟨e', x', ws', q1, q2, q3, fun rest => ?_⟩
        have hd : decCode maps c (decOf e (slotsRest e (.code c s :: ops')) x2)
            (w.toList ++ ws1 ++ rest) = some (s, decOf e (slotsRest e ops') x1, ws1 ++ rest) := by
          unfold decCode
          rw [hmp, hm]
          simp [decOf, h5, slotsRest]
        simp only [Prog.run, hd]
        exact q4 rest
      · cases hf
    · cases hf
  | bits n k ih =>
    intro ops opsR a' e x ws hf he hops hp
    simp only [Prog.feed] at hf
    split at hf
    · rename_i n' v ops'
      split at hf
      · rename_i hc
        subst hc
        have hops' : ∀ o ∈ ops', o.Ok maps tabs := fun o ho => hops o (by simp [ho])
        obtain ⟨ws1, hA, _⟩ := decBits_step he hops hp []
        obtain ⟨e', x', ws', q1, q2, q3, q4⟩ := ih v ops' opsR a' _ x ws1 hf
          (ESt.step_ok he (hops _ (by simp))) hops' hA
        refine ⟨e', x', ws', q1, q2, q3, fun rest => ?_⟩
        obtain ⟨ws2, hA2, hd⟩ := decBits_step he hops hp rest
        rw [hA] at hA2
        simp only [Option.some.injEq, Prod.mk.injEq, true_and] at hA2
        subst hA2
        simp only [Prog.run, hd]
        exact q4 rest
      · cases hf
    · cases hf
  | bit p k ih =>
    intro ops opsR a' e x ws hf he hops hp
    simp only [Prog.feed] at hf
    split at hf
    · rename_i n' v ops'
      split at hf
      · rename_i hc
        subst hc
        have hops' : ∀ o ∈ ops', o.Ok maps tabs := fun o ho => hops o (by simp [ho])
        obtain ⟨ws1, hA, _⟩ := decBit_step he hops hp []
        obtain ⟨e', x', ws', q1, q2, q3, q4⟩ := ih v ops' opsR a' _ x ws1 hf
          (ESt.step_ok he (hops _ (by simp))) hops' hA
        refine ⟨e', x', ws', q1, q2, q3, fun rest => ?_⟩
        obtain ⟨ws2, hA2, hd⟩ := decBit_step he hops hp rest
        rw [hA] at hA2
        simp only [Option.some.injEq, Prod.mk.injEq, true_and] at hA2
        subst hA2
        simp only [Prog.run, hd]
        exact q4 rest
      · cases hf
    · cases hf

theorem init_est_ok : DS.init.est.Ok := by
  constructor <;> simp [DS.init, DS.est]

/-- Whole stream: encode a sequence of calls, run a program that asks for the same sequence. -/
theorem decodeWords_encodeWords {α : Type} {maps tabs} {p : Prog α} {ops : List Op} {a : α}
    (hf : p.feed ops = some (a, [])) (hops : ∀ op ∈ ops, op.Ok maps tabs) :
    ∃ ws, encodeWords tabs ops = some ws ∧ decodeWords maps p ws = some a := by
  obtain ⟨x, ws, hA, hx⟩ := ansPass_ok ops DS.init.est hops
  obtain ⟨e', x', ws', q1, q2, q3, q4⟩ := run_feed p ops [] a DS.init.est x ws hf init_est_ok hops hA
  refine ⟨x / 65536 :: x % 65536 :: (slotsRest DS.init.est ops).bw :: (slotsRest DS.init.est ops).a0
    :: (slotsRest DS.init.est ops).a1 :: ws, ?_, ?_⟩
  · unfold encodeWords
    rw [slots_eq]
    simp [ansPass, hA]
  · unfold decodeWords
    have h4 := q4 []
    simp only [slotsRest, ansPass, Option.some.injEq, Prod.mk.injEq] at q3
    obtain ⟨rfl, rfl⟩ := q3
    simp only [List.append_nil] at h4
    have hx2 : x / 65536 * 65536 + x % 65536 = x := by omega
    simp only [decInit, hx2]
    have e0 : (DecSt.mk x (slotsRest DS.init.est ops).bw 0 0 (2 ^ 32 - 1)
        ((slotsRest DS.init.est ops).a0 * 65536 + (slotsRest DS.init.est ops).a1))
        = decOf DS.init.est (slotsRest DS.init.est ops) x := rfl
    rw [e0, h4]
    simp only
    rw [if_pos]
    obtain ⟨_, _, b1, b2⟩ := q1
    have hb : 2 ^ e'.bwBit ≤ 2 ^ 16 := Nat.pow_le_pow_right (by omega) b1
    have hz : e'.bwVal % 65536 / 2 ^ e'.bwBit % 2 ^ (16 - e'.bwBit) = 0 := by
      rw [Nat.mod_eq_of_lt (by omega : e'.bwVal < 65536), Nat.div_eq_of_lt b2, Nat.zero_mod]
    simp [decFinish, decOf, slotsRest, hz]

/-- Every emitted word fits in 16 bits. -/
theorem encodeWords_lt {maps tabs} {ops : List Op} {ws : List Nat}
    (hops : ∀ op ∈ ops, op.Ok maps tabs) (h : encodeWords tabs ops = some ws) :
    ∀ w ∈ ws, w < 65536 := by
  have hT : ∀ (ops : List Op) (e : ESt) x ws, e.Ok → (∀ op ∈ ops, op.Ok maps tabs) →
      ansPass tabs (slotsRest e ops).T = some (x, ws) → ∀ w ∈ ws, w < 65536 := by
    intro ops
    induction ops with
    | nil => intro e x ws _ _ h; simp [slotsRest, ansPass] at h; simp [h.2]
    | cons op ops ih =>
      intro e x ws he hops h
      have hop := hops op (by simp)
      have hops' : ∀ o ∈ ops, o.Ok maps tabs := fun o ho => hops o (by simp [ho])
      have he' := ESt.step_ok he hop
      have hI := slotsRest_inv ops _ he' hops'
      obtain ⟨x1, ws1, hA, hx1⟩ := ansPass_ok ops (e.step op) hops'
      have ih' := ih _ _ _ he' hops' hA
      cases op with
      | code c s =>
        obtain ⟨hfr, hmp, hm⟩ := hop
        obtain ⟨m, hm⟩ := Option.isSome_iff_exists.1 hm
        simp only [ESt.step] at hA
        have hw : ∀ f st x2 w, putSymbol f st x1 = some (x2, w) → ∀ y ∈ w.toList, y < 65536 := by
          intro f st x2 w hp
          unfold putSymbol at hp
          split at hp
          · cases hp
          · split at hp
            · simp only [Option.some.injEq, Prod.mk.injEq] at hp
              rw [← hp.2]; intro y hy; simp at hy; omega
            · simp only [Option.some.injEq, Prod.mk.injEq] at hp
              rw [← hp.2]; intro y hy; simp at hy
        obtain ⟨x2, w, h3, h4, h5⟩ := ans_inverse hm hfr hx1
        simp only [slotsRest, ansPass, hA, h3, Option.some.injEq, Prod.mk.injEq] at h
        rw [← h.2]
        intro y hy
        rcases List.mem_append.1 hy with hy | hy
        · exact hw _ _ _ _ h3 y hy
        · exact ih' y hy
      | bits n v =>
        simp only [slotsRest, ESt.step] at h hA hI
        split at h
        · rename_i hc
          rw [if_pos hc] at hA hI
          simp only [ansPass, hA, Option.some.injEq, Prod.mk.injEq] at h
          rw [← h.2]
          intro y hy
          rcases List.mem_cons.1 hy with hy | hy
          · rw [hy]; exact hI.1
          · exact ih' y hy
        · rename_i hc
          rw [if_neg hc] at hA
          rw [hA] at h
          simp only [Option.some.injEq, Prod.mk.injEq] at h
          rw [← h.2]; exact ih'
      | bit p b =>
        simp only [slotsRest, ESt.step] at h hA hI
        split at h
        · rename_i hc
          rw [if_pos hc] at hA hI
          simp only [ansPass, hA, Option.some.injEq, Prod.mk.injEq] at h
          rw [← h.2]
          intro y hy
          rcases List.mem_cons.1 hy with hy | hy
          · rw [hy]; exact hI.2.2.2.1
          · exact ih' y hy
        · rename_i hc
          rw [if_neg hc] at hA
          rw [hA] at h
          simp only [Option.some.injEq, Prod.mk.injEq] at h
          rw [← h.2]; exact ih'
  obtain ⟨x, ws1, hA, hx⟩ := ansPass_ok ops DS.init.est hops
  unfold encodeWords at h
  rw [slots_eq] at h
  simp only [ansPass, hA, Option.some.injEq] at h
  have hI := slotsRest_inv ops _ init_est_ok hops
  intro w hw
  rw [← h] at hw
  obtain ⟨hx1, hx2⟩ := hx
  simp only [List.mem_cons] at hw
  rcases hw with hw | hw | hw | hw | hw | hw
  · omega
  · omega
  · rw [hw]; exact hI.1
  · rw [hw]; exact hI.2.2.1
  · rw [hw]; exact hI.2.2.2.1
  · exact hT _ _ _ _ init_est_ok hops hA w hw

end Brunsli
