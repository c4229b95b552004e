import Verif.Codes
import Verif.Sizes
import Mathlib.Tactic.Ring
/-!
# The buffer of code words in the encoder

`DataStream` keeps its code words in a vector that is enlarged before each block only, and counts them in an `int`.  In `DataStream.lean` this is a list that grows as needed; here is the vector
(c/enc/brunsli_encode.cc:603-694, 1101, 1130, 1189-1209, 1242; c/enc/state.h:93-130).
-/

namespace Brunsli

/-! ## The buffer -/

/-- `code_words_.size()` and the rest of a `DataStream`; `ds.cw.length` is `pos_`. -/
structure CodeBuf where
  size : Nat
  ds : DS

/-- `kSlackForOneBlock` (c/enc/state.h:118). -/
def kSlackForOneBlock : Nat := 1024

/-- `DataStream::ResizeForBlock` (c/enc/brunsli_encode.cc:617-625).  `grow` is the new size, made from `code_words_.capacity()`, which the library chooses. -/
def CodeBuf.resizeForBlock (grow : Nat → Nat) (b : CodeBuf) : CodeBuf :=
  if b.ds.cw.length + kSlackForOneBlock > b.size then { b with size := grow b.size } else b

/-- The places of the vector that a call writes: `AddCode` (c/enc/brunsli_encode.cc:636), `AddBits` (:649), `AddBit` (:684-685). -/
def DS.touches (d : DS) : Op → List Nat
  | .code _ _ => [d.cw.length]
  | .bits n _ => if d.bwBit + n > 16 then [d.bwPos] else []
  | .bit prob b => if narrowLow d.low d.high prob b / 65536 = narrowHigh d.low d.high prob b / 65536 then [d.ac0] else []

/-- One call, with the vector: writing behind its end is undefined behaviour, and so is `++pos_` of 2^31 - 1. -/
def CodeBuf.put (b : CodeBuf) (op : Op) : Run CodeBuf :=
  if (∀ i ∈ b.ds.touches op, i < b.size) ∧ (b.ds.step op).cw.length < 2 ^ 31 then .ok { b with ds := b.ds.step op } else .ub

/-- Several calls. -/
def CodeBuf.putAll : CodeBuf → List Op → Run CodeBuf
  | b, [] => .ok b
  | b, op :: ops => (b.put op).bind fun b => b.putAll ops

/-- The calls for one block after the other. -/
def CodeBuf.putBlocks (grow : Nat → Nat) : CodeBuf → List (List Op) → Run CodeBuf
  | b, [] => .ok b
  | b, ops :: rest => ((b.resizeForBlock grow).putAll ops).bind fun b => b.putBlocks grow rest

/-- What `EncodeCodeWords` starts with: `FlushBitWriter`, `FlushArithmeticCoder` (c/enc/brunsli_encode.cc:658-670); all places up to `pos_` are read (:700, :714). -/
def CodeBuf.finish (b : CodeBuf) : Run (List (Option Slot)) :=
  if (∀ i ∈ [b.ds.bwPos, b.ds.ac0, b.ds.ac1], i < b.size) ∧ b.ds.cw.length ≤ b.size then .ok b.ds.flush else .ub

/-! ## Blocks -/

/-- A loop, with the calls of each iteration. -/
def E.blocks {α ι : Type} (f : α → ι → E α) : α → List ι → Option (α × List (List Op))
  | a, [] => some (a, [])
  | a, i :: l =>
    match f a i with
    | none => none
    | some (a, ops) => (E.blocks f a l).map fun r => (r.1, ops :: r.2)

theorem E.blocks_flatten {α ι : Type} {f : α → ι → E α} : ∀ {l : List ι} {a b : α} {ops : List Op}, E.loop f a l = some (b, ops) →
    ∃ bl, E.blocks f a l = some (b, bl) ∧ bl.flatten = ops
  | [], a, b, ops, h => by cases h; exact ⟨[], rfl, rfl⟩
  | i :: l, a, b, ops, h => by
    rw [E.loop] at h
    change E.bind _ _ = _ at h
    unfold E.bind at h
    rw [E.blocks]
    cases hf : f a i with
    | none => rw [hf] at h; cases h
    | some r =>
      obtain ⟨a', o⟩ := r
      rw [hf] at h
      dsimp only at h ⊢
      cases hl : E.loop f a' l with
      | none => rw [hl] at h; cases h
      | some r =>
        obtain ⟨b', o'⟩ := r
        rw [hl] at h
        cases h
        obtain ⟨bl, h1, h2⟩ := E.blocks_flatten hl
        exact ⟨o :: bl, by rw [h1]; rfl, by rw [List.flatten_cons, h2]⟩

theorem E.blocks_le {α ι : Type} {f : α → ι → E α} {k : Nat} (hf : ∀ a i, E.Cost k (f a i)) : ∀ {l : List ι} {a b : α} {bl : List (List Op)},
    E.blocks f a l = some (b, bl) → ∀ ops ∈ bl, ops.length ≤ k
  | [], a, b, bl, h => by cases h; simp
  | i :: l, a, b, bl, h => by
    rw [E.blocks] at h
    cases hfa : f a i with
    | none => rw [hfa] at h; cases h
    | some r =>
      obtain ⟨a', o⟩ := r
      rw [hfa] at h
      dsimp only at h
      cases hl : E.blocks f a' l with
      | none => rw [hl] at h; cases h
      | some r =>
        rw [hl] at h
        cases h
        intro ops ho
        rcases List.mem_cons.mp ho with rfl | ho
        · exact hf a i _ _ hfa
        · exact E.blocks_le hf (b := r.1) hl ops ho

/-! ## When the vector suffices -/

theorem DS.touches_lt {d : DS} (h : d.Ok) (op : Op) : ∀ i ∈ d.touches op, i ≤ d.cw.length ∧ (i < d.cw.length ∨ (d.step op).cw.length = d.cw.length + 1) := by
  intro i hi
  obtain ⟨h1, h2, -, -, -, -⟩ := h
  cases op with
  | code c s => simp only [DS.touches, List.mem_singleton] at hi; subst hi; exact ⟨Nat.le_refl _, .inr (by simp [DS.step])⟩
  | bits n v =>
    simp only [DS.touches] at hi
    split at hi
    · simp only [List.mem_singleton] at hi; omega
    · simp at hi
  | bit p b =>
    simp only [DS.touches] at hi
    split at hi
    · simp only [List.mem_singleton] at hi; omega
    · simp at hi

theorem DS.steps_mono : ∀ (l : List Op) (d : DS), d.cw.length ≤ (l.foldl DS.step d).cw.length
  | [], _ => Nat.le_refl _
  | o :: l, d => by
    refine Nat.le_trans ?_ (DS.steps_mono l (d.step o))
    cases o with
    | code c s => simp [DS.step]
    | bits n v => simp only [DS.step]; split <;> simp
    | bit p b => simp only [DS.step]; split <;> simp

theorem CodeBuf.putAll_ok : ∀ (ops : List Op) {b : CodeBuf}, b.ds.Ok → b.ds.cw.length + ops.length ≤ b.size → (ops.foldl DS.step b.ds).cw.length < 2 ^ 31 →
    b.putAll ops = .ok { b with ds := ops.foldl DS.step b.ds }
  | [], b, _, _, _ => rfl
  | op :: ops, b, hd, hs, hp => by
    rw [List.length_cons] at hs
    have h1 := step_length b.ds op
    have h2 := DS.steps_mono ops (b.ds.step op)
    rw [List.foldl_cons] at hp ⊢
    have hput : b.put op = .ok { b with ds := b.ds.step op } := by
      unfold CodeBuf.put
      refine if_pos ⟨fun i hi => ?_, by omega⟩
      have := (DS.touches_lt hd op i hi).1
      omega
    rw [CodeBuf.putAll, hput]
    exact CodeBuf.putAll_ok ops (b := { b with ds := b.ds.step op }) (DS.step_ok hd op) (by dsimp only; omega) hp

theorem DS.steps_ok : ∀ (ops : List Op) {d : DS}, d.Ok → (ops.foldl DS.step d).Ok
  | [], _, h => h
  | op :: ops, _, h => DS.steps_ok ops (DS.step_ok h op)

/-- If the new size is larger by `kSlackForOneBlock` at least, blocks of at most so many calls fit. -/
theorem CodeBuf.putBlocks_ok {grow : Nat → Nat} (hg : ∀ n, n + kSlackForOneBlock ≤ grow n) : ∀ (bl : List (List Op)) {b : CodeBuf}, b.ds.Ok → b.ds.cw.length ≤ b.size →
    (∀ ops ∈ bl, ops.length ≤ kSlackForOneBlock) → (bl.flatten.foldl DS.step b.ds).cw.length < 2 ^ 31 →
    ∃ n, b.putBlocks grow bl = .ok ⟨n, bl.flatten.foldl DS.step b.ds⟩ ∧ (bl.flatten.foldl DS.step b.ds).cw.length ≤ n
  | [], b, _, hs, _, _ => ⟨b.size, rfl, hs⟩
  | ops :: rest, b, hd, hs, hl, hp => by
    rw [List.flatten_cons, List.foldl_append] at hp ⊢
    obtain ⟨m, hm, hm'⟩ : ∃ m, b.resizeForBlock grow = ⟨m, b.ds⟩ ∧ b.ds.cw.length + kSlackForOneBlock ≤ m := by
      unfold CodeBuf.resizeForBlock
      by_cases hc : b.ds.cw.length + kSlackForOneBlock > b.size
      · rw [if_pos hc]
        exact ⟨_, rfl, Nat.le_trans (by omega) (hg b.size)⟩
      · rw [if_neg hc]
        exact ⟨b.size, rfl, by omega⟩
    have h1 := hl ops (by simp)
    have h2 := steps_length ops b.ds
    have h3 := DS.steps_mono rest.flatten (ops.foldl DS.step b.ds)
    obtain ⟨n, h4, h5⟩ := CodeBuf.putBlocks_ok hg rest (b := ⟨m, ops.foldl DS.step b.ds⟩) (DS.steps_ok ops hd) (by dsimp only; omega) (fun o ho => hl o (by simp [ho])) hp
    refine ⟨n, ?_, h5⟩
    rw [CodeBuf.putBlocks, hm, CodeBuf.putAll_ok ops (b := ⟨m, b.ds⟩) hd (by dsimp only; omega) (by dsimp only; omega)]
    exact h4

theorem CodeBuf.finish_ok {b : CodeBuf} (hd : b.ds.Ok) (hs : b.ds.cw.length ≤ b.size) : b.finish = .ok b.ds.flush := by
  obtain ⟨h1, h2, h3, -, -, -⟩ := hd
  unfold CodeBuf.finish
  refine if_pos ⟨fun i hi => ?_, hs⟩
  simp only [List.mem_cons, List.not_mem_nil, or_false] at hi
  rcases hi with rfl | rfl | rfl <;> omega

/-! ## How many code words there are

Each call of `AddBit` makes a code word at most; for the largest images this is too many to rule out an overflow of `pos_`.  The interval of the arithmetic coder shrinks by a factor of
512 at most, except when a bit comes to which the probability 0 is given. -/

/-- The length of what a call writes, at most, in bits. -/
def Op.weight : Op → Nat
  | .code _ _ => 16
  | .bits _ _ => 16
  | .bit p b => if p = 0 ∧ b = false then 32 else 9

def weight (ops : List Op) : Nat := (ops.map Op.weight).sum

theorem weight_append (a b : List Op) : weight (a ++ b) = weight a + weight b := by unfold weight; rw [List.map_append, List.sum_append]

/-- The probability of a call is in range. -/
def Op.Small : Op → Prop
  | .bit p _ => p < 256
  | _ => True

theorem narrow_range {low high p : Nat} (b : Bool) (h : low < high) (hh : high < 2 ^ 32) (hp : p < 256) :
    high - low + 1 ≤ (narrowHigh low high p b - narrowLow low high p b + 1) * 2 ^ (Op.bit p b).weight := by
  obtain ⟨h1, h2⟩ := split_lt h hp
  generalize hd : high - low = d
  have hs : arithSplit low high p = low + d * p / 256 := by unfold arithSplit; rw [hd]
  have hdp : d * p ≤ d * 255 := Nat.mul_le_mul_left _ (by omega)
  cases b with
  | true =>
    have hw : (Op.bit p true).weight = 9 := by simp [Op.weight]
    rw [hw]
    simp only [narrowHigh, narrowLow, if_true]
    rw [hs] at h2 ⊢
    have := Nat.div_mul_le_self (d * p) 256
    generalize d * p / 256 = q at *
    omega
  | false =>
    simp only [narrowHigh, narrowLow, Bool.false_eq_true, if_false]
    rw [hs]
    by_cases hp0 : p = 0
    · subst hp0
      rw [show (Op.bit 0 false).weight = 32 from rfl]
      omega
    · have hw : (Op.bit p false).weight = 9 := by simp [Op.weight, hp0]
      rw [hw]
      have h3 : d ≤ d * p := Nat.le_mul_of_pos_right _ (by omega)
      have := Nat.lt_div_mul_add (a := d * p) (b := 256) (by decide)
      generalize d * p / 256 = q at *
      omega

theorem run_range : ∀ (ops : List Op) {d : DS}, (∀ op ∈ ops, op.Small) → d.low < d.high → d.high < 2 ^ 32 →
    (ops.foldl DS.step d).low < (ops.foldl DS.step d).high ∧ (ops.foldl DS.step d).high < 2 ^ 32 ∧
    (d.high - d.low + 1) * 2 ^ (16 * (ops.foldl DS.step d).cw.length) ≤
      ((ops.foldl DS.step d).high - (ops.foldl DS.step d).low + 1) * 2 ^ (16 * d.cw.length + weight ops)
  | [], d, _, h1, h2 => ⟨h1, h2, Nat.le_refl _⟩
  | op :: ops, d, ho, h1, h2 => by
    have key : (d.step op).low < (d.step op).high ∧ (d.step op).high < 2 ^ 32 ∧
        (d.high - d.low + 1) * 2 ^ (16 * (d.step op).cw.length) ≤ ((d.step op).high - (d.step op).low + 1) * 2 ^ (16 * d.cw.length + op.weight) := by
      cases op with
      | code c s =>
        refine ⟨h1, h2, ?_⟩
        simp only [DS.step, List.length_append, List.length_singleton, Op.weight]
        rw [Nat.mul_add]
      | bits n v =>
        simp only [DS.step]
        split
        · refine ⟨h1, h2, ?_⟩
          simp only [List.length_append, List.length_singleton, List.length_set, Op.weight]
          rw [Nat.mul_add]
        · refine ⟨h1, h2, ?_⟩
          dsimp only
          exact Nat.mul_le_mul_left _ (Nat.pow_le_pow_right (by decide) (Nat.le_add_right _ _))
      | bit p b =>
        have hp : p < 256 := ho (.bit p b) (by simp)
        have hr := narrow_range b h1 h2 hp
        have hn := narrow_ok b h1 hp
        simp only [DS.step]
        generalize narrowLow d.low d.high p b = lo at *
        generalize narrowHigh d.low d.high p b = hi at *
        split
        · rename_i heq
          dsimp only
          have e : hi % 65536 * 65536 + 65535 - lo % 65536 * 65536 + 1 = (hi - lo + 1) * 2 ^ 16 := by omega
          refine ⟨by omega, by omega, ?_⟩
          simp only [List.length_append, List.length_singleton, List.length_set]
          rw [e, Nat.mul_add, Nat.pow_add, Nat.pow_add]
          calc (d.high - d.low + 1) * (2 ^ (16 * d.cw.length) * 2 ^ (16 * 1))
              ≤ ((hi - lo + 1) * 2 ^ (Op.bit p b).weight) * (2 ^ (16 * d.cw.length) * 2 ^ (16 * 1)) := Nat.mul_le_mul_right _ hr
            _ = _ := by ring
        · rename_i hne
          dsimp only
          refine ⟨?_, by omega, ?_⟩
          · rcases Nat.lt_or_eq_of_le hn.2.1 with h | h
            · exact h
            · exact absurd (by rw [h]) hne
          · rw [Nat.pow_add]
            calc (d.high - d.low + 1) * 2 ^ (16 * d.cw.length)
                ≤ ((hi - lo + 1) * 2 ^ (Op.bit p b).weight) * 2 ^ (16 * d.cw.length) := Nat.mul_le_mul_right _ hr
              _ = _ := by ring
    obtain ⟨k1, k2, k3⟩ := key
    obtain ⟨i1, i2, i3⟩ := run_range ops (d := d.step op) (fun o h => ho o (by simp [h])) k1 k2
    rw [List.foldl_cons]
    refine ⟨i1, i2, ?_⟩
    have e : weight (op :: ops) = op.weight + weight ops := by unfold weight; rw [List.map_cons, List.sum_cons]
    rw [e]
    generalize ops.foldl DS.step (d.step op) = d2 at *
    generalize d.step op = d1 at *
    have hpos : 0 < 2 ^ (16 * d1.cw.length) := Nat.two_pow_pos _
    refine Nat.le_of_mul_le_mul_right ?_ hpos
    calc (d.high - d.low + 1) * 2 ^ (16 * d2.cw.length) * 2 ^ (16 * d1.cw.length)
        = ((d.high - d.low + 1) * 2 ^ (16 * d1.cw.length)) * 2 ^ (16 * d2.cw.length) := by ring
      _ ≤ ((d1.high - d1.low + 1) * 2 ^ (16 * d.cw.length + op.weight)) * 2 ^ (16 * d2.cw.length) := Nat.mul_le_mul_right _ k3
      _ = ((d1.high - d1.low + 1) * 2 ^ (16 * d2.cw.length)) * 2 ^ (16 * d.cw.length + op.weight) := by ring
      _ ≤ ((d2.high - d2.low + 1) * 2 ^ (16 * d1.cw.length + weight ops)) * 2 ^ (16 * d.cw.length + op.weight) := Nat.mul_le_mul_right _ i3
      _ = _ := by rw [Nat.pow_add, Nat.pow_add, Nat.pow_add, Nat.pow_add]; ring

/-- The number of code words. -/
theorem words_le {ops : List Op} (h : ∀ op ∈ ops, op.Small) : 16 * (ops.foldl DS.step DS.init).cw.length ≤ 48 + weight ops := by
  obtain ⟨h1, h2, h3⟩ := run_range ops (d := DS.init) h (by decide) (by decide)
  generalize ops.foldl DS.step DS.init = d at *
  have hi : DS.init.high - DS.init.low + 1 = 2 ^ 32 := by decide
  have hl : DS.init.cw.length = 3 := rfl
  rw [hi, hl] at h3
  have h4 : d.high - d.low + 1 ≤ 2 ^ 32 := by omega
  have h5 : 2 ^ 32 * 2 ^ (16 * d.cw.length) ≤ 2 ^ 32 * 2 ^ (16 * 3 + weight ops) := Nat.le_trans h3 (Nat.mul_le_mul_right _ h4)
  have h6 := Nat.le_of_mul_le_mul_left h5 (by decide)
  have := (Nat.pow_le_pow_iff_right (by decide : 1 < 2)).mp h6
  omega

end Brunsli
