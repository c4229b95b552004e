import Verif.Base128
/-!
# Variable-length integers in bit streams

`EncodeVarint`, `EncodeLimitedVarint` (c/enc/brunsli_encode.cc:217-243), `StoreVarLenUint8`
(c/enc/context_map_encode.cc:25-34), and their readers `DecodeVarint`, `DecodeLimitedVarint`,
`DecodeVarLenUint8` (c/dec/brunsli_decode.cc:87-174).
-/

namespace Brunsli
open P

/-- Loop of `EncodeVarint` (c/enc/brunsli_encode.cc:217-230); the first argument is `max_bits - b`. -/
def encodeVarint : (left n : Nat) → List Bool
  | 0, _ => []
  | l + 1, n =>
    if n = 0 then [false]
    else (if l = 0 then [] else [true]) ++ (decide (n % 2 = 1) :: encodeVarint l (n / 2))

/-- Loop of `DecodeVarint` (c/dec/brunsli_decode.cc:99-137); `left` is `max_bits - i`. The suspension
points (`return false` when a bit is missing) are rejections here. -/
def decodeVarintLoop : (left i value : Nat) → P Bool Nat
  | 0, _, value => Pure.pure value
  | l + 1, i, value => do
    let go ← (if l = 0 then Pure.pure true else readBit)
    if go then do
      let b ← readBit
      decodeVarintLoop l (i + 1) (value ||| (b.toNat <<< i))
    else Pure.pure value

/-- `DecodeVarint` (c/dec/brunsli_decode.cc:99-137). -/
def decodeVarint (maxBits : Nat) : P Bool Nat := decodeVarintLoop maxBits 0 0

/-- `EncodeLimitedVarint` (c/enc/brunsli_encode.cc:234-243); `left` is `max_symbols - b`. -/
def encodeLimitedVarint (nbits : Nat) : (left bits : Nat) → List Bool
  | 0, _ => []
  | l + 1, bits =>
    if bits = 0 then [false]
    else true :: (bitsOf nbits (bits % 2 ^ nbits) ++ encodeLimitedVarint nbits l (bits / 2 ^ nbits))

/-- Loop of `DecodeLimitedVarint` (c/dec/brunsli_decode.cc:139-174); `left` is `max_symbols - i`. -/
def decodeLimitedVarintLoop (nbits : Nat) : (left i value : Nat) → P Bool Nat
  | 0, _, value => Pure.pure value
  | l + 1, i, value => do
    let go ← readBit
    if go then do
      let b ← readBits nbits
      decodeLimitedVarintLoop nbits l (i + 1) (value ||| (b <<< (i * nbits)))
    else Pure.pure value

/-- `DecodeLimitedVarint` (c/dec/brunsli_decode.cc:139-174). -/
def decodeLimitedVarint (nbits maxSymbols : Nat) : P Bool Nat :=
  decodeLimitedVarintLoop nbits maxSymbols 0 0

/-- `StoreVarLenUint8` (c/enc/context_map_encode.cc:25-34). -/
def storeVarLenUint8 (n : Nat) : List Bool :=
  if n = 0 then bitsOf 1 0
  else bitsOf 1 1 ++ bitsOf 3 n.log2 ++ bitsOf n.log2 (n - 2 ^ n.log2)

/-- `DecodeVarLenUint8` (c/dec/brunsli_decode.cc:87-97). -/
def decodeVarLenUint8 : P Bool Nat := do
  let f ← readBits 1
  if f ≠ 0 then do
    let nbits ← readBits 3
    if nbits = 0 then Pure.pure 1
    else do
      let x ← readBits nbits
      Pure.pure (x + 2 ^ nbits)
  else Pure.pure 0

theorem decodeVarintLoop_reads (l : Nat) : ∀ (i v n : Nat), v < 2 ^ i → n < 2 ^ l →
    Reads (decodeVarintLoop l i v) (encodeVarint l n) (v + n * 2 ^ i) := by
  induction l with
  | zero => intro i v n _ hn; simp at hn; subst hn; simpa [decodeVarintLoop, decodeLimitedVarintLoop, encodeVarint, encodeLimitedVarint] using Reads.pure (τ := Bool) v
  | succ l ih =>
    intro i v n hv hn rest
    have hbt : (decide (n % 2 = 1)).toNat = n % 2 := by
      rcases Nat.mod_two_eq_zero_or_one n with h | h <;> simp [h]
    have hlt : v + n % 2 * 2 ^ i < 2 ^ (i + 1) := by
      have : n % 2 * 2 ^ i ≤ 1 * 2 ^ i := Nat.mul_le_mul_right _ (by omega)
      rw [Nat.pow_succ]; omega
    have hval : v + n % 2 * 2 ^ i + n / 2 * 2 ^ (i + 1) = v + n * 2 ^ i := by
      rw [Nat.pow_succ, Nat.add_assoc, Nat.mul_comm (2 ^ i), ← Nat.mul_assoc, ← Nat.add_mul]
      congr 2; omega
    have hn' : n / 2 < 2 ^ l := by rw [Nat.pow_succ] at hn; omega
    have step := ih (i + 1) (v + n % 2 * 2 ^ i) (n / 2) hlt hn' rest
    rw [hval] at step
    simp only [encodeVarint, decodeVarintLoop]
    by_cases h0 : n = 0
    · subst h0
      by_cases hl : l = 0
      · subst hl
        simp [readBit, decodeVarintLoop]
      · simp [hl, readBit]
    · by_cases hl : l = 0
      · subst hl
        simpa [h0, readBit, or_shift hv, hbt] using step
      · simpa [h0, hl, readBit, or_shift hv, hbt] using step

theorem decodeVarint_reads {maxBits n : Nat} (h : n < 2 ^ maxBits) :
    Reads (decodeVarint maxBits) (encodeVarint maxBits n) n := by
  simpa [decodeVarint] using decodeVarintLoop_reads maxBits 0 0 n (by simp) h

theorem decodeLimitedVarintLoop_reads (nbits l : Nat) : ∀ (i v n : Nat), v < 2 ^ (i * nbits) →
    n < 2 ^ (l * nbits) →
    Reads (decodeLimitedVarintLoop nbits l i v) (encodeLimitedVarint nbits l n)
      (v + n * 2 ^ (i * nbits)) := by
  induction l with
  | zero => intro i v n _ hn; simp at hn; subst hn; simpa [decodeVarintLoop, decodeLimitedVarintLoop, encodeVarint, encodeLimitedVarint] using Reads.pure (τ := Bool) v
  | succ l ih =>
    intro i v n hv hn rest
    have hm : n % 2 ^ nbits < 2 ^ nbits := Nat.mod_lt _ (Nat.two_pow_pos _)
    have e1 : 2 ^ ((i + 1) * nbits) = 2 ^ (i * nbits) * 2 ^ nbits := by
      rw [Nat.succ_mul, Nat.pow_add]
    have hlt : v + n % 2 ^ nbits * 2 ^ (i * nbits) < 2 ^ ((i + 1) * nbits) := by
      have : n % 2 ^ nbits * 2 ^ (i * nbits) ≤ (2 ^ nbits - 1) * 2 ^ (i * nbits) :=
        Nat.mul_le_mul_right _ (by omega)
      have e2 : (2 ^ nbits - 1) * 2 ^ (i * nbits) + 2 ^ (i * nbits) = 2 ^ (i * nbits) * 2 ^ nbits := by
        rw [← Nat.succ_mul, Nat.mul_comm]
        congr 1
        have := Nat.two_pow_pos nbits
        omega
      omega
    have hval : v + n % 2 ^ nbits * 2 ^ (i * nbits) + n / 2 ^ nbits * 2 ^ ((i + 1) * nbits)
        = v + n * 2 ^ (i * nbits) := by
      rw [e1, Nat.add_assoc, Nat.mul_comm (2 ^ (i * nbits)), ← Nat.mul_assoc, ← Nat.add_mul,
        Nat.mul_comm (n / _), Nat.mod_add_div]
    have hn' : n / 2 ^ nbits < 2 ^ (l * nbits) := by
      rw [Nat.div_lt_iff_lt_mul (Nat.two_pow_pos _), ← Nat.pow_add, ← Nat.succ_mul]; exact hn
    have step := ih (i + 1) (v + n % 2 ^ nbits * 2 ^ (i * nbits)) (n / 2 ^ nbits) hlt hn' rest
    rw [hval] at step
    simp only [encodeLimitedVarint, decodeLimitedVarintLoop]
    by_cases h0 : n = 0
    · subst h0; simp [readBit]
    · have hr := readBits_reads hm (encodeLimitedVarint nbits l (n / 2 ^ nbits) ++ rest)
      simp [h0, readBit, hr, or_shift hv, step]

theorem decodeLimitedVarint_reads {nbits maxSymbols n : Nat} (h : n < 2 ^ (maxSymbols * nbits)) :
    Reads (decodeLimitedVarint nbits maxSymbols) (encodeLimitedVarint nbits maxSymbols n) n := by
  simpa [decodeLimitedVarint] using decodeLimitedVarintLoop_reads nbits maxSymbols 0 0 n (by simp) h

theorem log2_bounds {n : Nat} (h : n ≠ 0) : 2 ^ n.log2 ≤ n ∧ n < 2 ^ (n.log2 + 1) :=
  ⟨Nat.log2_self_le h, Nat.lt_log2_self⟩

theorem decodeVarLenUint8_reads {n : Nat} (h : n < 256) :
    Reads decodeVarLenUint8 (storeVarLenUint8 n) n := by
  unfold storeVarLenUint8 decodeVarLenUint8
  by_cases h0 : n = 0
  · subst h0
    refine Reads.bind' (readBits_reads (v := 0) (by omega)) ?_ (by simp; rfl)
    simpa using Reads.pure 0
  · obtain ⟨h1, h2⟩ := log2_bounds h0
    have h8 : n.log2 < 8 := (Nat.log2_lt h0).2 h
    rw [if_neg h0, List.append_assoc]
    refine Reads.bind (readBits_reads (by omega)) ?_
    rw [if_pos (by omega)]
    refine Reads.bind (readBits_reads (by simpa using h8)) ?_
    split
    · rename_i hz
      rw [hz] at h1 h2
      have : n = 1 := by omega
      subst this
      exact Reads.pure 1
    · have hr : Reads (readBits n.log2) (bitsOf n.log2 (n - 2 ^ n.log2)) (n - 2 ^ n.log2) :=
        readBits_reads (by rw [Nat.pow_succ] at h2; omega)
      exact Reads.bind' hr (Reads.pure' (by omega)) (by simp)

end Brunsli
