import Verif.Bits
/-!
# Base-128 numbers of the container format

Models `Base128Size`, `EncodeBase128`, `EncodeBase128Fix` (c/enc/brunsli_encode.cc:89-109) and
`DecodeBase128` (c/dec/brunsli_decode.cc:1016-1032).  Bytes are natural numbers below 256.
-/

namespace Brunsli

/-- A byte list: every element is below 256. -/
def Bytes (bs : List Nat) : Prop := ∀ b ∈ bs, b < 256

/-- Result of a byte-level reader: the value and the remaining input, a request for more input
(`BRUNSLI_NOT_ENOUGH_DATA`), or rejection (`BRUNSLI_INVALID_BRN`). -/
inductive Res (α : Type) where
  | ok (a : α) (rest : List Nat)
  | needMore
  | invalid
deriving DecidableEq, Repr

/-- `Base128Size` (c/enc/brunsli_encode.cc:89-93). -/
def base128Size (val : Nat) : Nat :=
  if val < 128 then 1 else 1 + base128Size (val / 128)
termination_by val

/-- `EncodeBase128` (c/enc/brunsli_encode.cc:95-102): `(val & 0x7f) | (val >= 128 ? 0x80 : 0)`, then
shift by 7 until zero.  The low seven bits and bit 7 do not overlap, so `|` is `+`. -/
def encodeBase128 (val : Nat) : List Nat :=
  if val < 128 then [val % 128] else (val % 128 + 128) :: encodeBase128 (val / 128)
termination_by val

/-- `EncodeBase128Fix` (c/enc/brunsli_encode.cc:104-109). -/
def encodeBase128Fix (val : Nat) : Nat → List Nat
  | 0 => []
  | len + 1 => (val % 128 + (if len = 0 then 0 else 128)) :: encodeBase128Fix (val / 128) len

/-- The loop of `DecodeBase128` (c/dec/brunsli_decode.cc:1016-1032).  `n` is `9 - i`; running out of
`n` with the continuation bit still set is the "not terminated" rejection. -/
def decodeBase128Loop : (n i v : Nat) → List Nat → Res Nat
  | 0, _, _, _ => .invalid
  | _ + 1, _, _, [] => .needMore
  | n + 1, i, v, b :: bs =>
    let v' := v ||| ((b % 128) <<< (7 * i))
    if b / 128 % 2 = 0 then .ok v' bs else decodeBase128Loop n (i + 1) v' bs

/-- `DecodeBase128` (c/dec/brunsli_decode.cc:1016-1032), `size_t` being 64 bits wide. -/
def decodeBase128 (bs : List Nat) : Res Nat := decodeBase128Loop 9 0 0 bs

theorem or_shift {v a i : Nat} (h : v < 2 ^ i) : v ||| (a <<< i) = v + a * 2 ^ i := by
  rw [Nat.shiftLeft_eq, Nat.or_comm, Nat.mul_comm, ← Nat.two_pow_add_eq_or_of_lt h, Nat.add_comm]

theorem add_mul_lt {v a i : Nat} (h : v < 2 ^ (7 * i)) (ha : a < 128) :
    v + a * 2 ^ (7 * i) < 2 ^ (7 * (i + 1)) := by
  have h1 : 2 ^ (7 * (i + 1)) = 128 * 2 ^ (7 * i) := by
    rw [Nat.mul_add, Nat.pow_add]; simp [Nat.mul_comm]
  have h2 : a * 2 ^ (7 * i) ≤ 127 * 2 ^ (7 * i) := Nat.mul_le_mul_right _ (by omega)
  omega

/-- One step of the decoder, in arithmetic form. -/
theorem decodeBase128Loop_cons {n i v b : Nat} {bs : List Nat} (h : v < 2 ^ (7 * i)) :
    decodeBase128Loop (n + 1) i v (b :: bs) =
      if b / 128 % 2 = 0 then .ok (v + b % 128 * 2 ^ (7 * i)) bs
      else decodeBase128Loop n (i + 1) (v + b % 128 * 2 ^ (7 * i)) bs := by
  simp only [decodeBase128Loop, or_shift h]

theorem pow7 (i : Nat) : 2 ^ (7 * (i + 1)) = 128 * 2 ^ (7 * i) := by
  rw [Nat.mul_add, Nat.pow_add]; simp [Nat.mul_comm]

theorem shift_add (val v i : Nat) :
    v + val % 128 * 2 ^ (7 * i) + val / 128 * 2 ^ (7 * (i + 1)) = v + val * 2 ^ (7 * i) := by
  rw [pow7, Nat.add_assoc, ← Nat.mul_assoc, ← Nat.add_mul]
  congr 2
  omega

theorem decodeLoop_encode (n : Nat) : ∀ (val i v : Nat) (rest : List Nat), v < 2 ^ (7 * i) →
    val < 2 ^ (7 * n) → 0 < n →
    decodeBase128Loop n i v (encodeBase128 val ++ rest) = .ok (v + val * 2 ^ (7 * i)) rest := by
  induction n with
  | zero => intro _ _ _ _ _ _ h; omega
  | succ n ih =>
    intro val i v rest hv hval _
    rw [encodeBase128]
    split
    · rename_i h
      rw [List.cons_append, List.nil_append, decodeBase128Loop_cons hv, if_pos (by omega)]
      congr 3
      omega
    · rename_i h
      rw [List.cons_append, decodeBase128Loop_cons hv, if_neg (by omega)]
      have e : (val % 128 + 128) % 128 = val % 128 := by omega
      have hn : 0 < n := by
        rcases Nat.eq_zero_or_pos n with h0 | h0
        · subst h0; simp at hval; omega
        · exact h0
      rw [e, ih _ _ _ _ (add_mul_lt hv (Nat.mod_lt _ (by omega))) _ hn, shift_add]
      rw [pow7] at hval
      omega

theorem decodeLoop_encodeFix (len : Nat) : ∀ (n val i v : Nat) (rest : List Nat), v < 2 ^ (7 * i) →
    val < 2 ^ (7 * len) → 0 < len → len ≤ n →
    decodeBase128Loop n i v (encodeBase128Fix val len ++ rest) = .ok (v + val * 2 ^ (7 * i)) rest := by
  induction len with
  | zero => intro _ _ _ _ _ _ _ h; omega
  | succ len ih =>
    intro n val i v rest hv hval _ hn
    obtain ⟨n, rfl⟩ : ∃ m, n = m + 1 := ⟨n - 1, by omega⟩
    rw [encodeBase128Fix, List.cons_append, decodeBase128Loop_cons hv]
    by_cases h0 : len = 0
    · subst h0
      simp only [Nat.zero_add, Nat.mul_one] at hval
      rw [if_pos (by simp)]
      simp only [encodeBase128Fix, List.nil_append, if_true, Nat.add_zero, Res.ok.injEq, and_true,
        Nat.mod_mod]
      rw [Nat.mod_eq_of_lt (by omega : val < 128)]
    · rw [if_neg (by simp only [if_neg h0]; omega)]
      have e : (val % 128 + (if len = 0 then 0 else 128)) % 128 = val % 128 := by
        simp only [if_neg h0]; omega
      rw [e, ih _ _ _ _ _ (add_mul_lt hv (Nat.mod_lt _ (by omega))) _ (by omega) (by omega), shift_add]
      rw [pow7] at hval
      omega

theorem encodeBase128_length (val : Nat) : (encodeBase128 val).length = base128Size val := by
  induction val using encodeBase128.induct with
  | case1 val h => rw [encodeBase128, base128Size, if_pos h, if_pos h]; rfl
  | case2 val h ih => rw [encodeBase128, base128Size, if_neg h, if_neg h, List.length_cons, ih]; omega

theorem encodeBase128Fix_length (val len : Nat) : (encodeBase128Fix val len).length = len := by
  induction len generalizing val with
  | zero => rfl
  | succ len ih => simp [encodeBase128Fix, ih]

theorem encodeBase128_bytes (val : Nat) : Bytes (encodeBase128 val) := by
  induction val using encodeBase128.induct with
  | case1 val h =>
    rw [encodeBase128, if_pos h]; intro b hb; simp at hb; omega
  | case2 val h ih =>
    rw [encodeBase128, if_neg h]; intro b hb
    simp only [List.mem_cons] at hb
    rcases hb with hb | hb
    · omega
    · exact ih b hb

theorem encodeBase128Fix_bytes (val len : Nat) : Bytes (encodeBase128Fix val len) := by
  induction len generalizing val with
  | zero => intro b hb; simp [encodeBase128Fix] at hb
  | succ len ih =>
    intro b hb
    simp only [encodeBase128Fix, List.mem_cons] at hb
    rcases hb with hb | hb
    · split at hb <;> omega
    · exact ih _ b hb

/-- A decoded value is always below `2^63`. -/
theorem decodeLoop_lt (n : Nat) : ∀ (i v : Nat) (bs rest : List Nat) (r : Nat), v < 2 ^ (7 * i) →
    decodeBase128Loop n i v bs = .ok r rest → r < 2 ^ (7 * (i + n)) := by
  induction n with
  | zero => intro i v bs rest r _ h; simp [decodeBase128Loop] at h
  | succ n ih =>
    intro i v bs rest r hv h
    cases bs with
    | nil => simp [decodeBase128Loop] at h
    | cons b bs =>
      rw [decodeBase128Loop_cons hv] at h
      have hb := add_mul_lt hv (Nat.mod_lt b (by omega : 0 < 128))
      split at h
      · simp only [Res.ok.injEq] at h
        rw [← h.1]
        exact Nat.lt_of_lt_of_le hb (Nat.pow_le_pow_right (by omega) (by omega))
      · have := ih _ _ _ _ _ hb h
        rwa [show i + 1 + n = i + (n + 1) by omega] at this

/-- Numbers of ten or more groups are rejected. -/
theorem decodeLoop_encode_large (n : Nat) : ∀ (val i v : Nat) (rest : List Nat), v < 2 ^ (7 * i) →
    2 ^ (7 * n) ≤ val → decodeBase128Loop n i v (encodeBase128 val ++ rest) = .invalid := by
  induction n with
  | zero => intro _ _ _ _ _ _; rfl
  | succ n ih =>
    intro val i v rest hv hval
    have hp : 0 < 2 ^ (7 * n) := Nat.two_pow_pos _
    rw [pow7] at hval
    rw [encodeBase128, if_neg (by omega), List.cons_append, decodeBase128Loop_cons hv,
      if_neg (by omega)]
    have e : (val % 128 + 128) % 128 = val % 128 := by omega
    rw [e]
    exact ih _ _ _ _ (add_mul_lt hv (Nat.mod_lt _ (by omega))) (by omega)

/-- Truncated input asks for more. -/
theorem decodeLoop_prefix (n : Nat) : ∀ (i v : Nat) (p q : List Nat) (r : Nat) (rest : List Nat),
    decodeBase128Loop n i v (p ++ q) = .ok r rest → p.length + rest.length < (p ++ q).length →
    rest.length < q.length →
    decodeBase128Loop n i v p = .needMore := by
  induction n with
  | zero => intro i v p q r rest h; simp [decodeBase128Loop] at h
  | succ n ih =>
    intro i v p q r rest h h1 h2
    cases p with
    | nil => rfl
    | cons b p =>
      simp only [List.cons_append, decodeBase128Loop] at h ⊢
      split at h
      · simp only [Res.ok.injEq] at h
        rw [← h.2] at h2
        simp at h2
        omega
      · rename_i hb
        rw [if_neg hb]
        exact ih _ _ _ q r rest h (by simp at h1 ⊢; omega) h2

end Brunsli
