import Verif.Bits
import Verif.Base128
/-!
# Bits as bytes

The bits of a byte string, lowest first, as written by `WriteBits` (c/enc/write_bits.h) and read by the bit reader
(c/dec/bit_reader.h); that both behave this way is C07.
-/

namespace Brunsli

/-- The bits of a byte string. -/
def bytesBits (bs : List Nat) : List Bool := bs.flatMap (bitsOf 8)

/-- Bits packed into bytes, the last one filled with zeros. -/
def packBits (bs : List Bool) : List Nat :=
  if bs = [] then [] else ofBits (bs.take 8) :: packBits (bs.drop 8)
termination_by bs.length
decreasing_by
  have : bs.length ≠ 0 := fun h => ‹¬bs = []› (List.length_eq_zero_iff.mp h)
  rw [List.length_drop]; omega

theorem packBits_bytes (bs : List Bool) : Bytes (packBits bs) := by
  induction bs using packBits.induct with
  | case1 => rw [packBits, if_pos rfl]; intro b hb; simp at hb
  | case2 bs h ih =>
    rw [packBits, if_neg h]
    intro b hb
    rcases List.mem_cons.mp hb with rfl | hb
    · have := ofBits_lt (bs.take 8)
      refine Nat.lt_of_lt_of_le this (Nat.pow_le_pow_right (by decide) (?_ : _ ≤ 8))
      rw [List.length_take]; omega
    · exact ih b hb

theorem bytesBits_packBits {bs : List Bool} (h : bs.length % 8 = 0) : bytesBits (packBits bs) = bs := by
  induction bs using packBits.induct with
  | case1 => rw [packBits, if_pos rfl]; rfl
  | case2 bs hne ih =>
    have h0 : bs.length ≠ 0 := fun h => hne (List.length_eq_zero_iff.mp h)
    rw [packBits, if_neg hne]
    unfold bytesBits at ih ⊢
    rw [List.flatMap_cons, ih (by rw [List.length_drop]; omega)]
    have e : bitsOf 8 (ofBits (bs.take 8)) = bs.take 8 := by
      have hl : (bs.take 8).length = 8 := by rw [List.length_take]; omega
      have := bitsOf_ofBits (bs.take 8)
      rwa [hl] at this
    rw [e, List.take_append_drop]

theorem bytesBits_append (a b : List Nat) : bytesBits (a ++ b) = bytesBits a ++ bytesBits b := List.flatMap_append

theorem bytesBits_length (bs : List Nat) : (bytesBits bs).length = 8 * bs.length := by
  induction bs with
  | nil => rfl
  | cons b bs ih =>
    unfold bytesBits at ih ⊢
    rw [List.flatMap_cons, List.length_append, ih, bitsOf_length, List.length_cons]; omega

end Brunsli
