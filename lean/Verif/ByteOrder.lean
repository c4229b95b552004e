import Verif.BitIO
import Verif.PropsA
/-!
# The byte order of the platform

Values are stored in and loaded from memory by `BRUNSLI_UNALIGNED_STORE16LE`, `..._LOAD16LE` and `..._STORE64LE`, of which there are three variants
(c/common/platform.h:248-389): for little-endian machines, for big-endian machines, and for machines of which nothing is known.
-/

namespace Brunsli

/-- `BRUNSLI_LITTLE_ENDIAN`, `BRUNSLI_BIG_ENDIAN` or none of them (c/common/platform.h:248-278); what is defined is true of the machine. -/
inductive ByteOrder where
  | little
  | big
  | neutral
deriving DecidableEq, Repr

/-- `BRUNSLI_BSWAP16_` (c/common/platform.h:316-318). -/
def bswap16 (v : Nat) : Nat := (((v &&& 0xFF) <<< 8) ||| ((v >>> 8) &&& 0xFF)) % 2 ^ 16

/-- `BRUNSLI_BSWAP64_` (c/common/platform.h:334-338) of a 64-bit value. -/
def bswap64 (v : Nat) : Nat :=
  (((v &&& 0xFF) <<< 56) ||| ((v &&& 0xFF00) <<< 40) ||| ((v &&& 0xFF0000) <<< 24) ||| ((v &&& 0xFF000000) <<< 8) ||| ((v >>> 8) &&& 0xFF000000) |||
    ((v >>> 24) &&& 0xFF0000) ||| ((v >>> 40) &&& 0xFF00) ||| ((v >>> 56) &&& 0xFF)) % 2 ^ 64

/-- `BRUNSLI_UNALIGNED_STORE16LE` (c/common/platform.h:310,323-326,353-357): the two bytes in memory, `memcpy` giving them in the order of the machine. -/
def ByteOrder.store16 (o : ByteOrder) (v : Nat) : List Nat :=
  match o with
  | .little => leBytes 2 v
  | .big => (leBytes 2 (bswap16 v)).reverse
  | .neutral => [v % 256, (v >>> 8) % 256]

/-- `BRUNSLI_UNALIGNED_LOAD16LE` (c/common/platform.h:309,319-322,349-352). -/
def ByteOrder.load16 (o : ByteOrder) (a b : Nat) : Nat :=
  match o with
  | .little => leVal [a, b]
  | .big => bswap16 (leVal [b, a])
  | .neutral => (a ||| (b <<< 8)) % 2 ^ 16

/-- `BRUNSLI_UNALIGNED_STORE64LE` (c/common/platform.h:313,343-346,378-388). -/
def ByteOrder.store64 (o : ByteOrder) (v : Nat) : List Nat :=
  match o with
  | .little => leBytes 8 v
  | .big => (leBytes 8 (bswap64 v)).reverse
  | .neutral => [v % 256, (v >>> 8) % 256, (v >>> 16) % 256, (v >>> 24) % 256, (v >>> 32) % 256, (v >>> 40) % 256, (v >>> 48) % 256, (v >>> 56) % 256]

/-- `WriteBits` (c/enc/write_bits.h:54-71).  The branch is that of little-endian machines on all of them: `BRUNSLI_LITTLE_ENDIAN` is always defined, as 0 on the
others (c/common/platform.h:269-271), and line 60 asks whether it is defined. -/
def Storage.writeBitsOn (o : ByteOrder) (s : Storage) (n bits : Nat) : Option Storage :=
  if s.pos / 8 + 8 ≤ s.data.length ∧ n ≤ 56 ∧ bits < 2 ^ n then
    match s.data[s.pos / 8]? with
    | none => none
    | some b =>
      some ⟨s.data.take (s.pos / 8) ++ o.store64 (b ||| ((bits <<< (s.pos % 8)) % 2 ^ 64)) ++ s.data.drop (s.pos / 8 + 8), s.pos + n⟩
  else none

/-- A sequence of calls. -/
def Storage.writesOn (o : ByteOrder) (s : Storage) : List (Nat × Nat) → Option Storage
  | [] => some s
  | (n, v) :: ws =>
    match s.writeBitsOn o n v with
    | none => none
    | some s => s.writesOn o ws

/-- The words of DC and AC data stored one after another (c/enc/brunsli_encode.cc:708-718). -/
def ByteOrder.storeWords (o : ByteOrder) (ws : List Nat) : List Nat := ws.flatMap o.store16

/-- The words loaded one after another (c/dec/brunsli_input.h:28-38). -/
def ByteOrder.loadWords (o : ByteOrder) : List Nat → List Nat
  | a :: b :: bs => o.load16 a b :: o.loadWords bs
  | _ => []

/-! ## The other branch -/

/-- The loop of the other branch of `WriteBits` and the zero behind it (c/enc/write_bits.h:79-84): `left` bits are to be written, 8 of which are. -/
def storeTail : (fuel left bits : Nat) → List Nat
  | 0, _, _ => [0]
  | fuel + 1, left, bits => if 9 ≤ left then bits / 256 % 256 :: storeTail fuel (left - 8) (bits / 256) else [0]

/-- The other branch of `WriteBits` (c/enc/write_bits.h:72-85), which is never compiled.  `none`: an access outside of the buffer. -/
def Storage.writeBitsN (s : Storage) (n bits : Nat) : Option Storage :=
  if n ≤ 56 ∧ bits < 2 ^ n then
    match s.data[s.pos / 8]? with
    | none => none
    | some b =>
      let v := (bits <<< (s.pos % 8)) % 2 ^ 64
      let l := (b ||| (v % 256)) :: storeTail 8 (n + s.pos % 8) v
      if s.pos / 8 + l.length ≤ s.data.length then some ⟨s.data.take (s.pos / 8) ++ l ++ s.data.drop (s.pos / 8 + l.length), s.pos + n⟩ else none
  else none

/-- A sequence of calls. -/
def Storage.writesN (s : Storage) : List (Nat × Nat) → Option Storage
  | [] => some s
  | (n, v) :: ws =>
    match s.writeBitsN n v with
    | none => none
    | some s => s.writesN ws

/-! ## Swapping -/

theorem and_byte (v s : Nat) : v &&& (255 <<< s) = (v / 2 ^ s % 256) <<< s := by
  apply Nat.eq_of_testBit_eq
  intro i
  rw [Nat.testBit_and, Nat.testBit_shiftLeft, Nat.testBit_shiftLeft, show (256 : Nat) = 2 ^ 8 from rfl, Nat.testBit_mod_two_pow, Nat.testBit_div_two_pow,
    show (255 : Nat) = 2 ^ 8 - 1 from rfl, Nat.testBit_two_pow_sub_one]
  by_cases h : s ≤ i
  · rw [show i - s + s = i by omega]
    cases Nat.testBit v i <;> simp [h]
  · simp [h]

theorem push_byte {H b : Nat} (t : Nat) (hb : b < 256) : (H <<< (t + 8)) ||| (b <<< t) = (H * 256 + b) <<< t := by
  rw [Nat.add_comm t 8, Nat.shiftLeft_add, ← Nat.shiftLeft_or_distrib, Nat.or_comm, or_shift (i := 8) hb, Nat.add_comm]

theorem leBytes_push (k H b : Nat) (hb : b < 256) : leBytes (k + 1) (H * 256 + b) = b :: leBytes k H := by
  rw [leBytes, show (H * 256 + b) % 256 = b by omega, show (H * 256 + b) / 256 = H by omega]

theorem bswap64_eq (v : Nat) : (leBytes 8 (bswap64 v)).reverse = leBytes 8 v := by
  have e : bswap64 v = (((((((v % 256 * 256 + v / 2 ^ 8 % 256) * 256 + v / 2 ^ 16 % 256) * 256 + v / 2 ^ 24 % 256) * 256 + v / 2 ^ 32 % 256) * 256 + v / 2 ^ 40 % 256) * 256 +
      v / 2 ^ 48 % 256) * 256 + v / 2 ^ 56 % 256) := by
    have hm : ∀ x : Nat, Nat → x % 256 < 256 := fun x _ => Nat.mod_lt _ (by decide)
    unfold bswap64
    have a0 : v &&& 0xFF = v % 256 := by simpa using and_byte v 0
    have a1 : v &&& 0xFF00 = (v / 2 ^ 8 % 256) <<< 8 := and_byte v 8
    have a2 : v &&& 0xFF0000 = (v / 2 ^ 16 % 256) <<< 16 := and_byte v 16
    have a3 : v &&& 0xFF000000 = (v / 2 ^ 24 % 256) <<< 24 := and_byte v 24
    have a4 : (v >>> 8) &&& 0xFF000000 = (v / 2 ^ 32 % 256) <<< 24 := by
      have := and_byte (v >>> 8) 24
      rw [Nat.shiftRight_eq_div_pow, Nat.div_div_eq_div_mul, ← Nat.pow_add] at this
      rw [Nat.shiftRight_eq_div_pow]
      exact this
    have a5 : (v >>> 24) &&& 0xFF0000 = (v / 2 ^ 40 % 256) <<< 16 := by
      have := and_byte (v >>> 24) 16
      rw [Nat.shiftRight_eq_div_pow, Nat.div_div_eq_div_mul, ← Nat.pow_add] at this
      rw [Nat.shiftRight_eq_div_pow]
      exact this
    have a6 : (v >>> 40) &&& 0xFF00 = (v / 2 ^ 48 % 256) <<< 8 := by
      have := and_byte (v >>> 40) 8
      rw [Nat.shiftRight_eq_div_pow, Nat.div_div_eq_div_mul, ← Nat.pow_add] at this
      rw [Nat.shiftRight_eq_div_pow]
      exact this
    have a7 : (v >>> 56) &&& 0xFF = (v / 2 ^ 56 % 256) <<< 0 := by
      have := and_byte (v >>> 56) 0
      rw [Nat.shiftRight_eq_div_pow, Nat.div_div_eq_div_mul, ← Nat.pow_add] at this
      rw [Nat.shiftRight_eq_div_pow]
      exact this
    rw [a0, a1, a2, a3, a4, a5, a6, a7]
    have b0 := hm v 0
    have b1 := hm (v / 2 ^ 8) 0
    have b2 := hm (v / 2 ^ 16) 0
    have b3 := hm (v / 2 ^ 24) 0
    have b4 := hm (v / 2 ^ 32) 0
    have b5 := hm (v / 2 ^ 40) 0
    have b6 := hm (v / 2 ^ 48) 0
    have b7 := hm (v / 2 ^ 56) 0
    generalize v % 256 = x0 at *
    generalize v / 2 ^ 8 % 256 = x1 at *
    generalize v / 2 ^ 16 % 256 = x2 at *
    generalize v / 2 ^ 24 % 256 = x3 at *
    generalize v / 2 ^ 32 % 256 = x4 at *
    generalize v / 2 ^ 40 % 256 = x5 at *
    generalize v / 2 ^ 48 % 256 = x6 at *
    generalize v / 2 ^ 56 % 256 = x7 at *
    rw [← Nat.shiftLeft_add, ← Nat.shiftLeft_add, ← Nat.shiftLeft_add]
    rw [push_byte 48 b1, push_byte 40 b2, push_byte 32 b3, push_byte 24 b4, push_byte 16 b5, push_byte 8 b6, push_byte 0 b7, Nat.shiftLeft_zero]
    exact Nat.mod_eq_of_lt (by omega)
  have hm : ∀ x, x % 256 < 256 := fun x => Nat.mod_lt _ (by decide)
  rw [e, leBytes_push _ _ _ (hm _), leBytes_push _ _ _ (hm _), leBytes_push _ _ _ (hm _), leBytes_push _ _ _ (hm _), leBytes_push _ _ _ (hm _), leBytes_push _ _ _ (hm _),
    leBytes_push _ _ _ (hm _)]
  simp only [leBytes, List.reverse_cons, List.reverse_nil, List.nil_append, List.cons_append, Nat.div_div_eq_div_mul, Nat.mod_mod]

theorem bswap16_eq (v : Nat) : bswap16 v = v % 256 * 256 + v / 256 % 256 := by
  unfold bswap16
  have a0 : v &&& 0xFF = v % 256 := by simpa using and_byte v 0
  have a1 : (v >>> 8) &&& 0xFF = (v / 2 ^ 8 % 256) <<< 0 := by
    have := and_byte (v >>> 8) 0
    rw [Nat.shiftRight_eq_div_pow, Nat.div_div_eq_div_mul, ← Nat.pow_add] at this
    rw [Nat.shiftRight_eq_div_pow]
    exact this
  rw [a0, a1, push_byte 0 (Nat.mod_lt _ (by decide)), Nat.shiftLeft_zero, show (2 : Nat) ^ 8 = 256 from rfl]
  omega

theorem store16_eq (o : ByteOrder) (v : Nat) : o.store16 v = [v % 256, v / 256 % 256] := by
  cases o with
  | little => rfl
  | big =>
    show (leBytes 2 (bswap16 v)).reverse = _
    rw [bswap16_eq, leBytes_push _ _ _ (Nat.mod_lt _ (by decide))]
    simp [leBytes]
  | neutral =>
    show [v % 256, (v >>> 8) % 256] = _
    rw [Nat.shiftRight_eq_div_pow]

theorem load16_eq (o : ByteOrder) {a b : Nat} (ha : a < 256) (hb : b < 256) : o.load16 a b = a + 256 * b := by
  cases o with
  | little => simp [ByteOrder.load16, leVal]
  | big =>
    show bswap16 (leVal [b, a]) = _
    rw [bswap16_eq]
    simp only [leVal]
    omega
  | neutral =>
    show (a ||| (b <<< 8)) % 2 ^ 16 = _
    rw [or_shift (i := 8) ha]
    omega

theorem store64_eq (o : ByteOrder) (v : Nat) : o.store64 v = leBytes 8 v := by
  cases o with
  | little => rfl
  | big => exact bswap64_eq v
  | neutral =>
    simp only [ByteOrder.store64, leBytes, Nat.shiftRight_eq_div_pow, Nat.div_div_eq_div_mul]

theorem writeBitsOn_eq (o : ByteOrder) (s : Storage) (n bits : Nat) : s.writeBitsOn o n bits = s.writeBits n bits := by
  unfold Storage.writeBitsOn Storage.writeBits
  simp only [store64_eq]
  cases s.data[s.pos / 8]? <;> rfl

theorem writesOn_eq (o : ByteOrder) (ws : List (Nat × Nat)) : ∀ s : Storage, s.writesOn o ws = s.writes ws := by
  induction ws with
  | nil => intro s; rfl
  | cons w ws ih =>
    intro s
    rw [Storage.writesOn, Storage.writes, writeBitsOn_eq]
    cases s.writeBits w.1 w.2 with
    | none => rfl
    | some s' => exact ih s'

theorem storeWords_eq (o : ByteOrder) (ws : List Nat) : o.storeWords ws = wordBytes ws := by
  unfold ByteOrder.storeWords
  induction ws with
  | nil => rfl
  | cons w ws ih => rw [List.flatMap_cons, ih, store16_eq]; rfl

theorem loadWords_eq (o : ByteOrder) : ∀ {bs : List Nat}, Bytes bs → o.loadWords bs = bytesWords bs
  | [], _ => rfl
  | [_], _ => rfl
  | a :: b :: bs, h => by
    rw [ByteOrder.loadWords, bytesWords, load16_eq o (h a (by simp)) (h b (by simp)), loadWords_eq o fun x hx => h x (by simp [hx])]

/-! ## The other branch writes the same bits -/

theorem storeTail_eq (fuel : Nat) : ∀ {left bits : Nat}, bits < 2 ^ left → left ≤ 8 * fuel + 8 → storeTail fuel left bits = leBytes ((left - 1) / 8 + 1) (bits / 256) := by
  have small : ∀ {left bits : Nat}, bits < 2 ^ left → left ≤ 8 → bits / 256 = 0 := by
    intro left bits h hl
    have : 2 ^ left ≤ 2 ^ 8 := Nat.pow_le_pow_right (by decide) hl
    omega
  induction fuel with
  | zero =>
    intro left bits h hl
    rw [storeTail, small h (by omega), show (left - 1) / 8 = 0 by omega]
    rfl
  | succ fuel ih =>
    intro left bits h hl
    rw [storeTail]
    by_cases h9 : 9 ≤ left
    · rw [if_pos h9, ih (left := left - 8) (bits := bits / 256) ?_ (by omega), show (left - 1) / 8 + 1 = ((left - 8 - 1) / 8 + 1) + 1 by omega]
      · rfl
      · rw [Nat.div_lt_iff_lt_mul (by decide), show (256 : Nat) = 2 ^ 8 from rfl, ← Nat.pow_add, show left - 8 + 8 = left by omega]
        exact h
    · rw [if_neg h9, small h (by omega), show (left - 1) / 8 = 0 by omega]
      rfl

theorem Storage.writeBitsN_inv {s : Storage} {W n v : Nat} (h : s.Inv W) (hl : (s.pos + n) / 8 + 2 ≤ s.data.length) (hn : n ≤ 56) (hv : v < 2 ^ n) :
    ∃ s', s.writeBitsN n v = some s' ∧ s'.Inv (W + v * 2 ^ s.pos) ∧ s'.pos = s.pos + n ∧ s'.data.length = s.data.length := by
  obtain ⟨hb, hlen, hval, hlt⟩ := h
  generalize hq : s.pos / 8 = q at *
  generalize hr : s.pos % 8 = r at *
  have hpos : s.pos = 8 * q + r := by omega
  have hget : s.data[q]? = some s.data[q] := List.getElem?_eq_getElem hlen
  have hqlen : (s.data.take q).length = q := by simp; omega
  have htake : s.data.take (q + 1) = s.data.take q ++ [s.data[q]] := by
    rw [List.take_add_one, hget]; rfl
  rw [htake, leVal_append, hqlen] at hval
  simp only [leVal, Nat.mul_zero, Nat.add_zero] at hval
  have hcur : s.data[q] < 2 ^ r := by
    have h1 : 256 ^ q * s.data[q] < 256 ^ q * 2 ^ r := by
      rw [hpos, Nat.pow_add, ← pow256] at hlt
      omega
    exact Nat.lt_of_mul_lt_mul_left h1
  have hr8 : r < 8 := by omega
  have hvr : v * 2 ^ r < 2 ^ (n + r) := by
    have h1 : v * 2 ^ r < 2 ^ n * 2 ^ r := Nat.mul_lt_mul_of_pos_right hv (Nat.two_pow_pos r)
    rwa [← Nat.pow_add] at h1
  have hvr64 : v * 2 ^ r < 2 ^ 64 := Nat.lt_of_lt_of_le hvr (Nat.pow_le_pow_right (by omega) (by omega))
  have hV : s.data[q] + v * 2 ^ r < 2 ^ (r + n) := by
    have h1 : (v + 1) * 2 ^ r ≤ 2 ^ n * 2 ^ r := Nat.mul_le_mul_right _ hv
    rw [← Nat.pow_add, Nat.add_mul, Nat.add_comm n r] at h1
    omega
  -- the bytes stored
  have hl' : (s.data[q] ||| ((v <<< r) % 2 ^ 64 % 256)) :: storeTail 8 (n + r) ((v <<< r) % 2 ^ 64) = leBytes ((n + r - 1) / 8 + 2) (s.data[q] + v * 2 ^ r) := by
    rw [Nat.shiftLeft_eq, show v * 2 ^ r % 2 ^ 64 = v * 2 ^ r from Nat.mod_eq_of_lt hvr64, storeTail_eq 8 hvr (by omega),
      show leBytes ((n + r - 1) / 8 + 2) (s.data[q] + v * 2 ^ r) = (s.data[q] + v * 2 ^ r) % 256 :: leBytes ((n + r - 1) / 8 + 1) ((s.data[q] + v * 2 ^ r) / 256) from rfl]
    have hsplit : v * 2 ^ r % 256 = (v % 2 ^ (8 - r)) * 2 ^ r := by
      rw [show (256 : Nat) = 2 ^ (8 - r) * 2 ^ r by rw [← Nat.pow_add, show 8 - r + r = 8 by omega], Nat.mul_mod_mul_right]
    have hdiv : (s.data[q] + v * 2 ^ r) / 256 = v * 2 ^ r / 256 := by
      rw [show (256 : Nat) = 2 ^ r * 2 ^ (8 - r) by rw [← Nat.pow_add, show r + (8 - r) = 8 by omega], ← Nat.div_div_eq_div_mul, ← Nat.div_div_eq_div_mul,
        Nat.add_mul_div_right _ _ (Nat.two_pow_pos r), Nat.mul_div_cancel _ (Nat.two_pow_pos r), Nat.div_eq_of_lt hcur, Nat.zero_add]
    have hmod : (s.data[q] + v * 2 ^ r) % 256 = s.data[q] + v * 2 ^ r % 256 := by omega
    rw [hdiv, hmod]
    congr 1
    rw [hsplit, ← or_shift hcur, Nat.shiftLeft_eq]
  have hK : (n + r - 1) / 8 + 2 ≤ (s.pos + n) / 8 + 2 - q := by omega
  refine ⟨⟨s.data.take q ++ leBytes ((n + r - 1) / 8 + 2) (s.data[q] + v * 2 ^ r) ++ s.data.drop (q + ((n + r - 1) / 8 + 2)), s.pos + n⟩, ?_, ?_, rfl, ?_⟩
  · unfold Storage.writeBitsN
    rw [hq, hr, if_pos ⟨hn, hv⟩, hget]
    dsimp only
    rw [hl', leBytes_length, if_pos (by omega)]
  · have hlen' : (s.data.take q ++ leBytes ((n + r - 1) / 8 + 2) (s.data[q] + v * 2 ^ r) ++ s.data.drop (q + ((n + r - 1) / 8 + 2))).length = s.data.length := by
      simp [leBytes_length]; omega
    have hq' : (s.pos + n) / 8 = q + (r + n) / 8 := by omega
    refine ⟨?_, ?_, ?_, ?_⟩
    · intro x hx
      simp only [List.mem_append] at hx
      rcases hx with (hx | hx) | hx
      · exact hb x (List.mem_of_mem_take hx)
      · exact leBytes_bytes _ _ x hx
      · exact hb x (List.mem_of_mem_drop hx)
    · simp only; rw [hlen', hq']; omega
    · simp only
      rw [hq', List.take_append_of_le_length (by simp [leBytes_length]; omega), List.take_append, hqlen, leVal_append]
      have h8 : q + (r + n) / 8 + 1 - q = (r + n) / 8 + 1 := by omega
      have ht : List.take (q + (r + n) / 8 + 1) (s.data.take q) = s.data.take q := by
        rw [List.take_take]; congr 1; omega
      rw [h8, ht, hqlen, leVal_take_leBytes _ _ _ (by omega)]
      rw [Nat.mod_eq_of_lt]
      · rw [Nat.mul_add, ← Nat.add_assoc, hval, hpos, Nat.pow_add, ← pow256]
        rw [Nat.mul_comm v (2 ^ r), ← Nat.mul_assoc, Nat.mul_comm v]
      · refine Nat.lt_of_lt_of_le hV ?_
        rw [pow256]
        exact Nat.pow_le_pow_right (by omega) (by omega)
    · simp only
      have h1 : (v + 1) * 2 ^ s.pos ≤ 2 ^ n * 2 ^ s.pos := Nat.mul_le_mul_right _ hv
      rw [← Nat.pow_add, Nat.add_mul, Nat.add_comm n] at h1
      omega
  · simp [leBytes_length]; omega

theorem Storage.writesN_inv (ws : List (Nat × Nat)) : ∀ (s : Storage) (W : Nat), s.Inv W →
    (s.pos + writesLen ws) / 8 + 2 ≤ s.data.length → (∀ w ∈ ws, w.1 ≤ 56 ∧ w.2 < 2 ^ w.1) →
    ∃ s', s.writesN ws = some s' ∧ s'.Inv (W + writesVal s.pos ws) ∧ s'.pos = s.pos + writesLen ws ∧ s'.data.length = s.data.length := by
  induction ws with
  | nil =>
    intro s W h _ _
    exact ⟨s, rfl, by simpa [writesVal] using h, by simp [writesLen], rfl⟩
  | cons w ws ih =>
    obtain ⟨n, v⟩ := w
    intro s W h hl hw
    simp only [writesLen] at hl
    obtain ⟨hn, hv⟩ := hw (n, v) (by simp)
    obtain ⟨s1, e1, i1, p1, l1⟩ := Storage.writeBitsN_inv (n := n) (v := v) h (by omega) hn hv
    obtain ⟨s2, e2, i2, p2, l2⟩ := ih s1 _ i1 (by rw [p1, l1]; omega) (fun w hw' => hw w (by simp [hw']))
    refine ⟨s2, by simp [Storage.writesN, e1, e2], ?_, ?_, by rw [l2, l1]⟩
    · rw [p1, Nat.add_assoc] at i2
      simpa [writesVal] using i2
    · rw [p2, p1]; simp [writesLen]; omega

theorem leVal_inj : ∀ {a b : List Nat}, Bytes a → Bytes b → a.length = b.length → leVal a = leVal b → a = b
  | [], [], _, _, _, _ => rfl
  | x :: a, y :: b, ha, hb, hl, h => by
    have hx := ha x (by simp)
    have hy := hb y (by simp)
    rw [leVal, leVal] at h
    rw [show x = y by omega, leVal_inj (a := a) (b := b) (fun z hz => ha z (by simp [hz])) (fun z hz => hb z (by simp [hz])) (by simpa using hl) (by omega)]

end Brunsli
