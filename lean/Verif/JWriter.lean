import Verif.JBits
import Mathlib.Tactic.Ring
/-!
# The bit writer of the JPEG serializer (c/dec/jpeg_data_writer.cc:36-190)

`BitWriter` collects bits in a 64-bit buffer, most significant bit first, and moves six bytes at a time to the
output, adding the stuffing zeros.  The output queue is a list of byte strings.
-/

namespace Brunsli

/-- Outcome of a step of the serializer: a result, a reported failure, or undefined behaviour (a store outside of
the chunk, a shift by a negative amount). -/
inductive Run (α : Type) where
  | ok (a : α)
  | fail
  | ub
deriving DecidableEq, Repr

/-- Sequencing. -/
def Run.bind {α β : Type} : Run α → (α → Run β) → Run β
  | .ok a, f => f a
  | .fail, _ => .fail
  | .ub, _ => .ub

/-- `kBitWriterChunkSize` (c/dec/jpeg_data_writer.cc:41). -/
def kBitWriterChunkSize : Nat := 16384

/-- `BitWriter` (c/dec/serialization_state.h:28-36).  `queue` is `*output`, `data` the bytes stored in the current
chunk (so `pos` is its length), `buf` is `put_buffer` and `left` is `put_bits`. -/
structure BW where
  healthy : Bool
  queue : List (List Nat)
  data : List Nat
  buf : Nat
  left : Nat
deriving DecidableEq, Repr

/-- `BitWriterInit` (c/dec/jpeg_data_writer.cc:52-60). -/
def BW.init (queue : List (List Nat)) : BW := ⟨true, queue, [], 0, 64⟩

/-- The bytes handed over or stored so far. -/
def BW.out (w : BW) : List Nat := w.queue.flatten ++ w.data

/-- `HasZeroByte` (c/dec/jpeg_data_writer.cc:48-50) on 64-bit words. -/
def hasZeroByte (x : Nat) : Nat :=
  ((x + 2 ^ 64 - 0x0101010101010101) % 2 ^ 64) &&& (2 ^ 64 - 1 - x) &&& 0x8080808080808080

/-- `Reserve` and `SwapBuffer` (c/dec/jpeg_data_writer.cc:62-74). -/
def BW.reserve (w : BW) (n : Nat) : BW :=
  if w.data.length + n > kBitWriterChunkSize then { w with queue := w.queue ++ [w.data], data := [] } else w

/-- Storing bytes at `data[pos]`; out of the chunk is undefined behaviour. -/
def BW.push (w : BW) (bs : List Nat) : Run BW :=
  if w.data.length + bs.length ≤ kBitWriterChunkSize then .ok { w with data := w.data ++ bs } else .ub

/-- `EmitByte` (c/dec/jpeg_data_writer.cc:82-85). -/
def BW.emitByte (w : BW) (b : Nat) : Run BW := w.push (if b = 0xFF then [b, 0] else [b])

/-- A sequence of `EmitByte` calls. -/
def BW.emitBytes (w : BW) : List Nat → Run BW
  | [] => .ok w
  | b :: bs => (w.emitByte b).bind fun w => w.emitBytes bs

/-- `(put_buffer >> s) & 0xFF`. -/
def byteAt (buf s : Nat) : Nat := buf / 2 ^ s % 256

/-- `DischargeBitBuffer` (c/dec/jpeg_data_writer.cc:87-115). -/
def BW.discharge (w : BW) : Run BW :=
  let w := w.reserve 12
  let six := [byteAt w.buf 56, byteAt w.buf 48, byteAt w.buf 40, byteAt w.buf 32, byteAt w.buf 24, byteAt w.buf 16]
  (if hasZeroByte ((2 ^ 64 - 1 - w.buf) ||| 0xFFFF) ≠ 0 then w.emitBytes six else w.push six).bind fun w =>
    .ok { w with buf := w.buf * 2 ^ 48 % 2 ^ 64, left := w.left + 48 }

/-- `WriteBits` (c/dec/jpeg_data_writer.cc:117-129).  The shifts by `put_bits - nbits` and, in the mask of the callers, by `nbits` are only defined within the width of the word. -/
def BW.writeBits (w : BW) (n v : Nat) : Run BW :=
  if n = 0 then .ok { w with healthy := false }
  else if w.left < n ∨ 31 < n then .ub
  else
    let w' := { w with left := w.left - n, buf := w.buf ||| (v * 2 ^ (w.left - n) % 2 ^ 64) }
    if w'.left ≤ 16 then w'.discharge else .ok w'

/-- `EmitMarker` (c/dec/jpeg_data_writer.cc:131-136). -/
def BW.emitMarker (w : BW) (m : Nat) : Run BW := (w.reserve 2).push [0xFF, m]

/-- The bits `pad_bits` points to: `none` is the null pointer. -/
abbrev Pads := Option (List Nat)

/-- The padding pattern (c/dec/jpeg_data_writer.cc:140-155): the pattern and the rest of the padding bits; fails when
there are not enough of them. -/
def padPattern (n : Nat) : Pads → Run (Nat × Pads)
  | none => .ok (2 ^ n - 1, none)
  | some ps => if ps.length < n then .fail else .ok (ofMsb ((ps.take n).map (· != 0)), some (ps.drop n))

/-- The loop that moves the full bytes (c/dec/jpeg_data_writer.cc:159-164); `fuel` bounds the iterations, at most 8. -/
def BW.flushBytes (w : BW) : Nat → Run BW
  | 0 => .ok w
  | fuel + 1 =>
    if w.left ≤ 56 then
      (w.emitByte (byteAt w.buf 56)).bind fun w =>
        BW.flushBytes { w with buf := w.buf * 2 ^ 8 % 2 ^ 64, left := w.left + 8 } fuel
    else .ok w

/-- `JumpToByteBoundary` (c/dec/jpeg_data_writer.cc:138-174). -/
def BW.jump (w : BW) (pads : Pads) : Run (BW × Pads) :=
  (padPattern (w.left % 8) pads).bind fun (pat, pads) =>
    ((w.reserve 16).flushBytes 8).bind fun w =>
      let mask := 0xFF / 2 ^ (64 - w.left)
      (if w.left < 64 then w.emitByte (((w.buf / 2 ^ 56) &&& (0xFF - mask)) ||| pat) else .ok w).bind fun w =>
        .ok ({ w with buf := 0, left := 64 }, pads)

/-- `BitWriterFinish` (c/dec/jpeg_data_writer.cc:176-183): the output queue. -/
def BW.finish (w : BW) : List (List Nat) := if w.data = [] then w.queue else w.queue ++ [w.data]

/-! ## The bit trick -/

/-- Value of a little-endian byte string. -/
def jleVal : List Nat → Nat
  | [] => 0
  | b :: bs => b + 256 * jleVal bs

theorem jleVal_lt {bs : List Nat} (h : Bytes bs) : jleVal bs < 256 ^ bs.length := by
  induction bs with
  | nil => simp [jleVal]
  | cons b bs ih =>
    have h1 := h b List.mem_cons_self
    have h2 := ih fun z hz => h z (List.mem_cons_of_mem _ hz)
    simp only [jleVal, List.length_cons, Nat.pow_succ]
    omega

theorem testBit_add_256 {r q i : Nat} (h : r < 256) : (r + 256 * q).testBit (8 + i) = q.testBit i := by
  rw [Nat.testBit_eq_decide_div_mod_eq, Nat.testBit_eq_decide_div_mod_eq, Nat.pow_add, ← Nat.div_div_eq_div_mul]
  have : (r + 256 * q) / 2 ^ 8 = q := by omega
  rw [this]

/-- If a byte is zero, subtracting one from every byte sets a top bit that was clear. -/
theorem zero_byte_bit {bs : List Nat} (h : Bytes bs) (h0 : 0 ∈ bs) : ∃ i, i < bs.length ∧
    ((jleVal bs + 256 ^ bs.length - jleVal (List.replicate bs.length 1)) % 256 ^ bs.length).testBit (8 * i + 7) = true ∧
    (jleVal bs).testBit (8 * i + 7) = false := by
  induction bs with
  | nil => simp at h0
  | cons b bs ih =>
    have hb := h b List.mem_cons_self
    have hbs : Bytes bs := fun z hz => h z (List.mem_cons_of_mem _ hz)
    have hv := jleVal_lt hbs
    have ho : jleVal (List.replicate bs.length 1) < 256 ^ bs.length := by
      have := jleVal_lt (bs := List.replicate bs.length 1) (by intro z hz; rw [List.mem_replicate] at hz; omega)
      rwa [List.length_replicate] at this
    simp only [List.length_cons, List.replicate_succ, jleVal, Nat.pow_succ]
    generalize hV : jleVal bs = V at *
    generalize hO : jleVal (List.replicate bs.length 1) = O at *
    generalize hN : 256 ^ bs.length = N at *
    by_cases hz : b = 0
    · subst hz
      refine ⟨0, by omega, ?_, ?_⟩
      · rw [Nat.testBit_eq_decide_div_mod_eq, decide_eq_true_iff]
        have e : (0 + 256 * V + N * 256 - (1 + 256 * O)) % (N * 256) = 255 + 256 * ((V + N - O - 1) % N) := by
          have e1 : 0 + 256 * V + N * 256 - (1 + 256 * O) = 255 + 256 * (V + N - O - 1) := by omega
          rw [e1, Nat.mul_comm N 256, Nat.mod_mul]
          generalize V + N - O - 1 = Q
          rw [show (255 + 256 * Q) / 256 = Q by omega, show (255 + 256 * Q) % 256 = 255 by omega]
        rw [e]; omega
      · rw [Nat.testBit_eq_decide_div_mod_eq, decide_eq_false_iff_not]; omega
    · have h0' : 0 ∈ bs := by
        rcases List.mem_cons.mp h0 with h | h
        · exact absurd h.symm hz
        · exact h
      obtain ⟨i, hi, h1, h2⟩ := ih hbs h0'
      refine ⟨i + 1, by omega, ?_, ?_⟩
      · have e : (b + 256 * V + N * 256 - (1 + 256 * O)) % (N * 256) = (b - 1) + 256 * ((V + N - O) % N) := by
          have e1 : b + 256 * V + N * 256 - (1 + 256 * O) = (b - 1) + 256 * (V + N - O) := by omega
          rw [e1, Nat.mul_comm N 256, Nat.mod_mul]
          generalize V + N - O = Q
          rw [show (b - 1 + 256 * Q) / 256 = Q by omega, show (b - 1 + 256 * Q) % 256 = b - 1 by omega]
        rw [e, show 8 * (i + 1) + 7 = 8 + (8 * i + 7) by omega, testBit_add_256 (by omega), h1]
      · rw [show 8 * (i + 1) + 7 = 8 + (8 * i + 7) by omega, testBit_add_256 hb, h2]

theorem hasZeroByte_of_zero {bs : List Nat} (h : Bytes bs) (hl : bs.length = 8) (h0 : 0 ∈ bs) : hasZeroByte (jleVal bs) ≠ 0 := by
  obtain ⟨i, hi, h1, h2⟩ := zero_byte_bit h h0
  have hv := jleVal_lt h
  rw [hl] at h1 hi hv
  have e1 : (256 : Nat) ^ 8 = 2 ^ 64 := by decide
  have e2 : jleVal (List.replicate 8 1) = 0x0101010101010101 := by decide
  rw [e1] at hv
  rw [e1, e2] at h1
  intro hz
  have hb : (hasZeroByte (jleVal bs)).testBit (8 * i + 7) = true := by
    unfold hasZeroByte
    rw [Nat.testBit_and, Nat.testBit_and, h1]
    have e3 : 2 ^ 64 - 1 - jleVal bs = 2 ^ 64 - (jleVal bs + 1) := by omega
    rw [e3, Nat.testBit_two_pow_sub_succ hv, h2]
    have hlt : ∀ j < 8, (decide (8 * j + 7 < 64) && (0x8080808080808080 : Nat).testBit (8 * j + 7)) = true := by decide
    have := hlt i hi
    simp only [Bool.not_false, Bool.and_true, Bool.true_and]
    exact this
  rw [hz] at hb
  simp at hb

end Brunsli
