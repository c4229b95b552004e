import Verif.JWriter
/-!
# What the bit writer writes

The writer state represents the bits written so far: the bytes that left the buffer, with stuffing, and the pending
bits.
-/

namespace Brunsli

/-! ## The fast path is taken only when no byte is 0xFF -/

/-- The `n` lowest bytes of a number, lowest first. -/
def jleBytes : Nat → Nat → List Nat
  | 0, _ => []
  | n + 1, h => h % 256 :: jleBytes n (h / 256)

theorem jleVal_compl (n : Nat) : ∀ h, h < 256 ^ n → jleVal ((jleBytes n h).map (255 - ·)) = 256 ^ n - 1 - h := by
  induction n with
  | zero => intro h hh; simp [jleBytes, jleVal] at *
  | succ n ih =>
    intro h hh
    rw [Nat.pow_succ] at hh
    simp only [jleBytes, List.map_cons, jleVal, ih (h / 256) (by omega), Nat.pow_succ]
    omega

theorem jleBytes_length (n h : Nat) : (jleBytes n h).length = n := by
  induction n generalizing h with
  | zero => rfl
  | succ n ih => simp [jleBytes, ih]

theorem or_ones (x k : Nat) : x ||| (2 ^ k - 1) = x / 2 ^ k * 2 ^ k + (2 ^ k - 1) := by
  have hk := Nat.two_pow_pos k
  rw [Nat.mul_comm, Nat.two_pow_add_eq_or_of_lt (by omega)]
  apply Nat.eq_of_testBit_eq
  intro i
  rw [Nat.testBit_or, Nat.testBit_or, Nat.testBit_two_pow_sub_one, Nat.testBit_two_pow_mul, Nat.testBit_div_two_pow]
  by_cases h : i < k
  · simp [h]
  · rw [show i - k + k = i by omega]
    simp [h]; omega

theorem hasZeroByte_of_ff {buf : Nat} (hb : buf < 2 ^ 64) (h : 255 ∈ jleBytes 6 (buf / 2 ^ 16)) :
    hasZeroByte ((2 ^ 64 - 1 - buf) ||| 0xFFFF) ≠ 0 := by
  have e : (2 ^ 64 - 1 - buf) ||| 0xFFFF = jleVal ([255, 255] ++ (jleBytes 6 (buf / 2 ^ 16)).map (255 - ·)) := by
    rw [show (0xFFFF : Nat) = 2 ^ 16 - 1 from rfl, or_ones]
    simp only [List.cons_append, List.nil_append, jleVal]
    rw [jleVal_compl 6 _ (by omega)]
    omega
  rw [e]
  apply hasZeroByte_of_zero
  · intro z hz
    simp only [List.cons_append, List.nil_append, List.mem_cons, List.mem_map] at hz
    rcases hz with rfl | rfl | ⟨y, _, rfl⟩ <;> omega
  · simp [jleBytes_length]
  · simp only [List.cons_append, List.nil_append, List.mem_cons, List.mem_map]
    exact Or.inr (Or.inr ⟨255, h, rfl⟩)

/-! ## The representation -/

/-- The writer `w` was given the bits `B` since the output was `pre`. -/
structure BW.Holds (w : BW) (pre : List Nat) (B : List Bool) : Prop where
  left : w.left ≤ 64
  room : w.data.length ≤ kBitWriterChunkSize
  repr : ∃ g pend, Bytes g ∧ B = bytesMsb g ++ pend ∧ pend.length + w.left = 64 ∧ w.buf = ofMsb pend * 2 ^ w.left ∧
    w.out = pre ++ stuff g

theorem BW.init_holds (q : List (List Nat)) : (BW.init q).Holds q.flatten [] where
  left := Nat.le_refl _
  room := by simp [BW.init]
  repr := ⟨[], [], by intro b hb; simp at hb, rfl, by simp [BW.init], by simp [BW.init, ofMsb], by simp [BW.out, BW.init, stuff]⟩

theorem BW.reserve_spec {w : BW} {n : Nat} (hn : n ≤ kBitWriterChunkSize) :
    ∃ w', w.reserve n = w' ∧ w'.healthy = w.healthy ∧ w'.buf = w.buf ∧ w'.left = w.left ∧ w'.out = w.out ∧
      w'.data.length + n ≤ kBitWriterChunkSize := by
  refine ⟨w.reserve n, rfl, ?_⟩
  unfold BW.reserve
  split
  · refine ⟨rfl, rfl, rfl, ?_, by simpa using hn⟩
    simp [BW.out]
  · exact ⟨rfl, rfl, rfl, rfl, by omega⟩

theorem BW.push_spec {w : BW} {bs : List Nat} (h : w.data.length + bs.length ≤ kBitWriterChunkSize) :
    w.push bs = .ok { w with data := w.data ++ bs } := by
  rw [BW.push, if_pos h]

theorem BW.emitByte_spec {w : BW} {b : Nat} (h : w.data.length + 2 ≤ kBitWriterChunkSize) :
    w.emitByte b = .ok { w with data := w.data ++ stuff [b] } := by
  have e : (if b = 0xFF then [b, 0] else [b]) = stuff [b] := by
    rw [stuff]; split
    · rename_i h; rw [h]; rfl
    · rfl
  rw [BW.emitByte, e]
  apply BW.push_spec
  rw [← e]; split <;> simp <;> omega

theorem stuff_length_le (g : List Nat) : (stuff g).length ≤ 2 * g.length := by
  induction g with
  | nil => simp [stuff]
  | cons b g ih => rw [stuff]; split <;> simp <;> omega

theorem BW.emitBytes_spec (bs : List Nat) : ∀ {w : BW}, w.data.length + 2 * bs.length ≤ kBitWriterChunkSize →
    w.emitBytes bs = .ok { w with data := w.data ++ stuff bs } := by
  induction bs with
  | nil => intro w _; simp [BW.emitBytes, stuff]
  | cons b bs ih =>
    intro w h
    simp only [List.length_cons] at h
    have hs := stuff_length_le [b]
    simp only [List.length_singleton] at hs
    rw [BW.emitBytes, BW.emitByte_spec (by omega)]
    simp only [Run.bind]
    rw [ih (by simp only [List.length_append]; omega)]
    have := stuff_append [b] bs
    simp only [List.singleton_append] at this
    simp [this]

theorem stuff_no_ff {bs : List Nat} (h : 255 ∉ bs) : stuff bs = bs := by
  induction bs with
  | nil => rfl
  | cons b bs ih =>
    rw [List.mem_cons, not_or] at h
    rw [stuff, if_neg (fun e => h.1 e.symm), ih h.2]

theorem msb_mod256 (x : Nat) : msb 8 (x % 256) = msb 8 x := msb_congr (by simp)

theorem ofMsb_replicate_false (n : Nat) : ofMsb (List.replicate n false) = 0 := by
  induction n with
  | zero => rfl
  | succ n ih => simp [List.replicate_succ, ofMsb, ih]

attribute [local irreducible] msb bytesMsb ofMsb

/-- The buffer, as bits. -/
theorem buf_bits {pend : List Bool} {left n : Nat} (hl : pend.length + left = n) :
    msb n (ofMsb pend * 2 ^ left) = pend ++ List.replicate left false := by
  have e : ofMsb (pend ++ List.replicate left false) = ofMsb pend * 2 ^ left := by
    rw [ofMsb_append, ofMsb_replicate_false, List.length_replicate, Nat.add_zero]
  have h := msb_ofMsb (pend ++ List.replicate left false)
  rw [List.length_append, List.length_replicate, hl, e] at h
  exact h

theorem buf_lt {pend : List Bool} {left n : Nat} (hl : pend.length + left = n) : ofMsb pend * 2 ^ left < 2 ^ n := by
  have := ofMsb_lt pend
  have h2 : 2 ^ n = 2 ^ pend.length * 2 ^ left := by rw [← Nat.pow_add, hl]
  rw [h2]
  exact Nat.mul_lt_mul_of_pos_right this (Nat.two_pow_pos _)

/-- Moving the first `n` bytes out of the buffer. -/
theorem buf_split {pend : List Bool} {left n m : Nat} (hl : pend.length + left = 8 * n + m) (hn : 8 * n ≤ pend.length) {g : List Nat}
    (hg : g.length = n) {tail : Nat} (hb : msb (8 * n + m) (ofMsb pend * 2 ^ left) = bytesMsb g ++ msb m tail) :
    bytesMsb g = pend.take (8 * n) ∧ msb m tail = pend.drop (8 * n) ++ List.replicate left false := by
  rw [buf_bits hl] at hb
  have h1 := congrArg (List.take (8 * n)) hb
  have h2 := congrArg (List.drop (8 * n)) hb
  rw [List.take_append_of_le_length hn, List.take_append_of_le_length (by simp [hg]),
    List.take_of_length_le (l := bytesMsb g) (by simp [hg])] at h1
  rw [List.drop_append_of_le_length hn, List.drop_append_of_le_length (by simp [hg]),
    List.drop_of_length_le (l := bytesMsb g) (by simp [hg]), List.nil_append] at h2
  exact ⟨h1.symm, h2.symm⟩

theorem buf_shift {pend : List Bool} {left n m : Nat}
    (hm : msb m (ofMsb pend * 2 ^ left) = pend.drop n ++ List.replicate left false) :
    ofMsb pend * 2 ^ left * 2 ^ n % 2 ^ (m + n) = ofMsb (pend.drop n) * 2 ^ (left + n) := by
  have e := congrArg ofMsb hm
  rw [ofMsb_msb, ofMsb_append, ofMsb_replicate_false, List.length_replicate, Nat.add_zero] at e
  rw [Nat.pow_add 2 left n, ← Nat.mul_assoc, ← e, Nat.pow_add, Nat.mul_mod_mul_right]

theorem jleBytes_shift (x n : Nat) : ∀ s, jleBytes n (x / 2 ^ s) = (List.range n).map fun i => byteAt x (s + 8 * i) := by
  induction n with
  | zero => intro s; rfl
  | succ n ih =>
    intro s
    have e : x / 2 ^ s / 256 = x / 2 ^ (s + 8) := by rw [Nat.div_div_eq_div_mul, Nat.pow_add]
    rw [jleBytes, e, ih, List.range_succ_eq_map, List.map_cons, List.map_map]
    refine congrArg₂ _ rfl (List.map_congr_left fun i _ => ?_)
    show byteAt x (s + 8 + 8 * i) = byteAt x (s + 8 * (i + 1))
    congr 1; omega

theorem jleBytes_six (x : Nat) : jleBytes 6 (x / 2 ^ 16) = [byteAt x 16, byteAt x 24, byteAt x 32, byteAt x 40, byteAt x 48, byteAt x 56] := by
  exact jleBytes_shift x 6 16

theorem one_bits (x : Nat) : msb 64 x = bytesMsb [byteAt x 56] ++ msb 56 x := by
  have e : ∀ s, msb 8 (byteAt x s) = msb 8 (x / 2 ^ s) := fun s => msb_mod256 _
  unfold bytesMsb
  simp only [List.flatMap_cons, List.flatMap_nil, e, List.append_nil]
  exact msb_append 8 56 x

theorem six_bits (x : Nat) : msb 64 x =
    bytesMsb [byteAt x 56, byteAt x 48, byteAt x 40, byteAt x 32, byteAt x 24, byteAt x 16] ++ msb 16 x := by
  have e : ∀ s, msb 8 (byteAt x s) = msb 8 (x / 2 ^ s) := fun s => msb_mod256 _
  unfold bytesMsb
  simp only [List.flatMap_cons, List.flatMap_nil, e, List.append_nil, List.append_assoc]
  have h1 : msb 64 x = _ := msb_append 8 56 x
  have h2 : msb 56 x = _ := msb_append 8 48 x
  have h3 : msb 48 x = _ := msb_append 8 40 x
  have h4 : msb 40 x = _ := msb_append 8 32 x
  have h5 : msb 32 x = _ := msb_append 8 24 x
  have h6 : msb 24 x = _ := msb_append 8 16 x
  rw [h1, h2, h3, h4, h5, h6]

theorem BW.discharge_holds {w : BW} {pre : List Nat} {B : List Bool} (h : w.Holds pre B) (hl : w.left ≤ 16) :
    ∃ w', w.discharge = .ok w' ∧ w'.Holds pre B ∧ w'.healthy = w.healthy ∧ 48 ≤ w'.left := by
  obtain ⟨g, pend, hg, hB, hlen, hbuf, hout⟩ := h.repr
  obtain ⟨v, hv, e1, e2, e3, e4, e5⟩ := BW.reserve_spec (w := w) (n := 12) (by decide)
  have hsix : jleBytes 6 (w.buf / 2 ^ 16) = [byteAt w.buf 16, byteAt w.buf 24, byteAt w.buf 32, byteAt w.buf 40,
      byteAt w.buf 48, byteAt w.buf 56] := jleBytes_six w.buf
  have hlt : w.buf < 2 ^ 64 := by rw [hbuf]; exact buf_lt hlen
  generalize hS : [byteAt w.buf 56, byteAt w.buf 48, byteAt w.buf 40, byteAt w.buf 32, byteAt w.buf 24, byteAt w.buf 16] = six
  have hl6 : six.length = 6 := by rw [← hS]; rfl
  have hbytes : Bytes six := by
    rw [← hS]; intro z hz
    simp only [List.mem_cons, List.not_mem_nil, or_false] at hz
    unfold byteAt at hz
    omega
  have hbits : msb 64 w.buf = bytesMsb six ++ msb 16 w.buf := by
    rw [← hS]
    exact six_bits w.buf
  have hsp : bytesMsb six = pend.take 48 ∧ msb 16 w.buf = pend.drop 48 ++ List.replicate w.left false := by
    exact buf_split (n := 6) (m := 16) hlen (by omega) (g := six) hl6 (tail := w.buf) (by rw [← hbuf]; exact hbits)
  have hem : (if hasZeroByte ((2 ^ 64 - 1 - v.buf) ||| 0xFFFF) ≠ 0 then v.emitBytes six else v.push six) =
      .ok { v with data := v.data ++ stuff six } := by
    split
    · exact BW.emitBytes_spec six (by omega)
    · rename_i hz
      have hnf : 255 ∉ six := by
        intro hm
        apply hz
        rw [e2]
        apply hasZeroByte_of_ff hlt
        rw [hsix]
        rw [← hS] at hm
        simp only [List.mem_cons, List.not_mem_nil, or_false] at hm ⊢
        omega
      rw [BW.push_spec (by omega), stuff_no_ff hnf]
  refine ⟨{ v with data := v.data ++ stuff six, buf := v.buf * 2 ^ 48 % 2 ^ 64, left := v.left + 48 }, ?_, ⟨?_, ?_, ?_⟩, e1, ?_⟩
  · unfold BW.discharge
    simp only [hv, e2] at hem ⊢
    rw [hS, hem]; rfl
  · show v.left + 48 ≤ 64
    omega
  · have := stuff_length_le six
    show (v.data ++ stuff six).length ≤ _
    rw [List.length_append]; omega
  · refine ⟨g ++ six, pend.drop 48, ?_, ?_, ?_, ?_, ?_⟩
    · intro z hz
      rcases List.mem_append.mp hz with hz | hz
      · exact hg z hz
      · exact hbytes z hz
    · rw [bytesMsb_append, hsp.1, List.append_assoc, List.take_append_drop, hB]
    · show (pend.drop 48).length + (v.left + 48) = 64
      rw [List.length_drop, e3]; omega
    · show v.buf * 2 ^ 48 % 2 ^ 64 = ofMsb (pend.drop 48) * 2 ^ (v.left + 48)
      rw [e2, e3, hbuf]
      exact buf_shift (n := 48) (m := 16) (by rw [← hbuf]; exact hsp.2)
    · show v.queue.flatten ++ (v.data ++ stuff six) = _
      have : v.queue.flatten ++ v.data = pre ++ stuff g := by rw [← hout, ← e4]; rfl
      rw [stuff_append, ← List.append_assoc, this, List.append_assoc]
  · show 48 ≤ v.left + 48
    omega

/-- `WriteBits` appends the bits. -/
theorem BW.writeBits_holds {w : BW} {pre : List Nat} {B : List Bool} {n v : Nat} (h : w.Holds pre B) (hl : 16 < w.left)
    (h1 : 1 ≤ n) (h2 : n ≤ 16) (hv : v < 2 ^ n) :
    ∃ w', w.writeBits n v = .ok w' ∧ w'.Holds pre (B ++ msb n v) ∧ w'.healthy = w.healthy ∧ 16 < w'.left := by
  obtain ⟨g, pend, hg, hB, hlen, hbuf, hout⟩ := h.repr
  have hle := h.left
  have hpos := Nat.two_pow_pos (w.left - n)
  have hsum : 2 ^ w.left = 2 ^ n * 2 ^ (w.left - n) := by rw [← Nat.pow_add]; congr 1; omega
  have hsm : v * 2 ^ (w.left - n) < 2 ^ w.left := by
    rw [hsum]; exact Nat.mul_lt_mul_of_pos_right hv hpos
  have h64 : (2 : Nat) ^ w.left ≤ 2 ^ 64 := Nat.pow_le_pow_right (by decide) hle
  generalize hw' : ({ w with left := w.left - n, buf := w.buf ||| (v * 2 ^ (w.left - n) % 2 ^ 64) } : BW) = w'
  have hwl : w'.left = w.left - n := by rw [← hw']
  have hw : w'.Holds pre (B ++ msb n v) := by
    rw [← hw']
    refine ⟨by show w.left - n ≤ 64; omega, h.room, g, pend ++ msb n v, hg, by rw [hB, List.append_assoc], ?_, ?_, hout⟩
    · show (pend ++ msb n v).length + (w.left - n) = 64
      rw [List.length_append, msb_length]; omega
    · show w.buf ||| (v * 2 ^ (w.left - n) % 2 ^ 64) = ofMsb (pend ++ msb n v) * 2 ^ (w.left - n)
      rw [Nat.mod_eq_of_lt (by omega), hbuf, Nat.mul_comm (ofMsb pend), ← Nat.two_pow_add_eq_or_of_lt hsm, ofMsb_append,
        ofMsb_msb_lt hv, msb_length, Nat.add_mul, Nat.mul_assoc, ← hsum, Nat.mul_comm]
  have hwh : w'.healthy = w.healthy := by rw [← hw']
  unfold BW.writeBits
  rw [if_neg (by omega), if_neg (by omega)]
  simp only [hw']
  split
  · rename_i hle16
    obtain ⟨w'', a, b, c, d⟩ := BW.discharge_holds hw (by rw [hwl]; exact hle16)
    exact ⟨w'', a, b, by rw [c, hwh], by omega⟩
  · exact ⟨w', rfl, hw, hwh, by omega⟩

/-- Moving out the full bytes. -/
theorem BW.flushBytes_holds (fuel : Nat) : ∀ {w : BW} {pre : List Nat} {B : List Bool}, w.Holds pre B → 64 ≤ w.left + 8 * fuel →
    w.data.length + 2 * ((64 - w.left) / 8) + 2 ≤ kBitWriterChunkSize →
    ∃ w', w.flushBytes fuel = .ok w' ∧ w'.Holds pre B ∧ w'.healthy = w.healthy ∧ 56 < w'.left ∧ w'.left % 8 = w.left % 8 ∧
      w'.data.length + 2 ≤ kBitWriterChunkSize := by
  induction fuel with
  | zero =>
    intro w pre B h hf hr
    have := h.left
    exact ⟨w, rfl, h, rfl, by omega, rfl, by omega⟩
  | succ fuel ih =>
    intro w pre B h hf hr
    have hle := h.left
    rw [BW.flushBytes]
    by_cases hc : w.left ≤ 56
    · rw [if_pos hc, BW.emitByte_spec (by omega)]
      obtain ⟨g, pend, hg, hB, hlen, hbuf, hout⟩ := h.repr
      have hbits : msb 64 w.buf = bytesMsb [byteAt w.buf 56] ++ msb 56 w.buf := by
        exact one_bits w.buf
      have hsp : bytesMsb [byteAt w.buf 56] = pend.take 8 ∧ msb 56 w.buf = pend.drop 8 ++ List.replicate w.left false := by
        exact buf_split (n := 1) (m := 56) hlen (by omega) (g := [byteAt w.buf 56]) rfl (tail := w.buf) (by rw [← hbuf]; exact hbits)
      have hs := stuff_length_le [byteAt w.buf 56]
      simp only [List.length_singleton] at hs
      simp only [Run.bind]
      generalize hw' : ({ w with data := w.data ++ stuff [byteAt w.buf 56], buf := w.buf * 2 ^ 8 % 2 ^ 64, left := w.left + 8 } : BW) = w'
      have hd : w'.data = w.data ++ stuff [byteAt w.buf 56] := by rw [← hw']
      have hL : w'.left = w.left + 8 := by rw [← hw']
      have hH : w'.healthy = w.healthy := by rw [← hw']
      have hh : w'.Holds pre B := by
        refine ⟨by rw [hL]; omega, by rw [hd, List.length_append]; omega, g ++ [byteAt w.buf 56], pend.drop 8, ?_, ?_, ?_, ?_, ?_⟩
        · intro z hz
          rcases List.mem_append.mp hz with hz | hz
          · exact hg z hz
          · rw [List.mem_singleton] at hz; rw [hz, byteAt]; omega
        · rw [bytesMsb_append, hsp.1, List.append_assoc, List.take_append_drop, hB]
        · rw [List.length_drop, hL]; omega
        · rw [← hw']
          show w.buf * 2 ^ 8 % 2 ^ 64 = ofMsb (pend.drop 8) * 2 ^ (w.left + 8)
          rw [hbuf]
          exact buf_shift (n := 8) (m := 56) (by rw [← hbuf]; exact hsp.2)
        · rw [← hw']
          show w.queue.flatten ++ (w.data ++ stuff [byteAt w.buf 56]) = _
          have : w.queue.flatten ++ w.data = pre ++ stuff g := by rw [← hout]; rfl
          rw [stuff_append, ← List.append_assoc, this, List.append_assoc]
      obtain ⟨w'', a, b, c, d, e, f⟩ := ih hh (by omega) (by rw [hd, hL, List.length_append]; omega)
      exact ⟨w'', a, b, by rw [c, hH], d, by omega, f⟩
    · rw [if_neg hc]
      exact ⟨w, rfl, h, rfl, by omega, rfl, by omega⟩

/-! ## Padding, markers and whole segments -/

/-- The padding bits after `B`: taken from the list, or ones. -/
def padBits (n : Nat) : Pads → List Bool
  | none => List.replicate n true
  | some ps => (ps.take n).map (· != 0)

/-- The padding bits that remain. -/
def padRest (n : Nat) : Pads → Pads
  | none => none
  | some ps => some (ps.drop n)

/-- There are enough padding bits. -/
def PadOk (n : Nat) : Pads → Prop
  | none => True
  | some ps => n ≤ ps.length

theorem ofMsb_replicate_true (n : Nat) : ofMsb (List.replicate n true) = 2 ^ n - 1 := by
  induction n with
  | zero => simp [ofMsb]
  | succ n ih =>
    have := Nat.two_pow_pos n
    rw [List.replicate_succ, ofMsb, ih, List.length_replicate, Nat.pow_succ]
    simp; omega

theorem padPattern_ok {n : Nat} {pads : Pads} (h : PadOk n pads) :
    padPattern n pads = .ok (ofMsb (padBits n pads), padRest n pads) ∧ (padBits n pads).length = n := by
  cases pads with
  | none => exact ⟨by rw [padPattern, padBits, padRest, ofMsb_replicate_true], by simp [padBits]⟩
  | some ps =>
    have h' : n ≤ ps.length := h
    exact ⟨by rw [padPattern, if_neg (by omega)]; rfl, by simp [padBits]; omega⟩

theorem and_high {a k : Nat} (hk : k ≤ 8) (ha : a * 2 ^ k < 256) : (a * 2 ^ k) &&& (255 - (2 ^ k - 1)) = a * 2 ^ k := by
  have hall : ∀ k : Fin 9, ∀ x : Fin 256, x.val % 2 ^ k.val = 0 → x.val &&& (255 - (2 ^ k.val - 1)) = x.val := by decide +kernel
  exact hall ⟨k, by omega⟩ ⟨a * 2 ^ k, ha⟩ (Nat.mul_mod_left _ _)

theorem mask_eq {k : Nat} (h : k ≤ 8) : 0xFF / 2 ^ (8 - k) = 2 ^ k - 1 := by
  have : ∀ k : Fin 9, 0xFF / 2 ^ (8 - k.val) = 2 ^ k.val - 1 := by decide
  exact this ⟨k, by omega⟩

/-- `JumpToByteBoundary` appends the padding bits and empties the buffer. -/
theorem BW.jump_holds {w : BW} {pre : List Nat} {B : List Bool} {pads : Pads} (h : w.Holds pre B) (hl : 16 < w.left)
    (hp : PadOk (w.left % 8) pads) :
    ∃ w' g, w.jump pads = .ok (w', padRest (w.left % 8) pads) ∧ w'.healthy = w.healthy ∧ w'.left = 64 ∧ w'.buf = 0 ∧ Bytes g ∧
      bytesMsb g = B ++ padBits (w.left % 8) pads ∧ w'.out = pre ++ stuff g ∧ w'.data.length ≤ kBitWriterChunkSize := by
  have hle := h.left
  obtain ⟨hpp, hpl⟩ := padPattern_ok hp
  obtain ⟨v, hv, e1, e2, e3, e4, e5⟩ := BW.reserve_spec (w := w) (n := 16) (by decide)
  have hvh : v.Holds pre B := by
    obtain ⟨g, pend, hg, hB, hlen, hbuf, hout⟩ := h.repr
    exact ⟨by omega, by omega, g, pend, hg, hB, by omega, by rw [e2, e3, hbuf], by rw [e4, hout]⟩
  obtain ⟨u, hu, huh, hue, hul, hum, hur⟩ := BW.flushBytes_holds 8 hvh (by omega) (by omega)
  obtain ⟨g, pend, hg, hB, hlen, hbuf, hout⟩ := huh.repr
  have hul' := huh.left
  unfold BW.jump
  rw [hpp]
  simp only [Run.bind, hv, hu]
  by_cases hlt : u.left < 64
  · have hmod : w.left % 8 = u.left - 56 := by omega
    generalize hk : u.left - 56 = k at *
    have hk8 : k < 8 := by omega
    have hlast : u.buf / 2 ^ 56 = ofMsb pend * 2 ^ k := by
      rw [hbuf, show u.left = k + 56 by omega, Nat.pow_add, ← Nat.mul_assoc, Nat.mul_div_cancel _ (Nat.two_pow_pos 56)]
    have hb256 : ofMsb pend * 2 ^ k < 256 := buf_lt (n := 8) (by omega)
    have hc : ((u.buf / 2 ^ 56) &&& (0xFF - 0xFF / 2 ^ (64 - u.left))) ||| ofMsb (padBits k pads) = ofMsb (pend ++ padBits k pads) := by
      rw [hlast, show 64 - u.left = 8 - k by omega, mask_eq (by omega), and_high (by omega) hb256, ofMsb_append]
      have := ofMsb_lt (padBits k pads)
      rw [hmod] at hpl
      rw [hpl] at this ⊢
      rw [Nat.mul_comm, Nat.two_pow_add_eq_or_of_lt this]
    rw [hmod] at hpl ⊢
    rw [if_pos hlt, hc, BW.emitByte_spec hur]
    have hs := stuff_length_le [ofMsb (pend ++ padBits k pads)]
    have h8 : (pend ++ padBits k pads).length = 8 := by rw [List.length_append, hpl]; omega
    refine ⟨{ u with data := u.data ++ stuff [ofMsb (pend ++ padBits k pads)], buf := 0, left := 64 },
      g ++ [ofMsb (pend ++ padBits k pads)], rfl, ?_, rfl, rfl, ?_, ?_, ?_, ?_⟩
    · show u.healthy = _
      rw [hue, e1]
    · intro z hz
      rcases List.mem_append.mp hz with hz | hz
      · exact hg z hz
      · rw [List.mem_singleton] at hz
        have := ofMsb_lt (pend ++ padBits k pads)
        rw [h8] at this
        omega
    · have e : bytesMsb [ofMsb (pend ++ padBits k pads)] = pend ++ padBits k pads := by
        have := msb_ofMsb (pend ++ padBits k pads)
        rw [h8] at this
        unfold bytesMsb
        rw [List.flatMap_cons, List.flatMap_nil, List.append_nil, this]
      rw [bytesMsb_append, e, hB, List.append_assoc]
    · show u.queue.flatten ++ (u.data ++ stuff _) = _
      have : u.queue.flatten ++ u.data = pre ++ stuff g := by rw [← hout]; rfl
      rw [stuff_append, ← List.append_assoc, this, List.append_assoc]
    · show (u.data ++ stuff _).length ≤ _
      rw [List.length_append]
      simp only [List.length_singleton] at hs
      omega
  · have h64 : u.left = 64 := by omega
    have hk : w.left % 8 = 0 := by omega
    have hpend : pend = [] := List.length_eq_zero_iff.mp (by omega)
    rw [hk] at hpl ⊢
    rw [if_neg hlt]
    refine ⟨{ u with buf := 0, left := 64 }, g, rfl, by show u.healthy = _; rw [hue, e1], rfl, rfl, hg, ?_, hout, huh.room⟩
    rw [List.length_eq_zero_iff.mp hpl, hB, hpend, List.append_nil, List.append_nil]

theorem BW.emitMarker_spec {w : BW} {m : Nat} :
    ∃ w', w.emitMarker m = .ok w' ∧ w'.healthy = w.healthy ∧ w'.left = w.left ∧ w'.buf = w.buf ∧ w'.out = w.out ++ [0xFF, m] ∧
      w'.data.length ≤ kBitWriterChunkSize := by
  obtain ⟨v, hv, e1, e2, e3, e4, e5⟩ := BW.reserve_spec (w := w) (n := 2) (by decide)
  refine ⟨{ v with data := v.data ++ [0xFF, m] }, ?_, e1, e3, e2, ?_, ?_⟩
  · rw [BW.emitMarker, hv, BW.push_spec (by simpa using e5)]
  · show v.queue.flatten ++ (v.data ++ _) = _
    rw [← List.append_assoc, ← e4]; rfl
  · simpa using e5

/-- A writer with an empty buffer holds no bits. -/
theorem BW.holds_empty {w : BW} (hl : w.left = 64) (hb : w.buf = 0) (hr : w.data.length ≤ kBitWriterChunkSize) : w.Holds w.out [] where
  left := by omega
  room := hr
  repr := ⟨[], [], by intro b hb; simp at hb, by unfold bytesMsb; rfl, by simp [hl], by rw [hb]; unfold ofMsb; simp, by simp [stuff]⟩

theorem BW.finish_flatten (w : BW) : w.finish.flatten = w.out := by
  unfold BW.finish BW.out
  split
  · rename_i h; rw [h, List.append_nil]
  · simp

/-- What a scan asks of the bit writer. -/
inductive Act where
  /-- `WriteBits(n, v)` -/
  | bits (n v : Nat)
  /-- `JumpToByteBoundary` and `EmitMarker(0xD0 + m)` -/
  | restart (m : Nat)
deriving DecidableEq, Repr

/-- Running the requests. -/
def BW.acts (w : BW) (pads : Pads) : List Act → Run (BW × Pads)
  | [] => .ok (w, pads)
  | .bits n v :: as => (w.writeBits n v).bind fun w => w.acts pads as
  | .restart m :: as => (w.jump pads).bind fun (w, pads) => (w.emitMarker (0xD0 + m)).bind fun w => w.acts pads as

/-- Number of bits missing to the next byte boundary. -/
def padLen (n : Nat) : Nat := (8 - n % 8) % 8

/-- The bits of a list of `WriteBits` requests. -/
def actBits : List (Nat × Nat) → List Bool
  | [] => []
  | (n, v) :: ws => msb n v ++ actBits ws

/-- Requests that name existing code words. -/
def GoodBits (ws : List (Nat × Nat)) : Prop := ∀ w ∈ ws, 1 ≤ w.1 ∧ w.1 ≤ 16 ∧ w.2 < 2 ^ w.1

theorem BW.acts_append (as bs : List Act) : ∀ (w : BW) (pads : Pads),
    w.acts pads (as ++ bs) = (w.acts pads as).bind fun (w, pads) => w.acts pads bs := by
  induction as with
  | nil => intro w pads; rfl
  | cons a as ih =>
    intro w pads
    cases a with
    | bits n v =>
      simp only [List.cons_append, BW.acts]
      cases w.writeBits n v with
      | ok w => simp only [Run.bind, ih]
      | fail => rfl
      | ub => rfl
    | restart m =>
      simp only [List.cons_append, BW.acts]
      cases w.jump pads with
      | ok p =>
        simp only [Run.bind]
        cases p.1.emitMarker (0xD0 + m) with
        | ok w => simp only [ih]; rfl
        | fail => rfl
        | ub => rfl
      | fail => rfl
      | ub => rfl

theorem BW.bits_holds (ws : List (Nat × Nat)) : ∀ {w : BW} {pre : List Nat} {B : List Bool} {pads : Pads}, w.Holds pre B →
    16 < w.left → GoodBits ws →
    ∃ w', w.acts pads (ws.map fun x => Act.bits x.1 x.2) = .ok (w', pads) ∧ w'.Holds pre (B ++ actBits ws) ∧
      w'.healthy = w.healthy ∧ 16 < w'.left := by
  induction ws with
  | nil => intro w pre B pads h hl _; exact ⟨w, rfl, by simpa [actBits] using h, rfl, hl⟩
  | cons x ws ih =>
    intro w pre B pads h hl hg
    obtain ⟨h1, h2, h3⟩ := hg x List.mem_cons_self
    obtain ⟨w1, a1, b1, c1, d1⟩ := BW.writeBits_holds h hl h1 h2 h3
    obtain ⟨w2, a2, b2, c2, d2⟩ := ih (pads := pads) b1 d1 fun y hy => hg y (List.mem_cons_of_mem _ hy)
    refine ⟨w2, ?_, ?_, by rw [c2, c1], d2⟩
    · simp only [List.map_cons, BW.acts, a1, Run.bind, a2]
    · rw [actBits, ← List.append_assoc]; exact b2

theorem BW.Holds.pad {w : BW} {pre : List Nat} {B : List Bool} (h : w.Holds pre B) : w.left % 8 = padLen B.length := by
  obtain ⟨g, pend, hg, hB, hlen, hbuf, hout⟩ := h.repr
  have : B.length = 8 * g.length + pend.length := by rw [hB, List.length_append, bytesMsb_length]
  unfold padLen
  omega

end Brunsli
