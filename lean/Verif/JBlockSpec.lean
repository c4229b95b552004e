import Verif.JBlock
/-!
# The encoders give back what the decoders consumed
-/

namespace Brunsli

/-! ## The buffer of refinement bits -/

/-- The bits in the buffer. -/
def CS.bits (s : CS) : List Bool :=
  (s.words.take (s.count / 16)).flatMap (msb 16) ++ (if s.count % 16 ≠ 0 then msb (s.count % 16) (s.words.getLastD 0) else [])

def CS.Wf (s : CS) : Prop := s.words.length = (s.count + 15) / 16

/-- The atoms of an end-of-band run. -/
def eobAtoms (t : HSlot) (n : Nat) : List Atom := .sym t (16 * Nat.log2 n) :: (msb (Nat.log2 n) (n % 2 ^ Nat.log2 n)).map .bit

theorem atomsOf_eobReqs (t : HSlot) (n : Nat) : atomsOf (eobReqs t n) = eobAtoms t n := by
  unfold eobReqs eobAtoms atomsOf
  split
  · simp [reqAtoms]
  · rename_i h
    rw [show Nat.log2 n = 0 by omega]
    simp [reqAtoms, msb]

/-- The atoms that `Flush` writes. -/
def CS.pending (s : CS) : List Atom := (if 0 < s.eob then eobAtoms s.tbl s.eob else []) ++ s.bits.map .bit

theorem atomsOf_words (l : List Nat) (n : Nat) : atomsOf (l.map (.bits n)) = (l.flatMap (msb n)).map .bit := by
  induction l with
  | nil => rfl
  | cons a l ih =>
    rw [List.map_cons, List.flatMap_cons, List.map_append, ← ih]
    rfl

theorem CS.flush_atoms (s : CS) : atomsOf s.flush.1 = s.pending := by
  unfold CS.flush CS.pending CS.bits
  simp only
  rw [atomsOf_append, atomsOf_append, atomsOf_words, List.map_append, List.append_assoc]
  congr 1
  · split
    · exact atomsOf_eobReqs _ _
    · rfl
  · congr 1
    split
    · simp [atomsOf, reqAtoms]
    · rfl

theorem CS.pending_empty {s : CS} (h1 : s.eob = 0) (h2 : s.count = 0) : s.pending = [] := by
  unfold CS.pending CS.bits
  simp [h1, h2]

/-- The full words and the rest are the bits. -/
theorem fullWords_bits (v : Nat) (q r : Nat) (hr : r < 16) : (fullWords v (16 * q + r)).flatMap (msb 16) ++ msb r v = msb (16 * q + r) v := by
  unfold fullWords
  rw [show (16 * q + r) / 16 = q by omega]
  induction q with
  | zero => simp
  | succ q ih =>
    rw [show 16 * (q + 1) + r = 16 + (16 * q + r) by omega, msb_append, ← ih, List.range_succ_eq_map, List.map_cons, List.flatMap_cons, List.append_assoc]
    congr 1
    · rw [show 16 + (16 * q + r) - 16 * (0 + 1) = 16 * q + r by omega]
      exact msb_congr (by simp)
    · congr 1
      rw [List.map_map]
      congr 1
      apply List.map_congr_left
      intro i _
      simp only [Function.comp]
      rw [show 16 + (16 * q + r) - 16 * (i.succ + 1) = 16 * q + r - 16 * (i + 1) by omega]

theorem fullWords_length (v n : Nat) : (fullWords v n).length = n / 16 := by unfold fullWords; simp

theorem CS.append_spec {s : CS} (h : s.Wf) (bs : List Bool) : (s.append bs).Wf ∧ (s.append bs).bits = s.bits ++ bs ∧
    (s.append bs).count = s.count + bs.length ∧ (s.append bs).eob = s.eob ∧ (s.append bs).tbl = s.tbl := by
  unfold CS.Wf at h
  unfold CS.append
  split
  · rename_i hb
    subst hb
    exact ⟨h, by simp, rfl, rfl, rfl⟩
  · simp only
    by_cases ht : s.count % 16 = 0
    · -- no partial word
      have hsb : (if s.count % 16 ≠ 0 then min (16 - s.count % 16) bs.length else 0) = 0 := by rw [if_neg (by omega)]
      simp only [hsb, Nat.sub_zero]
      rw [if_neg (by omega)]
      refine ⟨?_, ?_, trivial, trivial, trivial⟩
      · unfold CS.Wf
        simp only [List.length_append, fullWords_length]
        split <;> simp <;> omega
      · unfold CS.bits
        simp only
        rw [if_neg (show ¬ s.count % 16 ≠ 0 by omega), List.append_nil]
        have hw : s.words.take (s.count / 16) = s.words := List.take_of_length_le (by omega)
        have htk : (s.words ++ fullWords (ofMsb bs) bs.length ++ (if bs.length % 16 ≠ 0 then [ofMsb bs % 2 ^ (bs.length % 16)] else [])).take
            ((s.count + bs.length) / 16) = s.words ++ fullWords (ofMsb bs) bs.length := by
          rw [List.take_append_of_le_length (by rw [List.length_append, fullWords_length]; omega),
            List.take_of_length_le (by rw [List.length_append, fullWords_length]; omega)]
        rw [htk, hw, List.flatMap_append, List.append_assoc]
        congr 1
        have hfw := fullWords_bits (ofMsb bs) (bs.length / 16) (bs.length % 16) (by omega)
        rw [show 16 * (bs.length / 16) + bs.length % 16 = bs.length by omega, msb_ofMsb] at hfw
        conv_rhs => rw [← hfw]
        congr 1
        rw [show (s.count + bs.length) % 16 = bs.length % 16 by omega]
        by_cases hm : bs.length % 16 = 0
        · rw [if_neg (by omega), hm]; rfl
        · rw [if_pos hm, if_pos hm, List.getLastD_concat]
          exact msb_congr (by simp)
    · -- the last word is completed first
      rw [if_pos ht]
      simp only [if_pos ht]
      generalize hsb : min (16 - s.count % 16) bs.length = sb
      have hne : s.words ≠ [] := by
        intro he
        rw [he] at h
        simp at h
        omega
      obtain ⟨ws, w, hws⟩ : ∃ ws w, s.words = ws ++ [w] := ⟨s.words.dropLast, s.words.getLast hne, (List.dropLast_append_getLast hne).symm⟩
      have hlen : ws.length = s.count / 16 := by
        rw [hws] at h
        simp at h
        omega
      rw [hws, List.dropLast_concat, List.getLastD_concat]
      have hrest := fullWords_bits (ofMsb bs) ((bs.length - sb) / 16) ((bs.length - sb) % 16) (by omega)
      rw [show 16 * ((bs.length - sb) / 16) + (bs.length - sb) % 16 = bs.length - sb by omega] at hrest
      have hsplit : bs = msb sb (ofMsb bs / 2 ^ (bs.length - sb)) ++ msb (bs.length - sb) (ofMsb bs) := by
        rw [← msb_append, show sb + (bs.length - sb) = bs.length by omega, msb_ofMsb]
      have hword : msb (s.count % 16 + sb) ((w * 2 ^ sb + ofMsb bs / 2 ^ (bs.length - sb) % 2 ^ sb) % 65536) =
          msb (s.count % 16) w ++ msb sb (ofMsb bs / 2 ^ (bs.length - sb)) := by
        rw [msb_congr (b := w * 2 ^ sb + ofMsb bs / 2 ^ (bs.length - sb) % 2 ^ sb)
          (Nat.mod_mod_of_dvd _ (show 2 ^ (s.count % 16 + sb) ∣ 65536 from Nat.pow_dvd_pow 2 (n := 16) (by omega))), msb_append]
        have hlt := Nat.mod_lt (ofMsb bs / 2 ^ (bs.length - sb)) (Nat.two_pow_pos sb)
        congr 1
        · congr 1
          rw [Nat.mul_comm, Nat.mul_add_div (Nat.two_pow_pos _), Nat.div_eq_of_lt hlt, Nat.add_zero]
        · apply msb_congr
          rw [Nat.mul_add_mod_self_right, Nat.mod_mod]
      refine ⟨?_, ?_, trivial, trivial, trivial⟩
      · unfold CS.Wf
        simp only [List.length_append, fullWords_length, List.length_cons, List.length_nil, hlen]
        split <;> simp <;> omega
      · unfold CS.bits
        simp only
        rw [hws, List.getLastD_concat, if_pos ht, show (ws ++ [w]).take (s.count / 16) = ws from List.take_left' hlen]
        by_cases hfull : 16 - s.count % 16 ≤ bs.length
        · -- the word is completed
          have hsb2 : sb = 16 - s.count % 16 := by omega
          have hcnt : (s.count + bs.length) / 16 = s.count / 16 + 1 + (bs.length - sb) / 16 := by omega
          have hmod : (s.count + bs.length) % 16 = (bs.length - sb) % 16 := by omega
          rw [hcnt, hmod, List.take_append_of_le_length (by simp [fullWords_length]; omega), List.take_of_length_le (by simp [fullWords_length]; omega),
            List.flatMap_append, List.flatMap_append]
          simp only [List.flatMap_cons, List.flatMap_nil, List.append_nil]
          have h16 : msb 16 ((w * 2 ^ sb + ofMsb bs / 2 ^ (bs.length - sb) % 2 ^ sb) % 65536) =
              msb (s.count % 16) w ++ msb sb (ofMsb bs / 2 ^ (bs.length - sb)) := by
            rw [← hword]
            congr 1
            omega
          rw [h16]
          conv_rhs => rw [hsplit, ← hrest]
          simp only [List.append_assoc]
          congr 4
          by_cases hm : (bs.length - sb) % 16 = 0
          · rw [if_neg (by omega), hm]; rfl
          · rw [if_pos hm, if_pos hm]
            rw [← List.append_assoc, ← List.append_assoc, List.getLastD_concat]
            exact msb_congr (by simp)
        · -- it is not
          have hsb2 : sb = bs.length := by omega
          rw [hsb2] at hword hsplit hrest ⊢
          have hz : bs.length - bs.length = 0 := Nat.sub_self _
          rw [hz] at hrest hsplit hword ⊢
          rw [show (s.count + bs.length) / 16 = s.count / 16 by omega, show (s.count + bs.length) % 16 = s.count % 16 + bs.length by omega]
          have hf : fullWords (ofMsb bs) 0 = [] := rfl
          rw [hf]
          simp only [Nat.zero_mod, ne_eq, not_true_eq_false, if_false, List.append_nil]
          rw [List.take_append_of_le_length (by omega), List.take_of_length_le (by omega), if_pos (by omega), List.getLastD_concat, hword,
            List.append_assoc]
          congr 2
          rw [Nat.pow_zero, Nat.div_one, msb_ofMsb]

/-! ## Reader and writer in step -/

/-- State of the writer against that of the reader, after the atoms `C` have been consumed by the reader and the atoms `E` written: what is not yet written
is pending in the writer, where the symbol of an unfinished end-of-band run counts the blocks to come. -/
structure Joint (allowed : Bool) (e : Int) (s : CS) (C E : List Atom) : Prop where
  wf : s.Wf
  small : s.eob < 0x7FFF
  cnt : s.count ≤ 63 * s.eob
  idle : e < 0 → s.eob = 0
  plain : allowed = false → s.eob = 0 ∧ e ≤ 0
  done : e ≤ 0 → C = E ++ s.pending
  run : 0 < e → 1 ≤ s.eob ∧ s.eob + e ≤ 0x7FFF ∧ C = E ++ eobAtoms s.tbl (s.eob + e.toNat) ++ s.bits.map .bit

theorem CS.flush_wf (s : CS) : s.flush.2.Wf ∧ s.flush.2.eob = 0 ∧ s.flush.2.count = 0 := ⟨by simp [CS.Wf, CS.flush], rfl, rfl⟩

theorem CS.flush_pending (s : CS) : s.flush.2.pending = [] := CS.pending_empty rfl rfl

theorem CS.bits_empty {s : CS} (h : s.count = 0) : s.bits = [] := by unfold CS.bits; simp [h]

theorem log2_add {r x : Nat} (h : x < 2 ^ r) : Nat.log2 (2 ^ r + x) = r := by
  have hp := Nat.two_pow_pos r
  rw [Nat.log2_eq_iff (by omega)]
  rw [Nat.pow_succ]
  omega

theorem eobAtoms_run {t : HSlot} {r x : Nat} (h : x < 2 ^ r) : eobAtoms t (2 ^ r + x) = .sym t (16 * r) :: (msb r x).map .bit := by
  unfold eobAtoms
  rw [log2_add h]
  congr 2
  exact msb_congr (by simp)

/-- **The end of a band**: the first block of a run (`run` blocks long, of which `run - 1` are to come), or a further one. -/
theorem CS.buffer_step {s : CS} {ac : HSlot} {bs : List Bool} (hwf : s.Wf) (hsm : s.eob < 0x7FFF) (hcnt : s.count ≤ 63 * s.eob) (hbs : bs.length ≤ 63) :
    (s.buffer ac bs).1 = true ∧ (s.buffer ac bs).2.2.Wf ∧
    (if s.eob + 1 = 0x7FFF then (s.buffer ac bs).2.2.eob = 0 ∧ (s.buffer ac bs).2.2.count = 0 ∧
        atomsOf (s.buffer ac bs).2.1 = eobAtoms (if s.eob = 0 then ac else s.tbl) 0x7FFF ++ (s.bits ++ bs).map .bit
      else (s.buffer ac bs).2.1 = [] ∧ (s.buffer ac bs).2.2.eob = s.eob + 1 ∧ (s.buffer ac bs).2.2.tbl = (if s.eob = 0 then ac else s.tbl) ∧
        (s.buffer ac bs).2.2.count = s.count + bs.length ∧ (s.buffer ac bs).2.2.bits = s.bits ++ bs) := by
  have key : ∃ s1 : CS, s1.Wf ∧ s1.eob = s.eob ∧ s1.count = s.count ∧ s1.bits = s.bits ∧ s1.tbl = (if s.eob = 0 then ac else s.tbl) ∧
      s.buffer ac bs = (let s2 := CS.append { s1 with eob := s1.eob + 1 } bs
        if 0x7FFF * 63 < s2.count then (false, [], s2) else if s2.eob = 0x7FFF then (true, s2.flush) else (true, [], s2)) := by
    by_cases h0 : s.eob = 0
    · refine ⟨{ s with tbl := ac }, hwf, rfl, rfl, rfl, by rw [if_pos h0], ?_⟩
      unfold CS.buffer
      simp only
      rw [if_pos h0]
    · refine ⟨s, hwf, rfl, rfl, rfl, by rw [if_neg h0], ?_⟩
      unfold CS.buffer
      simp only
      rw [if_neg h0]
  obtain ⟨s1, w1, w2, w3, w4, w5, hb⟩ := key
  obtain ⟨a1, a2, a3, a4, a5⟩ := CS.append_spec (s := { s1 with eob := s1.eob + 1 }) w1 bs
  rw [hb]
  simp only at a2 a3 a4 a5 ⊢
  generalize CS.append { s1 with eob := s1.eob + 1 } bs = s2 at *
  have hbits : s2.bits = s.bits ++ bs := by rw [a2, ← w4]; rfl
  rw [if_neg (by omega), a4, w2]
  by_cases h : s.eob + 1 = 0x7FFF
  · rw [if_pos h, if_pos h]
    refine ⟨rfl, (CS.flush_wf s2).1, rfl, rfl, ?_⟩
    rw [CS.flush_atoms]
    unfold CS.pending
    rw [if_pos (by omega), a4, a5, w2, h, w5, hbits]
  · rw [if_neg h, if_neg h]
    exact ⟨rfl, a1, rfl, by simp only; omega, by rw [a5, w5], by simp only; omega, hbits⟩

/-- The first block of a run, when nothing is pending. -/
theorem Joint.start {allowed : Bool} {ac : HSlot} {s : CS} {C : List Atom} {bs : List Bool} {run : Nat} (hwf : s.Wf) (h0 : s.eob = 0) (hc : s.count = 0)
    (hbs : bs.length ≤ 63) (h1 : 1 ≤ run) (h2 : run ≤ 0x7FFF) (hal : allowed = false → run = 1) :
    (s.buffer ac bs).1 = true ∧
    Joint allowed ((run : Int) - 1) (if allowed then (s.buffer ac bs).2.2 else (s.buffer ac bs).2.2.flush.2)
      (C ++ eobAtoms ac run ++ bs.map .bit)
      (C ++ atomsOf (if allowed then (s.buffer ac bs).2.1 else (s.buffer ac bs).2.1 ++ (s.buffer ac bs).2.2.flush.1)) := by
  obtain ⟨b1, b2, b3⟩ := CS.buffer_step (ac := ac) hwf (by omega) (by omega) hbs
  refine ⟨b1, ?_⟩
  rw [if_neg (by omega)] at b3
  obtain ⟨b4, b5, b6, b7, b8⟩ := b3
  rw [if_pos h0] at b6
  rw [CS.bits_empty hc, List.nil_append] at b8
  cases allowed with
  | true =>
    simp only [if_true]
    rw [b4]
    constructor
    · exact b2
    · omega
    · omega
    · intro h; omega
    · intro h; cases h
    · intro h
      have : run = 1 := by omega
      subst this
      unfold CS.pending
      rw [if_pos (by omega), b5, b6, b8, h0]
      simp [atomsOf]
    · intro h
      refine ⟨by omega, by omega, ?_⟩
      rw [b5, b6, b8, h0, show 0 + 1 + ((run : Int) - 1).toNat = run by omega]
      simp [atomsOf]
  | false =>
    simp only [Bool.false_eq_true, if_false]
    have := hal rfl
    subst this
    rw [b4, List.nil_append, CS.flush_atoms]
    constructor
    · exact (CS.flush_wf _).1
    · show (0 : Nat) < _; omega
    · show (0 : Nat) ≤ _; omega
    · intro _; rfl
    · intro _; exact ⟨rfl, by omega⟩
    · intro _
      rw [CS.flush_pending]
      unfold CS.pending
      rw [if_pos (by omega), b5, b6, b8, h0]
      simp
    · intro h; omega

/-- A further block of a run. -/
theorem Joint.next {ac : HSlot} {s : CS} {e : Int} {C E : List Atom} {bs : List Bool} (h : Joint true e s C E) (he : 0 < e) (hbs : bs.length ≤ 63) :
    (s.buffer ac bs).1 = true ∧ Joint true (e - 1) (s.buffer ac bs).2.2 (C ++ bs.map .bit) (E ++ atomsOf (s.buffer ac bs).2.1) := by
  obtain ⟨r1, r2, r3⟩ := h.run he
  obtain ⟨b1, b2, b3⟩ := CS.buffer_step (ac := ac) h.wf h.small h.cnt hbs
  refine ⟨b1, ?_⟩
  have htbl : (if s.eob = 0 then ac else s.tbl) = s.tbl := by rw [if_neg (by omega)]
  have hcnt := h.cnt
  rw [htbl] at b3
  by_cases hf : s.eob + 1 = 0x7FFF
  · rw [if_pos hf] at b3
    obtain ⟨b4, b5, b6⟩ := b3
    have he1 : e = 1 := by omega
    subst he1
    constructor
    · exact b2
    · omega
    · omega
    · intro _; exact b4
    · intro h; cases h
    · intro _
      rw [CS.pending_empty b4 b5, List.append_nil, b6, r3]
      rw [show s.eob + (1 : Int).toNat = 0x7FFF by omega]
      simp
    · intro h; omega
  · rw [if_neg hf] at b3
    obtain ⟨b4, b5, b6, b7, b8⟩ := b3
    rw [b4]
    constructor
    · exact b2
    · omega
    · omega
    · intro h; omega
    · intro h; cases h
    · intro hle
      have he1 : e = 1 := by omega
      subst he1
      unfold CS.pending
      rw [if_pos (by omega), b5, b6, b8, r3]
      rw [show s.eob + (1 : Int).toNat = s.eob + 1 by omega]
      simp [atomsOf]
    · intro hlt
      refine ⟨by omega, by omega, ?_⟩
      rw [b5, b6, b8, r3, show s.eob + 1 + (e - 1).toNat = s.eob + e.toNat by omega]
      simp [atomsOf]

end Brunsli
