import Verif.BitClients
import Verif.BitIO
/-!
# The bit reader at work

Programs over the bit reader are run on the reader itself, in the middle of a section of which earlier calls have consumed a part.
Reading more than 24 bits at once, dropping more bits than are held and stepping back before the first byte of the call are outcomes
of their own.
-/

namespace Brunsli

/-- What running a program on the bit reader may give. -/
inductive MR (α : Type) where
  | ok (a : α) (r : BR)
  | fail (r : BR)
  | ub

/-- `BrunsliBitReaderUnload` (c/dec/bit_reader.cc:35-47); `none`: `next_` is moved before the buffer. -/
def BR.unloadC (r : BR) : Option BR :=
  if (r.numBits - 8 * min r.debt (r.numBits / 8)) / 8 ≤ r.next then some r.unload else none

/-- Run a program on the bytes of the current call. -/
def BC.mrun {α : Type} (chunk : List Nat) : BC α → BR → MR α
  | .ret a, r => .ok a r
  | .fail, r => .fail r
  | .ub, _ => .ub
  | .get n k, r => if n ≤ 24 then mrun chunk (k ((r.fill chunk n).bits % 2 ^ n)) (r.fill chunk n) else .ub
  | .drop n k, r => if n ≤ r.numBits then mrun chunk k { r with bits := r.bits / 2 ^ n, numBits := r.numBits - n } else .ub
  | .healthy k, r =>
    match r.unloadC with
    | none => .ub
    | some r => if r.debt = 0 ∧ r.healthy = true then mrun chunk k r else .fail r

/-! ## Values of bits -/

theorem leVal_bits {B : List Nat} (h : Bytes B) : leVal B = ofBits (bytesBits B) := by
  induction B with
  | nil => rfl
  | cons b B ih =>
    have hb : b < 256 := h b List.mem_cons_self
    rw [show b :: B = [b] ++ B from rfl, leVal_append, bytesBits_append, ofBits_append, ← ih fun x hx => h x (List.mem_cons_of_mem _ hx)]
    have e : bytesBits [b] = bitsOf 8 b := by simp [bytesBits]
    rw [e, ofBits_bitsOf_lt (by simpa using hb)]
    simp [leVal, bitsOf_length]

theorem ofBits_drop : ∀ (bs : List Bool) (k : Nat), ofBits (bs.drop k) = ofBits bs / 2 ^ k
  | bs, k => by
    by_cases h : k ≤ bs.length
    · have := ofBits_append (bs.take k) (bs.drop k)
      rw [List.take_append_drop, List.length_take, Nat.min_eq_left h] at this
      rw [this, Nat.add_mul_div_left _ _ (Nat.two_pow_pos _), Nat.div_eq_of_lt, Nat.zero_add]
      exact ofBits_take_lt bs k
    · rw [List.drop_eq_nil_of_le (by omega)]
      exact (Nat.div_eq_of_lt (Nat.lt_of_lt_of_le (ofBits_lt _) (Nat.pow_le_pow_right (by decide) (by omega)))).symm

theorem ofBits_mod (bs : List Bool) (n : Nat) : ofBits bs % 2 ^ n = ofBits (bs.take n) := by
  have := ofBits_take_mod bs (n := n) (k := n + bs.length) (by omega)
  rwa [List.take_of_length_le (by omega)] at this

/-- The bits at a position. -/
theorem leVal_window {B : List Nat} (h : Bytes B) (pos n : Nat) : leVal B / 2 ^ pos % 2 ^ n = ofBits (((bytesBits B).drop pos).take n) := by
  rw [leVal_bits h, ← ofBits_drop, ofBits_mod]

/-! ## A reader in the middle of a section -/

/-- The reader as if it had been given the section from its start. -/
def BR.shift (k : Nat) (r : BR) : BR := { r with next := r.next + k }

theorem BR.fetch_shift (hist chunk : List Nat) (n : Nat) (r : BR) :
    (r.shift hist.length).fetch (hist ++ chunk) n = (r.fetch chunk n).shift hist.length := by
  unfold BR.fetch BR.shift
  simp only
  have e : (hist ++ chunk)[r.next + hist.length]? = chunk[r.next]? := by
    rw [List.getElem?_append_right (by omega), Nat.add_sub_cancel]
  rw [e]
  split
  · cases chunk[r.next]? with
    | none => rfl
    | some b => simp only [BR.mk.injEq, and_true]; omega
  · rfl

theorem BR.fill_shift (hist chunk : List Nat) (n : Nat) (r : BR) :
    (r.shift hist.length).fill (hist ++ chunk) n = (r.fill chunk n).shift hist.length := by
  unfold BR.fill
  simp only [BR.fetch_shift]
  split
  · split <;> rfl
  · rfl

/-- The reader stands at bit `pos` of a section, of which earlier calls have consumed `hist` and this call is given `chunk`. -/
structure BR.At (hist chunk : List Nat) (r : BR) (pos : Nat) : Prop where
  inv : (r.shift hist.length).Inv (hist ++ chunk) pos
  start : 8 * hist.length ≤ pos + 7
  healthy : r.healthy = true

theorem BR.At.unloadC {hist chunk : List Nat} {r : BR} {pos : Nat} (h : BR.At hist chunk r pos) :
    r.unloadC = some r.unload ∧ BR.At hist chunk r.unload pos ∧ r.unload.numBits < 8 ∧ (r.unload.debt = 0 ↔ pos ≤ 8 * (hist ++ chunk).length) := by
  obtain ⟨⟨h1, h2, h3, h4⟩, hs, hh⟩ := h
  simp only [BR.shift] at h1 h2 h3 h4
  have hk : (r.numBits - 8 * min r.debt (r.numBits / 8)) / 8 ≤ r.next := by omega
  have e : (r.shift hist.length).unload = r.unload.shift hist.length := by
    unfold BR.unload BR.shift
    simp only [BR.mk.injEq, and_true]
    omega
  obtain ⟨i1, i2, i3⟩ := BR.unload_inv (r := r.shift hist.length) (pos := pos) (buf := hist ++ chunk) ⟨h1, h2, h3, h4⟩
  rw [e] at i1 i2 i3
  refine ⟨by unfold BR.unloadC; rw [if_pos hk], ⟨i1, hs, hh⟩, i2, ?_⟩
  obtain ⟨j1, j2, j3, j4⟩ := i1
  simp only [BR.shift] at j1 j2 j3 j4 i2
  by_cases hd : r.unload.debt = 0
  · constructor
    · intro _; omega
    · intro _; exact hd
  · have := j3 hd
    constructor
    · intro h; exact absurd h hd
    · intro h; omega

theorem BR.At.fill {hist chunk : List Nat} {r : BR} {pos n : Nat} (hb : Bytes (hist ++ chunk)) (h : BR.At hist chunk r pos) (hn : n ≤ 24) :
    BR.At hist chunk (r.fill chunk n) pos ∧ n ≤ (r.fill chunk n).numBits ∧ r.numBits ≤ (r.fill chunk n).numBits ∧
      (r.fill chunk n).bits % 2 ^ n = ofBits (((bytesBits (hist ++ chunk)).drop pos).take n) := by
  have hmono : ∀ r : BR, r.numBits ≤ (r.fetch chunk n).numBits := by
    intro r
    unfold BR.fetch
    split
    · split <;> simp only <;> omega
    · omega
  have hm : r.numBits ≤ (r.fill chunk n).numBits := by
    unfold BR.fill
    have a1 := hmono r
    have a2 := hmono (r.fetch chunk n)
    have a3 := hmono ((r.fetch chunk n).fetch chunk n)
    simp only
    split
    · split <;> omega
    · omega
  obtain ⟨i1, i2, i3⟩ := BR.fill_inv hb h.inv hn
  rw [BR.fill_shift] at i1 i2 i3
  refine ⟨⟨i1, h.start, ?_⟩, i3, hm, ?_⟩
  · exact i2.trans h.healthy
  · have e : (r.fill chunk n).bits = leVal (hist ++ chunk) / 2 ^ pos % 2 ^ (r.fill chunk n).numBits := i1.bits
    have i3' : n ≤ (r.fill chunk n).numBits := i3
    rw [e, Nat.mod_mod_of_dvd _ (Nat.pow_dvd_pow 2 i3'), leVal_window hb]

theorem BR.At.drop {hist chunk : List Nat} {r : BR} {pos n : Nat} (h : BR.At hist chunk r pos) (hn : n ≤ r.numBits) :
    BR.At hist chunk { r with bits := r.bits / 2 ^ n, numBits := r.numBits - n } (pos + n) := by
  obtain ⟨⟨h1, h2, h3, h4⟩, hs, hh⟩ := h
  simp only [BR.shift] at h1 h2 h3 h4
  refine ⟨⟨by simp only [BR.shift]; omega, h2, h3, ?_⟩, by omega, hh⟩
  simp only [BR.shift]
  rw [h4]
  generalize r.numBits = b at *
  have e : b = n + (b - n) := by omega
  rw [e, div_pow_split, Nat.add_mul_div_left _ _ (Nat.two_pow_pos n), Nat.div_eq_of_lt (Nat.mod_lt _ (Nat.two_pow_pos n)), Nat.zero_add,
    Nat.add_sub_cancel_left]

/-- What running a program gives, against what the bits of the section say. -/
def BC.Ran {α : Type} (hist chunk : List Nat) (pos : Nat) (y : Option (α × Nat)) : MR α → Prop
  | .ok a r => ∃ c, y = some (a, c) ∧ BR.At hist chunk r (pos + c)
  | .fail r => (∃ p, BR.At hist chunk r p) ∧ ∀ a c, y = some (a, c) → 8 * (hist ++ chunk).length < pos + c
  | .ub => False

theorem BC.mrun_spec {α : Type} {hist chunk : List Nat} (hb : Bytes (hist ++ chunk)) (p : BC α) : ∀ (r : BR) (pos h : Nat), BR.At hist chunk r pos →
    Held p h ((bytesBits (hist ++ chunk)).drop pos) → h ≤ r.numBits →
    Ran hist chunk pos (p.count ((bytesBits (hist ++ chunk)).drop pos)) (p.mrun chunk r) := by
  induction p with
  | ret a => intro r pos h ha _ _; exact ⟨0, rfl, ha⟩
  | fail => intro r pos h ha _ _; exact ⟨⟨pos, ha⟩, fun _ _ e => by cases e⟩
  | ub => intro r pos h ha hh _; exact hh
  | get n k ih =>
    intro r pos h ha hh hle
    obtain ⟨hn, hh⟩ := hh
    obtain ⟨f1, f2, f3, f4⟩ := ha.fill hb hn
    simp only [mrun, if_pos hn, count]
    rw [f4]
    exact ih _ _ _ _ f1 hh (by omega)
  | drop n k ih =>
    intro r pos h ha hh hle
    obtain ⟨hn, hh⟩ := hh
    rw [List.drop_drop] at hh
    have hd := ha.drop (n := n) (by omega)
    have := ih _ (pos + n) (h - n) hd hh (by simp only; omega)
    simp only [mrun, if_pos (show n ≤ r.numBits by omega), count]
    rw [List.drop_drop]
    cases hm : k.mrun chunk { r with bits := r.bits / 2 ^ n, numBits := r.numBits - n } with
    | ok a r' =>
      rw [hm] at this
      obtain ⟨c, h1, h2⟩ := this
      exact ⟨n + c, by rw [h1]; rfl, by rw [← Nat.add_assoc]; exact h2⟩
    | fail r' =>
      rw [hm] at this
      obtain ⟨h1, h2⟩ := this
      refine ⟨h1, fun a c e => ?_⟩
      cases hc : count k ((bytesBits (hist ++ chunk)).drop (pos + n)) with
      | none => rw [hc] at e; cases e
      | some y =>
        rw [hc] at e
        have e' := Option.some.inj e
        have := h2 y.1 y.2 hc
        have := (Prod.mk.inj e').2
        omega
    | ub => rw [hm] at this; exact this
  | healthy k ih =>
    intro r pos h ha hh hle
    obtain ⟨u1, u2, u3, u4⟩ := ha.unloadC
    simp only [mrun, u1, count]
    by_cases hd : r.unload.debt = 0
    · rw [if_pos ⟨hd, u2.healthy⟩]
      exact ih _ _ 0 u2 hh (Nat.zero_le _)
    · rw [if_neg (fun h => hd h.1)]
      refine ⟨⟨pos, u2⟩, fun a c _ => ?_⟩
      have := mt u4.mpr hd
      omega

/-- `BrunsliBitReaderCanRead` when there is no debt. -/
theorem BR.At.canRead {hist chunk : List Nat} {r : BR} {pos n : Nat} (h : BR.At hist chunk r pos) :
    (r.canRead chunk n = true → pos + n ≤ 8 * (hist ++ chunk).length) ∧
      (r.debt = 0 → r.canRead chunk n = false → 8 * (hist ++ chunk).length < pos + n) := by
  obtain ⟨⟨h1, h2, h3, h4⟩, hs, hh⟩ := h
  simp only [BR.shift] at h1 h2 h3 h4
  rw [List.length_append] at *
  unfold BR.canRead
  constructor
  · intro h
    by_cases hd : r.debt = 0
    · rw [if_neg (by simpa using hd)] at h
      split at h
      · omega
      · simp only [decide_eq_true_eq] at h; omega
    · rw [if_pos hd] at h; cases h
  · intro hd h
    rw [if_neg (by simpa using hd)] at h
    split at h
    · cases h
    · simp only [decide_eq_false_iff_not] at h; omega

end Brunsli
