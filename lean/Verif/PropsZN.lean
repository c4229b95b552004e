import Verif.Recip
import Verif.PropsA
/-!
# C73: the build option for multiplying by reciprocals

An encoder built with the option is to write the same file as one without.
-/

namespace Brunsli

/-- **C73 (1)**: for every frequency of a table of 1024 and every state that can meet it, the product with the reciprocal fits 64 bits, and the quotient taken of
it is the exact one. -/
theorem C73_quotient (freq state : Nat) (h0 : 0 < freq) (h1 : freq ≤ 1024) (hs : state / 2 ^ 22 < freq) :
    ∃ ifreq, ansReciprocal true freq = some ifreq ∧ state * ifreq < 2 ^ 64 ∧ state * ifreq / 2 ^ kReciprocalPrecision = state / freq := by
  obtain ⟨e1, e2⟩ := reciprocal_exact h0 h1 ((Nat.div_lt_iff_lt_mul (by decide)).1 hs)
  refine ⟨(2 ^ 42 + freq - 1) / freq, ?_, e1, e2⟩
  unfold ansReciprocal
  rw [if_pos rfl, if_pos (by omega)]
  rfl

/-- **C73 (2)**, the property for an encoder whose reciprocals are filled in: DC and AC data are the same words as with divisions, for all symbols and bits. -/
theorem C73_words_partial (tabs : Nat → List Nat) (ops : List Op) (ws : List Nat) (ht : ∀ c, (tabs c).sum ≤ 1024) (h : encodeWords tabs ops = some ws) :
    encodeWordsR true tabs ops = .ok ws := by
  unfold encodeWords at h
  unfold encodeWordsR
  cases ha : allWritten (ops.foldl DS.step DS.init).flush with
  | none => rw [ha] at h; cases h
  | some slots =>
    rw [ha] at h
    dsimp only at h ⊢
    cases hp : ansPass tabs slots with
    | none => rw [hp] at h; cases h
    | some r =>
      obtain ⟨x, us⟩ := r
      rw [hp] at h
      rw [(ansPassR_eq ht slots hp).1]
      exact congrArg Run.ok (Option.some.inj h)

/-- **C73 (3)**: so a decoder gets back what was encoded (with C01). -/
theorem C73_restored_partial (counts syms : List Nat) (hsum : counts.sum = 1024) (hpos : ∀ s ∈ syms, 0 < counts.getD s 0) :
    ∃ ws, encodeWordsR true (fun _ => counts) (syms.map (Op.code 0)) = .ok ws ∧ decodeWords (fun _ => ansMap counts) (askSymbols syms.length) ws = some syms := by
  obtain ⟨ws, e1, e2⟩ := C02_ans_roundtrip counts syms hsum hpos
  exact ⟨ws, C73_words_partial _ _ _ (fun _ => by omega) e1, e2⟩

/-- **C73 (4), FALSE of the code**: the option by its name does not fill in the reciprocals, since the lines that do depend on another name
(c/enc/ans_encode.cc:27); data that is encoded without the option reads a number that was never written with it. -/
theorem C73_option_false : ∃ (tabs : Nat → List Nat) (ops : List Op) (ws : List Nat), encodeWords tabs ops = some ws ∧ encodeWordsR false tabs ops = .ub :=
  ⟨fun _ => [1, 511, 0, 512], [.code 0 3, .code 0 1, .code 0 3], _, rfl, rfl⟩

/-- The precision of 42 bits is needed: with one bit less a quotient would be wrong. -/
theorem C73_precision : ∃ freq state, 0 < freq ∧ freq ≤ 1024 ∧ state / 2 ^ 22 < freq ∧ state * ((2 ^ 41 + freq - 1) / freq) / 2 ^ 41 ≠ state / freq :=
  ⟨1023, 1023 * (2 ^ 22 - 1) + 1022, by decide, by decide, by decide, by decide⟩

/-! ## Non-vacuity -/

example : (0 : Nat) < 1023 ∧ 1023 ≤ 1024 ∧ (1023 * 2 ^ 22 - 1) / 2 ^ 22 < 1023 := by decide

example : encodeWordsR true (fun _ => [1, 511, 0, 512]) [.code 0 3, .code 0 1, .bits 5 17, .code 0 3] = .ok ((encodeWords (fun _ => [1, 511, 0, 512]) [.code 0 3, .code 0 1, .bits 5 17, .code 0 3]).getD []) ∧
    encodeWords (fun _ => [1, 511, 0, 512]) [.code 0 3, .code 0 1, .bits 5 17, .code 0 3] ≠ none := by decide +kernel

end Brunsli
