import Verif.DataStream
import Verif.JWriter
import Mathlib.Tactic.Linarith
/-!
# Multiplying by reciprocals in the entropy coder

The build option `BRUNSLI_USE_MULT_BY_RECIPROCAL` of the encoder (c/enc/ans_encode.h:19-22, 29-31, 50-54; c/enc/ans_encode.cc:27-36) replaces divisions by
multiplications with numbers that are computed in advance.
-/

namespace Brunsli

/-- `BRUNSLI_RECIPROCAL_PRECISION` (c/enc/ans_encode.h:22). -/
def kReciprocalPrecision : Nat := 42

/-- `info_[s].ifreq_` (c/enc/ans_encode.cc:27-36).  The lines are compiled if `USE_MULT_BY_RECIPROCAL` is defined, which is not the name of the option; `filled`
tells whether they are (with `RECIPROCAL_PRECISION` taken for the constant of the header).  `none`: the field is never written. -/
def ansReciprocal (filled : Bool) (freq : Nat) : Option Nat :=
  if filled then some (if freq ≠ 0 then (2 ^ kReciprocalPrecision + freq - 1) / freq else 1) else none

/-- The lines 51-54 of `ANSCoder::PutSymbol` (c/enc/ans_encode.h), with products of 64 bits and the rest in 32 bits. -/
def ansAdvance (ifreq freq start state : Nat) : Nat :=
  let v := (state * ifreq) % 2 ^ 64 / 2 ^ kReciprocalPrecision % 2 ^ 32
  let offset := (state + (2 ^ 32 - v * freq % 2 ^ 32) + start) % 2 ^ 32
  (v * 1024 % 2 ^ 32 + offset) % 2 ^ 32

/-- `ANSCoder::PutSymbol` (c/enc/ans_encode.h:42-60) with the option.  `.ub`: a field is read that was never written. -/
def putSymbolR (ifreq : Option Nat) (freq start state : Nat) : Run (Nat × Option Nat) :=
  match ifreq with
  | none => .ub
  | some i =>
    if state / 2 ^ 22 ≥ freq then .ok (ansAdvance i freq start (state / 65536), some (state % 65536))
    else .ok (ansAdvance i freq start state, none)

/-- The passes of `EncodeCodeWords` (c/enc/brunsli_encode.cc:699-720). -/
def ansPassR (filled : Bool) (tabs : Nat → List Nat) : List Slot → Run (Nat × List Nat)
  | [] => .ok (ansInitState, [])
  | .word v :: T => (ansPassR filled tabs T).bind fun r => .ok (r.1, v :: r.2)
  | .sym c s :: T => (ansPassR filled tabs T).bind fun r =>
      (putSymbolR (ansReciprocal filled (ansFreq (tabs c) s)) (ansFreq (tabs c) s) (ansStart (tabs c) s) r.1).bind fun q => .ok (q.1, q.2.toList ++ r.2)

/-- `EncodeCodeWords` (c/enc/brunsli_encode.cc:696-720) with the option. -/
def encodeWordsR (filled : Bool) (tabs : Nat → List Nat) (ops : List Op) : Run (List Nat) :=
  match allWritten (ops.foldl DS.step DS.init).flush with
  | none => .ub
  | some slots => (ansPassR filled tabs slots).bind fun r => .ok (r.1 / 65536 :: r.1 % 65536 :: r.2)

/-! ## The quotient is exact -/

theorem reciprocal_exact {freq state : Nat} (h0 : 0 < freq) (h1 : freq ≤ 1024) (hs : state < freq * 2 ^ 22) :
    state * ((2 ^ 42 + freq - 1) / freq) < 2 ^ 64 ∧ state * ((2 ^ 42 + freq - 1) / freq) / 2 ^ 42 = state / freq := by
  generalize hi : (2 ^ 42 + freq - 1) / freq = i
  have d1 := Nat.div_add_mod (2 ^ 42 + freq - 1) freq
  have d2 := Nat.mod_lt (2 ^ 42 + freq - 1) h0
  rw [hi] at d1
  obtain ⟨e, he⟩ : ∃ e, freq * i = 2 ^ 42 + e := ⟨freq * i - 2 ^ 42, by omega⟩
  have he' : e < freq := by omega
  have d3 := Nat.div_add_mod state freq
  have d4 := Nat.mod_lt state h0
  have hq : state / freq < 2 ^ 22 := by
    rw [Nat.div_lt_iff_lt_mul h0, Nat.mul_comm]
    exact hs
  generalize state / freq = q at *
  generalize state % freq = r at *
  have hsplit : state * i = 2 ^ 42 * q + (e * q + r * i) := by
    rw [← d3, Nat.add_mul, Nat.mul_right_comm, he]
    ring
  have hsmall : e * (q + 1) < i := by
    have a1 : e * (q + 1) ≤ (freq - 1) * 2 ^ 22 := Nat.mul_le_mul (by omega) (by omega)
    have a2 : (freq - 1) * freq ≤ 1023 * 1024 := Nat.mul_le_mul (by omega) h1
    have a3 : e * (q + 1) * freq ≤ (freq - 1) * 2 ^ 22 * freq := Nat.mul_le_mul_right _ a1
    have a4 : (freq - 1) * 2 ^ 22 * freq = (freq - 1) * freq * 2 ^ 22 := by ring
    have a5 : e * (q + 1) * freq < i * freq := by
      rw [Nat.mul_comm i freq, he]
      omega
    exact Nat.lt_of_mul_lt_mul_right a5
  have hr : r * i + i ≤ 2 ^ 42 + e := by
    rw [← he, show r * i + i = (r + 1) * i by ring]
    exact Nat.mul_le_mul_right _ d4
  have hrest : e * q + r * i < 2 ^ 42 := by
    have : e * (q + 1) = e * q + e := by ring
    omega
  rw [hsplit]
  constructor
  · omega
  · rw [Nat.mul_add_div (by decide), Nat.div_eq_of_lt hrest, Nat.add_zero]

theorem ansAdvance_eq {freq start state : Nat} (h0 : 0 < freq) (h1 : start + freq ≤ 1024) (hs : state < freq * 2 ^ 22) :
    ansAdvance ((2 ^ 42 + freq - 1) / freq) freq start state = state / freq * 1024 + state % freq + start ∧ state / freq * 1024 + state % freq + start < 2 ^ 32 := by
  obtain ⟨e1, e2⟩ := reciprocal_exact h0 (by omega) hs
  have hq : state / freq < 2 ^ 22 := by
    rw [Nat.div_lt_iff_lt_mul h0, Nat.mul_comm]
    exact hs
  have d3 := Nat.div_add_mod state freq
  have d4 := Nat.mod_lt state h0
  have hs32 : state < 2 ^ 32 := by
    have : freq * 2 ^ 22 ≤ 1024 * 2 ^ 22 := Nat.mul_le_mul_right _ (by omega)
    omega
  unfold ansAdvance kReciprocalPrecision
  rw [Nat.mod_eq_of_lt e1, e2]
  dsimp only
  rw [Nat.mul_comm freq] at d3
  generalize hm : state / freq * freq = m at *
  generalize state / freq = q at *
  generalize state % freq = r at *
  rw [Nat.mod_eq_of_lt (show q < 2 ^ 32 by omega), hm, Nat.mod_eq_of_lt (show m < 2 ^ 32 by omega)]
  omega

theorem putSymbolR_eq {counts : List Nat} {s state x : Nat} {w : Option Nat} (hc : counts.sum ≤ 1024) (hs : state < 2 ^ 32)
    (h : putSymbol (ansFreq counts s) (ansStart counts s) state = some (x, w)) :
    putSymbolR (ansReciprocal true (ansFreq counts s)) (ansFreq counts s) (ansStart counts s) state = .ok (x, w) ∧ x < 2 ^ 32 := by
  have hle := ansStart_add_freq_le counts s
  generalize ansFreq counts s = freq at *
  generalize ansStart counts s = start at *
  unfold putSymbol at h
  by_cases h0 : freq = 0
  · rw [if_pos h0] at h
    cases h
  · rw [if_neg h0] at h
    unfold putSymbolR ansReciprocal
    rw [if_pos rfl, if_pos h0]
    dsimp only
    have hbig : 1 * 2 ^ 22 ≤ freq * 2 ^ 22 := Nat.mul_le_mul_right _ (by omega)
    by_cases hb : state / 2 ^ 22 ≥ freq
    · rw [if_pos hb] at h ⊢
      obtain ⟨e1, e2⟩ := ansAdvance_eq (freq := freq) (start := start) (state := state / 65536) (by omega) (by omega) (by omega)
      have hx := (Prod.mk.inj (Option.some.inj h))
      rw [kReciprocalPrecision, e1]
      exact ⟨by rw [hx.1, hx.2], by rw [← hx.1]; exact e2⟩
    · rw [if_neg hb] at h ⊢
      have hlt : state < freq * 2 ^ 22 := by
        have := (Nat.div_lt_iff_lt_mul (show 0 < 2 ^ 22 by decide)).1 (Nat.lt_of_not_ge hb)
        exact this
      obtain ⟨e1, e2⟩ := ansAdvance_eq (freq := freq) (start := start) (state := state) (by omega) (by omega) hlt
      have hx := (Prod.mk.inj (Option.some.inj h))
      rw [kReciprocalPrecision, e1]
      exact ⟨by rw [hx.1, hx.2], by rw [← hx.1]; exact e2⟩

theorem ansPassR_eq {tabs : Nat → List Nat} (ht : ∀ c, (tabs c).sum ≤ 1024) : ∀ (T : List Slot) {x : Nat} {ws : List Nat}, ansPass tabs T = some (x, ws) →
    ansPassR true tabs T = .ok (x, ws) ∧ x < 2 ^ 32
  | [], x, ws, h => by
    have hx := Prod.mk.inj (Option.some.inj h)
    rw [← hx.1, ← hx.2]
    exact ⟨rfl, by decide⟩
  | .word v :: T, x, ws, h => by
    rw [ansPass] at h
    cases hp : ansPass tabs T with
    | none => rw [hp] at h; cases h
    | some r =>
      obtain ⟨y, us⟩ := r
      rw [hp] at h
      have hx := Prod.mk.inj (Option.some.inj h)
      obtain ⟨e1, e2⟩ := ansPassR_eq ht T hp
      rw [ansPassR, e1, ← hx.1, ← hx.2]
      exact ⟨rfl, e2⟩
  | .sym c s :: T, x, ws, h => by
    rw [ansPass] at h
    cases hp : ansPass tabs T with
    | none => rw [hp] at h; cases h
    | some r =>
      obtain ⟨y, us⟩ := r
      rw [hp] at h
      dsimp only at h
      obtain ⟨e1, e2⟩ := ansPassR_eq ht T hp
      cases hq : putSymbol (ansFreq (tabs c) s) (ansStart (tabs c) s) y with
      | none => rw [hq] at h; cases h
      | some q =>
        obtain ⟨z, w⟩ := q
        rw [hq] at h
        have hx := Prod.mk.inj (Option.some.inj h)
        obtain ⟨e3, e4⟩ := putSymbolR_eq (ht c) e2 hq
        rw [ansPassR, e1]
        show (putSymbolR _ _ _ y).bind _ = _ ∧ _
        rw [e3, ← hx.1, ← hx.2]
        exact ⟨rfl, e4⟩

end Brunsli
