/-!
# The ANS symbol coder

`ANSCoder::PutSymbol`, `ANSBuildInfoTable` (c/enc/ans_encode.h:42-60, c/enc/ans_encode.cc:21-42) and
`ANSDecodingData::Init`, `ANSDecoder::ReadSymbol` (c/dec/ans_decode.cc:15-26, c/dec/ans_decode.h:34-60).
The alternative multiply-by-reciprocal build (`BRUNSLI_USE_MULT_BY_RECIPROCAL`, off) is modelled in `Recip`.
-/

namespace Brunsli

/-- `BRUNSLI_ANS_SIGNATURE << 16` (c/common/ans_params.h:17): initial coder state, used as checksum. -/
def ansInitState : Nat := 0x13 * 65536

/-- `info_[s].freq_` (c/enc/ans_encode.cc:24-41). -/
def ansFreq (counts : List Nat) (s : Nat) : Nat := counts.getD s 0

/-- `info_[s].start_` (c/enc/ans_encode.cc:24-41): the sum of the preceding counts. -/
def ansStart (counts : List Nat) (s : Nat) : Nat := (counts.take s).sum

/-- `ANSCoder::PutSymbol` (c/enc/ans_encode.h:42-60): new state and the 16-bit word emitted, if any.
A zero frequency would be a division by zero: that outcome is `none`. -/
def putSymbol (freq start state : Nat) : Option (Nat × Option Nat) :=
  if freq = 0 then none
  else if state / 2 ^ 22 ≥ freq then
    let s := state / 65536
    some (s / freq * 1024 + s % freq + start, some (state % 65536))
  else some (state / freq * 1024 + state % freq + start, none)

/-- `ANSSymbolInfo` (c/dec/ans_decode.h:21-25). -/
structure SymInfo where
  offset : Nat
  freq : Nat
  symbol : Nat
deriving DecidableEq, Repr

/-- The table filled by `ANSDecodingData::Init` (c/dec/ans_decode.cc:15-25), from symbol `i` on. -/
def ansMapFrom (i : Nat) : List Nat → List SymInfo
  | [] => []
  | c :: cs => (List.range c).map (fun j => ⟨j, c, i⟩) ++ ansMapFrom (i + 1) cs

/-- `ANSDecodingData::Init` (c/dec/ans_decode.cc:15-26): success iff exactly 1024 entries are filled.
More than 1024 entries would be an out-of-bounds write; both are `none`. -/
def ansMap (counts : List Nat) : Option (List SymInfo) :=
  let m := ansMapFrom 0 counts
  if m.length = 1024 then some m else none

/-- `ANSDecoder::ReadSymbol` (c/dec/ans_decode.h:44-52).  `none`: the word source is exhausted or
the table has no entry. -/
def readSymbol (map : List SymInfo) (state : Nat) (ws : List Nat) : Option (Nat × Nat × List Nat) :=
  match map[state % 1024]? with
  | none => none
  | some e =>
    let st := e.freq * (state / 1024) + e.offset
    if st < 65536 then
      match ws with
      | [] => none
      | w :: ws => some (e.symbol, st * 65536 + w, ws)
    else some (e.symbol, st, ws)

/-- The coder state stays in this range. -/
def AnsOk (state : Nat) : Prop := 65536 ≤ state ∧ state < 2 ^ 32

theorem ansInit_ok : AnsOk ansInitState := by unfold AnsOk ansInitState; omega

theorem ansMapFrom_length (i : Nat) (cs : List Nat) : (ansMapFrom i cs).length = cs.sum := by
  induction cs generalizing i with
  | nil => rfl
  | cons c cs ih => simp [ansMapFrom, ih]

theorem ansMapFrom_get (cs : List Nat) : ∀ (i s j : Nat), j < ansFreq cs s →
    (ansMapFrom i cs)[ansStart cs s + j]? = some ⟨j, ansFreq cs s, i + s⟩ := by
  induction cs with
  | nil => intro i s j h; simp [ansFreq] at h
  | cons c cs ih =>
    intro i s j h
    cases s with
    | zero =>
      simp only [ansFreq, List.getD_cons_zero] at h ⊢
      simp only [ansMapFrom, ansStart, List.take_zero, List.sum_nil, Nat.zero_add]
      rw [List.getElem?_append_left (by simpa using h)]
      simp [h]
    | succ s =>
      simp only [ansFreq, List.getD_cons_succ] at h ⊢
      have := ih (i + 1) s j h
      simp only [ansMapFrom, ansStart, List.take_succ_cons, List.sum_cons]
      rw [List.getElem?_append_right (by simp; omega)]
      simp only [List.length_map, List.length_range]
      rw [show c + (cs.take s).sum + j - c = ansStart cs s + j by unfold ansStart; omega, this]
      simp only [ansFreq, Option.some.injEq, SymInfo.mk.injEq, true_and]
      omega

theorem ansStart_add_freq_le (cs : List Nat) (s : Nat) : ansStart cs s + ansFreq cs s ≤ cs.sum := by
  induction cs generalizing s with
  | nil => simp [ansStart, ansFreq]
  | cons c cs ih =>
    cases s with
    | zero => simp [ansStart, ansFreq]
    | succ s =>
      have := ih s
      simp only [ansStart, ansFreq, List.take_succ_cons, List.sum_cons, List.getD_cons_succ] at this ⊢
      omega

/-- One symbol: what `PutSymbol` does, `ReadSymbol` undoes. -/
theorem ans_inverse {counts : List Nat} {map : List SymInfo} {s state : Nat}
    (hmap : ansMap counts = some map) (hf : 0 < ansFreq counts s) (hs : AnsOk state) :
    ∃ x w, putSymbol (ansFreq counts s) (ansStart counts s) state = some (x, w) ∧ AnsOk x ∧
      ∀ ws, readSymbol map x (w.toList ++ ws) = some (s, state, ws) := by
  unfold ansMap at hmap
  simp only at hmap
  split at hmap
  · rename_i hlen
    simp only [Option.some.injEq] at hmap
    subst hmap
    rw [ansMapFrom_length] at hlen
    have hle := ansStart_add_freq_le counts s
    have hget := fun j hj => ansMapFrom_get counts 0 s j hj
    generalize ansFreq counts s = freq at *
    generalize ansStart counts s = start at *
    obtain ⟨hs1, hs2⟩ := hs
    unfold putSymbol
    rw [if_neg (by omega)]
    have key : ∀ y, (y / freq * 1024 + y % freq + start) % 1024 = start + y % freq ∧
        (y / freq * 1024 + y % freq + start) / 1024 = y / freq := by
      intro y
      have := Nat.mod_lt y hf
      omega
    have keyr : ∀ y, freq * (y / freq) + y % freq = y := fun y => Nat.div_add_mod y freq
    by_cases hc : state / 2 ^ 22 ≥ freq
    · rw [if_pos hc]
      refine ⟨_, _, rfl, ?_, ?_⟩
      · have h1 : 64 ≤ state / 65536 / freq := by
          rw [Nat.le_div_iff_mul_le hf]; omega
        have h2 : state / 65536 / freq ≤ state / 65536 := Nat.div_le_self _ _
        have h3 := Nat.mod_lt (state / 65536) hf
        constructor <;> omega
      · intro ws
        unfold readSymbol
        obtain ⟨k1, k2⟩ := key (state / 65536)
        rw [k1, hget _ (Nat.mod_lt _ hf)]
        simp only [k2, keyr]
        rw [if_pos (by omega)]
        simp
        omega
    · rw [if_neg hc]
      refine ⟨_, _, rfl, ?_, ?_⟩
      · have h1 : 64 ≤ state / freq := by
          rw [Nat.le_div_iff_mul_le hf]; omega
        have h2 : state / freq < 2 ^ 22 := by
          rw [Nat.div_lt_iff_lt_mul hf]
          have : state / 2 ^ 22 < freq := by omega
          rw [Nat.div_lt_iff_lt_mul (by omega)] at this
          omega
        have h3 := Nat.mod_lt state hf
        constructor <;> omega
      · intro ws
        unfold readSymbol
        obtain ⟨k1, k2⟩ := key state
        rw [k1, hget _ (Nat.mod_lt _ hf)]
        simp only [k2, keyr]
        rw [if_neg (by omega)]
        simp
  · cases hmap

/-- `ReadSymbol` never overflows 32 bits and keeps the state at least `2^16`-scaled: from any state
below `2^32` the new state is below `2^32`. -/
theorem readSymbol_lt {counts : List Nat} {map : List SymInfo} {state s st' : Nat} {ws ws' : List Nat}
    (hmap : ansMap counts = some map) (hst : state < 2 ^ 32) (hws : ∀ w ∈ ws, w < 65536)
    (h : readSymbol map state ws = some (s, st', ws')) : st' < 2 ^ 32 := by
  unfold ansMap at hmap
  simp only at hmap
  split at hmap
  · rename_i hlen
    simp only [Option.some.injEq] at hmap
    subst hmap
    have hent : ∀ (cs : List Nat) i e, e ∈ ansMapFrom i cs → e.offset < e.freq ∧ e.freq ≤ cs.sum := by
      intro cs
      induction cs with
      | nil => intro i e he; simp [ansMapFrom] at he
      | cons c cs ih =>
        intro i e he
        simp only [ansMapFrom, List.mem_append, List.mem_map, List.mem_range] at he
        rcases he with ⟨j, hj, rfl⟩ | he
        · simp only [List.sum_cons]; omega
        · have := ih _ _ he
          simp only [List.sum_cons]; omega
    rw [ansMapFrom_length] at hlen
    unfold readSymbol at h
    split at h
    · cases h
    · rename_i e he
      have hm := hent counts 0 e (List.mem_of_getElem? he)
      rw [hlen] at hm
      simp only at h
      split at h
      · split at h
        · cases h
        · rename_i w ws0
          simp only [Option.some.injEq, Prod.mk.injEq] at h
          have := hws w (by simp)
          omega
      · simp only [Option.some.injEq, Prod.mk.injEq] at h
        rw [← h.2.1]
        have h1 : state / 1024 ≤ 2 ^ 22 - 1 := by omega
        have h2 : e.freq * (state / 1024) ≤ e.freq * (2 ^ 22 - 1) := Nat.mul_le_mul_left _ h1
        have h3 : e.freq * (2 ^ 22 - 1) + e.freq = e.freq * 2 ^ 22 := by
          rw [← Nat.mul_succ]
        have h4 : e.freq * 2 ^ 22 ≤ 1024 * 2 ^ 22 := Nat.mul_le_mul_right _ hm.2
        omega
  · cases hmap

/-! ## Only the encoder's stream decodes -/

theorem ansMapFrom_inv (cs : List Nat) : ∀ (i k : Nat) (e : SymInfo), (ansMapFrom i cs)[k]? = some e →
    ∃ s, e.symbol = i + s ∧ e.freq = ansFreq cs s ∧ e.offset < e.freq ∧ k = ansStart cs s + e.offset := by
  induction cs with
  | nil => intro i k e h; simp [ansMapFrom] at h
  | cons c cs ih =>
    intro i k e h
    rw [ansMapFrom] at h
    by_cases hk : k < c
    · rw [List.getElem?_append_left (by simpa using hk)] at h
      simp only [List.getElem?_map, List.getElem?_range hk, Option.map_some, Option.some.injEq] at h
      subst h
      exact ⟨0, rfl, rfl, hk, by simp [ansStart]⟩
    · rw [List.getElem?_append_right (by simpa using hk)] at h
      simp only [List.length_map, List.length_range] at h
      obtain ⟨s, h1, h2, h3, h4⟩ := ih (i + 1) (k - c) e h
      refine ⟨s + 1, by omega, by rw [h2]; rfl, h3, ?_⟩
      simp only [ansStart, List.take_succ_cons, List.sum_cons] at h4 ⊢
      omega

/-- What `ReadSymbol` does, from a state of at least 2^16, `PutSymbol` undoes. -/
theorem ans_inverse' {counts : List Nat} {map : List SymInfo} {s state x : Nat} {ws ws' : List Nat} (hmap : ansMap counts = some map) (hx : AnsOk x)
    (hws : ∀ w ∈ ws, w < 65536) (h : readSymbol map x ws = some (s, state, ws')) :
    AnsOk state ∧ 0 < ansFreq counts s ∧ ∃ w, ws = w.toList ++ ws' ∧ putSymbol (ansFreq counts s) (ansStart counts s) state = some (x, w) := by
  have hlt := readSymbol_lt hmap hx.2 hws h
  unfold ansMap at hmap
  simp only at hmap
  split at hmap
  · rename_i hlen
    simp only [Option.some.injEq] at hmap
    subst hmap
    unfold readSymbol at h
    split at h
    · cases h
    rename_i e he
    obtain ⟨s', h1, h2, h3, h4⟩ := ansMapFrom_inv counts 0 _ e he
    have hq : 64 ≤ x / 1024 := by have := hx.1; omega
    have hq2 : x / 1024 < 2 ^ 22 := by have := hx.2; omega
    have hxx : x = x / 1024 * 1024 + x % 1024 := by omega
    rw [Nat.zero_add] at h1
    simp only at h
    rw [← h1] at h2 h4
    rw [h2] at h h3
    have hf : 0 < ansFreq counts e.symbol := by omega
    have hd : (ansFreq counts e.symbol * (x / 1024) + e.offset) / ansFreq counts e.symbol = x / 1024 := by
      rw [Nat.mul_add_div hf, Nat.div_eq_of_lt h3, Nat.add_zero]
    have hm : (ansFreq counts e.symbol * (x / 1024) + e.offset) % ansFreq counts e.symbol = e.offset := by
      rw [Nat.mul_add_mod, Nat.mod_eq_of_lt h3]
    have hge : ansFreq counts e.symbol * 64 ≤ ansFreq counts e.symbol * (x / 1024) := Nat.mul_le_mul_left _ hq
    have hle : ansFreq counts e.symbol * (x / 1024) ≤ ansFreq counts e.symbol * (2 ^ 22 - 1) := Nat.mul_le_mul_left _ (by omega)
    have hle' : ansFreq counts e.symbol * (2 ^ 22 - 1) + ansFreq counts e.symbol = ansFreq counts e.symbol * 2 ^ 22 := by rw [← Nat.mul_succ]
    have hend : x / 1024 * 1024 + e.offset + ansStart counts e.symbol = x := by clear hle hle' hge; omega
    generalize hF : ansFreq counts e.symbol = F at *
    generalize hS : ansFreq counts s = F' at *
    generalize hst : F * (x / 1024) + e.offset = st at *
    split at h
    · rename_i hc
      split at h
      · cases h
      · rename_i w ws0
        simp only [Option.some.injEq, Prod.mk.injEq] at h
        obtain ⟨rfl, rfl, rfl⟩ := h
        have hw := hws w (by simp)
        rw [hF] at hS
        subst hS
        refine ⟨⟨by omega, hlt⟩, hf, some w, rfl, ?_⟩
        have e1 : (st * 65536 + w) / 65536 = st := by omega
        rw [putSymbol, if_neg (by omega), if_pos (by omega)]
        simp only [e1, hd, hm, hend, Option.some.injEq, Prod.mk.injEq, true_and]
        omega
    · rename_i hc
      simp only [Option.some.injEq, Prod.mk.injEq] at h
      obtain ⟨rfl, rfl, rfl⟩ := h
      rw [hF] at hS
      subst hS
      refine ⟨⟨by omega, hlt⟩, hf, none, rfl, ?_⟩
      have e1 : ¬ st / 2 ^ 22 ≥ F := by
        rw [ge_iff_le, Nat.le_div_iff_mul_le (by omega)]; omega
      rw [putSymbol, if_neg (by omega), if_neg e1]
      simp only [hd, hm, hend]
  · cases hmap

end Brunsli
