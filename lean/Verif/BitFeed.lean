import Verif.BitCall
/-!
# A section made of bits in any pieces
-/

namespace Brunsli

open P

variable {α : Type}

/-- The unread bytes are given again with the next piece. -/
inductive FOut (α : Type) where
  | done (a : α) (rest : List Nat)
  | wait
  | bad
  | ub

/-- The calls of the decoder for the pieces of the input, with `rem` bytes of the section left and the unread bytes `pend`. -/
def BP.feedBits (opt : Bool) : BP α → BR → Nat → List Nat → List (List Nat) → FOut α
  | _, _, _, _, [] => .wait
  | p, r, rem, pend, w :: ws =>
    match p.call opt r rem (pend ++ w) with
    | .done a n => .done a ((pend ++ w).drop n ++ ws.flatten)
    | .wait p r n => feedBits opt p r (rem - n) ((pend ++ w).drop n) ws
    | .bad => .bad
    | .ub => .ub

/-- The reader between two calls: less than a byte is held. -/
structure BR.Idle (hist : List Nat) (r : BR) (pos : Nat) : Prop where
  cons : 8 * hist.length = pos + r.numBits
  small : r.numBits < 8
  debt : r.debt = 0
  healthy : r.healthy = true
  bits : r.bits = leVal hist / 2 ^ pos % 2 ^ r.numBits

theorem BR.init_idle : BR.init.Idle [] 0 := ⟨rfl, by decide, rfl, rfl, by simp [BR.init, leVal]⟩

theorem leVal_prefix {A C : List Nat} {pos n : Nat} (h : Bytes (A ++ C)) (hp : pos + n ≤ 8 * A.length) :
    leVal (A ++ C) / 2 ^ pos % 2 ^ n = leVal A / 2 ^ pos % 2 ^ n := by
  have hA : Bytes A := fun x hx => h x (List.mem_append_left _ hx)
  rw [leVal_window h, leVal_window hA, bytesBits_append, List.drop_append_of_le_length (by rw [bytesBits_length]; omega),
    List.take_append_of_le_length (by rw [List.length_drop, bytesBits_length]; omega)]

theorem BR.Idle.resume {hist chunk : List Nat} {r : BR} {pos : Nat} (hb : Bytes (hist ++ chunk)) (h : r.Idle hist pos) :
    BR.At hist chunk { r with next := 0 } pos := by
  obtain ⟨h1, h2, h3, h4, h5⟩ := h
  refine ⟨⟨by simp only [BR.shift]; omega, by simp only [BR.shift, List.length_append]; omega, fun h => absurd h3 h, ?_⟩, by omega, h4⟩
  simp only [BR.shift]
  rw [h5, leVal_prefix hb (by omega)]

/-- What the last byte taken still holds. -/
theorem BR.At.suspend {hist chunk : List Nat} {r : BR} {pos : Nat} (hb : Bytes (hist ++ chunk)) (h : BR.At hist chunk r pos)
    (hn : r.numBits < 8) (hd : r.debt = 0) : r.Idle (hist ++ chunk.take r.next) pos ∧ r.next ≤ chunk.length := by
  obtain ⟨⟨h1, h2, h3, h4⟩, hs, hh⟩ := h
  simp only [BR.shift, List.length_append] at h1 h2 h4
  have hl : (hist ++ chunk.take r.next).length = hist.length + r.next := by
    rw [List.length_append, List.length_take]; omega
  refine ⟨⟨by rw [hl]; omega, hn, hd, hh, ?_⟩, by omega⟩
  rw [h4]
  have e : hist ++ chunk = (hist ++ chunk.take r.next) ++ chunk.drop r.next := by rw [List.append_assoc, List.take_append_drop]
  rw [e] at hb ⊢
  rw [leVal_prefix hb (by rw [hl]; omega)]

theorem ofBits_eq_zero : ∀ (bs : List Bool), (ofBits bs = 0 ↔ bs.any id = false)
  | [] => by simp [ofBits]
  | b :: bs => by
    have ih := ofBits_eq_zero bs
    simp only [ofBits, List.any_cons, Bool.or_eq_false_iff, id]
    cases b
    · rw [← ih]; simp; omega
    · simp

/-- `BrunsliBitReaderFinish` and the last health check. -/
theorem BR.finish_healthy {r : BR} (hn : r.numBits < 8) (hh : r.healthy = true) (hb : r.bits < 2 ^ r.numBits) :
    (r.finish []).isHealthy = true ↔ r.debt = 0 ∧ r.bits = 0 := by
  have hfill : r.fill [] r.numBits = r := by
    unfold BR.fill BR.fetch
    simp only [Nat.lt_irrefl, if_false]
    rw [if_neg (by omega)]
  unfold BR.finish
  rw [if_neg (by omega)]
  by_cases h0 : 0 < r.numBits
  · rw [if_pos h0]
    simp only [BR.read, hfill, Nat.mod_eq_of_lt hb]
    by_cases hz : r.bits = 0
    · rw [if_neg (by simpa using hz)]
      unfold BR.isHealthy BR.unload
      simp [hh, hz]
    · rw [if_pos hz]
      unfold BR.isHealthy BR.unload
      simp [hz]
  · rw [if_neg h0]
    have e : r.numBits = 0 := by omega
    rw [e] at hb
    have hz : r.bits = 0 := by omega
    unfold BR.isHealthy BR.unload
    simp [hh, e, hz]

/-- What is left of the section, and its padding. -/
theorem finishSem_at {hist chunk y : List Nat} {r : BR} {pos : Nat} {a : α} (hb : Bytes (hist ++ chunk)) (h : BR.At hist chunk r pos)
    (hn : r.numBits < 8) (hd : r.debt = 0) :
    finishSem (hist ++ chunk ++ y) (some (a, (bytesBits (hist ++ chunk)).drop pos ++ bytesBits y)) =
      if r.bits = 0 then some (a, (hist ++ chunk ++ y).drop (hist.length + r.next)) else none := by
  obtain ⟨⟨h1, h2, h3, h4⟩, hs, hh⟩ := h
  simp only [BR.shift] at h1 h2 h4
  have hl : ((bytesBits (hist ++ chunk)).drop pos ++ bytesBits y).length = 8 * (hist ++ chunk).length - pos + 8 * y.length := by
    rw [List.length_append, List.length_drop, bytesBits_length, bytesBits_length]
  have hr : ((bytesBits (hist ++ chunk)).drop pos ++ bytesBits y).length % 8 = r.numBits := by omega
  have hq : (hist ++ chunk ++ y).length - ((bytesBits (hist ++ chunk)).drop pos ++ bytesBits y).length / 8 = hist.length + r.next := by
    rw [hl, List.length_append (bs := y)]; omega
  have hbits : r.bits = ofBits (((bytesBits (hist ++ chunk)).drop pos ++ bytesBits y).take r.numBits) := by
    rw [h4, leVal_window hb, List.take_append_of_le_length (by rw [List.length_drop, bytesBits_length]; omega)]
  simp only [finishSem]
  rw [hr, hq]
  have hz := ofBits_eq_zero (((bytesBits (hist ++ chunk)).drop pos ++ bytesBits y).take r.numBits)
  rw [← hbits] at hz
  by_cases h0 : r.bits = 0
  · rw [if_pos h0, hz.mp h0]; simp
  · rw [if_neg h0, if_pos]
    simpa using mt hz.mpr h0

/-- What is read from the rest of the section. -/
def BP.semAt (opt : Bool) (p : BP α) (pos : Nat) (full : List Nat) : Option (α × List Nat) :=
  finishSem full (p.run opt ((bytesBits full).drop pos))

/-- What a call gives, against what the section says. -/
def BP.Right (post within : α → Prop) (opt : Bool) (p : BP α) (hist : List Nat) (pos rem : Nat) (w : List Nat) : COut α → Prop
  | .done a n => n ≤ (w.take rem).length ∧ ∀ y, (rem ≤ w.length → y = []) →
      p.semAt opt pos (hist ++ w.take rem ++ y) = some (a, (hist ++ w.take rem ++ y).drop (hist.length + n))
  | .bad => ∀ y, (rem ≤ w.length → y = []) → p.semAt opt pos (hist ++ w.take rem ++ y) = none
  | .wait p' r' n => w.length < rem ∧ n ≤ w.length ∧ ∃ pos', r'.Idle (hist ++ w.take n) pos' ∧ p'.Fit post ∧ p'.Within within 0 ∧
      (opt = true ∨ p'.Narrow post) ∧ ∀ y, p.semAt opt pos (hist ++ w ++ y) = p'.semAt opt pos' (hist ++ w ++ y)
  | .ub => False

theorem BP.call_right {post within : α → Prop} {opt : Bool} {p : BP α} {hist w : List Nat} {r : BR} {pos rem : Nat} (hb : Bytes (hist ++ w))
    (hi : r.Idle hist pos) (hf : p.Fit post) (hw : p.Within within 0) (ho : opt = true ∨ p.Narrow post) :
    BP.Right post within opt p hist pos rem w (p.call opt r rem w) := by
  have hbc : Bytes (hist ++ w.take rem) := fun x hx => by
    rcases List.mem_append.mp hx with h | h
    · exact hb x (List.mem_append_left _ h)
    · exact hb x (List.mem_append_right _ (List.mem_of_mem_take h))
  have ha : BR.At hist (w.take rem) { r with next := 0 } pos := hi.resume hbc
  obtain ⟨u1, u2, u3, u4⟩ := ha.unloadC
  have hpos : pos ≤ 8 * (hist ++ w.take rem).length := by
    have := hi.cons
    rw [List.length_append]; omega
  have hd := u4.mpr hpos
  unfold BP.call
  simp only [u1]
  rw [if_neg (by simp [hd, u2.healthy])]
  generalize hr0 : BR.unload { r with next := 0 } = r0 at *
  have hsplit : ∀ (y : List Nat) (pos' : Nat), pos' ≤ 8 * (hist ++ w.take rem).length → (bytesBits (hist ++ w.take rem ++ y)).drop pos' =
      (bytesBits (hist ++ w.take rem)).drop pos' ++ bytesBits y := fun y pos' h => by
    rw [bytesBits_append, List.drop_append_of_le_length (by rw [bytesBits_length]; exact h)]
  have hbits : ∀ {r : BR} {q : Nat}, BR.At hist (w.take rem) r q → r.bits < 2 ^ r.numBits := fun h => by
    have := h.inv.bits
    simp only [BR.shift] at this
    rw [this]; exact Nat.mod_lt _ (Nat.two_pow_pos _)
  -- the end of the program
  have hdone : ∀ (a : α) (r' : BR) (pos' : Nat), BR.At hist (w.take rem) r' pos' →
      (∀ y, (rem ≤ w.length → y = []) → p.run opt ((bytesBits (hist ++ w.take rem)).drop pos ++ bytesBits y) =
        if pos' ≤ 8 * (hist ++ w.take rem).length then some (a, (bytesBits (hist ++ w.take rem)).drop pos' ++ bytesBits y) else none) →
      BP.Right post within opt p hist pos rem w (match r'.unloadC with
        | none => .ub
        | some r => if (r.finish []).isHealthy = true then .done a ((w.take rem).length - ((w.take rem).length - r.next)) else .bad) := by
    intro a r' pos' ha' hrun
    obtain ⟨v1, v2, v3, v4⟩ := ha'.unloadC
    rw [v1]
    simp only
    have hfin := BR.finish_healthy v3 v2.healthy (hbits v2)
    by_cases hz : (r'.unload.finish []).isHealthy = true
    · rw [if_pos hz]
      obtain ⟨hz1, hz2⟩ := hfin.mp hz
      obtain ⟨w1, w2⟩ := v2.suspend hbc v3 hz1
      refine ⟨by omega, fun y hy => ?_⟩
      rw [BP.semAt, hsplit y pos hpos, hrun y hy, if_pos (v4.mp hz1), finishSem_at hbc v2 v3 hz1, if_pos hz2,
        show (w.take rem).length - ((w.take rem).length - r'.unload.next) = r'.unload.next by omega]
    · rw [if_neg hz]
      intro y hy
      rw [BP.semAt, hsplit y pos hpos, hrun y hy]
      by_cases hp' : pos' ≤ 8 * (hist ++ w.take rem).length
      · have hz1 := v4.mpr hp'
        rw [if_pos hp', finishSem_at hbc v2 v3 hz1, if_neg (fun h => hz (hfin.mpr ⟨hz1, h⟩))]
      · rw [if_neg hp']; rfl
  have hbad : ∀ (r' : BR), (∃ q, BR.At hist (w.take rem) r' q) → (∀ y, (rem ≤ w.length → y = []) →
      p.run opt ((bytesBits (hist ++ w.take rem)).drop pos ++ bytesBits y) = none) →
      BP.Right post within opt p hist pos rem w (match r'.unloadC with
        | none => .ub
        | some _ => .bad) := by
    intro r' hq hrun
    obtain ⟨q, hq⟩ := hq
    rw [hq.unloadC.1]
    intro y hy
    rw [BP.semAt, hsplit y pos hpos, hrun y hy]
    rfl
  by_cases hopt : (opt && decide (rem ≤ w.length)) = true
  · rw [hopt]
    simp only [Bool.and_eq_true, decide_eq_true_eq] at hopt
    obtain ⟨ho1, hlast⟩ := hopt
    subst ho1
    have := BP.mexec_opt hbc p r0 pos u2 hf
    cases hm : p.mexec true (w.take rem) r0 with
    | ub => rw [hm] at this; exact this
    | wait p' r' => rw [hm] at this; exact this.elim
    | bad r' =>
      rw [hm] at this
      refine hbad r' this.1 fun y hy => ?_
      rw [hy hlast, show bytesBits ([] : List Nat) = [] from rfl, List.append_nil]
      exact this.2 hpos
    | done a r' =>
      rw [hm] at this
      obtain ⟨pos', _, g1, g2⟩ := this
      refine hdone a r' pos' g1 fun y hy => ?_
      rw [hy hlast, show bytesBits ([] : List Nat) = [] from rfl, List.append_nil, List.append_nil]
      exact g2 hpos
  · have hopt' : (opt && decide (rem ≤ w.length)) = false := by simpa using hopt
    rw [hopt']
    have := BP.mexec_tests opt hbc p r0 pos 0 u2 hf hw (by omega)
    cases hm : p.mexec false (w.take rem) r0 with
    | ub => rw [hm] at this; exact this
    | bad r' =>
      rw [hm] at this
      exact hbad r' this.1 fun y _ => this.2 _
    | done a r' =>
      rw [hm] at this
      obtain ⟨pos', g0, g1, g2⟩ := this
      refine hdone a r' pos' g1 fun y _ => ?_
      rw [if_pos g0]; exact g2 _
    | wait p' r' =>
      rw [hm] at this
      obtain ⟨pos', g0, g1, g2, g3, g4, g5⟩ := this
      obtain ⟨v1, v2, v3, v4⟩ := g1.unloadC
      simp only [v1]
      have hz1 := v4.mpr g0
      obtain ⟨w1, w2⟩ := v2.suspend hbc v3 hz1
      have hlen : (w.take rem).length = min rem w.length := List.length_take
      rw [show (w.take rem).length - ((w.take rem).length - r'.unload.next) = r'.unload.next by omega]
      by_cases hlast : rem - r'.unload.next ≤ w.length - r'.unload.next
      · rw [if_pos hlast]
        have hl : rem ≤ w.length := by omega
        have hpl : p.Narrow post := by
          rcases ho with h | h
          · rw [h] at hopt'; simp at hopt'; omega
          · exact h
        have hof : opt = false := by
          cases opt with
          | false => rfl
          | true => simp at hopt'; omega
        subst hof
        intro y hy
        rw [BP.semAt, hsplit y pos hpos, g4, hy hl, show bytesBits ([] : List Nat) = [] from rfl, List.append_nil, List.append_nil, (g5 hpl hd).2]
        rfl
      · rw [if_neg hlast, if_neg (by simp [hz1, v2.healthy])]
        have hl : w.length < rem := by omega
        have htake : w.take rem = w := List.take_of_length_le (by omega)
        rw [htake] at w1 w2 hsplit g0 hpos
        refine ⟨hl, w2, pos', w1, g2, g3, ho.imp id fun h => (g5 h hd).1, fun y => ?_⟩
        rw [BP.semAt, BP.semAt, hsplit y pos hpos, hsplit y pos' g0]
        have := g4 (bytesBits y)
        rw [htake] at this
        rw [this]

/-- **The pieces do not matter.** -/
theorem BP.feedBits_right {post within : α → Prop} {opt : Bool} (extra : List Nat) : ∀ (ws : List (List Nat)) {p : BP α} {hist pend payload : List Nat} {r : BR}
    {pos rem : Nat}, ws ≠ [] → pend ++ ws.flatten = payload ++ extra → payload.length = rem → Bytes (hist ++ pend ++ ws.flatten) → r.Idle hist pos → p.Fit post →
    p.Within within 0 → (opt = true ∨ p.Narrow post) →
    p.feedBits opt r rem pend ws = match p.semAt opt pos (hist ++ payload) with
      | some (a, rest) => .done a (rest ++ extra)
      | none => .bad
  | [], _, _, _, _, _, _, _, h, _, _, _, _, _, _, _ => absurd rfl h
  | w :: ws, p, hist, pend, payload, r, pos, rem, _, he, hl, hb, hi, hf, hw, ho => by
    have hb1 : Bytes (hist ++ (pend ++ w)) := fun x hx => hb x (by
      simp only [List.flatten_cons, List.mem_append] at hx ⊢; tauto)
    have he' : (pend ++ w) ++ ws.flatten = payload ++ extra := by
      rw [List.append_assoc]; exact he
    have := BP.call_right (rem := rem) hb1 hi hf hw ho
    rw [BP.feedBits]
    generalize hv : pend ++ w = v at *
    -- what is still to come of the section
    obtain ⟨y, hy1, hy2⟩ : ∃ y, (rem ≤ v.length → y = []) ∧ v.take rem ++ y = payload := by
      refine ⟨ws.flatten.take (rem - v.length), fun h => by rw [Nat.sub_eq_zero_of_le h, List.take_zero], ?_⟩
      rw [← List.take_append, he', List.take_append_of_le_length (by omega), List.take_of_length_le (by omega)]
    cases hc : p.call opt r rem v with
    | ub => rw [hc] at this; exact this.elim
    | bad =>
      rw [hc] at this
      have := this y hy1
      rw [List.append_assoc, hy2] at this
      simp only [this]
    | done a n =>
      rw [hc] at this
      obtain ⟨hn, this⟩ := this
      have := this y hy1
      rw [List.append_assoc, hy2] at this
      simp only [this]
      rw [← List.drop_drop, List.drop_left]
      have e1 : n ≤ v.length := by rw [List.length_take] at hn; omega
      have e2 : n ≤ payload.length := by rw [List.length_take] at hn; omega
      rw [← List.drop_append_of_le_length e1, he', List.drop_append_of_le_length e2]
    | wait p' r' n =>
      rw [hc] at this
      obtain ⟨hlt, hn, pos', g1, g2, g3, g4, g5⟩ := this
      have htake : v.take rem = v := List.take_of_length_le (by omega)
      rw [htake] at hy2
      have g5 := g5 y
      rw [List.append_assoc, hy2] at g5
      simp only
      have hne : ws ≠ [] := by
        intro h
        rw [h, List.flatten_nil, List.append_nil] at he'
        have := congrArg List.length he'
        rw [List.length_append] at this
        omega
      have hpay : payload.drop n = v.drop n ++ y := by rw [← hy2, List.drop_append_of_le_length hn]
      have hpay2 : payload.take n = v.take n := by rw [← hy2, List.take_append_of_le_length hn]
      have := BP.feedBits_right (post := post) (within := within) (opt := opt) extra ws (p := p') (hist := hist ++ v.take n) (pend := v.drop n) (payload := payload.drop n) (r := r')
        (pos := pos') (rem := rem - n) hne ?_ ?_ ?_ g1 g2 g3 g4
      · rw [this, g5]
        have e : hist ++ v.take n ++ payload.drop n = hist ++ payload := by
          rw [← hpay2, List.append_assoc, List.take_append_drop]
        rw [e]
      · rw [← List.drop_append_of_le_length hn, he', List.drop_append_of_le_length (by omega)]
      · rw [List.length_drop]; omega
      · intro x hx
        refine hb x ?_
        rw [List.append_assoc hist, List.take_append_drop] at hx
        rw [List.flatten_cons, List.append_assoc, ← List.append_assoc pend, hv, ← List.append_assoc]
        exact hx

/-- Nothing undefined happens, however far the section has arrived. -/
theorem BP.feedBits_defined {post within : α → Prop} {opt : Bool} : ∀ (ws : List (List Nat)) {p : BP α} {hist pend : List Nat} {r : BR}
    {pos rem : Nat}, Bytes (hist ++ pend ++ ws.flatten) → r.Idle hist pos → p.Fit post →
    p.Within within 0 → (opt = true ∨ p.Narrow post) → p.feedBits opt r rem pend ws ≠ .ub
  | [], _, _, _, _, _, _, _, _, _, _, _ => fun h => by cases h
  | w :: ws, p, hist, pend, r, pos, rem, hb, hi, hf, hw, ho => by
    have hb1 : Bytes (hist ++ (pend ++ w)) := fun x hx => hb x (by
      simp only [List.flatten_cons, List.mem_append] at hx ⊢; tauto)
    have := BP.call_right (rem := rem) hb1 hi hf hw ho
    rw [BP.feedBits]
    cases hc : p.call opt r rem (pend ++ w) with
    | ub => rw [hc] at this; exact this.elim
    | bad => simp
    | done a n => simp
    | wait p' r' n =>
      rw [hc] at this
      obtain ⟨hlt, hn, pos', g1, g2, g3, g4, g5⟩ := this
      simp only
      refine BP.feedBits_defined ws (hist := hist ++ (pend ++ w).take n) ?_ g1 g2 g3 g4
      intro x hx
      refine hb x ?_
      rw [List.append_assoc hist, List.take_append_drop] at hx
      simp only [List.flatten_cons, List.mem_append] at hx ⊢
      tauto

end Brunsli
