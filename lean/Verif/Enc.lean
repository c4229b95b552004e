import Verif.ProgReads
import Verif.Prob
/-!
# Encoders that write to the multiplexed stream, and how they are matched with decoders
-/

namespace Brunsli

/-- An encoding action: the calls made on the `DataStream`, with a result; `none` is undefined behaviour (an index
out of bounds). -/
def E (α : Type) : Type := Option (α × List Op)

namespace E
variable {α β : Type}

/-- Sequencing. -/
def bind (m : E α) (f : α → E β) : E β :=
  match m with
  | none => none
  | some (a, o) =>
    match f a with
    | none => none
    | some (b, o') => some (b, o ++ o')

instance : Monad E where
  pure a := some (a, [])
  bind := bind

/-- A memory access. -/
def lift (o : Option α) : E α :=
  match o with
  | none => none
  | some a => some (a, [])

/-- `DataStream::AddBit` with the adaptive probability `l[i]` (c/enc/brunsli_encode.cc:673-694). -/
def bitAt (l : List Prob) (i : Nat) (b : Bool) : E (List Prob) :=
  match l[i]? with
  | none => none
  | some p =>
    match p.add b with
    | none => none
    | some p' => some (l.set i p', [.bit p.prob8 b])

/-- `DataStream::AddCode` (c/enc/brunsli_encode.cc:627-639): counting the symbol in a histogram that does not exist
is undefined behaviour.  `n` is the number of histograms (c/enc/brunsli_encode.cc:554-561, c/enc/state.h:44-54). -/
def code (n ctx sym : Nat) : E Unit := if ctx < n ∧ sym < 18 then some ((), [.code ctx sym]) else none

/-- `DataStream::AddBits` (c/enc/brunsli_encode.cc:641-656). -/
def bits (n v : Nat) : E Unit := some ((), [.bits n v])

/-- `EncodeWords` of an action. -/
def ops (m : E α) : Option (List Op) := m.map Prod.snd

end E

namespace Prog
variable {α β : Type}

/-- A memory access. -/
def lift (o : Option α) : Prog α :=
  match o with
  | none => .ub
  | some a => .ret a

/-- `ReadBit` with the adaptive probability `l[i]`, then `Prob::Add` (for instance
c/dec/brunsli_decode.cc:584-586). -/
def bitAt (l : List Prob) (i : Nat) : Prog (Bool × List Prob) :=
  match l[i]? with
  | none => .ub
  | some p => .bit p.prob8 fun b =>
    match p.add b with
    | none => .ub
    | some p' => .ret (b, l.set i p')

/-- `ANSDecoder::ReadSymbol` with the table of a context; `n` is the size of the context map. -/
def codeAt (n ctx : Nat) : Prog Nat := if ctx < n then .code ctx .ret else .ub

end Prog

/-- What the stream can carry: at most 16 bits of value, 8-bit probabilities, symbols of a histogram. -/
def Op.Fits (n : Nat) : Op → Prop
  | .code c s => c < n ∧ s < 18
  | .bits n v => n ≤ 16 ∧ v < 2 ^ n
  | .bit p _ => p < 256

/-- The encoder runs without undefined behaviour, and the decoder, answered with its calls, uses them all; the
results are related by `Q`. -/
def Sim {α β : Type} (n : Nat) (Q : α → β → Prop) (e : E α) (p : Prog β) : Prop :=
  ∃ a ops b, e = some (a, ops) ∧ (∀ op ∈ ops, op.Fits n) ∧ p.Eats ops b ∧ Q a b

namespace Sim
variable {α β γ δ : Type} {n : Nat}

theorem pure {Q : α → β → Prop} {a : α} {b : β} (h : Q a b) : Sim n Q (Pure.pure a : E α) (Pure.pure b : Prog β) :=
  ⟨a, [], b, rfl, by simp, Prog.Eats.pure b, h⟩

theorem mono {Q R : α → β → Prop} {e : E α} {p : Prog β} (h : Sim n Q e p) (hqr : ∀ a b, Q a b → R a b) : Sim n R e p := by
  obtain ⟨a, ops, b, h1, h2, h3, h4⟩ := h
  exact ⟨a, ops, b, h1, h2, h3, hqr a b h4⟩

theorem bind {Q : α → β → Prop} {R : γ → δ → Prop} {e : E α} {p : Prog β} {f : α → E γ} {g : β → Prog δ}
    (h : Sim n Q e p) (hf : ∀ a b, Q a b → Sim n R (f a) (g b)) : Sim n R (e >>= f) (p >>= g) := by
  obtain ⟨a, ops, b, rfl, h2, h3, h4⟩ := h
  obtain ⟨c, ops', d, k1, k2, k3, k4⟩ := hf a b h4
  refine ⟨c, ops ++ ops', d, ?_, ?_, h3.bind k3, k4⟩
  · show E.bind _ _ = _
    simp only [E.bind, k1]
    rfl
  · intro op hop
    rcases List.mem_append.mp hop with h | h
    · exact h2 op h
    · exact k2 op h

theorem lift {o : Option α} {o' : Option β} {Q : α → β → Prop} (h : ∃ a b, o = some a ∧ o' = some b ∧ Q a b) :
    Sim n Q (E.lift o) (Prog.lift o') := by
  obtain ⟨a, b, rfl, rfl, h⟩ := h
  exact ⟨a, [], b, rfl, by simp, Prog.Eats.ret b, h⟩

/-- A memory access of the encoder alone. -/
theorem liftL {o : Option α} {Q : γ → δ → Prop} {f : α → E γ} {p : Prog δ} {a : α} (h : o = some a) (hf : Sim n Q (f a) p) :
    Sim n Q (E.lift o >>= f) p := by
  subst h
  obtain ⟨c, ops', d, k1, k2, k3, k4⟩ := hf
  refine ⟨c, ops', d, ?_, k2, k3, k4⟩
  show E.bind _ _ = _
  simp only [E.bind, E.lift, k1, List.nil_append]
  rfl

/-- A memory access of the decoder alone. -/
theorem liftR {o : Option β} {Q : γ → δ → Prop} {e : E γ} {g : β → Prog δ} {b : β} (h : o = some b) (hg : Sim n Q e (g b)) :
    Sim n Q e (Prog.lift o >>= g) := by
  subst h
  obtain ⟨c, ops', d, k1, k2, k3, k4⟩ := hg
  exact ⟨c, ops', d, k1, k2, k3, k4⟩

end Sim

/-- Arrays of adaptive probabilities: of a given size, all in a state `Prob::Add` can handle. -/
def Probs (n : Nat) (l : List Prob) : Prop := l.length = n ∧ ∀ p ∈ l, p.Ok

theorem Probs.get {n i : Nat} {l : List Prob} (h : Probs n l) (hi : i < n) : ∃ p, l[i]? = some p ∧ p.Ok := by
  refine ⟨l[i]'(by rw [h.1]; exact hi), List.getElem?_eq_getElem _, h.2 _ (List.getElem_mem _)⟩

theorem Probs.set {n : Nat} {l : List Prob} (h : Probs n l) (i : Nat) {p : Prob} (hp : p.Ok) : Probs n (l.set i p) := by
  refine ⟨by rw [List.length_set]; exact h.1, fun q hq => ?_⟩
  rcases List.mem_or_eq_of_mem_set hq with h' | rfl
  · exact h.2 q h'
  · exact hp

theorem Probs.replicate {n : Nat} {p : Prob} (hp : p.Ok) : Probs n (List.replicate n p) :=
  ⟨List.length_replicate, fun q hq => by rw [List.eq_of_mem_replicate hq]; exact hp⟩

theorem Prob.Ok.lt {p : Prob} (h : p.Ok) : p.prob8 < 256 := h.1

theorem Sim.bitAt {N n i : Nat} {l : List Prob} {b : Bool} (h : Probs n l) (hi : i < n) :
    Sim N (fun l' r => r = (b, l') ∧ Probs n l') (E.bitAt l i b) (Prog.bitAt l i) := by
  obtain ⟨p, hp, ho⟩ := h.get hi
  obtain ⟨p', e, o', _⟩ := p.add_ok ho b
  refine ⟨l.set i p', [.bit p.prob8 b], (b, l.set i p'), ?_, ?_, ?_, rfl, h.set i o'⟩
  · simp only [E.bitAt, hp, e]
    rfl
  · intro op hop
    rw [List.mem_singleton] at hop
    rw [hop]; exact ho.lt
  · unfold Prog.bitAt
    rw [hp]
    refine Prog.Eats.bit ?_
    rw [e]
    exact Prog.Eats.ret _

theorem Prog.bitAt_all {n i : Nat} {l : List Prob} (h : Probs n l) (hi : i < n) :
    (Prog.bitAt l i).All (fun r => Probs n r.2) := by
  obtain ⟨p, hp, ho⟩ := h.get hi
  unfold Prog.bitAt
  rw [hp]
  intro b
  obtain ⟨p', e, o', _⟩ := p.add_ok ho b
  simp only [e]
  exact h.set i o'

theorem Sim.code {N Nd ctx sym : Nat} (h : ctx < N) (hd : N ≤ Nd) (hs : sym < 18) :
    Sim N (fun _ s => s = sym) (E.code N ctx sym) (Prog.codeAt Nd ctx) := by
  refine ⟨(), [.code ctx sym], sym, ?_, ?_, ?_, rfl⟩
  · exact if_pos (α := Option (Unit × List Op)) ⟨h, hs⟩
  · intro op hop
    rw [List.mem_singleton] at hop
    rw [hop]; exact ⟨h, hs⟩
  · unfold Prog.codeAt; rw [if_pos (by omega)]; exact Prog.readCode_eats _ _

theorem Prog.codeAt_all {N ctx : Nat} (h : ctx < N) : (Prog.codeAt N ctx).All (fun s => s < 18) := by
  unfold Prog.codeAt; rw [if_pos h]
  intro s hs; exact hs

theorem Sim.bits {N n v : Nat} (hn : n ≤ 16) (hv : v < 2 ^ n) : Sim N (fun _ s => s = v) (E.bits n v) (Prog.readBits n) := by
  refine ⟨(), [.bits n v], v, rfl, ?_, Prog.readBits_eats _ _, rfl⟩
  intro op hop
  rw [List.mem_singleton] at hop
  rw [hop]; exact ⟨hn, hv⟩

theorem Prog.readBits_all {n : Nat} : (Prog.readBits n).All (fun s => s < 2 ^ n) := fun _ hs => hs

theorem Prog.lift_all {α : Type} {o : Option α} {q : α → Prop} (h : ∃ a, o = some a ∧ q a) : (Prog.lift o).All q := by
  obtain ⟨a, rfl, h⟩ := h
  exact h

/-- Writing an array element; `none` is an index out of bounds. -/
def putAt {α : Type} (l : List α) (i : Nat) (v : α) : Option (List α) := if i < l.length then some (l.set i v) else none

/-- Arrays of a given size whose elements satisfy `q`. -/
def Arr {α : Type} (n : Nat) (q : α → Prop) (l : List α) : Prop := l.length = n ∧ ∀ x ∈ l, q x

theorem Arr.get {α : Type} {n i : Nat} {q : α → Prop} {l : List α} (h : Arr n q l) (hi : i < n) : ∃ x, l[i]? = some x ∧ q x :=
  ⟨l[i]'(by rw [h.1]; exact hi), List.getElem?_eq_getElem _, h.2 _ (List.getElem_mem _)⟩

theorem Arr.wr {α : Type} {n i : Nat} {q : α → Prop} {l : List α} {v : α} (h : Arr n q l) (hi : i < n) (hv : q v) :
    ∃ l', Brunsli.putAt l i v = some l' ∧ Arr n q l' := by
  refine ⟨l.set i v, by unfold Brunsli.putAt; rw [if_pos (by rw [h.1]; exact hi)], by rw [List.length_set]; exact h.1, fun x hx => ?_⟩
  rcases List.mem_or_eq_of_mem_set hx with h' | rfl
  · exact h.2 x h'
  · exact hv

theorem Arr.replicate {α : Type} {n : Nat} {q : α → Prop} {v : α} (hv : q v) : Arr n q (List.replicate n v) :=
  ⟨List.length_replicate, fun x hx => by rw [List.eq_of_mem_replicate hx]; exact hv⟩

/-! ## Coding of absolute values, common to DC and AC -/

/-- The `absval` part of `EncodeDC` (c/enc/brunsli_encode.cc:1145-1164) and `EncodeAC` (:1302-1323): `extra` is
`first_extra_bit_prob`, `base` the index of its entry for `nbits = 0`. -/
def encAbs (n ctx : Nat) (extra : List Prob) (base absval : Nat) : E (List Prob) :=
  if absval ≤ 8 then do
    E.code n ctx (absval - 1)
    Pure.pure extra
  else
    let nbits := Nat.log2 (absval - 8 + 1) - 1
    let x := absval - (7 + 2 * 2 ^ nbits)
    do
      E.code n ctx (8 + nbits)
      let extra ← E.bitAt extra (base + nbits) (decide (x / 2 ^ nbits % 2 = 1))
      if 0 < nbits then do
        E.bits nbits (x % 2 ^ nbits)
        Pure.pure extra
      else Pure.pure extra

/-- The extra bits after the first one (c/dec/brunsli_decode.cc:689-693, 846-849). -/
def decExtra (nbits : Nat) : Prog Nat := if 0 < nbits then Prog.readBits nbits else Pure.pure 0

/-- The `abs_val` part of `DecodeDC` (c/dec/brunsli_decode.cc:678-696) and `DecodeAcBlock` (:836-852). -/
def decAbs (n ctx : Nat) (extra : List Prob) (base : Nat) : Prog (Nat × List Prob) := do
  let code ← Prog.codeAt n ctx
  if code < 8 then Pure.pure (code + 1, extra)
  else do
    let r ← Prog.bitAt extra (base + (code - 8))
    let v ← decExtra (code - 8)
    Pure.pure (7 + 2 * 2 ^ (code - 8) + (r.1.toNat * 2 ^ (code - 8) + v), r.2)

theorem absval_split {a : Nat} (h : 8 < a) (h2 : a ≤ 2054) :
    Nat.log2 (a - 8 + 1) - 1 ≤ 9 ∧ 7 + 2 * 2 ^ (Nat.log2 (a - 8 + 1) - 1) ≤ a ∧
    a - (7 + 2 * 2 ^ (Nat.log2 (a - 8 + 1) - 1)) < 2 * 2 ^ (Nat.log2 (a - 8 + 1) - 1) := by
  have hne : a - 8 + 1 ≠ 0 := by omega
  have h1 := Nat.log2_self_le hne
  have h3 := Nat.lt_log2_self (n := a - 8 + 1)
  have h4 : Nat.log2 (a - 8 + 1) < 11 := (Nat.log2_lt hne).mpr (by omega)
  have h5 : 1 ≤ Nat.log2 (a - 8 + 1) := (Nat.le_log2 hne).mpr (by omega)
  obtain ⟨k, hk⟩ : ∃ k, Nat.log2 (a - 8 + 1) = k + 1 := ⟨Nat.log2 (a - 8 + 1) - 1, by omega⟩
  rw [hk] at h1 h3 h4 ⊢
  rw [Nat.pow_succ] at h1
  rw [Nat.pow_succ, Nat.pow_succ] at h3
  simp only [Nat.add_sub_cancel]
  omega

theorem abs_sim {N Nd ctx : Nat} {extra : List Prob} {base size a : Nat} (hc : ctx < N) (hd : N ≤ Nd) (he : Probs size extra) (hb : base + 10 ≤ size)
    (h1 : 1 ≤ a) (h2 : a ≤ 2054) :
    Sim N (fun l r => r = (a, l) ∧ Probs size l) (encAbs N ctx extra base a) (decAbs Nd ctx extra base) := by
  unfold encAbs decAbs
  by_cases h8 : a ≤ 8
  · rw [if_pos h8]
    refine Sim.bind (Sim.code hc hd (by omega)) fun _ s hs => ?_
    subst hs
    rw [if_pos (by omega)]
    exact Sim.pure ⟨by simp; omega, he⟩
  · rw [if_neg h8]
    obtain ⟨k1, k2, k3⟩ := absval_split (by omega) h2
    simp only
    generalize Nat.log2 (a - 8 + 1) - 1 = nb at *
    refine Sim.bind (Sim.code hc hd (by omega)) fun _ s hs => ?_
    subst hs
    rw [if_neg (by omega)]
    simp only [Nat.add_sub_cancel_left]
    refine Sim.bind (Sim.bitAt he (by omega)) fun l r hr => ?_
    obtain ⟨rfl, hl⟩ := hr
    have hp := Nat.two_pow_pos nb
    generalize hx : a - (7 + 2 * 2 ^ nb) = x at *
    have hd : x / 2 ^ nb < 2 := (Nat.div_lt_iff_lt_mul hp).mpr k3
    have hm := Nat.div_add_mod x (2 ^ nb)
    have hxm : (decide (x / 2 ^ nb % 2 = 1)).toNat = x / 2 ^ nb := by
      revert hd
      generalize x / 2 ^ nb = d
      intro hd
      rcases (by omega : d = 0 ∨ d = 1) with h | h <;> rw [h] <;> rfl
    unfold decExtra
    by_cases hnb : 0 < nb
    · rw [if_pos hnb, if_pos hnb]
      refine Sim.bind (Sim.bits (by omega) (Nat.mod_lt _ hp)) fun _ v hv => ?_
      subst hv
      refine Sim.pure ⟨?_, hl⟩
      simp only [hxm, Prod.mk.injEq, and_true]
      rw [Nat.mul_comm (x / 2 ^ nb)]
      omega
    · have : nb = 0 := by omega
      subst this
      rw [if_neg hnb, if_neg hnb]
      refine Sim.pure ⟨?_, hl⟩
      simp only [hxm, Prod.mk.injEq, and_true]
      simp at hm ⊢
      omega

theorem decAbs_all {N ctx : Nat} {extra : List Prob} {base size : Nat} (hc : ctx < N) (he : Probs size extra) (hb : base + 10 ≤ size) :
    (decAbs N ctx extra base).All (fun r => 1 ≤ r.1 ∧ r.1 ≤ 2054 ∧ Probs size r.2) := by
  unfold decAbs
  refine Prog.All.bind (Prog.codeAt_all hc) fun code hcode => ?_
  by_cases h8 : code < 8
  · rw [if_pos h8]; exact Prog.All.pure ⟨by simp, by simp only; omega, he⟩
  · rw [if_neg h8]
    refine Prog.All.bind (Prog.bitAt_all he (by omega)) fun r hr => ?_
    have hx : (decExtra (code - 8)).All (fun v => v < 2 ^ (code - 8)) := by
      unfold decExtra
      split
      · exact Prog.readBits_all
      · exact Prog.All.pure (Nat.two_pow_pos _)
    refine Prog.All.bind hx fun v hv => Prog.All.pure ⟨by simp only; omega, ?_, hr⟩
    simp only
    have hb : r.1.toNat ≤ 1 := by cases r.1 <;> simp
    have hpow : 2 ^ (code - 8) ≤ 2 ^ 9 := Nat.pow_le_pow_right (by decide) (by omega)
    have : r.1.toNat * 2 ^ (code - 8) ≤ 1 * 2 ^ (code - 8) := Nat.mul_le_mul_right _ hb
    omega

end Brunsli
