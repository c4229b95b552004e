import Verif.CodeBuf
/-!
# The number of code words of an image

A bit to which an adaptive probability gives the probability 0 may cost 32 bits of the arithmetic coder's interval.  It takes so many other bits until a probability becomes 0 that they pay for it.
-/

namespace Brunsli

/-! ## One probability -/

/-- The invariant: `count` is not below `total`; the two are equal when the probability is 0. -/
def Prob.Sound (p : Prob) : Prop := p.Ok ∧ p.total ≤ p.count ∧ (p.prob8 = 0 → p.count = p.total)

instance (p : Prob) : Decidable p.Sound := inferInstanceAs (Decidable (_ ∧ _))

/-- What earlier bits have put aside. -/
def Prob.credit (p : Prob) : Nat := if p.count = p.total then 22 else if p.count = p.total + 1 then (if 149 ≤ p.total then 22 else p.total - 127) else 0

theorem recip_bound : ∀ t < 255, 3 ≤ t → 2 ^ 17 ≤ (t + 1) * (2 ^ 17 / t) := by decide +kernel

theorem Prob.add_credit {p p' : Prob} (h : p.Sound) {b : Bool} (he : p.add b = some p') : p'.Sound ∧ (Op.bit p.prob8 b).weight + p'.credit ≤ p.credit + 10 := by
  obtain ⟨hok, hle, hz⟩ := h
  obtain ⟨p2, e2, ok2, -, -⟩ := Prob.add_ok hok b
  rw [he] at e2
  cases e2
  obtain ⟨h1, h2, h3, h4⟩ := hok
  generalize hi : (if b = true then 1 else 256) = i at *
  have hi' : i = 1 ∨ i = 256 := by subst hi; cases b <;> simp
  have ht : (p.total + 1) % 2 ^ 8 = p.total + 1 := Nat.mod_eq_of_lt (by omega)
  have hc : (p.count + i) % 2 ^ 16 = p.count + i := Nat.mod_eq_of_lt (by omega)
  obtain ⟨f1, -, -⟩ := fastDivide_spec (num := p.count + i) (den := p.total + 1) (by omega) (by omega) (by omega)
  have hzero : (p.count + i) * (2 ^ 17 / (p.total + 1)) / 2 ^ 17 = 0 → p.count + i ≤ p.total + 1 := by
    intro h0
    rcases Nat.lt_or_ge (p.total + 1) (p.count + i) with hlt | hge
    · have k1 := recip_bound (p.total + 1) (by omega) (by omega)
      have k2 : (p.total + 1 + 1) * (2 ^ 17 / (p.total + 1)) ≤ (p.count + i) * (2 ^ 17 / (p.total + 1)) := Nat.mul_le_mul_right _ hlt
      rcases Nat.div_eq_zero_iff.mp h0 with h | h
      · omega
      · exact absurd (Nat.le_trans k1 k2) (by omega)
    · exact hge
  unfold Prob.add at he
  simp only [hi, ht, hc, f1] at he
  generalize (p.count + i) * (2 ^ 17 / (p.total + 1)) / 2 ^ 17 = v at *
  have hw : (Op.bit p.prob8 b).weight = if p.prob8 = 0 ∧ b = false then 32 else 9 := rfl
  rw [hw]
  have hw2 : (if p.prob8 = 0 ∧ b = false then 32 else 9) = 9 ∨ (b = false ∧ p.prob8 = 0 ∧ (if p.prob8 = 0 ∧ b = false then 32 else 9) = 32) := by
    by_cases hc : p.prob8 = 0 ∧ b = false
    · exact .inr ⟨hc.2, hc.1, if_pos hc⟩
    · exact .inl (if_neg hc)
  have hb : b = true ∧ i = 1 ∨ b = false ∧ i = 256 := by cases b <;> simp at hi <;> simp [hi]
  generalize (if p.prob8 = 0 ∧ b = false then 32 else 9) = w at *
  by_cases h254 : p.total + 1 = 254
  · rw [if_pos h254] at he
    cases he
    unfold Prob.Sound Prob.credit
    dsimp only at ok2 ⊢
    refine ⟨⟨ok2, by omega, fun h0 => ?_⟩, ?_⟩
    · have := hzero h0
      omega
    · rcases hb with ⟨rfl, rfl⟩ | ⟨rfl, rfl⟩
      · simp only [Bool.true_eq_false, false_and, or_false] at hw2
        subst hw2
        split <;> split <;> (try split) <;> (try split) <;> (try split) <;> omega
      · rw [if_neg (by omega), if_neg (by omega)]
        rcases hw2 with rfl | ⟨-, h0, rfl⟩
        · omega
        · rw [if_pos (hz h0)]
  · rw [if_neg h254] at he
    cases he
    unfold Prob.Sound Prob.credit
    dsimp only at ok2 ⊢
    refine ⟨⟨ok2, by omega, fun h0 => ?_⟩, ?_⟩
    · have := hzero h0
      omega
    · rcases hb with ⟨rfl, rfl⟩ | ⟨rfl, rfl⟩
      · simp only [Bool.true_eq_false, false_and, or_false] at hw2
        subst hw2
        by_cases k1 : p.count = p.total
        · rw [if_pos (by omega), if_pos k1]
          omega
        · rw [if_neg (by omega), if_neg k1]
          by_cases k2 : p.count = p.total + 1
          · rw [if_pos (by omega), if_pos k2]
            split <;> split <;> omega
          · rw [if_neg (by omega)]
            omega
      · rw [if_neg (by omega), if_neg (by omega)]
        rcases hw2 with rfl | ⟨-, h0, rfl⟩
        · omega
        · rw [if_pos (hz h0)]

/-! ## Actions -/

/-- The action ends in a state with `Q`; its calls weigh at most `k` together with the credit `φ` of this state. -/
def E.Paid {α : Type} (Q : α → Prop) (φ : α → Nat) (k : Nat) (e : E α) : Prop :=
  ∀ a ops, e = some (a, ops) → Q a ∧ (∀ op ∈ ops, op.Small) ∧ weight ops + φ a ≤ k

namespace E.Paid
variable {α β : Type} {Q : α → Prop} {φ : α → Nat} {R : β → Prop} {ψ : β → Nat}

theorem pure {k : Nat} {a : α} (hq : Q a) (hk : φ a ≤ k) : E.Paid Q φ k (Pure.pure a : E α) := by
  intro b ops h
  cases h
  exact ⟨hq, by simp, by rw [show weight [] = 0 from rfl]; omega⟩

theorem mono {k l : Nat} {e : E α} (h : E.Paid Q φ k e) (hk : k ≤ l) : E.Paid Q φ l e := fun a ops he => by
  obtain ⟨h1, h2, h3⟩ := h a ops he
  exact ⟨h1, h2, Nat.le_trans h3 hk⟩

theorem frame {k : Nat} {e : E α} (c : Nat) (h : E.Paid Q φ k e) : E.Paid Q (fun a => φ a + c) (k + c) e := fun a ops he => by
  obtain ⟨h1, h2, h3⟩ := h a ops he
  exact ⟨h1, h2, by show _ + (φ a + c) ≤ _; omega⟩

theorem bind {k l : Nat} {e : E α} {f : α → E β} (h : E.Paid Q φ k e) (hf : ∀ a, Q a → E.Paid R ψ (φ a + l) (f a)) : E.Paid R ψ (k + l) (e >>= f) := by
  intro b ops hb
  change E.bind e f = _ at hb
  unfold E.bind at hb
  cases he : e with
  | none => rw [he] at hb; cases hb
  | some p =>
    obtain ⟨a, o1⟩ := p
    rw [he] at hb
    simp only at hb
    cases hfa : f a with
    | none => rw [hfa] at hb; cases hb
    | some q =>
      obtain ⟨b', o2⟩ := q
      rw [hfa] at hb
      obtain ⟨h1, h2, h3⟩ := h a o1 he
      obtain ⟨k1, k2, k3⟩ := hf a h1 b' o2 hfa
      cases hb
      refine ⟨k1, fun op hop => ?_, by rw [weight_append]; omega⟩
      rcases List.mem_append.mp hop with h | h
      · exact h2 op h
      · exact k2 op h

theorem liftBind {γ : Type} {k : Nat} {o : Option γ} {f : γ → E β} (hf : ∀ a, o = some a → E.Paid R ψ k (f a)) : E.Paid R ψ k (E.lift o >>= f) := by
  cases o with
  | none => intro b ops h; cases h
  | some a =>
    intro b ops h
    change E.bind (some (a, [])) f = _ at h
    unfold E.bind at h
    dsimp only at h
    cases hfa : f a with
    | none => rw [hfa] at h; cases h
    | some q =>
      rw [hfa] at h
      cases h
      exact hf a rfl _ _ hfa

theorem lift {k : Nat} {o : Option α} (ho : ∀ a, o = some a → Q a ∧ φ a ≤ k) : E.Paid Q φ k (E.lift o) := by
  intro b ops h
  cases o with
  | none => cases h
  | some a =>
    cases h
    obtain ⟨h1, h2⟩ := ho _ rfl
    exact ⟨h1, by simp, by rw [show weight [] = 0 from rfl]; omega⟩

theorem ite {k : Nat} {c : Prop} [Decidable c] {e f : E α} (h : c → E.Paid Q φ k e) (h' : ¬ c → E.Paid Q φ k f) : E.Paid Q φ k (if c then e else f) := by
  by_cases hc : c
  · rw [if_pos hc]; exact h hc
  · rw [if_neg hc]; exact h' hc

theorem loop {ι : Type} {k : Nat} {f : α → ι → E α} (h : ∀ a i, Q a → E.Paid Q φ (φ a + k) (f a i)) : ∀ (l : List ι) (a : α), Q a →
    E.Paid Q φ (φ a + k * l.length) (E.loop f a l)
  | [], a, hq => pure hq (by simp)
  | i :: l, a, hq => by
    rw [E.loop]
    refine ((h a i hq).bind (l := k * l.length) fun b hb => loop h l b hb).mono ?_
    rw [List.length_cons, Nat.mul_add]
    omega

end E.Paid

/-! ## Lists of probabilities -/

/-- All of them are sound. -/
def Bank (l : List Prob) : Prop := ∀ p ∈ l, p.Sound

def credits (l : List Prob) : Nat := (l.map Prob.credit).sum

theorem sum_map_set {α : Type} (f : α → Nat) : ∀ {l : List α} {i : Nat} {a : α} (b : α), l[i]? = some a → ((l.set i b).map f).sum + f a = (l.map f).sum + f b
  | [], _, _, _, h => by simp at h
  | x :: l, 0, a, b, h => by
    simp only [List.getElem?_cons_zero, Option.some.injEq] at h
    subst h
    simp only [List.set_cons_zero, List.map_cons, List.sum_cons]
    omega
  | x :: l, i + 1, a, b, h => by
    simp only [List.getElem?_cons_succ] at h
    have := sum_map_set f b h
    simp only [List.set_cons_succ, List.map_cons, List.sum_cons]
    omega

theorem bitAt_paid {l : List Prob} (h : Bank l) (i : Nat) (b : Bool) : (E.bitAt l i b).Paid Bank credits (credits l + 10) := by
  intro l' ops he
  unfold E.bitAt at he
  split at he
  · cases he
  · rename_i p hp
    split at he
    · cases he
    · rename_i p' hp'
      cases he
      have hm := List.mem_of_getElem? hp
      obtain ⟨h1, h2⟩ := Prob.add_credit (h p hm) hp'
      refine ⟨fun q hq => ?_, ?_, ?_⟩
      · rcases List.mem_or_eq_of_mem_set hq with h3 | rfl
        · exact h q h3
        · exact h1
      · intro op hop
        rw [List.mem_singleton] at hop
        subst hop
        exact (h p hm).1.1
      · have := sum_map_set Prob.credit p' hp
        unfold credits
        rw [show weight [Op.bit p.prob8 b] = (Op.bit p.prob8 b).weight from by simp [weight]]
        omega

theorem code_paid (n ctx sym : Nat) : (E.code n ctx sym).Paid (fun _ => True) (fun _ => 0) 16 := by
  intro a ops h
  by_cases hc : ctx < n ∧ sym < 18
  · rw [show E.code n ctx sym = some ((), [.code ctx sym]) from if_pos hc] at h
    cases h
    exact ⟨trivial, by simp [Op.Small], by simp [weight, Op.weight]⟩
  · rw [show E.code n ctx sym = none from if_neg hc] at h
    cases h

theorem bits_paid (n v : Nat) : (E.bits n v).Paid (fun _ => True) (fun _ => 0) 16 := by
  intro a ops h
  cases h
  exact ⟨trivial, by simp [Op.Small], by simp [weight, Op.weight]⟩

theorem encAbs_paid (n ctx : Nat) {extra : List Prob} (h : Bank extra) (base absval : Nat) : (encAbs n ctx extra base absval).Paid Bank credits (credits extra + 42) := by
  unfold encAbs
  refine E.Paid.ite (fun _ => ?_) fun _ => ?_
  · exact ((code_paid _ _ _).bind (l := credits extra) fun _ _ => E.Paid.pure h (by omega)).mono (by omega)
  · refine ((code_paid _ _ _).bind (l := credits extra + 26) fun _ _ => ?_).mono (by omega)
    refine ((bitAt_paid h _ _).bind (l := 16) fun x hx => ?_).mono (by omega)
    refine E.Paid.ite (fun _ => ?_) fun _ => E.Paid.pure hx (by omega)
    exact ((bits_paid _ _).bind (l := credits x) fun _ _ => E.Paid.pure hx (by omega)).mono (by omega)

theorem encNnz_paid (base v : Nat) : ∀ (b ctx : Nat) {l : List Prob}, Bank l → (encNnz base v b ctx l).Paid Bank credits (credits l + 10 * b)
  | 0, _, _, h => E.Paid.pure h (by omega)
  | b + 1, ctx, l, h => by
    rw [encNnz]
    exact ((bitAt_paid h _ _).bind (l := 10 * b) fun x hx => encNnz_paid base v b _ hx).mono (by omega)

/-! ## Blocks -/

/-- All probabilities of a component are sound. -/
structure AcState.Bank (s : AcState) : Prop where
  isZero : Brunsli.Bank s.isZero
  sign : Brunsli.Bank s.sign
  nnzProb : Brunsli.Bank s.nnzProb
  extra : Brunsli.Bank s.extra

def AcState.credit (s : AcState) : Nat := credits s.isZero + credits s.sign + credits s.nnzProb + credits s.extra

theorem encAcNonzero_paid (v : AcEnv) (pr pc : Nat → Option Int) (k : Nat) (coeff : Int) {s : AcEncBlk} (h : s.st.Bank) :
    (encAcNonzero v pr pc k coeff s).Paid (fun s => s.st.Bank) (fun s => s.st.credit) (s.st.credit + 52) := by
  unfold encAcNonzero
  refine E.Paid.liftBind fun _ _ => E.Paid.liftBind fun _ _ => ?_
  refine (((bitAt_paid h.sign _ _).frame (credits s.st.isZero + credits s.st.nnzProb + credits s.st.extra)).bind (l := 42) fun sign hs => ?_).mono (by unfold AcState.credit; omega)
  refine E.Paid.liftBind fun _ _ => E.Paid.liftBind fun _ _ => ?_
  refine (((encAbs_paid _ _ h.extra _ _).frame (credits s.st.isZero + credits s.st.nnzProb + credits sign)).bind (l := 0) fun extra he => ?_).mono (by omega)
  refine E.Paid.liftBind fun _ _ => E.Paid.liftBind fun _ _ => E.Paid.pure ⟨h.isZero, hs, h.nnzProb, he⟩ ?_
  unfold AcState.credit
  dsimp only
  omega

theorem encAcCoeff_paid (v : AcEnv) (pr pc : Nat → Option Int) (cs : List Int) (last k : Nat) {s : AcEncBlk} (h : s.st.Bank) :
    (encAcCoeff v pr pc cs last k s).Paid (fun s => s.st.Bank) (fun s => s.st.credit) (s.st.credit + 62) := by
  unfold encAcCoeff
  refine E.Paid.liftBind fun coeff _ => ?_
  have hz : (encIsZero last k s.nnz s.st.isZero (decide (coeff = 0))).Paid Bank credits (credits s.st.isZero + 10) := by
    unfold encIsZero
    exact E.Paid.ite (fun _ => E.Paid.liftBind fun _ _ => bitAt_paid h.isZero _ _) fun _ => E.Paid.pure h.isZero (by omega)
  refine ((hz.frame (credits s.st.sign + credits s.st.nnzProb + credits s.st.extra)).bind (l := 52) fun z hb => ?_).mono (by unfold AcState.credit; omega)
  have hb' : ({ s.st with isZero := z } : AcState).Bank := ⟨hb, h.sign, h.nnzProb, h.extra⟩
  have hc : ({ s.st with isZero := z } : AcState).credit = credits z + (credits s.st.sign + credits s.st.nnzProb + credits s.st.extra) := by
    unfold AcState.credit
    dsimp only
    omega
  refine E.Paid.ite (fun _ => ?_) fun _ => ?_
  · unfold encAcZero
    refine E.Paid.liftBind fun _ _ => E.Paid.liftBind fun _ _ => E.Paid.pure ⟨hb, h.sign, h.nnzProb, h.extra⟩ ?_
    unfold AcState.credit
    dsimp only
    omega
  · exact (encAcNonzero_paid v pr pc k coeff (s := { s with st := { s.st with isZero := z } }) hb').mono (by rw [hc])

theorem encAcCoeffs_paid (v : AcEnv) (pr pc : Nat → Option Int) (cs : List Int) (last : Nat) : ∀ (k : Nat) {s : AcEncBlk}, s.st.Bank →
    (encAcCoeffs v pr pc cs last k s).Paid (fun s => s.st.Bank) (fun s => s.st.credit) (s.st.credit + 62 * k)
  | 0, s, h => E.Paid.pure h (by omega)
  | k + 1, s, h => by
    rw [encAcCoeffs]
    exact ((encAcCoeff_paid v pr pc cs last (k + 1) h).bind (l := 62 * k) fun s hs => encAcCoeffs_paid v pr pc cs last k hs).mono (by omega)

theorem encAcBlock_paid (v : AcEnv) (img : List Int) (empty : Bool) {st : AcState} (h : st.Bank) :
    (encAcBlock v img empty st).Paid AcState.Bank AcState.credit (st.credit + 3966) := by
  unfold encAcBlock
  refine E.Paid.liftBind fun _ _ => E.Paid.liftBind fun cs _ => ?_
  have hn : (if empty = true then (Pure.pure st.nnzProb : E (List Prob)) else encLast (if empty = true then 0 else lastNz cs 63) v.x v.y st).Paid Bank credits
      (credits st.nnzProb + 60) := by
    refine E.Paid.ite (fun _ => E.Paid.pure h.nnzProb (by omega)) fun _ => ?_
    unfold encLast
    exact E.Paid.liftBind fun _ _ => encNnz_paid _ _ 6 _ h.nnzProb
  refine ((hn.frame (credits st.isZero + credits st.sign + credits st.extra)).bind (l := 3906) fun np hnp => ?_).mono (by unfold AcState.credit; omega)
  refine E.Paid.liftBind fun sgn _ => E.Paid.liftBind fun abs _ => ?_
  have hb : ({ st with nnzProb := np, sgn := sgn, abs := abs } : AcState).Bank := ⟨h.isZero, h.sign, hnp, h.extra⟩
  have hl : (if empty = true then 0 else lastNz cs 63) ≤ 63 := by
    split
    · omega
    · exact lastNz_le _ _
  refine ((encAcCoeffs_paid v _ _ cs _ _ (s := ⟨{ st with nnzProb := np, sgn := sgn, abs := abs }, List.replicate 64 0, 0⟩) hb).bind (l := 0) fun s hs => ?_).mono ?_
  · refine E.Paid.liftBind fun _ _ => E.Paid.pure ⟨hs.isZero, hs.sign, hs.nnzProb, hs.extra⟩ ?_
    unfold AcState.credit
    dsimp only
    omega
  · unfold AcState.credit
    dsimp only
    omega

/-- All probabilities of all components are sound. -/
def Banks (s : List AcState) : Prop := ∀ st ∈ s, st.Bank

theorem encAcStep_paid (n : Nat) (modes : List Nat) (ms : List Meta) (prs : List AcParam) (imgs : List (List Int)) (flags : List (List Bool))
    {s : List AcState} (h : Banks s) (p : Nat × Nat × Nat) :
    (encAcStep n modes ms prs imgs flags s p).Paid Banks (fun s => (s.map AcState.credit).sum) ((s.map AcState.credit).sum + 3966) := by
  unfold encAcStep
  refine E.Paid.liftBind fun m _ => E.Paid.liftBind fun pr _ => E.Paid.liftBind fun img _ => E.Paid.liftBind fun fl _ => E.Paid.liftBind fun st hst => E.Paid.liftBind fun e _ => ?_
  have hm := List.mem_of_getElem? hst
  have hle : st.credit ≤ (s.map AcState.credit).sum := List.single_le_sum (by simp) _ (List.mem_map_of_mem hm)
  refine (((encAcBlock_paid ⟨n, modes, m, pr, p.2.1, p.2.2⟩ img e (h st hm)).frame ((s.map AcState.credit).sum - st.credit)).bind (l := 0) fun st' hst' => ?_).mono (by omega)
  refine E.Paid.lift fun s' hs' => ?_
  unfold putAt at hs'
  split at hs'
  · cases hs'
    refine ⟨fun q hq => ?_, ?_⟩
    · rcases List.mem_or_eq_of_mem_set hq with h3 | rfl
      · exact h q h3
      · exact hst'
    · have := sum_map_set AcState.credit st' hst
      omega
  · cases hs'

/-! ## Beginning -/

theorem inits_sound : (∀ i < 704, 1 ≤ isZeroInit i ∧ isZeroInit i < 256) ∧ (∀ i < 1088, 1 ≤ signInit i ∧ signInit i < 256) ∧ (∀ i < 2016, 1 ≤ nnzInit i ∧ nnzInit i < 256) := by
  decide +kernel

theorem Prob.init_sound {p : Nat} (h1 : 1 ≤ p) (h2 : p < 256) : (Prob.init p).Sound := by
  refine ⟨Prob.init_ok h2, ?_, ?_⟩
  · unfold Prob.init
    rw [Nat.mod_eq_of_lt (by omega)]
    dsimp only
    omega
  · intro h0
    have : p = 0 := h0
    omega

theorem initProbs_bank {f : Nat → Nat} {n : Nat} (h : ∀ i < n, 1 ≤ f i ∧ f i < 256) : Bank (initProbs f n) := by
  intro p hp
  unfold initProbs at hp
  obtain ⟨i, hi, rfl⟩ := List.mem_map.mp hp
  obtain ⟨h1, h2⟩ := h i (List.mem_range.mp hi)
  exact Prob.init_sound h1 h2

theorem credits_le (l : List Prob) : credits l ≤ 22 * l.length := by
  unfold credits
  induction l with
  | nil => simp
  | cons p l ih =>
    rw [List.map_cons, List.sum_cons, List.length_cons]
    have : p.credit ≤ 22 := by
      unfold Prob.credit
      split
      · exact Nat.le_refl _
      · split
        · split <;> omega
        · omega
    omega

theorem replicate_bank {p : Prob} (n : Nat) (h : p.Sound) : Bank (List.replicate n p) := fun _ hp => by rw [List.eq_of_mem_replicate hp]; exact h

theorem initProbs_size (f : Nat → Nat) (n : Nat) : (initProbs f n).length = n := by simp [initProbs]

theorem acInit_bank (w : Nat) : (AcState.init w).Bank ∧ (AcState.init w).credit ≤ 97856 := by
  obtain ⟨h1, h2, h3⟩ := inits_sound
  have b1 : Bank (initProbs isZeroInit 704) := initProbs_bank h1
  have b2 : Bank (initProbs signInit 1088) := initProbs_bank h2
  have b3 : Bank (initProbs nnzInit 2016) := initProbs_bank h3
  have b4 : Bank (List.replicate 640 (Prob.init 158)) := replicate_bank 640 (Prob.init_sound (by decide) (by decide))
  have e1 : (AcState.init w).isZero = initProbs isZeroInit 704 := by simp only [AcState.init]
  have e2 : (AcState.init w).sign = initProbs signInit 1088 := by simp only [AcState.init]
  have e3 : (AcState.init w).nnzProb = initProbs nnzInit 2016 := by simp only [AcState.init]
  have e4 : (AcState.init w).extra = List.replicate 640 (Prob.init 158) := by simp only [AcState.init]
  refine ⟨{ isZero := ?_, sign := ?_, nnzProb := ?_, extra := ?_ }, ?_⟩
  · rw [e1]; exact b1
  · rw [e2]; exact b2
  · rw [e3]; exact b3
  · rw [e4]; exact b4
  · have a := credits_le (AcState.init w).isZero
    have b := credits_le (AcState.init w).sign
    have c := credits_le (AcState.init w).nnzProb
    have d := credits_le (AcState.init w).extra
    have la : (AcState.init w).isZero.length = 704 := by rw [e1, initProbs_size]
    have lb : (AcState.init w).sign.length = 1088 := by rw [e2, initProbs_size]
    have lc : (AcState.init w).nnzProb.length = 2016 := by rw [e3, initProbs_size]
    have ld : (AcState.init w).extra.length = 640 := by rw [e4, List.length_replicate]
    unfold AcState.credit
    omega

end Brunsli
