import Verif.JValid
import Mathlib.Algebra.Order.BigOperators.Group.List
/-!
# How many symbols are entropy coded

The counts of the histograms are of type `int` in the code; there are fewer than `2^31` symbols.
-/

namespace Brunsli

/-- The number of calls of `AddCode`. -/
def codes (ops : List Op) : Nat := ops.countP fun op => match op with
  | .code _ _ => true
  | _ => false

theorem codes_append (a b : List Op) : codes (a ++ b) = codes a + codes b := List.countP_append

/-- The action adds at most `k` symbols. -/
def E.Codes {α : Type} (k : Nat) (e : E α) : Prop := ∀ a ops, e = some (a, ops) → codes ops ≤ k

namespace E.Codes
variable {α β : Type}

theorem pure (a : α) : E.Codes 0 (Pure.pure a : E α) := by
  intro b ops h
  cases h
  exact Nat.le_refl 0

theorem mono {k l : Nat} {e : E α} (h : E.Codes k e) (hk : k ≤ l) : E.Codes l e := fun a ops he => Nat.le_trans (h a ops he) hk

theorem bind {k l : Nat} {e : E α} {f : α → E β} (h : E.Codes k e) (hf : ∀ a, E.Codes l (f a)) : E.Codes (k + l) (e >>= f) := by
  intro b ops hb
  change E.bind e f = _ at hb
  unfold E.bind at hb
  cases he : e with
  | none => rw [he] at hb; cases hb
  | some p =>
    obtain ⟨a, o1⟩ := p
    rw [he] at hb
    simp only at hb
    cases hfa : f a with
    | none => rw [hfa] at hb; cases hb
    | some q =>
      obtain ⟨b', o2⟩ := q
      rw [hfa] at hb
      have h1 := h a o1 he
      have h2 := hf a b' o2 hfa
      cases hb
      rw [codes_append]
      omega

theorem lift (o : Option α) : E.Codes 0 (E.lift o) := by
  intro a ops h
  cases o with
  | none => cases h
  | some b => cases h; exact Nat.le_refl 0

theorem liftBind {l : Nat} {o : Option α} {f : α → E β} (hf : ∀ a, E.Codes l (f a)) : E.Codes l (E.lift o >>= f) := by
  have := bind (lift o) hf
  rwa [Nat.zero_add] at this

theorem bitAt (l : List Prob) (i : Nat) (b : Bool) : E.Codes 0 (E.bitAt l i b) := by
  intro a ops h
  unfold E.bitAt at h
  split at h
  · cases h
  · split at h
    · cases h
    · cases h; exact Nat.le_refl 0

theorem code (n ctx sym : Nat) : E.Codes 1 (E.code n ctx sym) := by
  intro a ops h
  by_cases hc : ctx < n ∧ sym < 18
  · rw [show E.code n ctx sym = some ((), [.code ctx sym]) from if_pos hc] at h
    cases h
    exact Nat.le_refl 1
  · rw [show E.code n ctx sym = none from if_neg hc] at h
    cases h

theorem bits (n v : Nat) : E.Codes 0 (E.bits n v) := by
  intro a ops h
  cases h
  exact Nat.le_refl 0

theorem ite {k : Nat} {c : Prop} [Decidable c] {e f : E α} (h : c → E.Codes k e) (h' : ¬ c → E.Codes k f) : E.Codes k (if c then e else f) := by
  split
  · exact h ‹_›
  · exact h' ‹_›

theorem bitBind {l : Nat} {ps : List Prob} {i : Nat} {b : Bool} {f : List Prob → E β} (hf : ∀ a, E.Codes l (f a)) : E.Codes l (E.bitAt ps i b >>= f) := by
  have := bind (bitAt ps i b) hf
  rwa [Nat.zero_add] at this

theorem loop {ι : Type} {k : Nat} {f : α → ι → E α} (h : ∀ a i, E.Codes k (f a i)) : ∀ (l : List ι) (a : α), E.Codes (k * l.length) (E.loop f a l) := by
  intro l
  induction l with
  | nil => intro a; exact pure a
  | cons i l ih =>
    intro a
    have := bind (h a i) fun a' => ih a'
    refine mono this ?_
    rw [List.length_cons, Nat.mul_succ]
    omega

end E.Codes

theorem encAbs_codes (n ctx : Nat) (extra : List Prob) (base absval : Nat) : (encAbs n ctx extra base absval).Codes 1 := by
  unfold encAbs
  refine E.Codes.ite (fun _ => ?_) (fun _ => ?_)
  · exact (E.Codes.code _ _ _).bind (l := 0) fun _ => E.Codes.pure _
  · refine (E.Codes.code _ _ _).bind (l := 0) fun _ => E.Codes.bitBind fun _ => E.Codes.ite (fun _ => ?_) (fun _ => E.Codes.pure _)
    exact (E.Codes.bits _ _).bind (l := 0) fun _ => E.Codes.pure _

theorem encDcBlock_codes (n c x : Nat) (st : DcState) (err : Int) (empty : Bool) : (encDcBlock n c x st err empty).Codes 1 := by
  unfold encDcBlock
  refine E.Codes.liftBind fun _ => E.Codes.bitBind fun _ => E.Codes.liftBind fun _ => ?_
  refine E.Codes.bind (k := 1) (l := 0) (E.Codes.ite (fun _ => (E.Codes.pure _).mono (by decide)) fun _ => ?_) fun _ => E.Codes.liftBind fun _ => E.Codes.liftBind fun _ => E.Codes.pure _
  unfold encDcValue
  refine E.Codes.bitBind fun _ => E.Codes.ite (fun _ => (E.Codes.pure _).mono (by decide)) fun _ => ?_
  unfold encDcNonzero
  exact E.Codes.liftBind fun _ => E.Codes.liftBind fun _ => E.Codes.bitBind fun _ => (encAbs_codes _ _ _ _ _).bind (l := 0) fun _ => E.Codes.pure _

theorem encodeDC_codes (rows : Nat) (ms : List Meta) (imgs : List (List Int)) : (encodeDC rows ms imgs).Codes (1 * (schedule rows ms).length) := by
  unfold encodeDC
  refine E.Codes.bind (l := 0) (E.Codes.loop (fun s p => ?_) _ _) fun _ => E.Codes.pure _
  unfold encDcStep
  refine E.Codes.liftBind fun _ => E.Codes.liftBind fun _ => E.Codes.liftBind fun _ => E.Codes.liftBind fun _ => E.Codes.liftBind fun _ => ?_
  exact (encDcBlock_codes _ _ _ _ _ _).bind (l := 0) fun _ => E.Codes.liftBind fun _ => E.Codes.lift _

theorem encNnz_codes (base v : Nat) : ∀ (b ctx : Nat) (l : List Prob), (encNnz base v b ctx l).Codes 0 := by
  intro b
  induction b with
  | zero => intro ctx l; exact E.Codes.pure _
  | succ b ih => intro ctx l; rw [encNnz]; exact E.Codes.bitBind fun _ => ih _ _

theorem encAcCoeff_codes (v : AcEnv) (pr pc : Nat → Option Int) (cs : List Int) (last k : Nat) (s : AcEncBlk) : (encAcCoeff v pr pc cs last k s).Codes 1 := by
  unfold encAcCoeff
  refine E.Codes.liftBind fun _ => (E.Codes.bind (k := 0) (l := 1) ?_ fun _ => E.Codes.ite (fun _ => ?_) (fun _ => ?_)).mono (by decide)
  · unfold encIsZero
    exact E.Codes.ite (fun _ => E.Codes.liftBind fun _ => E.Codes.bitAt _ _ _) fun _ => E.Codes.pure _
  · unfold encAcZero
    exact (E.Codes.liftBind fun _ => E.Codes.liftBind fun _ => E.Codes.pure _).mono (Nat.zero_le 1)
  · unfold encAcNonzero
    refine E.Codes.liftBind fun _ => E.Codes.liftBind fun _ => E.Codes.bitBind fun _ => E.Codes.liftBind fun _ => E.Codes.liftBind fun _ => ?_
    exact (encAbs_codes _ _ _ _ _).bind (l := 0) fun _ => E.Codes.liftBind fun _ => E.Codes.liftBind fun _ => E.Codes.pure _

theorem encAcCoeffs_codes (v : AcEnv) (pr pc : Nat → Option Int) (cs : List Int) (last : Nat) : ∀ (k : Nat) (s : AcEncBlk),
    (encAcCoeffs v pr pc cs last k s).Codes k := by
  intro k
  induction k with
  | zero => intro s; exact E.Codes.pure _
  | succ k ih => intro s; rw [encAcCoeffs]; exact ((encAcCoeff_codes _ _ _ _ _ _ _).bind fun _ => ih _).mono (by omega)

theorem encAcBlock_codes (v : AcEnv) (img : List Int) (empty : Bool) (st : AcState) : (encAcBlock v img empty st).Codes 63 := by
  unfold encAcBlock
  refine E.Codes.liftBind fun _ => E.Codes.liftBind fun cs => ?_
  refine (E.Codes.bind (k := 0) (l := 63) (E.Codes.ite (fun _ => E.Codes.pure _) fun _ => ?_) fun _ => ?_).mono (by decide)
  · unfold encLast
    exact E.Codes.liftBind fun _ => encNnz_codes _ _ 6 _ _
  · refine E.Codes.liftBind fun _ => E.Codes.liftBind fun _ => ?_
    refine E.Codes.bind (k := 63) (l := 0) ((encAcCoeffs_codes _ _ _ _ _ _ _).mono ?_) fun _ => E.Codes.liftBind fun _ => E.Codes.pure _
    have := lastNz_le cs 63
    split <;> omega

theorem digitOps_codes (v : Nat) : codes (digitOps v) = 0 := by
  induction v using Nat.strongRecOn with
  | ind v ih =>
    rw [digitOps]
    split
    · exact ih (v - 7) (by omega)
    · rfl

theorem spanOps_codes (l : List Nat) (start n : Nat) : codes (spanOps l start n) = 0 := by
  have h : ∀ l : List Nat, codes (l.flatMap digitOps) = 0 := by
    intro l
    induction l with
    | nil => rfl
    | cons a l ih => rw [List.flatMap_cons, codes_append, digitOps_codes, ih]
  unfold spanOps
  dsimp only
  split
  · rfl
  · exact h _

theorem encOrders_codes : ∀ os : List (List Nat), (encOrders os).Codes 0 := by
  intro os
  induction os with
  | nil => exact E.Codes.pure _
  | cons o os ih =>
    rw [encOrders]
    refine E.Codes.bind (k := 0) (l := 0) ?_ fun _ => ih
    intro a ops he
    unfold E.emit at he
    obtain ⟨l, hl, e⟩ := Option.map_eq_some_iff.mp he
    cases e
    unfold encodeCoeffOrder at hl
    simp only [Bind.bind, Option.bind_eq_some_iff, Option.some.injEq] at hl
    obtain ⟨zz, h1, l, h2, rfl⟩ := hl
    simp only [codes_append, spanOps_codes]
    exact Nat.le_refl 0

theorem encodeAC_codes (n : Nat) (legacy : Bool) (rows : Nat) (ms : List Meta) (orders quants : List (List Nat)) (imgs : List (List Int)) (flags : List (List Bool)) :
    (encodeAC n legacy rows ms orders quants imgs flags).Codes (63 * (schedule rows ms).length) := by
  unfold encodeAC
  refine E.Codes.liftBind fun _ => ((encOrders_codes _).bind (l := 63 * (schedule rows ms).length) fun _ => ?_).mono (by omega)
  refine E.Codes.bind (l := 0) (E.Codes.loop (fun s p => ?_) _ _) fun _ => E.Codes.pure _
  unfold encAcStep
  refine E.Codes.liftBind fun _ => E.Codes.liftBind fun _ => E.Codes.liftBind fun _ => E.Codes.liftBind fun _ => E.Codes.liftBind fun _ => E.Codes.liftBind fun _ => ?_
  exact (encAcBlock_codes _ _ _ _).bind (l := 0) fun _ => E.Codes.lift _

/-! ## Numbers of blocks -/

theorem compPos_length (c : Nat) (m : Meta) (r : Nat) : (compPos c m r).length = m.vs * m.w := by
  unfold compPos
  rw [List.length_flatMap]
  simp [rowPos]

theorem mcuPos_length (r : Nat) (ms : List Meta) : ∀ c, (mcuPos r c ms).length = (ms.map fun m => m.vs * m.w).sum := by
  induction ms with
  | nil => intro c; rfl
  | cons m ms ih => intro c; rw [mcuPos, List.length_append, compPos_length, ih, List.map_cons, List.sum_cons]

theorem schedule_length (rows : Nat) (ms : List Meta) : (schedule rows ms).length = rows * (ms.map fun m => m.vs * m.w).sum := by
  unfold schedule
  rw [List.length_flatMap]
  simp [mcuPos_length]

theorem schedule_le {h : Header} (hh : h.Ok) (schemes : List Nat) : (schedule h.mcuRows (metas h schemes)).length ≤ 2 ^ 23 := by
  have key : ∀ (l : List (Nat × Nat × Nat)) (o : Nat), (∀ p ∈ l, h.mcuRows * (p.2.1 * p.1) ≤ 2 ^ 21) →
      h.mcuRows * ((metasFrom o l).map fun m => m.vs * m.w).sum ≤ l.length * 2 ^ 21 := by
    intro l
    induction l with
    | nil => intro o _; simp [metasFrom]
    | cons p l ih =>
      intro o hl
      obtain ⟨w, vs, bits⟩ := p
      rw [metasFrom, List.map_cons, List.sum_cons, Nat.mul_add, List.length_cons, Nat.succ_mul]
      have h1 := hl _ List.mem_cons_self
      have h2 := ih (o + kNumNonzeroContextSkip.getD bits 0) fun q hq => hl q (List.mem_cons_of_mem _ hq)
      dsimp only at h1 ⊢
      omega
  rw [schedule_length]
  have hn := hh.ncomp.2
  unfold metas
  refine Nat.le_trans (key _ _ ?_) ?_
  · intro p hp
    obtain ⟨⟨c, s⟩, hc, rfl⟩ := List.mem_map.mp hp
    have := hh.blocks (h.mcuCols * c.1, h.mcuRows * c.2) (List.mem_map.mpr ⟨c, (List.of_mem_zip hc).1, rfl⟩)
    dsimp only at this ⊢
    rw [kBrunsliMaxNumBlocks] at this
    rw [Nat.mul_comm c.2, ← Nat.mul_assoc, Nat.mul_comm h.mcuRows, Nat.mul_assoc]
    exact this
  · rw [List.length_map, List.length_zip]
    have : min h.comps.length schemes.length ≤ 4 := by omega
    calc min h.comps.length schemes.length * 2 ^ 21 ≤ 4 * 2 ^ 21 := Nat.mul_le_mul_right _ this
      _ = 2 ^ 23 := by decide

/-! ## Counts -/

/-- The number of symbols. -/
def grand (hs : List (List Nat)) : Nat := (hs.map List.sum).sum

theorem sum_indicator (n a : Nat) : ((List.range n).map fun i => if i = a then 1 else 0).sum ≤ 1 := by
  induction n with
  | zero => simp
  | succ n ih =>
    rw [List.range_succ, List.map_append, List.sum_append, List.map_singleton, List.sum_singleton]
    by_cases e : n = a
    · subst e
      have : ((List.range n).map fun i => if i = n then 1 else 0).sum = 0 := by
        apply List.sum_eq_zero
        intro x hx
        obtain ⟨i, hi, rfl⟩ := List.mem_map.mp hx
        rw [if_neg (by have := List.mem_range.mp hi; omega)]
      rw [this, if_pos rfl]
    · rw [if_neg e]; exact ih

theorem countP_grand (n m : Nat) (ops : List Op) : ((List.range n).map fun c => ((List.range m).map fun s => ops.countP fun op => decide (op = .code c s)).sum).sum ≤ codes ops := by
  induction ops with
  | nil =>
    refine Nat.le_of_eq (List.sum_eq_zero fun x hx => ?_)
    obtain ⟨c, -, rfl⟩ := List.mem_map.mp hx
    refine List.sum_eq_zero fun x hx => ?_
    obtain ⟨s, -, rfl⟩ := List.mem_map.mp hx
    rfl
  | cons op ops ih =>
    have e : ((List.range n).map fun c => ((List.range m).map fun s => (op :: ops).countP fun op => decide (op = .code c s)).sum).sum =
        ((List.range n).map fun c => ((List.range m).map fun s => ops.countP fun op => decide (op = .code c s)).sum).sum +
        ((List.range n).map fun c => ((List.range m).map fun s => if op = .code c s then 1 else 0).sum).sum := by
      rw [← List.sum_map_add]
      refine congrArg _ (List.map_congr_left fun c _ => ?_)
      rw [← List.sum_map_add]
      refine congrArg _ (List.map_congr_left fun s _ => ?_)
      rw [List.countP_cons]
      simp only [decide_eq_true_eq]
    rw [e]
    have h2 : ((List.range n).map fun c => ((List.range m).map fun s => if op = .code c s then 1 else 0).sum).sum ≤ codes [op] := by
      cases op with
      | bits a b => simp [codes]
      | bit a b => simp [codes]
      | code c' s' =>
        refine Nat.le_trans (List.sum_le_sum (g := fun c => if c = c' then 1 else 0) fun c _ => ?_) (sum_indicator n c')
        by_cases hc : c = c'
        · subst hc
          rw [if_pos rfl]
          refine Nat.le_trans (Nat.le_of_eq (congrArg _ (List.map_congr_left fun s _ => ?_))) (sum_indicator m s')
          simp [eq_comm]
        · rw [if_neg hc]
          refine Nat.le_of_eq (List.sum_eq_zero fun x hx => ?_)
          obtain ⟨s, -, rfl⟩ := List.mem_map.mp hx
          rw [if_neg]
          intro h
          cases h
          exact hc rfl
    rw [show codes (op :: ops) = codes [op] + codes ops from codes_append [op] ops]
    omega

theorem countSymbols_grand (n : Nat) (ops : List Op) : grand (countSymbols n ops) ≤ codes ops := by
  unfold grand countSymbols
  rw [List.map_map]
  exact countP_grand n 18 ops

/-- The symbols of a whole image. -/
theorem blocks_codes {h : Header} {schemes : List Nat} {imgs : List (List Int)} {fl : List (List Bool)} {dc ac : List Op} {n : Nat} {legacy : Bool}
    {orders quants : List (List Nat)} (h1 : encodeDC h.mcuRows (metas h schemes) imgs = some (fl, dc))
    (h2 : encodeAC n legacy h.mcuRows (metas h schemes) orders quants imgs fl = some ((), ac)) (k : Nat) :
    grand (countSymbols k (dc ++ ac)) ≤ 64 * (schedule h.mcuRows (metas h schemes)).length := by
  have a := encodeDC_codes _ _ _ _ _ h1
  have b := encodeAC_codes _ _ _ _ _ _ _ _ _ _ h2
  have d := countSymbols_grand k (dc ++ ac)
  rw [codes_append] at d
  omega

theorem image_codes {h : Header} (hh : h.Ok) {schemes : List Nat} {imgs : List (List Int)} {fl : List (List Bool)} {dc ac : List Op} {n : Nat} {legacy : Bool}
    {orders quants : List (List Nat)} (h1 : encodeDC h.mcuRows (metas h schemes) imgs = some (fl, dc))
    (h2 : encodeAC n legacy h.mcuRows (metas h schemes) orders quants imgs fl = some ((), ac)) (k : Nat) : grand (countSymbols k (dc ++ ac)) ≤ 2 ^ 29 := by
  have a := blocks_codes h1 h2 k
  have c := schedule_le hh schemes
  omega

/-! ## Groups of contexts -/

/-- Groups begin with context 0, are in order and do not exceed the contexts. -/
structure OffsetsOk (offsets : List Nat) (n : Nat) : Prop where
  zero : ∀ o os, offsets = o :: os → o = 0
  sorted : offsets.Pairwise (· ≤ ·)
  le : ∀ o ∈ offsets, o * 9 ≤ n
  nine : 9 ∣ n

theorem layout_offsets {ms : List Meta} (h : ContextLayout ms) : OffsetsOk (0 :: ms.map Meta.ctxOffset) (contextCount ms) := by
  have mono : ∀ i j, i ≤ j → ((ms.take i).map fun m => kNumNonzeroContextSkip.getD m.ctxBits 0).sum ≤ ((ms.take j).map fun m => kNumNonzeroContextSkip.getD m.ctxBits 0).sum := by
    intro i j hij
    have : ms.take j = ms.take i ++ (ms.drop i).take (j - i) := by rw [← List.take_add, Nat.add_sub_cancel' hij]
    rw [this, List.map_append, List.sum_append]
    omega
  refine ⟨by intro o os e; cases e; rfl, List.pairwise_cons.mpr ⟨fun _ _ => Nat.zero_le _, ?_⟩, ?_, Dvd.intro_left _ rfl⟩
  · rw [List.pairwise_iff_getElem]
    intro i j hi hj hij
    rw [List.length_map] at hi hj
    rw [List.getElem_map, List.getElem_map, (h i hi).2, (h j hj).2]
    have := mono i j (Nat.le_of_lt hij)
    omega
  · intro o ho
    rcases List.mem_cons.mp ho with rfl | ho
    · omega
    · obtain ⟨m, hm, rfl⟩ := List.mem_map.mp ho
      obtain ⟨i, hi, rfl⟩ := List.mem_iff_getElem.mp hm
      rw [(h i hi).2, contextCount, numContexts, kNumAvrgContexts, List.map_map, List.length_map]
      have := mono i ms.length (Nat.le_of_lt hi)
      rw [List.take_length] at this
      exact Nat.mul_le_mul_right 9 (Nat.add_le_add_left this _)

end Brunsli
