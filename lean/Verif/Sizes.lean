import Verif.E2E
/-!
# Sizes of the sections
-/

namespace Brunsli

/-! ## Numbers of calls -/

/-- The action makes at most `k` calls on the stream. -/
def E.Cost {α : Type} (k : Nat) (e : E α) : Prop := ∀ a ops, e = some (a, ops) → ops.length ≤ k

namespace E.Cost
variable {α β : Type}

theorem pure (a : α) : E.Cost 0 (Pure.pure a : E α) := by
  intro b ops h
  cases h
  exact Nat.le_refl 0

theorem mono {k l : Nat} {e : E α} (h : E.Cost k e) (hk : k ≤ l) : E.Cost l e := fun a ops he => Nat.le_trans (h a ops he) hk

theorem bind {k l : Nat} {e : E α} {f : α → E β} (h : E.Cost k e) (hf : ∀ a, E.Cost l (f a)) : E.Cost (k + l) (e >>= f) := by
  intro b ops hb
  change E.bind e f = _ at hb
  unfold E.bind at hb
  cases he : e with
  | none => rw [he] at hb; cases hb
  | some p =>
    obtain ⟨a, o1⟩ := p
    rw [he] at hb
    simp only at hb
    cases hfa : f a with
    | none => rw [hfa] at hb; cases hb
    | some q =>
      obtain ⟨b', o2⟩ := q
      rw [hfa] at hb
      have h1 := h a o1 he
      have h2 := hf a b' o2 hfa
      cases hb
      rw [List.length_append]
      omega

theorem lift (o : Option α) : E.Cost 0 (E.lift o) := by
  intro a ops h
  cases o with
  | none => cases h
  | some b => cases h; exact Nat.le_refl 0

/-- Accesses to memory cost nothing. -/
theorem liftBind {l : Nat} {o : Option α} {f : α → E β} (hf : ∀ a, E.Cost l (f a)) : E.Cost l (E.lift o >>= f) := by
  have := bind (lift o) hf
  rwa [Nat.zero_add] at this

theorem bitAt (l : List Prob) (i : Nat) (b : Bool) : E.Cost 1 (E.bitAt l i b) := by
  intro a ops h
  unfold E.bitAt at h
  split at h
  · cases h
  · split at h
    · cases h
    · cases h; exact Nat.le_refl 1

theorem code (n ctx sym : Nat) : E.Cost 1 (E.code n ctx sym) := by
  intro a ops h
  by_cases hc : ctx < n ∧ sym < 18
  · rw [show E.code n ctx sym = some ((), [.code ctx sym]) from if_pos hc] at h
    cases h
    exact Nat.le_refl 1
  · rw [show E.code n ctx sym = none from if_neg hc] at h
    cases h

theorem bits (n v : Nat) : E.Cost 1 (E.bits n v) := by
  intro a ops h
  cases h
  exact Nat.le_refl 1

theorem ite {k : Nat} {c : Prop} [Decidable c] {e f : E α} (h : c → E.Cost k e) (h' : ¬ c → E.Cost k f) : E.Cost k (if c then e else f) := by
  split
  · exact h ‹_›
  · exact h' ‹_›

theorem loop {ι : Type} {k : Nat} {f : α → ι → E α} (h : ∀ a i, E.Cost k (f a i)) : ∀ (l : List ι) (a : α), E.Cost (k * l.length) (E.loop f a l) := by
  intro l
  induction l with
  | nil => intro a; exact pure a
  | cons i l ih =>
    intro a
    have := bind (h a i) fun a' => ih a'
    refine mono this ?_
    rw [List.length_cons, Nat.mul_succ]
    omega

end E.Cost

theorem encAbs_cost (n ctx : Nat) (extra : List Prob) (base absval : Nat) : (encAbs n ctx extra base absval).Cost 3 := by
  unfold encAbs
  refine E.Cost.ite (fun _ => ?_) (fun _ => ?_)
  · exact ((E.Cost.code _ _ _).bind fun _ => E.Cost.pure _).mono (by decide)
  · refine (E.Cost.code _ _ _).bind (l := 2) fun _ => (E.Cost.bitAt _ _ _).bind (l := 1) fun _ => E.Cost.ite (fun _ => ?_) (fun _ => (E.Cost.pure _).mono (by decide))
    exact (E.Cost.bits _ _).bind fun _ => E.Cost.pure _

theorem encDcBlock_cost (n c x : Nat) (st : DcState) (err : Int) (empty : Bool) : (encDcBlock n c x st err empty).Cost 6 := by
  unfold encDcBlock
  refine E.Cost.liftBind fun _ => (E.Cost.bitAt _ _ _).bind (l := 5) fun _ => E.Cost.liftBind fun _ => ?_
  refine E.Cost.bind (k := 5) (l := 0) (E.Cost.ite (fun _ => (E.Cost.pure _).mono (by decide)) fun _ => ?_) fun _ => E.Cost.liftBind fun _ => E.Cost.liftBind fun _ => E.Cost.pure _
  unfold encDcValue
  refine (E.Cost.bitAt _ _ _).bind (l := 4) fun _ => E.Cost.ite (fun _ => (E.Cost.pure _).mono (by decide)) fun _ => ?_
  unfold encDcNonzero
  exact E.Cost.liftBind fun _ => E.Cost.liftBind fun _ => (E.Cost.bitAt _ _ _).bind (l := 3) fun _ => (encAbs_cost _ _ _ _ _).bind (l := 0) fun _ => E.Cost.pure _

theorem encodeDC_cost (rows : Nat) (ms : List Meta) (imgs : List (List Int)) : (encodeDC rows ms imgs).Cost (6 * (schedule rows ms).length) := by
  unfold encodeDC
  refine E.Cost.bind (l := 0) (E.Cost.loop (fun s p => ?_) _ _) fun _ => E.Cost.pure _
  unfold encDcStep
  refine E.Cost.liftBind fun _ => E.Cost.liftBind fun _ => E.Cost.liftBind fun _ => E.Cost.liftBind fun _ => E.Cost.liftBind fun _ => ?_
  exact (encDcBlock_cost _ _ _ _ _ _).bind (l := 0) fun _ => E.Cost.liftBind fun _ => E.Cost.lift _

theorem encNnz_cost (base v : Nat) : ∀ (b ctx : Nat) (l : List Prob), (encNnz base v b ctx l).Cost b := by
  intro b
  induction b with
  | zero => intro ctx l; exact E.Cost.pure _
  | succ b ih => intro ctx l; rw [encNnz]; exact ((E.Cost.bitAt _ _ _).bind fun _ => ih _ _).mono (by omega)

theorem encAcCoeff_cost (v : AcEnv) (pr pc : Nat → Option Int) (cs : List Int) (last k : Nat) (s : AcEncBlk) : (encAcCoeff v pr pc cs last k s).Cost 5 := by
  unfold encAcCoeff
  refine E.Cost.liftBind fun _ => E.Cost.bind (k := 1) (l := 4) ?_ fun _ => E.Cost.ite (fun _ => ?_) (fun _ => ?_)
  · unfold encIsZero
    exact E.Cost.ite (fun _ => E.Cost.liftBind fun _ => E.Cost.bitAt _ _ _) fun _ => (E.Cost.pure _).mono (by decide)
  · unfold encAcZero
    exact (E.Cost.liftBind fun _ => E.Cost.liftBind fun _ => E.Cost.pure _).mono (Nat.zero_le 4)
  · unfold encAcNonzero
    refine E.Cost.liftBind fun _ => E.Cost.liftBind fun _ => (E.Cost.bitAt _ _ _).bind (l := 3) fun _ => E.Cost.liftBind fun _ => E.Cost.liftBind fun _ => ?_
    exact (encAbs_cost _ _ _ _ _).bind (l := 0) fun _ => E.Cost.liftBind fun _ => E.Cost.liftBind fun _ => E.Cost.pure _

theorem encAcCoeffs_cost (v : AcEnv) (pr pc : Nat → Option Int) (cs : List Int) (last : Nat) : ∀ (k : Nat) (s : AcEncBlk),
    (encAcCoeffs v pr pc cs last k s).Cost (5 * k) := by
  intro k
  induction k with
  | zero => intro s; exact E.Cost.pure _
  | succ k ih => intro s; rw [encAcCoeffs]; exact ((encAcCoeff_cost _ _ _ _ _ _ _).bind fun _ => ih _).mono (by omega)

theorem encAcBlock_cost (v : AcEnv) (img : List Int) (empty : Bool) (st : AcState) : (encAcBlock v img empty st).Cost 321 := by
  unfold encAcBlock
  refine E.Cost.liftBind fun _ => E.Cost.liftBind fun cs => ?_
  refine E.Cost.bind (k := 6) (l := 315) (E.Cost.ite (fun _ => (E.Cost.pure _).mono (by decide)) fun _ => ?_) fun _ => ?_
  · unfold encLast
    exact E.Cost.liftBind fun _ => encNnz_cost _ _ 6 _ _
  · refine E.Cost.liftBind fun _ => E.Cost.liftBind fun _ => ?_
    refine E.Cost.bind (k := 315) (l := 0) ((encAcCoeffs_cost _ _ _ _ _ _ _).mono ?_) fun _ => E.Cost.liftBind fun _ => E.Cost.pure _
    have := lastNz_le cs 63
    split <;> omega

theorem digitOps_length (v : Nat) : (digitOps v).length = v / 7 + 1 := by
  induction v using Nat.strongRecOn with
  | ind v ih =>
    rw [digitOps]
    split
    · rw [List.length_cons, ih (v - 7) (by omega)]
      omega
    · simp only [List.length_cons, List.length_nil]
      omega

theorem flatMap_length_le {α β : Type} {f : α → List β} {k : Nat} : ∀ {l : List α}, (∀ a ∈ l, (f a).length ≤ k) → (l.flatMap f).length ≤ l.length * k := by
  intro l
  induction l with
  | nil => intro _; simp
  | cons a l ih =>
    intro h
    have h1 := h a List.mem_cons_self
    have h2 := ih fun b hb => h b (List.mem_cons_of_mem _ hb)
    rw [List.flatMap_cons, List.length_append, List.length_cons, Nat.succ_mul]
    omega

theorem spanOps_length {l : List Nat} (h : ∀ v ∈ l, v ≤ 64) {start n : Nat} : (spanOps l start n).length ≤ 1 + n * 10 := by
  unfold spanOps
  dsimp only
  split
  · simp
  · rw [List.length_cons]
    have h1 : (((l.drop start).take n).flatMap digitOps).length ≤ ((l.drop start).take n).length * 10 := flatMap_length_le fun v hv => by
      have := h v (List.mem_of_mem_drop (List.mem_of_mem_take hv))
      rw [digitOps_length]
      omega
    have h2 : ((l.drop start).take n).length ≤ n := List.length_take_le _ _
    have := Nat.mul_le_mul_right 10 h2
    omega

theorem mapM_some_length {α β : Type} {f : α → Option β} : ∀ {l : List α} {r : List β}, l.mapM f = some r → r.length = l.length := by
  intro l
  induction l with
  | nil => intro r h; cases h; rfl
  | cons a l ih =>
    intro r h
    rw [List.mapM_cons] at h
    cases ha : f a with
    | none => rw [ha] at h; cases h
    | some b =>
      cases hl : l.mapM f with
      | none => rw [ha, hl] at h; cases h
      | some r' =>
        rw [ha, hl] at h
        cases h
        rw [List.length_cons, List.length_cons, ih hl]

theorem encodeCoeffOrder_length {o : List Nat} (ho : o.length = 64) {ops : List Op} (h : encodeCoeffOrder o = some ops) : ops.length ≤ 634 := by
  unfold encodeCoeffOrder at h
  simp only [bind, Option.bind_eq_some_iff, Option.some.injEq] at h
  obtain ⟨zz, h1, l, h2, rfl⟩ := h
  have hz : zz.length = 64 := by rw [← ho]; exact mapM_some_length h1
  unfold computeLehmer at h2
  obtain ⟨k1, k2⟩ := lehmer_bound _ _ _ h2
  rw [List.length_range, hz] at k2
  have hb : ∀ v ∈ incTail l (lehmerTail l 63), v ≤ 64 := by
    intro v hv
    unfold incTail at hv
    obtain ⟨i, hi, rfl⟩ := List.mem_mapIdx.mp hv
    have := k2 i _ (List.getElem?_eq_getElem hi)
    split <;> omega
  have a1 := spanOps_length hb (start := 1) (n := 15)
  have a2 := spanOps_length hb (start := 16) (n := 16)
  have a3 := spanOps_length hb (start := 32) (n := 16)
  have a4 := spanOps_length hb (start := 48) (n := 16)
  simp only [List.length_append]
  omega

theorem encOrders_cost : ∀ {os : List (List Nat)}, (∀ o ∈ os, o.length = 64) → (encOrders os).Cost (634 * os.length) := by
  intro os
  induction os with
  | nil => intro _; exact E.Cost.pure _
  | cons o os ih =>
    intro h
    rw [encOrders]
    refine (E.Cost.bind (k := 634) (l := 634 * os.length) ?_ fun _ => ih fun o ho => h o (List.mem_cons_of_mem _ ho)).mono (by rw [List.length_cons]; omega)
    intro a ops he
    unfold E.emit at he
    obtain ⟨l, hl, e⟩ := Option.map_eq_some_iff.mp he
    cases e
    exact encodeCoeffOrder_length (h o List.mem_cons_self) hl

theorem encodeAC_cost {n : Nat} {legacy : Bool} {rows : Nat} {ms : List Meta} {orders quants : List (List Nat)} {imgs : List (List Int)}
    {flags : List (List Bool)} (h : ∀ o ∈ orders, o.length = 64) :
    (encodeAC n legacy rows ms orders quants imgs flags).Cost (634 * orders.length + 321 * (schedule rows ms).length) := by
  unfold encodeAC
  refine E.Cost.liftBind fun _ => (encOrders_cost h).bind fun _ => ?_
  refine E.Cost.bind (l := 0) (E.Cost.loop (fun s p => ?_) _ _) fun _ => E.Cost.pure _
  unfold encAcStep
  refine E.Cost.liftBind fun _ => E.Cost.liftBind fun _ => E.Cost.liftBind fun _ => E.Cost.liftBind fun _ => E.Cost.liftBind fun _ => E.Cost.liftBind fun _ => ?_
  exact (encAcBlock_cost _ _ _ _).bind (l := 0) fun _ => E.Cost.lift _

/-! ## Numbers of words -/

theorem step_length (d : DS) (op : Op) : (d.step op).cw.length ≤ d.cw.length + 1 := by
  cases op <;> simp only [DS.step] <;> try split
  all_goals simp

theorem steps_length (ops : List Op) : ∀ d : DS, (ops.foldl DS.step d).cw.length ≤ d.cw.length + ops.length := by
  induction ops with
  | nil => intro d; exact Nat.le_refl _
  | cons op ops ih =>
    intro d
    have h1 := ih (d.step op)
    have h2 := step_length d op
    rw [List.foldl_cons, List.length_cons]
    omega

theorem allWritten_length : ∀ {l : List (Option Slot)} {r : List Slot}, allWritten l = some r → r.length = l.length := by
  intro l
  induction l with
  | nil => intro r h; cases h; rfl
  | cons o l ih =>
    intro r h
    cases o with
    | none => cases h
    | some s =>
      rw [allWritten] at h
      cases hr : allWritten l with
      | none => rw [hr] at h; cases h
      | some r' =>
        rw [hr] at h
        cases h
        rw [List.length_cons, List.length_cons, ih hr]

theorem ansPass_length {tabs : Nat → List Nat} : ∀ {l : List Slot} {x : Nat} {ws : List Nat}, ansPass tabs l = some (x, ws) → ws.length ≤ l.length := by
  intro l
  induction l with
  | nil => intro x ws h; cases h; exact Nat.le_refl 0
  | cons s l ih =>
    intro x ws h
    cases s with
    | word v =>
      rw [ansPass] at h
      cases hr : ansPass tabs l with
      | none => rw [hr] at h; cases h
      | some p =>
        rw [hr] at h
        cases h
        have := ih hr
        rw [List.length_cons, List.length_cons]
        omega
    | sym c s =>
      rw [ansPass] at h
      cases hr : ansPass tabs l with
      | none => rw [hr] at h; cases h
      | some p =>
        obtain ⟨x0, ws0⟩ := p
        rw [hr] at h
        simp only at h
        cases hp : putSymbol (ansFreq (tabs c) s) (ansStart (tabs c) s) x0 with
        | none => rw [hp] at h; cases h
        | some q =>
          obtain ⟨x1, w⟩ := q
          rw [hp] at h
          cases h
          have := ih hr
          rw [List.length_append, List.length_cons]
          cases w with
          | none => simp only [Option.toList, List.length_nil]; omega
          | some v => simp only [Option.toList, List.length_cons, List.length_nil]; omega

/-- Every call makes at most one word. -/
theorem encodeWords_length {tabs : Nat → List Nat} {ops : List Op} {ws : List Nat} (h : encodeWords tabs ops = some ws) : ws.length ≤ ops.length + 5 := by
  unfold encodeWords at h
  cases ha : allWritten (ops.foldl DS.step DS.init).flush with
  | none => rw [ha] at h; cases h
  | some slots =>
    rw [ha] at h
    simp only at h
    cases hp : ansPass tabs slots with
    | none => rw [hp] at h; cases h
    | some p =>
      obtain ⟨x, w⟩ := p
      rw [hp] at h
      cases h
      have h1 := ansPass_length hp
      have h2 := allWritten_length ha
      have h3 := steps_length ops DS.init
      have h4 : (ops.foldl DS.step DS.init).flush.length = (ops.foldl DS.step DS.init).cw.length := by simp [DS.flush]
      have h5 : DS.init.cw.length = 3 := rfl
      simp only [List.length_cons]
      omega

/-! ## Bits of the histogram section -/

theorem createHuffmanTree_le {data : List Nat} {limit : Nat} (h1 : 1 ≤ limit) {depth : List Nat} (h : createHuffmanTree data limit = some depth) :
    depth.length = data.length ∧ ∀ d ∈ depth, d ≤ limit := by
  have loop : ∀ fuel c, createLoop data limit fuel c = some depth → depth.length = data.length ∧ ∀ d ∈ depth, d ≤ limit := by
    intro fuel
    induction fuel with
    | zero => intro c h; cases h
    | succ fuel ih =>
      intro c h
      rw [createLoop] at h
      split at h
      · cases h
      · dsimp only at h
        split at h
        · rename_i t _ hd
          cases h
          exact ⟨depthsOf_length _ _, hd⟩
        · exact ih _ h
  unfold createHuffmanTree at h
  split at h
  · rename_i w s _
    cases h
    refine ⟨depthsOf_length _ _, fun d hd => ?_⟩
    unfold depthsOf at hd
    obtain ⟨i, -, rfl⟩ := List.mem_map.mp hd
    simp only [List.find?_cons, List.find?_nil]
    split <;> simp <;> omega
  · exact loop 32 1 h

theorem repDigits_length (w r : Nat) : (repDigits w r).length ≤ r + 1 := by
  induction r using Nat.strongRecOn with
  | ind r ih =>
    rw [repDigits]
    split
    · simp
    · rename_i h
      have h1 : r / 2 ^ w ≤ r := Nat.div_le_self _ _
      have h2 := ih (r / 2 ^ w - 1) (by generalize r / 2 ^ w = q at *; omega)
      rw [List.length_append]
      simp only [List.length_cons, List.length_nil]
      generalize r / 2 ^ w = q at *
      omega

theorem repTokens_length (code w value reps : Nat) : (repTokens code w value reps).length ≤ reps := by
  unfold repTokens
  split
  · simp
  · rw [List.length_map]
    have := repDigits_length w (reps - 3)
    omega

theorem writeReps_length (prev value : Nat) {reps : Nat} (h : 1 ≤ reps) : (writeReps prev value reps).length ≤ reps := by
  unfold writeReps
  dsimp only
  rw [List.length_append, List.length_replicate]
  have := repTokens_length 16 2 value (reps - (if prev ≠ value then 1 else 0) - (if reps - (if prev ≠ value then 1 else 0) = 7 then 1 else 0))
  split at this <;> split at this <;> simp_all <;> omega

theorem writeRepsZeros_length (reps : Nat) : (writeRepsZeros reps).length ≤ reps := by
  unfold writeRepsZeros
  dsimp only
  rw [List.length_append, List.length_replicate]
  have := repTokens_length 17 3 0 (reps - (if reps = 11 then 1 else 0))
  split at this <;> simp_all <;> omega

theorem runLen_le_length (v : Nat) (l : List Nat) : runLen v l ≤ l.length := by
  unfold runLen
  exact (List.takeWhile_sublist _).length_le

theorem writeRuns_length (rleN rleZ : Bool) (n : Nat) : ∀ (prev : Nat) (l : List Nat), l.length ≤ n → (writeRuns rleN rleZ prev l).length ≤ l.length := by
  induction n with
  | zero =>
    intro prev l h
    rw [List.length_eq_zero_iff.mp (Nat.le_zero.mp h), writeRuns]
    exact Nat.le_refl 0
  | succ n ih =>
    intro prev l h
    cases l with
    | nil => rw [writeRuns]; exact Nat.le_refl 0
    | cons v l =>
      rw [List.length_cons] at h
      rw [writeRuns]
      generalize he : (if (v ≠ 0 ∧ rleN = true) ∨ (v = 0 ∧ rleZ = true) then runLen v l else 0) = extra
      have hx : extra ≤ l.length := by
        rw [← he]
        split
        · exact runLen_le_length v l
        · exact Nat.zero_le _
      have hd : (l.drop extra).length = l.length - extra := List.length_drop
      split
      · have h1 := writeRepsZeros_length (1 + extra)
        have h2 := ih prev (l.drop extra) (by omega)
        rw [List.length_append, List.length_cons]
        omega
      · have h1 := writeReps_length prev v (reps := 1 + extra) (by omega)
        have h2 := ih v (l.drop extra) (by omega)
        rw [List.length_append, List.length_cons]
        omega

theorem trimZeros_length (l : List Nat) : (trimZeros l).length ≤ l.length := by
  unfold trimZeros
  rw [List.length_reverse]
  have := (List.dropWhile_sublist (l := l.reverse) (· = 0)).length_le
  rwa [List.length_reverse] at this

theorem writeTree_length (depth : List Nat) : (writeTree depth).length ≤ depth.length := by
  unfold writeTree
  dsimp only
  exact Nat.le_trans (writeRuns_length _ _ _ _ _ (Nat.le_refl _)) (trimZeros_length depth)

theorem storeClc_length (numCodes : Nat) (cl : List Nat) : (storeClc numCodes cl).length ≤ 74 := by
  unfold storeClc
  dsimp only
  rw [List.length_append, bitsOf_length]
  have hw : ∀ l, (clcWord l).length ≤ 4 := by
    intro l
    unfold clcWord
    rw [bitsOf_length]
    exact getD_le (by decide) l
  have := fun s : List Nat => flatMap_length_le (f := clcWord) (l := s) (k := 4) fun a _ => hw a
  refine Nat.le_trans (Nat.add_le_add_left (this _) 2) ?_
  rw [List.length_drop]
  have h18 : (clcOrder.map fun o => cl.getD o 0).length = 18 := by rw [List.length_map]; rfl
  have h : (if numCodes > 1 then trimZeros (clcOrder.map fun o => cl.getD o 0) else clcOrder.map fun o => cl.getD o 0).length ≤ 18 := by
    split
    · have := trimZeros_length (clcOrder.map fun o => cl.getD o 0); omega
    · omega
  generalize (if numCodes > 1 then trimZeros (clcOrder.map fun o => cl.getD o 0) else clcOrder.map fun o => cl.getD o 0) = w at *
  omega

theorem storeTree_length {depth : List Nat} {bits : List Bool} (h : storeTree depth = some bits) : bits.length ≤ 74 + 8 * depth.length := by
  unfold storeTree at h
  dsimp only at h
  split at h
  · cases h
  · rename_i cl hc
    cases h
    obtain ⟨-, hle⟩ := createHuffmanTree_le (by decide) hc
    rw [List.length_append]
    have h1 := storeClc_length (min ((tokenHistogram (writeTree depth)).countP (· ≠ 0)) 2) cl
    generalize hcl : (if min ((tokenHistogram (writeTree depth)).countP (· ≠ 0)) 2 = 1 then cl.set ((tokenHistogram (writeTree depth)).findIdx (· ≠ 0)) 0 else cl) = cl' at *
    have hle' : ∀ d ∈ cl', d ≤ 5 := by
      intro d hd
      rw [← hcl] at hd
      split at hd
      · rcases List.mem_or_eq_of_mem_set hd with hd | rfl
        · exact hle d hd
        · decide
      · exact hle d hd
    have h2 := flatMap_length_le (f := fun t : Nat × Nat => bitsOf (cl'.getD t.1 0) (huffBits cl t.1) ++ tokenExtra t) (l := writeTree depth) (k := 8) (by
      intro t _
      rw [List.length_append, bitsOf_length]
      have := getD_le hle' t.1
      unfold tokenExtra
      split
      · rw [bitsOf_length]; omega
      · split
        · rw [bitsOf_length]; omega
        · rw [List.length_nil]; omega)
    have h3 := writeTree_length depth
    omega

theorem bitLength_le {n k : Nat} (h : n < 2 ^ k) : bitLength n ≤ k := by
  induction k generalizing n with
  | zero => rw [bitLength]; rw [Nat.pow_zero] at h; rw [dif_pos (by omega)]
  | succ k ih =>
    rw [bitLength]
    split
    · omega
    · have := ih (n := n / 2) (by rw [Nat.pow_succ] at h; omega)
      omega

/-- Storing a code of at most 272 symbols: all depths are at most 15. -/
theorem buildAndStore_length {histo depth : List Nat} {bits : List Bool} (hl : histo.length ≤ 272) (h : buildAndStore histo = some (depth, bits)) :
    bits.length ≤ 2250 ∧ ∀ d ∈ depth, d ≤ 15 := by
  unfold buildAndStore at h
  dsimp only at h
  have hm : bitLength (histo.length - 1) ≤ 9 := bitLength_le (by omega)
  split at h
  · cases h
    refine ⟨?_, fun d hd => ?_⟩
    · rw [List.length_append, bitsOf_length, bitsOf_length]; omega
    · rw [List.eq_of_mem_replicate hd]; decide
  · split at h
    · cases h
    · rename_i d hd
      obtain ⟨h1, h2⟩ := createHuffmanTree_le (by decide) hd
      split at h
      · rename_i h4
        cases h
        refine ⟨?_, h2⟩
        unfold storeSimple
        dsimp only
        have hs : (selSort (fun x => depth.getD x 0) (occurring histo)).length = (occurring histo).length := (selSort_spec _ _).1.length_eq
        have := flatMap_length_le (f := bitsOf (bitLength (histo.length - 1))) (l := selSort (fun x => depth.getD x 0) (occurring histo)) (k := 9)
          fun a _ => by rw [bitsOf_length]; exact hm
        rw [List.length_append, List.length_append, List.length_append, bitsOf_length, bitsOf_length]
        split <;> simp only [List.length_nil, bitsOf_length] <;> omega
      · split at h
        · cases h
        · rename_i b hb
          cases h
          have := storeTree_length hb
          exact ⟨by omega, h2⟩

theorem rleRun_length (p reps : Nat) : (rleRun p reps).length ≤ reps := by
  induction reps using Nat.strongRecOn with
  | ind reps ih =>
    rw [rleRun]
    split
    · exact Nat.zero_le _
    · split
      · simp; omega
      · have hp := Nat.two_pow_pos p
        have := ih (reps - (2 * 2 ^ p - 1)) (by omega)
        rw [List.length_cons]
        omega

theorem rleZeros_length (p n : Nat) : ∀ v : List Nat, v.length ≤ n → (rleZeros p v).length ≤ v.length := by
  induction n with
  | zero => intro v h; rw [List.length_eq_zero_iff.mp (Nat.le_zero.mp h), rleZeros]; exact Nat.le_refl 0
  | succ n ih =>
    intro v h
    cases v with
    | nil => rw [rleZeros]; exact Nat.le_refl 0
    | cons v vs =>
      rw [List.length_cons] at h
      rw [rleZeros]
      split
      · rw [List.length_cons, List.length_cons]
        have := ih vs (by omega)
        omega
      · have h1 := rleRun_length p (1 + runLen 0 vs)
        have h2 := runLen_le_length 0 vs
        have hd : (vs.drop (runLen 0 vs)).length = vs.length - runLen 0 vs := List.length_drop
        have h3 := ih (vs.drop (runLen 0 vs)) (by omega)
        rw [List.length_append, List.length_cons]
        omega

theorem mtfTransform_length {cm v : List Nat} (h : mtfTransform cm = some v) : v.length = cm.length := by
  have loop : ∀ (l m r : List Nat), mtfLoop m l = some r → r.length = l.length := by
    intro l
    induction l with
    | nil => intro m r h; cases h; rfl
    | cons a l ih =>
      intro m r h
      rw [mtfLoop] at h
      split at h
      · obtain ⟨x, hx, rfl⟩ := Option.map_eq_some_iff.mp h
        rw [List.length_cons, List.length_cons, ih _ _ hx]
      · cases h
  unfold mtfTransform at h
  split at h
  · rename_i he
    cases h
    rw [he]
  · exact loop _ _ _ h

theorem storeVarLenUint8_length {n : Nat} (h : n < 256) : (storeVarLenUint8 n).length ≤ 11 := by
  unfold storeVarLenUint8
  split
  · simp
  · simp only [List.length_append, bitsOf_length]
    have : Nat.log2 n < 8 := (Nat.log2_lt (by omega)).mpr h
    omega

theorem encodeContextMap_length {cm : List Nat} {n : Nat} {bits : List Bool} (hn : 1 ≤ n ∧ n ≤ 256) (h : encodeContextMap cm n = some bits) :
    bits.length ≤ 2272 + 21 * cm.length := by
  have hv := storeVarLenUint8_length (n := n - 1) (by omega)
  unfold encodeContextMap at h
  split at h
  · cases h; omega
  · split at h
    · cases h
    · rename_i v hm
      dsimp only at h
      have hp : runPrefix v ≤ 6 := by unfold runPrefix; exact Nat.min_le_right _ _
      split at h
      · split at h
        · cases h
        · rename_i depth code hb
          cases h
          obtain ⟨h1, h2⟩ := buildAndStore_length (by unfold histogramOf; rw [List.length_map, List.length_range]; omega) hb
          have h3 := flatMap_length_le (f := cmWord depth (runPrefix v)) (l := rleZeros (runPrefix v) v) (k := 21) (by
            intro t _
            unfold cmWord huffWord
            rw [List.length_append, bitsOf_length]
            have := getD_le h2 t.1
            split
            · rw [bitsOf_length]; omega
            · rw [List.length_nil]; omega)
          have h4 := rleZeros_length (runPrefix v) v.length v (Nat.le_refl _)
          have h5 := mtfTransform_length hm
          simp only [List.length_append, bitsOf_length]
          split <;> simp only [List.length_append, bitsOf_length] <;> omega
      · cases h

theorem mantissas_length (om : Nat) : ∀ (cs : List Nat) (i : Nat) (r : List Bool) (l : Nat), (∀ x ∈ logCounts om l i cs, x ≤ 10) → mantissas om i cs = some r →
    r.length ≤ 5 * cs.length := by
  intro cs
  induction cs with
  | nil => intro i r l _ h; cases h; exact Nat.le_refl 0
  | cons c cs ih =>
    intro i r l hl h
    rw [logCounts] at hl
    rw [mantissas] at h
    cases hr : mantissas om (i + 1) cs with
    | none => rw [hr] at h; cases h
    | some r' =>
      have hi := ih (i + 1) r' l (fun x hx => hl x (List.mem_cons_of_mem _ hx)) hr
      rw [hr] at h
      dsimp only at h
      rw [List.length_cons]
      split at h
      · rename_i hc
        split at h
        · cases h
          have : logCount c ≤ 10 := by
            have := hl _ List.mem_cons_self
            rwa [if_neg hc.2] at this
          rw [List.length_append, bitsOf_length]
          unfold precision
          omega
        · cases h
      · cases h; omega

theorem encodeCounts_length {counts : List Nat} {om : Nat} {syms : List Nat} {bits : List Bool} (h : encodeCounts counts om syms = some bits) :
    bits.length ≤ 207 := by
  unfold encodeCounts at h
  split at h
  · cases h; simp
  · cases h; simp
  · cases h; simp
  · dsimp only at h
    split at h
    · rename_i hc
      obtain ⟨h1, h2, h3⟩ := hc
      split at h
      · cases h
      · rename_i r hr
        cases h
        have hl := mantissas_length _ _ _ _ _ h3 hr
        have ht : (counts.take (histLength om 0 counts)).length ≤ 18 := by rw [List.length_take]; omega
        have hf := flatMap_length_le (f := fun l => bitsOf (logBits.getD l 0) (logSyms.getD l 0))
          (l := logCounts om (omitLog om 0 counts) 0 (counts.take (histLength om 0 counts))) (k := 6) (by
          intro a _
          rw [bitsOf_length]
          exact getD_le (by decide) a)
        rw [logCounts_length] at hf
        have hb : lengthBits.getD (histLength om 0 counts - 3) 0 ≤ 8 := getD_le (by decide) _
        simp only [List.length_append, bitsOf_length]
        omega
    · cases h

theorem storeClusters_length : ∀ {cs : List Cluster} {tabs : List (List Nat)} {bits : List Bool}, storeClusters cs = some (tabs, bits) →
    bits.length ≤ 207 * cs.length := by
  intro cs
  induction cs with
  | nil => intro tabs bits h; cases h; exact Nat.le_refl 0
  | cons c cs ih =>
    intro tabs bits h
    rw [storeClusters] at h
    split at h
    · rename_i counts b tabs' rest h1 h2
      cases h
      have := ih h2
      unfold storeCluster at h1
      split at h1
      · cases h1
      · split at h1
        · cases h1
        · rename_i hb
          cases h1
          have := encodeCounts_length hb
          rw [List.length_append, List.length_cons]
          omega
    · cases h

theorem padByte_length (bs : List Bool) : (padByte bs).length < bs.length + 8 := by
  unfold padByte
  rw [List.length_append, List.length_replicate]
  omega

/-- Bits of the histogram section. -/
theorem encodeHistogramData_length {schemes cm : List Nat} {clusters : List Cluster} {tabs : List (List Nat)} {bits : List Bool}
    (hn : 1 ≤ clusters.length ∧ clusters.length ≤ 256) (h : encodeHistogramData schemes cm clusters = some (tabs, bits)) :
    bits.length ≤ 3 * schemes.length + 2280 + 21 * cm.length + 207 * 256 := by
  unfold encodeHistogramData at h
  split at h
  · rename_i m tabs' hh h1 h2
    have e := (Prod.mk.inj (Option.some.inj h)).2
    have a := encodeContextMap_length hn h1
    have b := storeClusters_length h2
    rw [← e]
    have c := padByte_length (schemes.flatMap (bitsOf 3) ++ (m ++ hh))
    have d := flatMap_length_le (f := bitsOf 3) (l := schemes) (k := 3) fun a _ => by rw [bitsOf_length]
    rw [List.length_append, List.length_append] at c
    omega
  · cases h

/-! ## Bytes of the section of quantisation tables -/

theorem encodeVarint_length (l : Nat) : ∀ n, (encodeVarint l n).length ≤ 2 * l := by
  induction l with
  | zero => intro n; exact Nat.le_refl 0
  | succ l ih =>
    intro n
    rw [encodeVarint]
    split
    · simp; omega
    · have := ih (n / 2)
      rw [List.length_append, List.length_cons]
      split <;> simp <;> omega

theorem encQuantDiffs_length {values approx : List Nat} : ∀ {js : List Nat} {last : Int} {bits : List Bool}, encQuantDiffs values approx js last = some bits →
    bits.length ≤ 34 * js.length := by
  intro js
  induction js with
  | nil => intro last bits h; cases h; exact Nat.le_refl 0
  | cons j js ih =>
    intro last bits h
    rw [encQuantDiffs] at h
    split at h
    · rename_i a b h1 h2
      cases h
      have hb := ih h2
      have ha : a.length ≤ 34 := by
        unfold encQuantDiff at h1
        split at h1
        · cases h1; simp
        · dsimp only at h1
          split at h1
          · cases h1
          · cases h1
            rw [List.length_cons, List.length_cons]
            have := encodeVarint_length 16 (((values.getD j 0 : Int) - approx.getD j 0 - last).natAbs - 1)
            omega
      rw [List.length_append, List.length_cons]
      omega
    · cases h

theorem encQuantTable_length {values : List Nat} {chroma : Bool} {bits : List Bool} (h : encQuantTable values chroma = some bits) : bits.length ≤ 2183 := by
  unfold encQuantTable at h
  split at h
  · cases h
  · split at h
    · cases h; simp
    · dsimp only at h
      obtain ⟨d, hd, rfl⟩ := Option.map_eq_some_iff.mp h
      have := encQuantDiffs_length hd
      rw [show naturalOrder.length = 64 from rfl] at this
      rw [List.length_cons, List.length_append, bitsOf_length]
      omega

theorem encQuantTabs_length : ∀ {tabs : List (List Nat)} {i : Nat} {bits : List Bool}, encQuantTabs i tabs = some bits → bits.length ≤ 2183 * tabs.length := by
  intro tabs
  induction tabs with
  | nil => intro i bits h; cases h; exact Nat.le_refl 0
  | cons v vs ih =>
    intro i bits h
    rw [encQuantTabs] at h
    split at h
    · rename_i a b h1 h2
      cases h
      have := ih h2
      have := encQuantTable_length h1
      rw [List.length_append, List.length_cons]
      omega
    · cases h

theorem encodeQuantTables_length {tabs : List (List Nat)} {idx : List Nat} {bits : List Bool} (h : encodeQuantTables tabs idx = some bits) :
    bits.length ≤ 8742 + 2 * idx.length := by
  unfold encodeQuantTables at h
  split at h
  · cases h
  · rename_i hc
    obtain ⟨t, ht, rfl⟩ := Option.map_eq_some_iff.mp h
    have h4 : tabs.length ≤ 4 := by simp at hc; exact hc.2
    have a := encQuantTabs_length ht
    have c := padByte_length (bitsOf 2 (tabs.length - 1) ++ (t ++ idx.flatMap (bitsOf 2)))
    have d := flatMap_length_le (f := bitsOf 2) (l := idx) (k := 2) fun a _ => by rw [bitsOf_length]
    rw [List.length_append, List.length_append, bitsOf_length] at c
    omega

theorem packBits_length (n : Nat) : ∀ bs : List Bool, bs.length ≤ n → (packBits bs).length = (bs.length + 7) / 8 := by
  induction n with
  | zero => intro bs h; rw [List.length_eq_zero_iff.mp (Nat.le_zero.mp h), packBits]; rfl
  | succ n ih =>
    intro bs h
    rw [packBits]
    split
    · simp_all
    · rename_i hne
      have : 0 < bs.length := List.length_pos_iff.mpr hne
      rw [List.length_cons, ih (bs.drop 8) (by rw [List.length_drop]; omega), List.length_drop]
      omega

end Brunsli
