import Verif.HuffDesc
/-!
# The decoder reads the description of a code back
-/

namespace Brunsli

open P

/-! ## Code lengths -/

/-- Entries that `WriteHuffmanTree` emits. -/
def TokOk (t : Nat × Nat) : Prop := (t.1 ≤ 15 ∧ t.2 = 0) ∨ (t.1 = 16 ∧ t.2 < 4) ∨ (t.1 = 17 ∧ t.2 < 8)

theorem repTokens_legal {code w v reps : Nat} (hv : v ≤ 15) (hc : (code = 16 ∧ w = 2) ∨ (code = 17 ∧ w = 3)) :
    ∀ t ∈ repTokens code w v reps, TokOk t := by
  intro t ht
  unfold repTokens at ht
  split at ht
  · obtain ⟨_, rfl⟩ := List.mem_replicate.mp ht
    exact Or.inl ⟨hv, rfl⟩
  · obtain ⟨d, hd, rfl⟩ := List.mem_map.mp ht
    obtain ⟨x, xs, e, _, hlt⟩ := repDigits_value w (fun x d => (x + 1) * 2 ^ w + d) (fun _ _ => rfl) (reps - 3)
    rw [e] at hd
    have := hlt d hd
    rcases hc with ⟨rfl, rfl⟩ | ⟨rfl, rfl⟩
    · exact Or.inr (Or.inl ⟨rfl, this⟩)
    · exact Or.inr (Or.inr ⟨rfl, this⟩)

theorem writeRuns_legal (rleN rleZ : Bool) (l : List Nat) (prev : Nat) (hl : ∀ x ∈ l, x ≤ 15) :
    ∀ t ∈ writeRuns rleN rleZ prev l, TokOk t := by
  match l with
  | [] => simp [writeRuns]
  | v :: l =>
    have hv := hl v List.mem_cons_self
    rw [writeRuns]
    generalize (if (v ≠ 0 ∧ rleN = true) ∨ (v = 0 ∧ rleZ = true) then runLen v l else 0) = extra
    have hmem : ∀ x ∈ l.drop extra, x ≤ 15 := fun x hx => hl x (List.mem_cons_of_mem _ (List.mem_of_mem_drop hx))
    intro t ht
    split at ht
    · rcases List.mem_append.mp ht with ht | ht
      · unfold writeRepsZeros at ht
        rcases List.mem_append.mp ht with ht | ht
        · obtain ⟨_, rfl⟩ := List.mem_replicate.mp ht
          exact Or.inl ⟨by decide, rfl⟩
        · exact repTokens_legal (by decide) (Or.inr ⟨rfl, rfl⟩) t ht
      · exact writeRuns_legal rleN rleZ _ _ hmem t ht
    · rcases List.mem_append.mp ht with ht | ht
      · unfold writeReps at ht
        rcases List.mem_append.mp ht with ht | ht
        · obtain ⟨_, rfl⟩ := List.mem_replicate.mp ht
          exact Or.inl ⟨hv, rfl⟩
        · exact repTokens_legal hv (Or.inl ⟨rfl, rfl⟩) t ht
      · exact writeRuns_legal rleN rleZ _ _ hmem t ht
termination_by l.length
decreasing_by all_goals simp only [List.length_drop, List.length_cons]; omega

theorem CL.tok_prefix (st : CL) (t : Nat × Nat) : ∃ b, b ≠ [] ∧ (st.tok t).lens = st.lens ++ b := by
  have h := st.tok_lens t
  unfold CL.tok at *
  split
  · exact ⟨_, by simp, rfl⟩
  · rename_i hc
    rw [if_neg hc] at h
    refine ⟨_, ?_, rfl⟩
    intro he
    simp only [CL.repeat] at h he
    rw [he] at h
    simp at h

theorem foldl_prefix (toks : List (Nat × Nat)) : ∀ st : CL, ∃ b, (toks.foldl CL.tok st).lens = st.lens ++ b ∧ toks.length ≤ b.length := by
  induction toks with
  | nil => intro st; exact ⟨[], by simp, by simp⟩
  | cons t ts ih =>
    intro st
    obtain ⟨b1, hne, e1⟩ := st.tok_prefix t
    obtain ⟨b2, e2, h2⟩ := ih (st.tok t)
    refine ⟨b1 ++ b2, ?_, ?_⟩
    · rw [List.foldl_cons, e2, e1, List.append_assoc]
    · have := List.length_pos_iff.mpr hne
      simp only [List.length_cons, List.length_append]; omega

theorem readLens_toks {m : Mem} {n : Nat} (word : Nat → List Bool) (L : List Nat) (hL : kraftLens 15 L = 2 ^ 15)
    (hn : L.length ≤ n) (hpos : ∀ a b, a ++ b = L → b ≠ [] → 0 < kraftLens 15 b) (toks : List (Nat × Nat)) :
    ∀ (st : CL), st.Ok → (toks.foldl CL.tok st).lens = L → (∀ t ∈ toks, TokOk t) →
    (∀ t ∈ toks, Reads (readHuff m 5) (word t.1) t.1) → ∀ rest,
    readLens m n st (toks.flatMap (fun t => word t.1 ++ tokenExtra t) ++ rest) = some (toks.foldl CL.tok st, rest) := by
  induction toks with
  | nil =>
    intro st hok hfin _ _ rest
    rw [readLens]
    simp only [List.foldl_nil] at hfin
    have : ¬ (st.lens.length < n ∧ st.used < 2 ^ 15) := by
      rw [hok.used, hfin, hL]; omega
    rw [dif_neg this]
    rfl
  | cons t ts ih =>
    intro st hok hfin hleg hread rest
    rw [List.foldl_cons] at hfin ⊢
    obtain ⟨b1, hne, e1⟩ := st.tok_prefix t
    obtain ⟨b2, e2, _⟩ := foldl_prefix ts (st.tok t)
    rw [e1] at e2
    have hsplit : st.lens ++ (b1 ++ b2) = L := by rw [← hfin, e2, List.append_assoc]
    have hlen1 := List.length_pos_iff.mpr hne
    have hlens := congrArg List.length hsplit
    simp only [List.length_append] at hlens
    have hgo : st.lens.length < n ∧ st.used < 2 ^ 15 := by
      refine ⟨by omega, ?_⟩
      have h1 := hpos _ _ hsplit (by simp [hne])
      have h2 := kraftLens_append 15 st.lens (b1 ++ b2)
      rw [hsplit, hL] at h2
      rw [hok.used]; omega
    have hrec := ih (st.tok t) (CL.tok_ok hok t) hfin (fun t ht => hleg t (List.mem_cons_of_mem _ ht))
      (fun t ht => hread t (List.mem_cons_of_mem _ ht)) rest
    rw [readLens, dif_pos hgo, List.flatMap_cons, List.append_assoc, List.append_assoc, hread t List.mem_cons_self]
    simp only
    rcases hleg t List.mem_cons_self with ⟨h1, _⟩ | h | h
    · have h16 : t.1 < 16 := by omega
      have hx : tokenExtra t = [] := by
        unfold tokenExtra; rw [if_neg (by omega), if_neg (by omega)]
      have htok : st.tok t = st.lit t.1 := by unfold CL.tok; rw [if_pos h16]
      rw [dif_pos h16, hx, List.nil_append, ← htok]
      exact hrec
    all_goals
      have h16 : ¬ t.1 < 16 := by omega
      have htok : st.tok t = st.repeat t.1 t.2 := by unfold CL.tok; rw [if_neg h16]
      have hbits : tokenExtra t = bitsOf (t.1 - 14) t.2 := by
        unfold tokenExtra; simp [h.1]
      have hlt : t.2 < 2 ^ (t.1 - 14) := by rw [h.1]; exact h.2
      rw [dif_neg h16, hbits, readBits_reads hlt]
      simp only
      rw [← htok, dif_neg (by rw [e1, List.length_append]; omega)]
      exact hrec

theorem trimZeros_spec (l : List Nat) : ∃ k, l = trimZeros l ++ List.replicate k 0 ∧
    ∀ a b, a ++ b = trimZeros l → b ≠ [] → ∃ x ∈ b, x ≠ 0 := by
  have hgen : ∀ r : List Nat, ∃ k, r = List.replicate k 0 ++ r.dropWhile (· = 0) ∧
      ∀ x, (r.dropWhile (· = 0)).head? = some x → x ≠ 0 := by
    intro r
    induction r with
    | nil => exact ⟨0, by simp, by simp⟩
    | cons a r ih =>
      by_cases h : a = 0
      · subst h
        obtain ⟨k, h1, h2⟩ := ih
        refine ⟨k + 1, ?_, by simpa using h2⟩
        rw [List.replicate_succ, List.cons_append]
        have : (0 :: r).dropWhile (fun x => decide (x = 0)) = r.dropWhile (fun x => decide (x = 0)) := by simp
        rw [this, ← h1]
      · refine ⟨0, by simp [h], ?_⟩
        intro x hx
        simp [h] at hx
        omega
  obtain ⟨k, h1, h2⟩ := hgen l.reverse
  refine ⟨k, ?_, ?_⟩
  · have := congrArg List.reverse h1
    rw [List.reverse_reverse, List.reverse_append, List.reverse_replicate] at this
    exact this
  · intro a b hab hb
    unfold trimZeros at hab
    have := congrArg List.reverse hab
    rw [List.reverse_reverse, List.reverse_append] at this
    rw [← this] at h2
    cases hr : b.reverse with
    | nil => simp at hr; exact absurd hr hb
    | cons x r =>
      rw [hr] at h2
      refine ⟨x, ?_, h2 x (by simp)⟩
      have : x ∈ b.reverse := by rw [hr]; simp
      simpa using this

theorem kraftLens_pos {b : List Nat} {x : Nat} (hx : x ∈ b) (h0 : x ≠ 0) : 0 < kraftLens 15 b := by
  induction b with
  | nil => cases hx
  | cons a b ih =>
    have : kraftLens 15 (a :: b) = (if a = 0 then 0 else 2 ^ (15 - a)) + kraftLens 15 b := by simp [kraftLens]
    rw [this]
    rcases List.mem_cons.mp hx with rfl | hx
    · rw [if_neg h0]; have := Nat.two_pow_pos (15 - x); omega
    · have := ih hx; omega

theorem trimZeros_le {l : List Nat} {x : Nat} (hx : x ∈ trimZeros l) : x ∈ l := by
  obtain ⟨k, h, _⟩ := trimZeros_spec l
  rw [h]; exact List.mem_append_left _ hx

theorem writeTree_done {depth : List Nat} (hc : Complete depth) :
    ((writeTree depth).foldl CL.tok CL.init).lens = trimZeros depth := by
  unfold writeTree
  simp only
  have := fun a b => writeRuns_done a b (trimZeros depth) 8 CL.init rfl
    (fun x hx => hc.depth_le x (trimZeros_le hx)) (Or.inl rfl)
  exact this _ _

theorem writeTree_legal {depth : List Nat} (hc : Complete depth) : ∀ t ∈ writeTree depth, TokOk t := by
  unfold writeTree
  exact writeRuns_legal _ _ _ _ (fun x hx => hc.depth_le x (trimZeros_le hx))

/-! ## The code length code -/

theorem readClcWord_reads : ∀ l < 6, Reads readClcWord (clcWord l) l := by
  intro l hl rest
  match l, hl with
  | 0, _ => rcases rest with _ | ⟨b, _ | ⟨c, r⟩⟩ <;> (try cases b) <;> (try cases c) <;> rfl
  | 1, _ => rfl
  | 2, _ => rcases rest with _ | ⟨b, r⟩ <;> (try cases b) <;> rfl
  | 3, _ => rcases rest with _ | ⟨b, _ | ⟨c, r⟩⟩ <;> (try cases b) <;> (try cases c) <;> rfl
  | 4, _ => rcases rest with _ | ⟨b, _ | ⟨c, r⟩⟩ <;> (try cases b) <;> (try cases c) <;> rfl
  | 5, _ => rfl

theorem readClcWord_lt {bs rest : List Bool} {v : Nat} (h : readClcWord bs = some (v, rest)) : v < 6 := by
  unfold readClcWord at h
  simp only at h
  split at h
  · simp only [Option.some.injEq, Prod.mk.injEq] at h
    rw [← h.1]
    have hall : ∀ i < 16, (clcTable.getD i (0, 0)).2 < 6 := by decide
    by_cases hi : ofBits (bs.take 4) < 16
    · exact hall _ hi
    · rw [List.getD_eq_getElem?_getD, List.getElem?_eq_none (by show 16 ≤ _; omega)]; decide
  · cases h

theorem le_sum_mem {l : List Nat} {x : Nat} (h : x ∈ l) : x ≤ l.sum := by
  induction l with
  | nil => cases h
  | cons a l ih =>
    rw [List.sum_cons]
    rcases List.mem_cons.mp h with rfl | h
    · omega
    · have := ih h; omega

/-- Space taken by code length codes. -/
def clcUsed (cl : List Nat) (os : List Nat) : Nat := (os.map fun o => if cl.getD o 0 = 0 then 0 else 32 / 2 ^ cl.getD o 0).sum

def setAll (tgt : List Nat) (os : List Nat) (cl : List Nat) : List Nat := os.foldl (fun c o => c.set o (tgt.getD o 0)) cl

theorem setAll_length (tgt os : List Nat) : ∀ cl, (setAll tgt os cl).length = cl.length := by
  induction os with
  | nil => intro cl; rfl
  | cons o os ih => intro cl; rw [setAll, List.foldl_cons, ← setAll, ih, List.length_set]

theorem setAll_getD (tgt os : List Nat) : ∀ cl : List Nat, (∀ o ∈ os, o < cl.length) → ∀ j, j < cl.length →
    (setAll tgt os cl).getD j 0 = if j ∈ os then tgt.getD j 0 else cl.getD j 0 := by
  induction os with
  | nil => intro cl _ j _; simp [setAll]
  | cons o os ih =>
    intro cl hos j hj
    rw [setAll, List.foldl_cons, ← setAll, ih _ (by intro x hx; rw [List.length_set]; exact hos x (List.mem_cons_of_mem _ hx)) j
      (by rwa [List.length_set])]
    by_cases h : j ∈ os
    · simp [h]
    · rw [if_neg h]
      by_cases hjo : j = o
      · subst hjo
        simp [List.getD_eq_getElem?_getD, hj]
      · rw [if_neg (by simp [h, hjo])]
        simp only [List.getD_eq_getElem?_getD]
        rw [List.getElem?_set_ne (by omega)]

theorem readClc_cons_lt {o : Nat} {os cl : List Nat} {used num : Nat} (h : used < 32) :
    readClc (o :: os) cl used num = (do
      let v ← readClcWord
      if v ≠ 0 then readClc os (cl.set o v) (used + 32 / 2 ^ v) (num + 1) else readClc os (cl.set o v) used num) := by
  rw [readClc, if_pos h]

theorem readClc_step {tgt : List Nat} {o : Nat} {os cl : List Nat} {used num : Nat} {e : List Bool} {r : List Nat × Nat × Nat}
    (h : used < 32) (h6 : tgt.getD o 0 < 6)
    (hrec : Reads (readClc os (cl.set o (tgt.getD o 0)) (used + clcUsed tgt [o]) (num + if tgt.getD o 0 = 0 then 0 else 1)) e r) :
    Reads (readClc (o :: os) cl used num) (clcWord (tgt.getD o 0) ++ e) r := by
  rw [readClc_cons_lt h]
  refine Reads.bind (readClcWord_reads _ h6) ?_
  by_cases hz : tgt.getD o 0 = 0
  · rw [if_neg (by simpa using hz)]
    rw [hz] at hrec ⊢
    simpa [clcUsed, hz, -List.getD_eq_getElem?_getD] using hrec
  · rw [if_pos hz]
    simpa [clcUsed, hz, -List.getD_eq_getElem?_getD] using hrec

/-- Two or more codes: the decoder stops exactly where the encoder stopped writing. -/
theorem readClc_multi {tgt : List Nat} (h6 : ∀ o, tgt.getD o 0 < 6) (tail : List Nat) (os : List Nat) :
    ∀ cl used num, used + clcUsed tgt os = 32 → (∀ a b, a ++ b = os → b ≠ [] → ∃ o ∈ b, tgt.getD o 0 ≠ 0) →
    ∃ num', Reads (readClc (os ++ tail) cl used num) (os.flatMap fun o => clcWord (tgt.getD o 0)) (setAll tgt os cl, 32, num') := by
  induction os with
  | nil =>
    intro cl used num hu _
    simp only [clcUsed, List.map_nil, List.sum_nil, Nat.add_zero] at hu
    subst hu
    refine ⟨num, ?_⟩
    cases tail with
    | nil => exact Reads.pure _
    | cons o os =>
      simp only [List.nil_append, readClc]
      rw [if_neg (by omega)]
      exact Reads.pure _
  | cons o os ih =>
    intro cl used num hu hlast
    have hcons : clcUsed tgt (o :: os) = clcUsed tgt [o] + clcUsed tgt os := by simp [clcUsed]
    have hpos : 0 < clcUsed tgt (o :: os) := by
      obtain ⟨x, hx, hne⟩ := hlast [] (o :: os) rfl (by simp)
      have h1 : 0 < 32 / 2 ^ tgt.getD x 0 := by
        have : ∀ v < 6, 0 < 32 / 2 ^ v := by decide
        exact this _ (h6 x)
      have h2 : 32 / 2 ^ tgt.getD x 0 ∈ (o :: os).map fun o => if tgt.getD o 0 = 0 then 0 else 32 / 2 ^ tgt.getD o 0 :=
        List.mem_map.mpr ⟨x, hx, by rw [if_neg hne]⟩
      have h3 := le_sum_mem h2
      unfold clcUsed
      omega
    obtain ⟨num', hrec⟩ := ih (cl.set o (tgt.getD o 0)) (used + clcUsed tgt [o]) (num + if tgt.getD o 0 = 0 then 0 else 1)
      (by omega) (fun a b hab hb => hlast (o :: a) b (by rw [List.cons_append, hab]) hb)
    exact ⟨num', readClc_step (by omega) (h6 o) hrec⟩

/-- One code: all lengths are read. -/
theorem readClc_single {tgt : List Nat} (h6 : ∀ o, tgt.getD o 0 < 6) (os : List Nat) :
    ∀ cl used num, used + clcUsed tgt os < 32 →
    Reads (readClc os cl used num) (os.flatMap fun o => clcWord (tgt.getD o 0))
      (setAll tgt os cl, used + clcUsed tgt os, num + os.countP fun o => tgt.getD o 0 ≠ 0) := by
  induction os with
  | nil => intro cl used num _; exact Reads.pure _
  | cons o os ih =>
    intro cl used num hu
    have hcons : clcUsed tgt (o :: os) = clcUsed tgt [o] + clcUsed tgt os := by simp [clcUsed]
    have hrec := ih (cl.set o (tgt.getD o 0)) (used + clcUsed tgt [o]) (num + if tgt.getD o 0 = 0 then 0 else 1) (by omega)
    have hstep := readClc_step (tgt := tgt) (o := o) (by omega : used < 32) (h6 o) hrec
    refine hstep.congr rfl ?_
    rw [List.countP_cons, hcons]
    have : (if tgt.getD o 0 = 0 then 0 else 1) = (if decide (tgt.getD o 0 ≠ 0) = true then 1 else 0) := by
      by_cases h : tgt.getD o 0 = 0 <;> simp [h, -List.getD_eq_getElem?_getD]
    rw [this, Nat.add_assoc, Nat.add_assoc, Nat.add_comm (List.countP _ os)]
    rfl

theorem clcOrder_perm : clcOrder.Perm (List.range 18) := by decide

theorem clcUsed_append (cl a b : List Nat) : clcUsed cl (a ++ b) = clcUsed cl a + clcUsed cl b := by simp [clcUsed]

theorem clcUsed_zero {cl os : List Nat} (h : ∀ o ∈ os, cl.getD o 0 = 0) : clcUsed cl os = 0 := by
  induction os with
  | nil => rfl
  | cons o os ih =>
    have : clcUsed cl (o :: os) = clcUsed cl [o] + clcUsed cl os := by simp [clcUsed]
    rw [this, ih fun x hx => h x (List.mem_cons_of_mem _ hx)]
    simp only [clcUsed, List.map_cons, List.map_nil, h o List.mem_cons_self, ↓reduceIte, List.sum_cons, List.sum_nil, Nat.add_zero]

theorem clcUsed_order {cl : List Nat} (h18 : cl.length = 18) (h5 : ∀ l ∈ cl, l ≤ 5) : clcUsed cl clcOrder = kraftLens 5 cl := by
  unfold clcUsed
  rw [List.Perm.sum_nat (clcOrder_perm.map _), kraftLens, ← sum_range_getD (fun l => if l = 0 then 0 else 2 ^ (5 - l)), h18]
  congr 1
  apply List.map_congr_left
  intro o ho
  have hlt : o < cl.length := by rw [h18]; exact List.mem_range.mp ho
  have := h5 _ (getD_mem hlt)
  have hall : ∀ v ≤ 5, 32 / 2 ^ v = 2 ^ (5 - v) := by decide
  rw [hall _ this]

theorem setAll_order {cl : List Nat} (h18 : cl.length = 18) {A os B : List Nat} (hs : clcOrder = A ++ os ++ B)
    (hA : ∀ o ∈ A, cl.getD o 0 = 0) (hB : ∀ o ∈ B, cl.getD o 0 = 0) : setAll cl os (List.replicate 18 0) = cl := by
  apply List.ext_getElem
  · rw [setAll_length, List.length_replicate, h18]
  · intro j h1 h2
    have hj : j < 18 := by omega
    have hget : ∀ (l : List Nat) (h : j < l.length), l[j] = l.getD j 0 := by
      intro l h; rw [List.getD_eq_getElem?_getD, List.getElem?_eq_getElem h]; rfl
    rw [hget, hget, setAll_getD _ _ _ ?_ _ (by simpa using hj)]
    · split
      · rfl
      · rename_i hn
        have hmem : j ∈ clcOrder := clcOrder_perm.mem_iff.mpr (List.mem_range.mpr hj)
        rw [hs, List.mem_append, List.mem_append] at hmem
        have hz : cl.getD j 0 = 0 := by
          rcases hmem with (h | h) | h
          · exact hA j h
          · exact absurd h hn
          · exact hB j h
        rw [hz]
        rw [List.getD_eq_getElem?_getD, List.getElem?_replicate]
        split <;> rfl
    · intro o ho
      have : o ∈ clcOrder := by rw [hs]; simp [ho]
      rw [List.length_replicate]
      exact List.mem_range.mp (clcOrder_perm.mem_iff.mp this)

/-- The number of skipped lengths. -/
def clcSkip (cl : List Nat) : Nat :=
  let w := clcOrder.map fun o => cl.getD o 0
  if w.getD 0 0 = 0 ∧ w.getD 1 0 = 0 then (if w.getD 2 0 = 0 then 3 else 2) else 0

theorem clcSkip_spec (cl : List Nat) : (clcSkip cl < 4 ∧ clcSkip cl ≠ 1) ∧ ∀ o ∈ clcOrder.take (clcSkip cl), cl.getD o 0 = 0 := by
  unfold clcSkip
  simp only [clcOrder, List.map_cons, List.getD_cons_zero, List.getD_cons_succ]
  split
  · rename_i h
    split
    · rename_i h3
      refine ⟨by decide, ?_⟩
      intro o ho
      simp only [List.take_succ_cons, List.take_zero, List.mem_cons, List.not_mem_nil, or_false] at ho
      rcases ho with rfl | rfl | rfl
      · exact h.1
      · exact h.2
      · exact h3
    · refine ⟨by decide, ?_⟩
      intro o ho
      simp only [List.take_succ_cons, List.take_zero, List.mem_cons, List.not_mem_nil, or_false] at ho
      rcases ho with rfl | rfl
      · exact h.1
      · exact h.2
  · exact ⟨by decide, by simp⟩

theorem storeClc_eq (numCodes : Nat) (cl : List Nat) : storeClc numCodes cl = bitsOf 2 (clcSkip cl) ++
    ((if numCodes > 1 then trimZeros (clcOrder.map fun o => cl.getD o 0) else clcOrder.map fun o => cl.getD o 0).drop
      (clcSkip cl)).flatMap clcWord := rfl

/-- What the decoder knows after the code length code: the lengths, and that it may go on. -/
def ClcRead (cl : List Nat) (bits : List Bool) : Prop :=
  ∃ e used num, bits = bitsOf 2 (clcSkip cl) ++ e ∧ (num = 1 ∨ used = 32) ∧
    Reads (readClc (clcOrder.drop (clcSkip cl)) (List.replicate 18 0) 0 0) e (cl, used, num)

theorem storeClc_multi {cl : List Nat} (h18 : cl.length = 18) (h5 : ∀ l ∈ cl, l ≤ 5) (hk : kraftLens 5 cl = 2 ^ 5) :
    ClcRead cl (storeClc 2 cl) := by
  have h6 : ∀ o, cl.getD o 0 < 6 := by
    intro o
    by_cases ho : o < cl.length
    · have := h5 _ (getD_mem ho); omega
    · rw [List.getD_eq_getElem?_getD, List.getElem?_eq_none (by omega)]; decide
  obtain ⟨⟨hs4, hs1⟩, hsz⟩ := clcSkip_spec cl
  obtain ⟨z, hw, hlast⟩ := trimZeros_spec (clcOrder.map fun o => cl.getD o 0)
  generalize hst : trimZeros (clcOrder.map fun o => cl.getD o 0) = stored at *
  have hwlen : stored.length + z = 18 := by
    have := congrArg List.length hw
    simpa [clcOrder] using this.symm
  have hstored : stored = (clcOrder.take stored.length).map fun o => cl.getD o 0 := by
    rw [List.map_take, hw, List.take_left]
  have hB : ∀ o ∈ clcOrder.drop stored.length, cl.getD o 0 = 0 := by
    intro o ho
    have : cl.getD o 0 ∈ (clcOrder.drop stored.length).map fun o => cl.getD o 0 := List.mem_map_of_mem ho
    rw [List.map_drop, hw, List.drop_left] at this
    exact List.eq_of_mem_replicate this
  have hle : clcSkip cl ≤ stored.length := by
    by_contra hlt
    have hall : ∀ o ∈ clcOrder, cl.getD o 0 = 0 := by
      intro o ho
      rw [← List.take_append_drop stored.length clcOrder, List.mem_append] at ho
      rcases ho with ho | ho
      · exact hsz o (List.take_subset_take_left clcOrder (by omega) ho)
      · exact hB o ho
    have := clcUsed_order h18 h5
    rw [clcUsed_zero hall, hk] at this
    omega
  have hsplit : clcOrder = clcOrder.take (clcSkip cl) ++ (clcOrder.take stored.length).drop (clcSkip cl) ++ clcOrder.drop stored.length := by
    have h1 : clcOrder.take (clcSkip cl) = (clcOrder.take stored.length).take (clcSkip cl) := by
      rw [List.take_take, Nat.min_eq_left hle]
    rw [h1, List.take_append_drop, List.take_append_drop]
  generalize hos : (clcOrder.take stored.length).drop (clcSkip cl) = os at *
  have hdrop : clcOrder.drop (clcSkip cl) = os ++ clcOrder.drop stored.length := by
    have h1 := congrArg (List.drop (clcSkip cl)) hsplit
    rw [List.append_assoc] at h1
    rw [h1]
    apply List.drop_left'
    rw [List.length_take]
    have : clcOrder.length = 18 := rfl
    omega
  have hused : 0 + clcUsed cl os = 32 := by
    have h1 := clcUsed_order h18 h5
    rw [hsplit, clcUsed_append, clcUsed_append, clcUsed_zero hsz, clcUsed_zero hB, hk] at h1
    omega
  obtain ⟨num, hread⟩ := readClc_multi h6 (clcOrder.drop stored.length) os (List.replicate 18 0) 0 0 hused (by
    intro a b hab hb
    have h1 : stored = ((clcOrder.take (clcSkip cl) ++ a).map fun o => cl.getD o 0) ++ b.map fun o => cl.getD o 0 := by
      have h2 : clcOrder.take stored.length = clcOrder.take (clcSkip cl) ++ (a ++ b) := by
        rw [hab, ← hos]
        have h1 : clcOrder.take (clcSkip cl) = (clcOrder.take stored.length).take (clcSkip cl) := by
          rw [List.take_take, Nat.min_eq_left hle]
        rw [h1, List.take_append_drop]
      rw [← List.map_append, List.append_assoc, ← h2]
      exact hstored
    obtain ⟨x, hx, hne⟩ := hlast _ _ h1.symm (by simpa using hb)
    obtain ⟨o, ho, rfl⟩ := List.mem_map.mp hx
    exact ⟨o, ho, hne⟩)
  rw [setAll_order h18 hsplit hsz hB] at hread
  refine ⟨_, 32, num, ?_, Or.inr rfl, by rw [hdrop]; exact hread⟩
  rw [storeClc_eq, if_pos (by decide), hst]
  congr 1
  conv_lhs => rw [hstored]
  rw [← List.map_drop, hos, List.flatMap_map]

theorem storeClc_single {cl : List Nat} (h18 : cl.length = 18) (h5 : ∀ l ∈ cl, l ≤ 5) (hk : kraftLens 5 cl < 2 ^ 5)
    (h1 : cl.countP (· ≠ 0) = 1) : ClcRead cl (storeClc 1 cl) := by
  have h6 : ∀ o, cl.getD o 0 < 6 := by
    intro o
    by_cases ho : o < cl.length
    · have := h5 _ (getD_mem ho); omega
    · rw [List.getD_eq_getElem?_getD, List.getElem?_eq_none (by omega)]; decide
  obtain ⟨⟨hs4, hs1⟩, hsz⟩ := clcSkip_spec cl
  have hsplit : clcOrder = clcOrder.take (clcSkip cl) ++ clcOrder.drop (clcSkip cl) ++ [] := by
    rw [List.append_nil, List.take_append_drop]
  generalize hos : clcOrder.drop (clcSkip cl) = os at *
  have hused : 0 + clcUsed cl os < 32 := by
    have h1 := clcUsed_order h18 h5
    rw [hsplit, clcUsed_append, clcUsed_append, clcUsed_zero hsz] at h1
    omega
  have hread := readClc_single h6 os (List.replicate 18 0) 0 0 hused
  rw [setAll_order h18 hsplit hsz (by simp)] at hread
  have hcount : os.countP (fun o => decide (cl.getD o 0 ≠ 0)) = 1 := by
    have e1 : clcOrder.countP (fun o => decide (cl.getD o 0 ≠ 0)) = 1 := by
      rw [clcOrder_perm.countP_eq, ← h1]
      have : cl = (List.range 18).map fun o => cl.getD o 0 := by
        apply List.ext_getElem
        · simp [h18]
        · intro j h1 h2
          rw [List.getElem_map, List.getElem_range, List.getD_eq_getElem?_getD, List.getElem?_eq_getElem h1]; rfl
      conv_rhs => rw [this]
      rw [List.countP_map]
      rfl
    rw [hsplit, List.append_nil, List.countP_append] at e1
    have e2 : (clcOrder.take (clcSkip cl)).countP (fun o => decide (cl.getD o 0 ≠ 0)) = 0 := by
      rw [List.countP_eq_zero]
      intro o ho
      simp only [hsz o ho, ne_eq, not_true_eq_false, decide_false, Bool.false_eq_true, not_false_eq_true]
    omega
  refine ⟨_, _, _, ?_, Or.inl ?_, by rw [hos]; exact hread⟩
  · rw [storeClc_eq, if_neg (by decide), ← List.map_drop, hos, List.flatMap_map]
  · rw [hcount]

end Brunsli
