import Verif.BitProg
/-!
# How many bits prefix codes and histograms take

The tests of `DecodeHistogramDataSection` ask for bounds on the number of bits of the description of a prefix code
(c/dec/brunsli_decode.cc:1870), of a word of such a code (c/dec/context_map_decode.cc:50) and of a histogram
(c/dec/brunsli_decode.cc:1907).  Here these bounds are proved, for arbitrary input.
-/

namespace Brunsli

open P

namespace Takes

/-- What holds of every result may be added. -/
theorem and {α : Type} {c : Nat} {r : P Bool α} {p q : α → Prop} (h : Takes c r p)
    (hq : ∀ bs a rest, r bs = some (a, rest) → q a) : Takes c r (fun a => p a ∧ q a) where
  ext := h.ext
  res bs a rest hr := ⟨⟨(h.res bs a rest hr).1, hq bs a rest hr⟩, (h.res bs a rest hr).2⟩

theorem bind' {α β : Type} {c d e : Nat} {r : P Bool α} {f : α → P Bool β} {p : α → Prop} {q : β → Prop} (hr : Takes c r p)
    (hf : ∀ a, p a → Takes d (f a) q) (he : c + d ≤ e) : Takes e (r >>= f) q := (bind hr hf).mono he fun _ h => h

end Takes

/-! ## Words of a code -/

theorem readHuff_takes_of {m : Mem} {root c n : Nat} (hroot : c ≤ 15) (h : ∀ W, ∃ l s, lookup m root W = some (l, s) ∧ l ≤ c ∧ s < n)
    (hw : ∀ W W', W % 2 ^ c = W' % 2 ^ c → lookup m root W = lookup m root W') : Takes c (readHuff m root) (fun s => s < n) where
  ext bs x hl := by
    have e : lookup m root (ofBits ((bs ++ x).take 15)) = lookup m root (ofBits (bs.take 15)) := by
      apply hw
      have key : ∀ l : List Bool, c ≤ l.length → ofBits (l.take 15) % 2 ^ c = ofBits (l.take c) := by
        intro l hl
        have : l.take 15 = l.take c ++ (l.take 15).drop c := by
          have h1 := List.take_append_drop c (l.take 15)
          rw [List.take_take, Nat.min_eq_left hroot] at h1
          exact h1.symm
        rw [this, ofBits_append]
        have hlen : (l.take c).length = c := by rw [List.length_take]; omega
        have hlt := ofBits_lt (l.take c)
        rw [hlen] at hlt ⊢
        rw [Nat.add_mul_mod_self_left, Nat.mod_eq_of_lt hlt]
      rw [key _ (by rw [List.length_append]; omega), key _ hl, List.take_append_of_le_length hl]
    obtain ⟨l, s, h1, h2, _⟩ := h (ofBits (bs.take 15))
    unfold readHuff
    rw [e, h1]
    simp only
    rw [if_pos (by rw [List.length_append]; omega), if_pos (by omega), List.drop_append_of_le_length (by omega)]
    rfl
  res bs a rest hr := by
    obtain ⟨l, s, h1, h2, h3⟩ := h (ofBits (bs.take 15))
    unfold readHuff at hr
    rw [h1] at hr
    simp only at hr
    split at hr
    · cases hr
      exact ⟨h3, bs.take l, (List.take_append_drop l bs).symm, by rw [List.length_take]; omega⟩
    · cases hr

/-- A word of a code takes at most 15 bits. -/
theorem readHuff_takes {m : Mem} {root n : Nat} (h : Total m root n) : Takes 15 (readHuff m root) (fun s => s < n) where
  ext bs x hl := by
    obtain ⟨l, s, h1, h2, _⟩ := h (ofBits (bs.take 15))
    unfold readHuff
    rw [List.take_append_of_le_length hl, h1]
    simp only
    rw [if_pos (by rw [List.length_append]; omega), if_pos (by omega), List.drop_append_of_le_length (by omega)]
    rfl
  res bs a rest hr := by
    obtain ⟨l, s, h1, h2, h3⟩ := h (ofBits (bs.take 15))
    unfold readHuff at hr
    rw [h1] at hr
    simp only at hr
    split at hr
    · cases hr
      exact ⟨h3, bs.take l, (List.take_append_drop l bs).symm, by rw [List.length_take]; omega⟩
    · cases hr

/-- A word of the code length code takes at most 5 bits. -/
theorem clc_takes {cl : List Nat} (h1 : cl.length = 18) (h2 : ∀ l ∈ cl, l ≤ 5) (h : cl.countP (· ≠ 0) = 1 ∨ kraftLens 5 cl = 32) :
    ∃ m total, buildTable 32 5 cl = some (m, total) ∧ Takes 5 (readHuff m 5) (fun s => s < 18) := by
  rcases h with h | h
  · have hlen : (sortedCode 15 cl).length = 1 := by
      rw [(sortedCode_perm fun l hl => Nat.le_trans (h2 l hl) (by decide)).length_eq, List.length_map]
      rw [← h, ← occurring_length]; rfl
    match hs : sortedCode 15 cl, hlen with
    | [p], _ =>
      obtain ⟨m, hm, hmem⟩ := fill_mem 32 5 (by decide) ⟨0, p.2⟩
      have hp := (mem_sortedCode.mp (by rw [hs]; simp : p ∈ sortedCode 15 cl)).2.1
      have hlook : ∀ W, lookup m 5 W = some (0, p.2) := by
        intro W
        unfold lookup
        rw [hmem _ (Nat.mod_lt _ (by decide))]
        simp
      refine ⟨m, 32, ?_, readHuff_takes_of (by decide) (fun W => ⟨0, p.2, hlook W, by omega, by omega⟩) fun W W' _ => by rw [hlook, hlook]⟩
      unfold buildTable
      rw [if_neg (by omega), hs]
      simp only [hm]
  · have hc : Complete cl := ⟨by omega, fun l hl => Nat.le_trans (h2 l hl) (by decide), by
      rw [kraftLens_scale (limit := 5) (by decide) cl h2, h]⟩
    obtain ⟨m, total, hb, _, hm⟩ := buildTable_spec (root := 5) (by decide) (by decide) hc (cap := 32) (Or.inl ⟨h2, by decide⟩)
    have hle : ∀ p ∈ sortedCode 15 cl, p.1 ≤ 5 := by
      intro p hp
      obtain ⟨_, hlt, hg⟩ := mem_sortedCode.mp hp
      rw [← hg, List.getD_eq_getElem?_getD, List.getElem?_eq_getElem hlt]
      exact h2 _ (List.getElem_mem _)
    refine ⟨m, total, hb, readHuff_takes_of (by decide) (fun W => ?_) fun W W' hW => ?_⟩
    · obtain ⟨p, hp⟩ := codeAt_exists (M := 15) (v := 0) (x := rev 15 W) (L := sortedCode 15 cl) (Nat.zero_le _) (by
        rw [kraft_sortedCode hc.depth_le, hc.kraft, Nat.zero_add]; exact rev_lt _ _)
      have hmem := codeAt_mem hp
      have := mem_sortedCode.mp hmem
      exact ⟨p.1, p.2, by rw [hm, hp], hle p hmem, by omega⟩
    · rw [hm, hm]
      refine codeAt_block (t := 5) (sortedCode_ok hc.depth_le (Nat.le_of_eq hc.kraft)) hle (by decide) ?_
      rw [rev_div_low (by decide), rev_div_low (by decide), ← rev_mod, hW, rev_mod]

theorem readHuff_takes_any {m : Mem} {n : Nat} (h : Total m 8 n) : Takes 15 (readHuff m 8) (fun s => ∀ k, Total m 8 k → s < k) :=
  (Takes.and (readHuff_takes h) fun _ _ _ hr _ hk => readHuff_lt hk hr).mono (Nat.le_refl _) fun _ h => h.2

/-! ## Descriptions of codes -/

theorem clcWord_takes : Takes 4 readClcWord (fun _ => True) where
  ext bs x hl := by
    unfold readClcWord
    rw [List.take_append_of_le_length hl]
    have he : (clcTable.getD (ofBits (bs.take 4)) (0, 0)).1 ≤ 4 := by
      have : ∀ i, (clcTable.getD i (0, 0)).1 ≤ 4 := by
        intro i
        by_cases hi : i < 16
        · revert i; decide
        · rw [List.getD_eq_getElem?_getD, List.getElem?_eq_none (by simp [clcTable]; omega)]; decide
      exact this _
    simp only
    rw [if_pos (by rw [List.length_append]; omega), if_pos (by omega), List.drop_append_of_le_length (by omega)]
    rfl
  res bs a rest hr := by
    unfold readClcWord at hr
    simp only at hr
    split at hr
    · cases hr
      refine ⟨trivial, _, (List.take_append_drop _ bs).symm, ?_⟩
      have : ∀ i, (clcTable.getD i (0, 0)).1 ≤ 4 := by
        intro i
        by_cases hi : i < 16
        · revert i; decide
        · rw [List.getD_eq_getElem?_getD, List.getElem?_eq_none (by simp [clcTable]; omega)]; decide
      rw [List.length_take]
      have := this (ofBits (bs.take 4))
      omega
    · cases hr

theorem readClc_takes : ∀ (os cl : List Nat) (used num : Nat), Takes (4 * os.length) (readClc os cl used num) (fun _ => True)
  | [], cl, used, num => Takes.pure trivial
  | o :: os, cl, used, num => by
    rw [readClc]
    refine Takes.ite (fun _ => ?_) fun _ => (Takes.pure trivial).mono (Nat.zero_le _) fun _ h => h
    refine Takes.bind' (d := 4 * os.length) clcWord_takes (fun v _ => Takes.ite (fun _ => readClc_takes os _ _ _) fun _ => readClc_takes os _ _ _) ?_
    simp; omega

/-- `readLens` as a reader. -/
def lensP (m : Mem) (n : Nat) (st : CL) : P Bool CL := fun bs => readLens m n st bs

theorem readLens_eq (m : Mem) (n : Nat) (st : CL) :
    lensP m n st = if st.lens.length < n ∧ st.used < 2 ^ 15 then
      (readHuff m 5 >>= fun c => if c < 16 then lensP m n (st.lit c) else
        readBits (c - 14) >>= fun b => P.guard (¬(st.repeat c b).lens.length > n) >>= fun _ => lensP m n (st.repeat c b))
    else (Pure.pure st : P Bool CL) := by
  funext bs
  rw [lensP, readLens]
  by_cases h : st.lens.length < n ∧ st.used < 2 ^ 15
  · rw [dif_pos h, if_pos h, bind_apply]
    cases readHuff m 5 bs with
    | none => rfl
    | some y =>
      obtain ⟨c, bs1⟩ := y
      simp only
      by_cases hc : c < 16
      · rw [dif_pos hc, if_pos hc]; rfl
      · rw [dif_neg hc, if_neg hc, bind_apply]
        cases readBits (c - 14) bs1 with
        | none => rfl
        | some z =>
          obtain ⟨b, bs2⟩ := z
          simp only
          rw [bind_apply, guard_apply]
          by_cases hn : (st.repeat c b).lens.length > n
          · rw [dif_pos hn, if_neg (by simpa using hn)]
          · rw [dif_neg hn, if_pos hn]; rfl
  · rw [dif_neg h, if_neg h]
    rfl

/-- Each symbol takes at most 8 bits: a word of at most 5 bits and at most 3 bits of a repetition. -/
theorem readLens_takes {m : Mem} (n : Nat) (hm : Takes 5 (readHuff m 5) (fun s => s < 18)) : ∀ (k : Nat) (st : CL), n - st.lens.length = k →
    Takes (8 * k) (lensP m n st) (fun _ => True) := by
  intro k
  induction k using Nat.strongRecOn with
  | _ k ih =>
    intro st hk
    rw [readLens_eq]
    refine Takes.ite (fun hc => ?_) fun _ => (Takes.pure trivial).mono (Nat.zero_le _) fun _ h => h
    refine Takes.bind' (d := 3 + 8 * (k - 1)) hm (fun c h18 => Takes.ite (fun _ => ?_) fun hc16 => ?_) (by omega)
    · have hl : n - (st.lit c).lens.length = k - 1 := by
        simp only [CL.lit, List.length_append, List.length_singleton]; omega
      exact (ih (k - 1) (by omega) _ hl).mono (by omega) fun _ h => h
    · refine Takes.bind' (d := 8 * (k - 1)) (Takes.bits (c - 14)) (fun b _ => Takes.seqGuard fun hn => ?_) (by omega)
      have := st.repeat_lens (c := c) (b := b) (by omega)
      exact (ih _ (by omega) _ rfl).mono (by omega) fun _ h => h

theorem readCodeLengths_takes {cl : List Nat} {n total : Nat} {m : Mem} (hb : buildTable 32 5 cl = some (m, total))
    (hm : Takes 5 (readHuff m 5) (fun s => s < 18)) : Takes (8 * n) (readCodeLengths cl n) (fun _ => True) := by
  have e : readCodeLengths cl n = (lensP m n CL.init >>= fun st => if st.used ≠ 2 ^ 15 then P.fail
      else Pure.pure (some (st.lens ++ List.replicate (n - st.lens.length) 0))) := by
    funext bs
    unfold readCodeLengths
    rw [hb, bind_apply]
    simp only [lensP]
    cases readLens m n CL.init bs with
    | none => rfl
    | some y =>
      obtain ⟨st, bs1⟩ := y
      simp only
      split <;> rfl
  rw [e]
  exact Takes.bind' (d := 0) (readLens_takes n hm n CL.init (by simp [CL.init])) (fun st _ => Takes.ite (fun _ => Takes.fail) fun _ => Takes.pure trivial) (by omega)

theorem readComplex_takes (n skip : Nat) : Takes (72 + 8 * n) (readComplex n skip) (fun _ => True) := by
  unfold readComplex
  have hfacts : (clcOrder.drop skip).Nodup ∧ ∀ o ∈ clcOrder.drop skip, o < 18 := by
    have h1 : clcOrder.Nodup ∧ ∀ o ∈ clcOrder, o < 18 := by decide
    exact ⟨h1.1.sublist (List.drop_sublist _ _), fun o ho => h1.2 o (List.mem_of_mem_drop ho)⟩
  have hclc := (readClc_takes (clcOrder.drop skip) (List.replicate 18 0) 0 0).and (q := fun r =>
      r.1.length = 18 ∧ (∀ l ∈ r.1, l ≤ 5) ∧ r.2.1 = kraftLens 5 r.1 ∧ r.2.2 = r.1.countP (· ≠ 0)) fun bs a rest h =>
    readClc_ok _ _ _ _ _ _ _ hfacts.1 hfacts.2 (by
      intro o ho; rw [List.getD_eq_getElem?_getD, List.getElem?_replicate]; split <;> rfl) (by simp) (by simp) (by decide) (by decide) h
  have hlen : (clcOrder.drop skip).length ≤ 18 := by rw [List.length_drop]; have : clcOrder.length = 18 := by decide
                                                     omega
  refine Takes.bind' (d := 8 * n) hclc (fun r hr => ?_) (by omega)
  obtain ⟨cl, used, num⟩ := r
  obtain ⟨_, a1, a2, a3, a4⟩ := hr
  simp only at a1 a2 a3 a4 ⊢
  refine Takes.seqGuard fun hgo => ?_
  obtain ⟨m, total, hb, hm⟩ := clc_takes a1 a2 (by rw [← a4, ← a3]; exact hgo)
  refine Takes.bind' (d := 0) (readCodeLengths_takes hb hm) (fun r _ => ?_) (by omega)
  cases r with
  | none => exact Takes.pure trivial
  | some lens =>
    simp only
    split
    · exact Takes.pure trivial
    · exact Takes.seqGuard fun _ => Takes.pure trivial

theorem decMaxBits_le {n : Nat} (h : n ≤ 2 ^ 15) : decMaxBits n ≤ 15 := by
  unfold decMaxBits
  split
  · have : (n - 1).log2 < 15 := (Nat.log2_lt (by omega)).2 (by omega)
    omega
  · omega

theorem readSimple_takes {n : Nat} (h : n ≤ 2 ^ 15) : Takes 72 (readSimple n) (fun _ => True) := by
  unfold readSimple
  have hd := decMaxBits_le h
  refine Takes.bind' (d := 61) (Takes.bits 2) (fun k hk => ?_) (by decide)
  have hone : Takes 15 (do let s ← readBits (decMaxBits n); P.guard (s < n); Pure.pure s : P Bool Nat) (fun _ => True) :=
    Takes.bind' (d := 0) (Takes.bits _) (fun s _ => Takes.seqGuard fun _ => Takes.pure trivial) (by omega)
  refine Takes.bind' (d := 1) (Takes.replicate hone (k + 1)) (fun syms _ => Takes.seqGuard fun _ => ?_) (by omega)
  refine Takes.bind' (d := 0) (c := 1) (p := fun _ => True) ?_ (fun num _ => ?_) (by decide)
  · unfold simpleNum
    exact Takes.ite (fun _ => Takes.bind' (d := 0) (Takes.bits 1) (fun _ _ => Takes.pure trivial) (by decide)) fun _ =>
      (Takes.pure trivial).mono (by decide) fun _ h => h
  · split
    · exact Takes.fail
    · exact Takes.pure trivial

/-- The description of a prefix code over `n` symbols takes at most `74 + 8 n` bits. -/
theorem readCode_takes (n : Nat) : Takes (74 + 8 * n) (readCode n) (fun r => ∃ m, r = some m ∧ Total m 8 n) := by
  refine Takes.mono (p := fun r => True ∧ ∃ m, r = some m ∧ Total m 8 n) (Takes.and ?_ fun bs a rest h => readCode_safe h) (Nat.le_refl _) fun _ h => h.2
  unfold readCode
  refine Takes.seqGuard fun hn => Takes.bind' (d := 72 + 8 * n) (Takes.bits 2) (fun skip _ => Takes.ite (fun _ => ?_) fun _ => readComplex_takes n skip) (by omega)
  exact (readSimple_takes hn).mono (by omega) fun _ h => h

/-! ## Histograms -/

/-- Every walk from here ends within `d` steps. -/
def walkDepth (tree : List Int) : (d pos delta : Nat) → Bool
  | 0, _, _ => false
  | d + 1, pos, delta => [0, 1].all fun b =>
    match tree[pos + (delta + b)]? with
    | none => true
    | some x => if x > 0 then walkDepth tree d (pos + (delta + b)) x.toNat else true

theorem walkTree_takes {tree : List Int} : ∀ (d fuel pos delta : Nat), walkDepth tree d pos delta = true →
    Takes d (walkTree tree fuel pos delta) (fun _ => True)
  | _, 0, _, _, _ => (Takes.pure trivial).mono (Nat.zero_le _) fun _ h => h
  | 0, _ + 1, _, _, h => by cases h
  | d + 1, fuel + 1, pos, delta, h => by
    rw [walkTree]
    refine Takes.bind' (d := d) (Takes.bits 1) (fun b hb => ?_) (by omega)
    rw [walkDepth, List.all_eq_true] at h
    have hb' := h b (by have : b = 0 ∨ b = 1 := by omega
                        rcases this with rfl | rfl <;> simp)
    cases hx : tree[pos + (delta + b)]? with
    | none => exact (Takes.pure trivial).mono (Nat.zero_le _) fun _ h => h
    | some x =>
      rw [hx] at hb'
      simp only at hb' ⊢
      refine Takes.ite (fun hx0 => ?_) fun _ => (Takes.pure trivial).mono (Nat.zero_le _) fun _ h => h
      rw [if_pos hx0] at hb'
      exact walkTree_takes d fuel _ _ hb'

theorem readShort_takes {tree : List Int} {lo hi d : Nat} (ht : TreeOk tree lo hi) (hl : 2 < tree.length) (hd : walkDepth tree d 0 1 = true) :
    Takes d (readShort tree) (fun r => ∃ v, r = some v ∧ lo ≤ v ∧ v ≤ hi) :=
  ((walkTree_takes d _ 0 1 hd).and fun _ _ _ h => walkTree_safe ht _ _ _ _ (Nat.le_refl _) (by omega) (by omega) h).mono (Nat.le_refl _) fun _ h => h.2

theorem readLogs_takes : ∀ n, Takes (6 * n) (readLogs n) (fun r => ∃ logs, r = some logs ∧ logs.length = n ∧ ∀ l ∈ logs, l ≤ 10)
  | 0 => Takes.pure ⟨[], rfl, rfl, by simp⟩
  | n + 1 => by
    rw [readLogs]
    refine Takes.bind' (d := 6 * n) (readShort_takes (d := 6) logTree_ok (by decide) (by decide)) (fun r hr => ?_) (by omega)
    obtain ⟨v, rfl, _, hv⟩ := hr
    refine Takes.bind' (d := 0) (readLogs_takes n) (fun r hr => ?_) (by omega)
    obtain ⟨logs, rfl, h1, h2⟩ := hr
    exact Takes.pure ⟨_, rfl, by simp [h1], by simpa using ⟨hv, h2⟩⟩

theorem readCount_takes {om i code : Nat} (h : code ≤ 10) : Takes 5 (readCountAt om i code) (fun _ => True) := by
  unfold readCountAt readCount
  have hp : precision (code - 1) ≤ 5 := by unfold precision; omega
  refine Takes.ite (fun _ => (Takes.pure trivial).mono (by decide) fun _ h => h) fun _ =>
    Takes.ite (fun _ => (Takes.pure trivial).mono (by decide) fun _ h => h) fun _ =>
    Takes.ite (fun _ => (Takes.pure trivial).mono (by decide) fun _ h => h) fun _ => ?_
  exact Takes.bind' (d := 0) (Takes.bits _) (fun _ _ => Takes.pure trivial) (by omega)

theorem readCounts_takes (om : Nat) : ∀ (i : Nat) (codes : List Nat), (∀ c ∈ codes, c ≤ 10) → Takes (5 * codes.length) (readCounts om i codes) (fun _ => True)
  | _, [], _ => Takes.pure trivial
  | i, code :: codes, h => by
    rw [readCounts]
    refine Takes.bind' (d := 5 * codes.length) (readCount_takes (h code List.mem_cons_self)) (fun c _ => ?_) (by simp; omega)
    exact Takes.bind' (d := 0) (readCounts_takes om (i + 1) codes fun c hc => h c (List.mem_cons_of_mem _ hc)) (fun _ _ => Takes.pure trivial) (by omega)

/-- A histogram takes at most `9 + 18 * 11` bits. -/
theorem readHistogram_takes : Takes (9 + 18 * 11) readHistogram (fun r => ∃ h, r = some h ∧ h.length = 18 ∧ h.sum = 1024) := by
  refine Takes.mono (p := fun r => True ∧ ∃ h, r = some h ∧ h.length = 18 ∧ h.sum = 1024) (Takes.and ?_ fun bs a rest h => ?_) (Nat.le_refl _) fun _ h => h.2
  · unfold readHistogram
    refine Takes.bind' (d := 206) (Takes.bits 1) (fun simple _ => Takes.ite (fun _ => ?_) fun _ => ?_) (by decide)
    · refine Takes.bind' (c := 21) (d := 0) (p := fun _ => True) ?_ (fun _ _ => Takes.pure trivial) (by decide)
      unfold readShortHistogram
      refine Takes.bind' (d := 20) (Takes.bits 1) (fun k _ => Takes.ite (fun _ => ?_) fun _ => ?_) (by decide)
      · exact Takes.bind' (d := 0) (Takes.bits 5) (fun _ _ => Takes.pure trivial) (by decide)
      · refine Takes.bind' (d := 15) (Takes.bits 5) (fun a _ => ?_) (by decide)
        refine Takes.bind' (d := 10) (Takes.bits 5) (fun b _ => Takes.seqGuard fun _ => ?_) (by decide)
        exact Takes.bind' (d := 0) (Takes.bits 10) (fun _ _ => Takes.pure trivial) (by decide)
    · unfold readLongHistogram
      refine Takes.bind' (d := 198) (readShort_takes (d := 8) lengthTree_ok (by decide) (by decide)) (fun r hr => ?_) (by decide)
      obtain ⟨len, rfl, _, h18⟩ := hr
      refine Takes.bind' (d := 5 * len) (readLogs_takes len) (fun r hr => ?_) (by omega)
      obtain ⟨logs, rfl, h1, h2⟩ := hr
      subst h1
      refine Takes.bind' (d := 0) (readCounts_takes _ 0 logs h2) (fun cs _ => Takes.seqGuard fun _ => ?_) (by omega)
      exact Takes.ite (fun _ => Takes.pure trivial) fun _ => Takes.pure trivial
  · obtain ⟨c, h1, h2, h3⟩ := readHistogram_safe h
    exact ⟨c, h1, h2, h3⟩

end Brunsli
