import Verif.HuffStore
import Verif.Varint
/-!
# Prefix codes: the whole round trip, and reading arbitrary descriptions
-/

namespace Brunsli

open P

/-! ## Round trip -/

theorem bitLength_eq (n : Nat) : bitLength n = if n = 0 then 0 else Nat.log2 n + 1 := by
  induction n using Nat.strongRecOn with
  | _ n ih =>
    rw [bitLength]
    by_cases h : n = 0
    · simp [h]
    · rw [dif_neg h, if_neg h, ih (n / 2) (by omega), Nat.log2_def n]
      by_cases h2 : n / 2 = 0
      · have : n = 1 := by omega
        subst this; decide
      · rw [if_neg h2, if_pos (by omega)]

theorem decMaxBits_eq {n : Nat} : bitLength (n - 1) = decMaxBits n := by
  rw [bitLength_eq, decMaxBits]
  by_cases h : n > 1
  · rw [if_neg (by omega), if_pos h]
  · rw [if_pos (by omega), if_neg h]

theorem lt_decMaxBits {n s : Nat} (h : s < n) : s < 2 ^ decMaxBits n := by
  unfold decMaxBits
  split
  · have := (log2_bounds (n := n - 1) (by omega)).2
    omega
  · have : s = 0 := by omega
    simp [this]

theorem mem_occurring {histo : List Nat} {s : Nat} : s ∈ occurring histo ↔ s < histo.length ∧ histo.getD s 0 ≠ 0 := by
  simp [occurring, -List.getD_eq_getElem?_getD]

theorem occurring_nodup (histo : List Nat) : (occurring histo).Nodup := List.Nodup.filter _ List.nodup_range

theorem occurring_length (histo : List Nat) : (occurring histo).length = histo.countP (· ≠ 0) := by
  rw [occurring, ← List.countP_eq_length_filter]
  have : histo = (List.range histo.length).map fun i => histo.getD i 0 := by
    apply List.ext_getElem
    · simp
    · intro i h1 h2
      simp [List.getElem?_eq_getElem h1]
  conv_rhs => rw [this]
  rw [List.countP_map]
  rfl

/-- One symbol of a simple code. -/
theorem simpleSym_reads {n s : Nat} (h : s < n) :
    Reads (do let s ← readBits (decMaxBits n); P.guard (s < n); Pure.pure s) (bitsOf (decMaxBits n) s) s :=
  Reads.bind' (readBits_reads (lt_decMaxBits h)) (Reads.seqGuard h (Reads.pure _)) (List.append_nil _).symm

/-- Four symbols are the only case with a further bit. -/
theorem readSimple_reads {n : Nat} {S : List Nat} {b : Nat} (hb : b < 2) (hS : S.Nodup) (hlt : ∀ s ∈ S, s < n) (h1 : 1 ≤ S.length)
    (h4 : S.length ≤ 4) {t : Nat × List Ent} {m : Mem}
    (ht : simpleTable (if S.length ≤ 3 then S.length else 4 + b) S = some t) (hm : doubleTable t = some m) :
    Reads (readSimple n) (bitsOf 2 (S.length - 1) ++ (S.flatMap (bitsOf (decMaxBits n)) ++ if S.length ≤ 3 then [] else bitsOf 1 b))
      (some m) := by
  unfold readSimple
  refine Reads.bind (readBits_reads (by omega)) ?_
  rw [show S.length - 1 + 1 = S.length by omega]
  refine Reads.bind (Reads.replicate _ S fun s hs => simpleSym_reads (hlt s hs)) ?_
  refine Reads.seqGuard hS ?_
  by_cases h3 : S.length ≤ 3
  · rw [if_pos h3]
    rw [if_pos h3] at ht
    refine Reads.bind' (e₁ := []) (a := S.length) ?_ ?_ (List.append_nil _).symm
    · unfold simpleNum
      rw [if_neg (by omega)]
      exact Reads.pure' (by omega)
    simp only [ht]
    exact Reads.pure' hm
  · rw [if_neg h3]
    rw [if_neg h3] at ht
    refine Reads.bind' (e₁ := bitsOf 1 b) (a := 4 + b) ?_ ?_ (List.append_nil _).symm
    · unfold simpleNum
      rw [if_pos (by omega)]
      exact Reads.bind' (readBits_reads hb) (Reads.pure _) (List.append_nil _).symm
    simp only [ht]
    exact Reads.pure' hm

theorem buildAndStore_reads {histo : List Nat} (hn1 : 1 ≤ histo.length) (hn : histo.length ≤ 2 ^ 15) (hd : ∀ d ∈ histo, d < 2 ^ 31) :
    ∃ depth bits m, buildAndStore histo = some (depth, bits) ∧ Reads (readCode histo.length) bits (some m) ∧
      depth.length = histo.length ∧
      ∀ s < histo.length, histo.getD s 0 ≠ 0 → Reads (readHuff m 8) (huffWord depth s) s := by
  have hcount := occurring_length histo
  by_cases h1 : (occurring histo).length ≤ 1
  · -- a constant code
    have hs0 : (occurring histo).getD 0 0 < histo.length := by
      match ho : occurring histo, h1 with
      | [], _ => exact hn1
      | [s], _ => exact (mem_occurring.mp (by rw [ho]; simp : s ∈ occurring histo)).1
    obtain ⟨m, hm, hlook⟩ := doubleTable_lookup (tb := 0) (by omega) (T := [⟨0, (occurring histo).getD 0 0⟩]) rfl (by simp)
    refine ⟨List.replicate histo.length 0, bitsOf 4 1 ++ bitsOf (bitLength (histo.length - 1)) ((occurring histo).getD 0 0), m, ?_,
      ?_, by simp, ?_⟩
    · simp only [buildAndStore, h1, ↓reduceIte]
    · unfold readCode
      refine Reads.seqGuard hn ?_
      rw [show bitsOf 4 1 = bitsOf 2 1 ++ bitsOf 2 0 by decide, List.append_assoc]
      refine Reads.bind (readBits_reads (by decide)) ?_
      rw [if_pos rfl, decMaxBits_eq]
      have := readSimple_reads (n := histo.length) (S := [(occurring histo).getD 0 0]) (b := 0) (by decide) (by simp)
        (by simpa [-List.getD_eq_getElem?_getD] using hs0) (by simp) (by simp) (t := (0, [⟨0, (occurring histo).getD 0 0⟩])) (m := m) rfl hm
      simpa [-List.getD_eq_getElem?_getD] using this
    · intro s hs hne
      have : s ∈ occurring histo := mem_occurring.mpr ⟨hs, hne⟩
      have e : occurring histo = [s] := by
        match ho : occurring histo, h1 with
        | [], _ => rw [ho] at this; simp at this
        | [x], _ => rw [ho] at this; simp at this; rw [this]
      have hw : huffWord (List.replicate histo.length 0) s = [] := by
        apply List.eq_nil_of_length_eq_zero
        simp [huffWord, hs]
      rw [hw]
      intro rest
      unfold readHuff
      obtain ⟨_, h⟩ := hlook (ofBits (List.take 15 ([] ++ rest)))
      rw [h]
      simp [e, Nat.mod_one]
  · obtain ⟨depth, hdep, hok⟩ := createHuffmanTree_ok (data := histo) (limit := 15) (by omega)
      (Nat.le_trans List.countP_le_length hn) hd
    have hc := complete_of_depths hok (Nat.le_refl _) hn
    have hlen := hok.length
    have hfinal : ∀ m, Decodes m depth → ∀ s < histo.length, histo.getD s 0 ≠ 0 → Reads (readHuff m 8) (huffWord depth s) s := by
      intro m hm s hs hne
      exact readHuff_reads hc hm (by omega) (Nat.pos_of_ne_zero ((hok.support s hs).mpr hne))
    by_cases h4 : (occurring histo).length ≤ 4
    · obtain ⟨hperm, hsort⟩ := selSort_spec (fun x => depth.getD x 0) (occurring histo)
      have hSlen := hperm.length_eq
      have hmem : ∀ s, s ∈ selSort (fun x => depth.getD x 0) (occurring histo) ↔ s < depth.length ∧ depth.getD s 0 ≠ 0 := by
        intro s
        rw [hperm.mem_iff, mem_occurring, hlen]
        constructor
        · rintro ⟨a, b⟩; exact ⟨a, (hok.support s a).mpr b⟩
        · rintro ⟨a, b⟩; exact ⟨a, (hok.support s a).mp b⟩
      obtain ⟨t, m, ht, hm, hdec⟩ := simple_decodes hc (hperm.nodup_iff.mpr (occurring_nodup histo)) hmem hsort (by omega) (by omega)
      refine ⟨depth, storeSimple depth (occurring histo) (bitLength (histo.length - 1)), m, ?_, ?_, hlen, hfinal m hdec⟩
      · simp only [buildAndStore, h1, h4, hdep, ↓reduceIte]
      · unfold readCode
        refine Reads.seqGuard hn ?_
        simp only [storeSimple]
        refine Reads.bind (readBits_reads (by decide)) ?_
        rw [if_pos rfl, decMaxBits_eq, ← hSlen]
        exact readSimple_reads (by split <;> decide) (hperm.nodup_iff.mpr (occurring_nodup histo))
          (fun s hs => by have := ((hmem s).mp hs).1; omega) (by omega) (by omega) ht hm
    · obtain ⟨skip, e, m, hst, hsk, hsk1, hr, hdec⟩ := storeTree_read hc
      refine ⟨depth, bitsOf 2 skip ++ e, m, ?_, ?_, hlen, hfinal m hdec⟩
      · simp only [buildAndStore, h1, h4, hdep, hst, ↓reduceIte]
      · unfold readCode
        refine Reads.seqGuard hn ?_
        refine Reads.bind (readBits_reads (by omega)) ?_
        rw [if_neg hsk1, ← hlen]
        exact hr

/-! ## Arbitrary descriptions -/

/-- A table over `n` symbols that gives an answer for every window. -/
def Total (m : Mem) (root n : Nat) : Prop := ∀ W, ∃ l s, lookup m root W = some (l, s) ∧ l ≤ 15 ∧ s < n

theorem total_of_codeAt {lens : List Nat} (hc : Complete lens) {m : Mem} {root : Nat}
    (hm : ∀ W, lookup m root W = codeAt 15 0 (sortedCode 15 lens) (rev 15 W)) : Total m root lens.length := by
  intro W
  obtain ⟨p, hp⟩ := codeAt_exists (M := 15) (v := 0) (x := rev 15 W) (L := sortedCode 15 lens) (Nat.zero_le _) (by
    rw [kraft_sortedCode hc.depth_le, hc.kraft, Nat.zero_add]; exact rev_lt _ _)
  have := mem_sortedCode.mp (codeAt_mem hp)
  exact ⟨p.1, p.2, by rw [hm, hp], this.1.2, this.2.1⟩

theorem readLens_ok (m : Mem) (n : Nat) (st : CL) (bs : List Bool) {st' : CL} {rest : List Bool} (h : st.Ok) (hl : st.lens.length ≤ n)
    (hr : readLens m n st bs = some (st', rest)) : st'.Ok ∧ st'.lens.length ≤ n := by
  fun_induction readLens m n st bs with
  | case1 => simp at hr
  | case2 st bs hc c bs' hh hc16 ih =>
    apply ih (CL.lit_ok h hc16) _ hr
    simp only [CL.lit, List.length_append, List.length_singleton]; omega
  | case3 => simp at hr
  | case4 => simp at hr
  | case5 st bs hc c bs' hh hc16 b bs'' hb hn ih => exact ih (CL.repeat_ok h c b) (by omega) hr
  | case6 st bs hc =>
    simp only [Option.some.injEq, Prod.mk.injEq] at hr
    rw [← hr.1]; exact ⟨h, hl⟩

theorem kraftLens_set {M v : Nat} (hv : v ≠ 0) : ∀ (cl : List Nat) (o : Nat), o < cl.length → cl.getD o 0 = 0 →
    kraftLens M (cl.set o v) = kraftLens M cl + 2 ^ (M - v) ∧ (cl.set o v).countP (· ≠ 0) = cl.countP (· ≠ 0) + 1 := by
  intro cl
  induction cl with
  | nil => intro o h; simp at h
  | cons a cl ih =>
    intro o ho h0
    have e : ∀ (x : Nat) l, kraftLens M (x :: l) = (if x = 0 then 0 else 2 ^ (M - x)) + kraftLens M l := by intro x l; simp [kraftLens]
    cases o with
    | zero =>
      simp at h0
      subst h0
      simp only [List.set_cons_zero, e, if_neg hv]
      simp [hv]; omega
    | succ o =>
      obtain ⟨h1, h2⟩ := ih o (by simpa using ho) (by simpa using h0)
      simp only [List.set_cons_succ, e, List.countP_cons, h1, h2]
      constructor <;> omega

theorem set_zero_self : ∀ (cl : List Nat) (o : Nat), cl.getD o 0 = 0 → cl.set o 0 = cl := by
  intro cl
  induction cl with
  | nil => intro o _; rfl
  | cons a cl ih =>
    intro o h
    cases o with
    | zero => simp at h; simp [h]
    | succ o => simp only [List.set_cons_succ]; rw [ih o (by simpa using h)]

theorem readClc_ok (os : List Nat) : ∀ (cl : List Nat) (used num : Nat) (bs : List Bool) (r : List Nat × Nat × Nat) (rest : List Bool),
    os.Nodup → (∀ o ∈ os, o < 18) → (∀ o ∈ os, cl.getD o 0 = 0) → cl.length = 18 → (∀ l ∈ cl, l ≤ 5) →
    used = kraftLens 5 cl → num = cl.countP (· ≠ 0) → readClc os cl used num bs = some (r, rest) →
    r.1.length = 18 ∧ (∀ l ∈ r.1, l ≤ 5) ∧ r.2.1 = kraftLens 5 r.1 ∧ r.2.2 = r.1.countP (· ≠ 0) := by
  induction os with
  | nil =>
    intro cl used num bs r rest _ _ _ h1 h2 h3 h4 h
    simp [readClc] at h
    rw [← h.1]; exact ⟨h1, h2, h3, h4⟩
  | cons o os ih =>
    intro cl used num bs r rest hnd hos hz h1 h2 h3 h4 h
    rw [readClc] at h
    split at h
    · simp only [bind_apply] at h
      split at h
      · simp at h
      · rename_i v bs' hv
        have hv6 := readClcWord_lt hv
        have hndo := List.nodup_cons.mp hnd
        have ho := hos o List.mem_cons_self
        have ho0 := hz o List.mem_cons_self
        split at h
        · rename_i hv0
          obtain ⟨k1, k2⟩ := kraftLens_set (M := 5) hv0 cl o (by omega) ho0
          have hp : 32 / 2 ^ v = 2 ^ (5 - v) := by
            rw [show 32 = 2 ^ 5 by rfl, Nat.pow_div (by omega) (by decide)]
          refine ih _ _ _ _ _ _ hndo.2 (fun x hx => hos x (List.mem_cons_of_mem _ hx)) ?_ (by simpa using h1) ?_
            (by rw [k1, h3, hp]) (by rw [k2, h4]) h
          · intro x hx
            have : o ≠ x := fun e => hndo.1 (e ▸ hx)
            rw [List.getD_eq_getElem?_getD, List.getElem?_set_ne this, ← List.getD_eq_getElem?_getD]
            exact hz x (List.mem_cons_of_mem _ hx)
          · intro l hl
            rcases List.mem_or_eq_of_mem_set hl with hl | hl
            · exact h2 l hl
            · omega
        · rename_i hv0
          have hv0 : v = 0 := by simpa using hv0
          subst hv0
          rw [set_zero_self cl o ho0] at h
          exact ih _ _ _ _ _ _ hndo.2 (fun x hx => hos x (List.mem_cons_of_mem _ hx)) (fun x hx => hz x (List.mem_cons_of_mem _ hx))
            h1 h2 h3 h4 h
    · simp at h
      rw [← h.1]; exact ⟨h1, h2, h3, h4⟩

theorem kraftLens_scale {limit : Nat} (hl : limit ≤ 15) : ∀ l : List Nat, (∀ x ∈ l, x ≤ limit) →
    kraftLens 15 l = 2 ^ (15 - limit) * kraftLens limit l := by
  intro l
  induction l with
  | nil => intro _; simp [kraftLens]
  | cons a l ih =>
    intro hx
    have e : ∀ M, kraftLens M (a :: l) = (if a = 0 then 0 else 2 ^ (M - a)) + kraftLens M l := by
      intro M; simp [kraftLens]
    rw [e, e, ih fun x hx' => hx x (List.mem_cons_of_mem _ hx'), Nat.mul_add]
    congr 1
    split
    · simp
    · have := hx a List.mem_cons_self
      rw [← Nat.pow_add]; congr 1; omega

/-- The table of an accepted code length code fits its 32 entries and answers for every window. -/
theorem clc_table {cl : List Nat} (h1 : cl.length = 18) (h2 : ∀ l ∈ cl, l ≤ 5)
    (h : cl.countP (· ≠ 0) = 1 ∨ kraftLens 5 cl = 32) : ∃ m total, buildTable 32 5 cl = some (m, total) ∧ Total m 5 18 := by
  rcases h with h | h
  · have hlen : (sortedCode 15 cl).length = 1 := by
      rw [(sortedCode_perm fun l hl => Nat.le_trans (h2 l hl) (by decide)).length_eq, List.length_map]
      rw [← h, ← occurring_length]; rfl
    match hs : sortedCode 15 cl, hlen with
    | [p], _ =>
      obtain ⟨m, hm, hmem⟩ := fill_mem 32 5 (by decide) ⟨0, p.2⟩
      have hp := (mem_sortedCode.mp (by rw [hs]; simp : p ∈ sortedCode 15 cl)).2.1
      refine ⟨m, 32, ?_, ?_⟩
      · unfold buildTable
        rw [if_neg (by omega), hs]
        simp only [hm]
      · intro W
        refine ⟨0, p.2, ?_, by omega, by omega⟩
        unfold lookup
        rw [hmem _ (Nat.mod_lt _ (by decide))]
        simp
  · have hc : Complete cl := ⟨by omega, fun l hl => Nat.le_trans (h2 l hl) (by decide), by
      rw [kraftLens_scale (limit := 5) (by decide) cl h2, h]⟩
    obtain ⟨m, total, hb, _, hm⟩ := buildTable_spec (root := 5) (by decide) (by decide) hc (cap := 32) (Or.inl ⟨h2, by decide⟩)
    exact ⟨m, total, hb, h1 ▸ total_of_codeAt hc hm⟩

/-- Accepted code lengths form a complete code, and no table overflows. -/
theorem readComplex_safe {n skip : Nat} (hn : n ≤ 2 ^ 15) {bs rest : List Bool} {r : Option Mem}
    (h : readComplex n skip bs = some (r, rest)) : ∃ m, r = some m ∧ Total m 8 n := by
  unfold readComplex at h
  simp only [bind_apply] at h
  split at h
  · simp at h
  · rename_i x bs1 hclc
    obtain ⟨cl, used, num⟩ := x
    simp only [guard_apply] at h
    have hfacts : ∀ k, (clcOrder.drop k).Nodup ∧ ∀ o ∈ clcOrder.drop k, o < 18 := by
      intro k
      have h1 : clcOrder.Nodup ∧ ∀ o ∈ clcOrder, o < 18 := by decide
      exact ⟨h1.1.sublist (List.drop_sublist _ _), fun o ho => h1.2 o (List.mem_of_mem_drop ho)⟩
    obtain ⟨a1, a2, a3, a4⟩ := readClc_ok _ _ _ _ _ _ _ (hfacts skip).1 (hfacts skip).2 (by
      intro o ho; rw [List.getD_eq_getElem?_getD, List.getElem?_replicate]; split <;> rfl) (by simp) (by simp) (by decide) (by decide) hclc
    simp only at a1 a2 a3 a4
    by_cases hgo : num = 1 ∨ used = 32
    · rw [if_pos hgo] at h
      simp only at h
      obtain ⟨m5, tot, hb, _⟩ := clc_table a1 a2 (by rw [← a4, ← a3]; exact hgo)
      unfold readCodeLengths at h
      rw [hb] at h
      simp only at h
      cases hrl : readLens m5 n CL.init bs1 with
      | none => rw [hrl] at h; simp at h
      | some x =>
        obtain ⟨st, bs2⟩ := x
        obtain ⟨hok, hle⟩ := readLens_ok _ _ _ _ CL.init_ok (by simp [CL.init]) hrl
        rw [hrl] at h
        simp only at h
        by_cases hu : st.used = 2 ^ 15
        · have hc : Complete (st.lens ++ List.replicate (n - st.lens.length) 0) := ⟨by simp; omega, by
            intro l hl
            rcases List.mem_append.mp hl with hl | hl
            · exact hok.lens l hl
            · have := (List.mem_replicate.mp hl).2; omega, by
            rw [kraftLens_append, kraftLens_replicate, if_pos rfl, Nat.add_zero, ← hok.used, hu]⟩
          have hlen : (st.lens ++ List.replicate (n - st.lens.length) 0).length = n := by simp; omega
          obtain ⟨m, total, hb8, htot, hm⟩ := buildTable_spec (root := 8) (by decide) (by decide) hc (cap := n + 376) (Or.inr (by
            rw [hlen]; omega))
          rw [if_neg (by simpa using hu)] at h
          simp only [hb8] at h
          rw [bind_apply, guard_apply, if_pos (by have := htot.1; omega)] at h
          simp only [pure_apply, Option.some.injEq, Prod.mk.injEq] at h
          refine ⟨m, ?_, hlen ▸ total_of_codeAt hc hm⟩
          rw [← h.1, copyTable_eq htot.2.2]
        · rw [if_pos hu] at h; simp at h
    · rw [if_neg hgo] at h; simp at h

theorem replicate_all {α β : Type} {p : P α β} {q : β → Prop} (hp : ∀ s x r, p s = some (x, r) → q x) (n : Nat) :
    ∀ (s : List α) (xs : List β) (r : List α), P.replicate n p s = some (xs, r) → xs.length = n ∧ ∀ x ∈ xs, q x := by
  induction n with
  | zero => intro s xs r h; simp [P.replicate] at h; simp [h.1]
  | succ n ih =>
    intro s xs r h
    simp only [P.replicate, bind_apply] at h
    split at h
    · simp at h
    · rename_i a s1 ha
      split at h
      · simp at h
      · rename_i as s2 has
        simp only [pure_apply, Option.some.injEq, Prod.mk.injEq] at h
        obtain ⟨h1, h2⟩ := ih _ _ _ has
        rw [← h.1]
        refine ⟨by simp [h1], ?_⟩
        intro x hx
        rcases List.mem_cons.mp hx with rfl | hx
        · exact hp _ _ _ ha
        · exact h2 x hx

theorem doubleTable_total {n tb : Nat} (htb : tb ≤ 8) {T : List Ent} (hT : T.length = 2 ^ tb) (hbits : ∀ e ∈ T, e.bits ≤ 8 ∧ e.value < n) :
    ∃ m, doubleTable (tb, T) = some m ∧ Total m 8 n := by
  obtain ⟨m, h1, h2⟩ := doubleTable_lookup htb hT fun e he => (hbits e he).1
  refine ⟨m, h1, ?_⟩
  intro W
  obtain ⟨h, e⟩ := h2 W
  have := hbits _ (List.getElem_mem h)
  exact ⟨_, _, e, by omega, this.2⟩

theorem swap2_lt {n a b : Nat} (ha : a < n) (hb : b < n) : (swap2 a b).1 < n ∧ (swap2 a b).2 < n := by
  unfold swap2; split <;> exact ⟨by assumption, by assumption⟩

theorem simpleTable_ok {n num : Nat} : ∀ {syms : List Nat}, (∀ x ∈ syms, x < n) →
    ((syms.length = 4 ∧ (num = 4 ∨ num = 5)) ∨ (1 ≤ syms.length ∧ syms.length ≤ 3 ∧ num = syms.length)) →
    ∃ t, simpleTable num syms = some t ∧ t.1 ≤ 8 ∧ t.2.length = 2 ^ t.1 ∧ ∀ e ∈ t.2, e.bits ≤ 8 ∧ e.value < n
  | [], _, h => by simp at h
  | [a], hlt, h => by
    simp at h; subst h
    have ha := hlt a (by simp)
    refine ⟨_, rfl, by simp only; omega, rfl, ?_⟩
    simp [ha]
  | [a, b], hlt, h => by
    simp at h; subst h
    have hab := swap2_lt (hlt a (by simp)) (hlt b (by simp))
    refine ⟨_, rfl, by simp only; omega, rfl, ?_⟩
    simp [hab]
  | [a, b, c], hlt, h => by
    simp at h; subst h
    have ha := hlt a (by simp)
    have hab := swap2_lt (hlt b (by simp)) (hlt c (by simp))
    refine ⟨_, rfl, by simp only; omega, rfl, ?_⟩
    simp [hab, ha]
  | [a, b, c, d], hlt, h => by
    simp at h
    have ha := hlt a (by simp)
    have hb := hlt b (by simp)
    have hcd := swap2_lt (hlt c (by simp)) (hlt d (by simp))
    rcases h with rfl | rfl
    · have hsel := selSort_spec id [a, b, c, d]
      refine ⟨_, rfl, by simp only; omega, rfl, ?_⟩
      have hget : ∀ i < 4, (selSort id [a, b, c, d]).getD i 0 < n := by
        intro i hi
        have hle : (selSort id [a, b, c, d]).length = 4 := hsel.1.length_eq
        exact hlt _ (hsel.1.mem_iff.mp (getD_mem (by omega)))
      intro e he
      simp only [List.mem_cons, List.not_mem_nil, or_false] at he
      rcases he with rfl | rfl | rfl | rfl <;> exact ⟨by simp only; omega, hget _ (by decide)⟩
    · refine ⟨_, rfl, by simp only; omega, rfl, ?_⟩
      simp [ha, hb, hcd]
  | _ :: _ :: _ :: _ :: _ :: _, _, h => by simp only [List.length_cons] at h; omega

theorem readSimple_safe {n : Nat} {bs rest : List Bool} {r : Option Mem}
    (h : readSimple n bs = some (r, rest)) : ∃ m, r = some m ∧ Total m 8 n := by
  unfold readSimple at h
  obtain ⟨k, bs1, hk, h⟩ := bind_some h
  obtain ⟨syms, bs2, hs, h⟩ := bind_some h
  obtain ⟨_, bs2', hg, h'⟩ := bind_some h
  obtain ⟨num, bs3, hnum, h⟩ := bind_some h'
  have hk4 := readBits_lt hk
  obtain ⟨hl, hlt⟩ := replicate_all (q := fun s => s < n) (by
    intro s x r hx
    obtain ⟨v, s1, hv, hx⟩ := bind_some hx
    obtain ⟨_, s2, hg, hx⟩ := bind_some hx
    have := (guard_some hg).1
    rw [← (pure_some hx).1]; exact this) _ _ _ _ hs
  have hn : (syms.length = 4 ∧ (num = 4 ∨ num = 5)) ∨ (1 ≤ syms.length ∧ syms.length ≤ 3 ∧ num = syms.length) := by
    unfold simpleNum at hnum
    split at hnum
    · obtain ⟨b, bs4, hb, hnum⟩ := bind_some hnum
      have hb2 := readBits_lt hb
      have := (pure_some hnum).1
      omega
    · have := (pure_some hnum).1
      omega
  obtain ⟨⟨tb, T⟩, k1, k2, k3, k4⟩ := simpleTable_ok hlt hn
  obtain ⟨m, hm, ht⟩ := doubleTable_total k2 k3 k4
  simp only [k1] at h
  exact ⟨m, by rw [← (pure_some h).1, hm], ht⟩

theorem readCode_safe {n : Nat} {bs rest : List Bool} {r : Option Mem}
    (h : readCode n bs = some (r, rest)) : ∃ m, r = some m ∧ Total m 8 n := by
  unfold readCode at h
  simp only [bind_apply, guard_apply] at h
  by_cases hn : n ≤ 2 ^ 15
  · rw [if_pos hn] at h
    simp only at h
    split at h
    · simp at h
    · split at h
      · exact readSimple_safe h
      · exact readComplex_safe hn h
  · rw [if_neg hn] at h; simp at h

end Brunsli
