import Verif.BitClient
/-!
# What the decoding tables of prefix codes hold

An entry of the first level that leads to a second level gives the number of further bits to look at; no entry of that part of
the second level has more bits.  So the decoder never drops more bits than it holds.
-/

namespace Brunsli

open P

/-! ## The bits of entries -/

/-- Every entry has at most `B` bits. -/
def LowBits (B : Nat) (m : Mem) : Prop := ∀ x e, m x = some e → e.bits ≤ B

theorem wr_low {B cap : Nat} {m m' : Mem} {i : Nat} {e : Ent} (hm : LowBits B m) (he : e.bits ≤ B) (h : wr cap m i e = some m') : LowBits B m' := by
  unfold wr at h
  split at h
  · cases h
    intro x e' hx
    simp only at hx
    split at hx
    · cases hx; exact he
    · exact hm x e' hx
  · cases h

theorem fill_low {B cap base step : Nat} {e : Ent} (he : e.bits ≤ B) : ∀ (n : Nat) {m m' : Mem}, LowBits B m →
    fill cap m base step n e = some m' → LowBits B m'
  | 0, _, _, hm, h => by cases h; exact hm
  | n + 1, m, m', hm, h => by
    simp only [fill] at h
    cases hw : wr cap m (base + n * step) e with
    | none => rw [hw] at h; cases h
    | some m1 => rw [hw] at h; exact fill_low he n (wr_low hm he hw) h

theorem doubling_low {B cap : Nat} : ∀ (k tb : Nat) {m m' : Mem}, LowBits B m → doubling cap tb m k = some m' → LowBits B m'
  | 0, _, _, _, hm, h => by cases h; exact hm
  | k + 1, tb, m, m', hm, h => by
    simp only [doubling] at h
    split at h
    · refine doubling_low k (tb + 1) ?_ h
      intro x e hx
      simp only at hx
      split at hx
      · exact hm _ e hx
      · exact hm _ e hx
    · cases h

theorem rootFill_low {B cap tb : Nat} : ∀ (L : List (Nat × Nat)) {m : Mem} {key : Nat} {r : Mem × Nat}, LowBits B m → (∀ p ∈ L, p.1 ≤ B) →
    rootFill cap tb m key L = some r → LowBits B r.1
  | [], _, _, _, hm, _, h => by cases h; exact hm
  | p :: L, m, key, r, hm, hL, h => by
    simp only [rootFill] at h
    cases hf : fill cap m key (2 ^ p.1) (2 ^ tb / 2 ^ p.1) ⟨p.1, p.2⟩ with
    | none => rw [hf] at h; cases h
    | some m1 =>
      rw [hf] at h
      exact rootFill_low L (fill_low (e := ⟨p.1, p.2⟩) (hL p List.mem_cons_self) _ hm hf) (fun q hq => hL q (List.mem_cons_of_mem _ hq)) h

theorem decTableBits_le {M root : Nat} {cnt : Nat → Nat} (len left : Nat) (h : len ≤ M) : nextTableBits M root cnt len left ≤ M - root := by
  rw [nextTableBits]
  split
  · split
    · omega
    · exact decTableBits_le (len + 1) _ (by omega)
  · omega
termination_by M - len

theorem openSub_low {cap root len : Nat} {cnt : Nat → Nat} {st st' : Sub} (hr : root ≤ 15) (hlen : len ≤ 15) (hm : LowBits 15 st.m)
    (h : openSub cap 15 root cnt len st = some st') : LowBits 15 st'.m := by
  unfold openSub at h
  split at h
  · cases h; exact hm
  · simp only at h
    split at h
    · cases h
    · rename_i m hw
      cases h
      refine wr_low hm ?_ hw
      have := decTableBits_le (root := root) (cnt := cnt) len (2 ^ (len - root)) hlen
      simp only; omega

theorem subFill_low {cap root : Nat} (hr : root ≤ 15) : ∀ (L : List (Nat × Nat)) {st st' : Sub}, LowBits 15 st.m → (∀ p ∈ L, p.1 ≤ 15) →
    subFill cap 15 root st L = some st' → LowBits 15 st'.m
  | [], _, _, hm, _, h => by cases h; exact hm
  | p :: L, st, st', hm, hL, h => by
    have hp := hL p List.mem_cons_self
    simp only [subFill] at h
    cases ho : openSub cap 15 root (lenCount (p :: L)) p.1 st with
    | none => rw [ho] at h; cases h
    | some s1 =>
      rw [ho] at h
      simp only at h
      have h1 := openSub_low hr hp hm ho
      cases hf : fill cap s1.m (s1.off + s1.key / 2 ^ root) (2 ^ (p.1 - root)) (s1.size / 2 ^ (p.1 - root)) ⟨p.1 - root, p.2⟩ with
      | none => rw [hf] at h; cases h
      | some m1 =>
        rw [hf] at h
        exact subFill_low hr L (st := { s1 with m := m1, key := nextKey s1.key p.1 }) (fill_low (e := ⟨p.1 - root, p.2⟩) (by simp only; omega) _ h1 hf)
          (fun q hq => hL q (List.mem_cons_of_mem _ hq)) h

theorem none_low {B : Nat} : LowBits B (fun _ => none) := fun _ _ h => by cases h

theorem buildTable_low {cap root : Nat} {lens : List Nat} {m : Mem} {total : Nat} (hr : root ≤ 15)
    (h : buildTable cap root lens = some (m, total)) : LowBits 15 m := by
  have hL : ∀ p ∈ sortedCode 15 lens, p.1 ≤ 15 := fun p hp => (mem_sortedCode.mp hp).1.2
  have hbody : ∀ L : List (Nat × Nat), (∀ p ∈ L, p.1 ≤ 15) → buildCode cap 15 root L = some (m, total) → LowBits 15 m := by
    intro L hL h
    unfold buildCode at h
    simp only at h
    split at h
    · cases h
    · rename_i m1 key h1
      split at h
      · cases h
      · rename_i m2 h2
        split at h
        · cases h
        · rename_i st h3
          cases h
          have k1 := rootFill_low _ none_low (fun p hp => hL p (List.mem_of_mem_filter hp)) h1
          exact subFill_low hr _ (doubling_low _ _ k1 h2) (fun p hp => hL p (List.mem_of_mem_filter hp)) h3
  unfold buildTable at h
  split at h
  · cases h
  · split at h
    · split at h
      · cases h
      · rename_i p hs _ m1 hf
        cases h
        exact fill_low (e := ⟨0, p.2⟩) (Nat.zero_le _) _ none_low hf
    · exact hbody _ hL h

theorem le_foldl_max : ∀ (l : List Nat) (i : Nat), i ≤ l.foldl max i ∧ ∀ a ∈ l, a ≤ l.foldl max i
  | [], i => ⟨Nat.le_refl _, by simp⟩
  | b :: l, i => by
    obtain ⟨h1, h2⟩ := le_foldl_max l (max i b)
    simp only [List.foldl_cons]
    refine ⟨by omega, fun a ha => ?_⟩
    rcases List.mem_cons.mp ha with rfl | h
    · omega
    · exact h2 a h

theorem le_maxLength {L : List (Nat × Nat)} {p : Nat × Nat} (h : p ∈ L) : p.1 ≤ maxLength L :=
  (le_foldl_max _ 1).2 _ (List.mem_map_of_mem h)

/-- Without words of more bits than the first level has, there is no second level. -/
theorem buildTable_flat {cap root : Nat} {lens : List Nat} {m : Mem} {total : Nat} (hl : ∀ l ∈ lens, l ≤ root)
    (h : buildTable cap root lens = some (m, total)) : LowBits root m := by
  have hL : ∀ p ∈ sortedCode 15 lens, p.1 ≤ root := fun p hp => by
    obtain ⟨h1, h2, h3⟩ := mem_sortedCode.mp hp
    rw [← h3, List.getD_eq_getElem?_getD, List.getElem?_eq_getElem h2]
    exact hl _ (List.getElem_mem h2)
  have hbody : ∀ L : List (Nat × Nat), (∀ p ∈ L, p.1 ≤ root) → buildCode cap 15 root L = some (m, total) → LowBits root m := by
    intro L hL h
    unfold buildCode at h
    simp only at h
    split at h
    · cases h
    · rename_i m1 key h1
      split at h
      · cases h
      · rename_i m2 h2
        split at h
        · cases h
        · rename_i st h3
          cases h
          have k1 := rootFill_low _ none_low (fun p hp => hL p (List.mem_of_mem_filter hp)) h1
          have hnil : L.filter (fun p => decide ((if root > maxLength L then maxLength L else root) < p.1)) = [] := by
            rw [List.filter_eq_nil_iff]
            intro p hp
            have h4 := hL p hp
            have h5 := le_maxLength hp
            simp only [decide_eq_true_eq]
            split <;> omega
          rw [hnil] at h3
          cases h3
          exact doubling_low _ _ k1 h2
  unfold buildTable at h
  split at h
  · cases h
  · split at h
    · split at h
      · cases h
      · rename_i p hs _ m1 hf
        cases h
        exact fill_low (e := ⟨0, p.2⟩) (Nat.zero_le _) _ none_low hf
    · exact hbody _ hL h

/-! ## The second level -/

/-- Windows that lead to the same word agree on as many bits as it has. -/
theorem codeAt_aligned {M v x y : Nat} {p : Nat × Nat} : ∀ {L : List (Nat × Nat)}, CodeOk M v L → L.Nodup → codeAt M v L x = some p →
    codeAt M v L y = some p → x / 2 ^ (M - p.1) = y / 2 ^ (M - p.1) := by
  intro L
  induction L generalizing v with
  | nil => intro _ _ h; simp [codeAt] at h
  | cons q L ih =>
    intro hc hn hx hy
    obtain ⟨hq, hn'⟩ := List.nodup_cons.mp hn
    simp only [codeAt] at hx hy
    by_cases h1 : v ≤ x ∧ x < v + 2 ^ (M - q.1)
    · rw [if_pos h1] at hx
      cases hx
      by_cases h2 : v ≤ y ∧ y < v + 2 ^ (M - p.1)
      · obtain ⟨c, rfl⟩ := hc.dvd p List.mem_cons_self
        have hpos := Nat.two_pow_pos (M - p.1)
        have key : ∀ z, 2 ^ (M - p.1) * c ≤ z → z < 2 ^ (M - p.1) * c + 2 ^ (M - p.1) → z / 2 ^ (M - p.1) = c := by
          intro z a b
          refine Nat.div_eq_of_lt_le (by rw [Nat.mul_comm]; exact a) ?_
          rw [Nat.succ_mul, Nat.mul_comm]; exact b
        rw [key x h1.1 h1.2, key y h2.1 h2.2]
      · rw [if_neg h2] at hy
        exact absurd (codeAt_mem hy) hq
    · rw [if_neg h1] at hx
      by_cases h2 : v ≤ y ∧ y < v + 2 ^ (M - q.1)
      · rw [if_pos h2] at hy
        cases hy
        exact absurd (codeAt_mem hx) hq
      · rw [if_neg h2] at hy
        exact ih hc.tail hn' hx hy

/-- A table all of whose windows lead to an entry, and whose second-level entries need no more bits than are looked at. -/
def Snug (m : Mem) (root : Nat) : Prop :=
  ∀ i < 2 ^ root, ∃ e, m i = some e ∧ (root < e.bits → e.bits ≤ 15 ∧
    ∀ j < 2 ^ (e.bits - root), ∃ e2, m (i + e.value + j) = some e2 ∧ e2.bits ≤ e.bits - root)

theorem snug_of_codeAt {lens : List Nat} (hc : Complete lens) {m : Mem} {root : Nat}
    (hm : ∀ W, lookup m root W = codeAt 15 0 (sortedCode 15 lens) (rev 15 W)) (hl : LowBits 15 m) : Snug m root := by
  have ht := total_of_codeAt hc hm
  have hok := sortedCode_ok hc.depth_le (Nat.le_of_eq hc.kraft)
  have hnd := sortedCode_nodup 15 lens
  intro i hi
  obtain ⟨l0, s0, h0, _⟩ := ht i
  cases he : m i with
  | none => unfold lookup at h0; rw [Nat.mod_eq_of_lt hi, he] at h0; cases h0
  | some e =>
    refine ⟨e, rfl, fun hr => ⟨hl i e he, fun j hj => ?_⟩⟩
    have hb := hl i e he
    generalize ht' : e.bits - root = t at *
    have hlook : ∀ k, lookup m root (i + 2 ^ root * (j + 2 ^ t * k)) = match m (i + e.value + j) with
        | none => none
        | some e => some (root + e.bits, e.value) := by
      intro k
      have e1 : (i + 2 ^ root * (j + 2 ^ t * k)) % 2 ^ root = i := by rw [Nat.add_mul_mod_self_left, Nat.mod_eq_of_lt hi]
      have e2 : (i + 2 ^ root * (j + 2 ^ t * k)) / 2 ^ root = j + 2 ^ t * k := by
        rw [Nat.add_mul_div_left _ _ (Nat.two_pow_pos _), Nat.div_eq_of_lt hi, Nat.zero_add]
      unfold lookup
      rw [e1, he]
      simp only
      rw [if_pos hr, e2, ht', Nat.add_mul_mod_self_left, Nat.mod_eq_of_lt hj]
      cases m (i + e.value + j) <;> rfl
    have h1 := hlook 0
    have h2 := hlook 1
    obtain ⟨l, s, hls, hl15, _⟩ := ht (i + 2 ^ root * (j + 2 ^ t * 0))
    cases he2 : m (i + e.value + j) with
    | none => rw [h1, he2] at hls; cases hls
    | some e2 =>
      refine ⟨e2, rfl, ?_⟩
      rw [he2] at h1 h2
      simp only at h1 h2
      apply Nat.le_of_not_lt
      intro hgt
      have hls' : (root + e2.bits, e2.value) = (l, s) := by rw [h1] at hls; exact Option.some.inj hls
      have hle : root + e2.bits ≤ 15 := by have := (Prod.mk.inj hls').1; omega
      rw [hm] at h1 h2
      have ha := codeAt_aligned hok hnd h1 h2
      simp only at ha
      have b1 := low_bits hle (i + 2 ^ root * (j + 2 ^ t * 0))
      have b2 := low_bits hle (i + 2 ^ root * (j + 2 ^ t * 1))
      rw [ha, ← b2] at b1
      have hsum : i + 2 ^ root * j < 2 ^ (root + t) := by
        rw [Nat.pow_add]
        calc i + 2 ^ root * j < 2 ^ root + 2 ^ root * j := by omega
          _ = 2 ^ root * (j + 1) := by rw [Nat.mul_add, Nat.mul_one, Nat.add_comm]
          _ ≤ 2 ^ root * 2 ^ t := Nat.mul_le_mul_left _ hj
      have hbig : 2 ^ (root + t) * 2 ≤ 2 ^ (root + e2.bits) := by
        rw [← Nat.pow_succ]; exact Nat.pow_le_pow_right (by decide) (by omega)
      have e3 : i + 2 ^ root * (j + 2 ^ t * 1) = i + 2 ^ root * j + 2 ^ (root + t) := by
        rw [Nat.mul_one, Nat.mul_add, ← Nat.pow_add, Nat.add_assoc]
      have e4 : i + 2 ^ root * (j + 2 ^ t * 0) = i + 2 ^ root * j := by rw [Nat.mul_zero, Nat.add_zero]
      rw [e3, e4, Nat.mod_eq_of_lt (by omega), Nat.mod_eq_of_lt (by omega)] at b1
      have := Nat.two_pow_pos (root + t)
      omega

/-- A table without a second level. -/
theorem snug_flat {m : Mem} {root : Nat} (h : ∀ i < 2 ^ root, ∃ e, m i = some e ∧ e.bits ≤ root) : Snug m root := fun i hi => by
  obtain ⟨e, h1, h2⟩ := h i hi
  exact ⟨e, h1, fun h3 => by omega⟩

/-! ## The tables of the decoder -/

/-- The table of an accepted code length code. -/
theorem clc_snug {cl : List Nat} (h1 : cl.length = 18) (h2 : ∀ l ∈ cl, l ≤ 5)
    (h : cl.countP (· ≠ 0) = 1 ∨ kraftLens 5 cl = 32) {m : Mem} {total : Nat} (hb : buildTable 32 5 cl = some (m, total)) :
    Snug m 5 ∧ Total m 5 18 := by
  rcases h with h | h
  · have hlen : (sortedCode 15 cl).length = 1 := by
      rw [(sortedCode_perm fun l hl => Nat.le_trans (h2 l hl) (by decide)).length_eq, List.length_map]
      rw [← h, ← occurring_length]; rfl
    match hs : sortedCode 15 cl, hlen with
    | [p], _ =>
      obtain ⟨m', hm, hmem⟩ := fill_mem 32 5 (by decide) ⟨0, p.2⟩
      have hp := (mem_sortedCode.mp (by rw [hs]; simp : p ∈ sortedCode 15 cl)).2.1
      unfold buildTable at hb
      rw [if_neg (by omega), hs] at hb
      simp only [hm] at hb
      cases hb
      refine ⟨snug_flat fun i hi => ⟨_, hmem i hi, Nat.zero_le _⟩, fun W => ⟨0, p.2, ?_, by omega, by omega⟩⟩
      unfold lookup
      rw [hmem _ (Nat.mod_lt _ (by decide))]
      simp
  · have hc : Complete cl := ⟨by omega, fun l hl => Nat.le_trans (h2 l hl) (by decide), by
      rw [kraftLens_scale (limit := 5) (by decide) cl h2, h]⟩
    obtain ⟨m', total', hb', _, hm⟩ := buildTable_spec (root := 5) (by decide) (by decide) hc (cap := 32) (Or.inl ⟨h2, by decide⟩)
    rw [hb'] at hb
    cases hb
    exact ⟨snug_of_codeAt hc hm (buildTable_low (by decide) hb'), h1 ▸ total_of_codeAt hc hm⟩

theorem readComplex_table {n skip : Nat} (hn : n ≤ 2 ^ 15) {bs rest : List Bool} {r : Option Mem}
    (h : readComplex n skip bs = some (r, rest)) : ∃ m lens total, r = some m ∧ Complete lens ∧
      buildTable (n + 376) 8 lens = some (m, total) ∧ ∀ W, lookup m 8 W = codeAt 15 0 (sortedCode 15 lens) (rev 15 W) := by
  unfold readComplex at h
  simp only [bind_apply] at h
  split at h
  · simp at h
  · rename_i x bs1 hclc
    obtain ⟨cl, used, num⟩ := x
    simp only [guard_apply] at h
    have hfacts : ∀ k, (clcOrder.drop k).Nodup ∧ ∀ o ∈ clcOrder.drop k, o < 18 := by
      intro k
      have h1 : clcOrder.Nodup ∧ ∀ o ∈ clcOrder, o < 18 := by decide
      exact ⟨h1.1.sublist (List.drop_sublist _ _), fun o ho => h1.2 o (List.mem_of_mem_drop ho)⟩
    obtain ⟨a1, a2, a3, a4⟩ := readClc_ok _ _ _ _ _ _ _ (hfacts skip).1 (hfacts skip).2 (by
      intro o ho; rw [List.getD_eq_getElem?_getD, List.getElem?_replicate]; split <;> rfl) (by simp) (by simp) (by decide) (by decide) hclc
    simp only at a1 a2 a3 a4
    by_cases hgo : num = 1 ∨ used = 32
    · rw [if_pos hgo] at h
      simp only at h
      obtain ⟨m5, tot, hb, _⟩ := clc_table a1 a2 (by rw [← a4, ← a3]; exact hgo)
      unfold readCodeLengths at h
      rw [hb] at h
      simp only at h
      cases hrl : readLens m5 n CL.init bs1 with
      | none => rw [hrl] at h; simp at h
      | some x =>
        obtain ⟨st, bs2⟩ := x
        obtain ⟨hok, hle⟩ := readLens_ok _ _ _ _ CL.init_ok (by simp [CL.init]) hrl
        rw [hrl] at h
        simp only at h
        by_cases hu : st.used = 2 ^ 15
        · have hc : Complete (st.lens ++ List.replicate (n - st.lens.length) 0) := ⟨by simp; omega, by
            intro l hl
            rcases List.mem_append.mp hl with hl | hl
            · exact hok.lens l hl
            · have := (List.mem_replicate.mp hl).2; omega, by
            rw [kraftLens_append, kraftLens_replicate, if_pos rfl, Nat.add_zero, ← hok.used, hu]⟩
          have hlen : (st.lens ++ List.replicate (n - st.lens.length) 0).length = n := by simp; omega
          obtain ⟨m, total, hb8, htot, hm⟩ := buildTable_spec (root := 8) (by decide) (by decide) hc (cap := n + 376) (Or.inr (by
            rw [hlen]; omega))
          rw [if_neg (by simpa using hu)] at h
          simp only [hb8] at h
          rw [bind_apply, guard_apply, if_pos (by have := htot.1; omega)] at h
          simp only [pure_apply, Option.some.injEq, Prod.mk.injEq] at h
          refine ⟨m, _, total, ?_, hc, hb8, hm⟩
          rw [← h.1, copyTable_eq htot.2.2]
        · rw [if_pos hu] at h; simp at h
    · rw [if_neg hgo] at h; simp at h


theorem simpleTable_flat {num : Nat} {syms : List Nat} {t : Nat × List Ent} (h : simpleTable num syms = some t) : ∀ e ∈ t.2, e.bits ≤ 8 := by
  unfold simpleTable at h
  split at h <;> cases h <;> simp

theorem readSimple_snug {n : Nat} {bs rest : List Bool} {m : Mem} (h : readSimple n bs = some (some m, rest)) : Snug m 8 := by
  obtain ⟨m', e, ht⟩ := readSimple_safe h
  cases e
  have hflat : ∀ x e, m x = some e → e.bits ≤ 8 := by
    unfold readSimple at h
    obtain ⟨k, bs1, hk, h⟩ := bind_some h
    obtain ⟨syms, bs2, hs, h⟩ := bind_some h
    obtain ⟨_, bs2', hg, h'⟩ := bind_some h
    obtain ⟨num, bs3, hnum, h⟩ := bind_some h'
    cases hst : simpleTable num syms with
    | none => rw [hst] at h; cases h
    | some t =>
      rw [hst] at h
      have := (pure_some h).1
      unfold doubleTable at this
      refine doubling_low _ _ (fun x e hx => ?_) this
      exact simpleTable_flat hst e (List.mem_of_getElem? hx)
  refine snug_flat fun i hi => ?_
  obtain ⟨l, s, hl, _⟩ := ht i
  cases he : m i with
  | none => unfold lookup at hl; rw [Nat.mod_eq_of_lt hi, he] at hl; cases hl
  | some e => exact ⟨e, rfl, hflat i e he⟩

/-- The table of any code that the decoder accepts. -/
theorem readCode_snug {n : Nat} {bs rest : List Bool} {m : Mem} (h : readCode n bs = some (some m, rest)) : Snug m 8 := by
  unfold readCode at h
  simp only [bind_apply, guard_apply] at h
  by_cases hn : n ≤ 2 ^ 15
  · rw [if_pos hn] at h
    simp only at h
    split at h
    · simp at h
    · split at h
      · exact readSimple_snug h
      · obtain ⟨m', lens, total, e, hc, hb, hm⟩ := readComplex_table hn h
        cases e
        exact snug_of_codeAt hc hm (buildTable_low (by decide) hb)
  · rw [if_neg hn] at h; simp at h

end Brunsli
