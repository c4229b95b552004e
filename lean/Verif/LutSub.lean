import Verif.Lut
/-!
# Correctness of the two-level lookup tables
-/

namespace Brunsli

/-- `total_size` after the second-level loop. -/
def subTotal (M root : Nat) : Nat → Nat → Option Nat → List (Nat × Nat) → Nat
  | _, total, _, [] => total
  | key, total, low, p :: L =>
    if low = some (key % 2 ^ root) then subTotal M root (nextKey key p.1) total low L
    else subTotal M root (nextKey key p.1)
      (total + 2 ^ nextTableBits M root (lenCount (p :: L)) p.1 (2 ^ (p.1 - root))) (some (key % 2 ^ root)) L

theorem subTotal_ge (M root : Nat) (L : List (Nat × Nat)) : ∀ key total low, total ≤ subTotal M root key total low L := by
  induction L with
  | nil => intro _ _ _; exact Nat.le_refl _
  | cons p L ih =>
    intro key total low
    simp only [subTotal]
    split
    · exact ih _ _ _
    · exact Nat.le_trans (Nat.le_add_right _ _) (ih _ _ _)

/-- A run in a smaller buffer is a run in a larger one, and nothing is written beyond the smaller buffer. -/
theorem fill_small {cap cap' : Nat} (hcap : cap' ≤ cap) (base step : Nat) (e : Ent) (n : Nat) : ∀ (m m' : Mem),
    fill cap' m base step n e = some m' → (∀ i, cap' ≤ i → m i = none) →
    fill cap m base step n e = some m' ∧ ∀ i, cap' ≤ i → m' i = none := by
  induction n with
  | zero => intro m m' h hm; simp only [fill, Option.some.injEq] at h; subst h; exact ⟨rfl, hm⟩
  | succ n ih =>
    intro m m' h hm
    simp only [fill, wr] at h ⊢
    by_cases hlt : base + n * step < cap'
    · rw [if_pos hlt] at h
      rw [if_pos (by omega)]
      apply ih _ _ h
      intro i hi
      rw [if_neg (by omega)]; exact hm i hi
    · rw [if_neg hlt] at h; cases h

theorem openSub_small {cap cap' M root len : Nat} (hcap : cap' ≤ cap) {cnt : Nat → Nat} {st st' : Sub}
    (h : openSub cap' M root cnt len st = some st') (hm : ∀ i, cap' ≤ i → st.m i = none) :
    openSub cap M root cnt len st = some st' ∧ ∀ i, cap' ≤ i → st'.m i = none := by
  simp only [openSub, wr] at h ⊢
  by_cases hl : st.low = some (st.key % 2 ^ root)
  · simp only [hl, ↓reduceIte, Option.some.injEq] at h ⊢
    subst h
    exact ⟨rfl, hm⟩
  · simp only [hl, ↓reduceIte] at h ⊢
    by_cases hlt : st.key % 2 ^ root < cap'
    · rw [if_pos hlt] at h
      rw [if_pos (by omega)]
      simp only [Option.some.injEq] at h ⊢
      subst h
      refine ⟨rfl, ?_⟩
      intro i hi
      show (if i = _ then _ else st.m i) = none
      rw [if_neg (by omega)]; exact hm i hi
    · rw [if_neg hlt] at h; cases h

theorem subFill_small {cap cap' M root : Nat} (hcap : cap' ≤ cap) (L : List (Nat × Nat)) : ∀ (st st' : Sub),
    subFill cap' M root st L = some st' → (∀ i, cap' ≤ i → st.m i = none) →
    subFill cap M root st L = some st' ∧ ∀ i, cap' ≤ i → st'.m i = none := by
  induction L with
  | nil => intro st st' h hm; simp only [subFill, Option.some.injEq] at h; subst h; exact ⟨rfl, hm⟩
  | cons p L ih =>
    intro st st' h hm
    simp only [subFill] at h ⊢
    cases ho : openSub cap' M root (lenCount (p :: L)) p.1 st with
    | none => rw [ho] at h; cases h
    | some s1 =>
      obtain ⟨h1, h2⟩ := openSub_small hcap ho hm
      rw [ho] at h
      rw [h1]
      simp only at h ⊢
      cases hf : fill cap' s1.m (s1.off + s1.key / 2 ^ root) (2 ^ (p.1 - root)) (s1.size / 2 ^ (p.1 - root)) ⟨p.1 - root, p.2⟩ with
      | none => rw [hf] at h; cases h
      | some m =>
        obtain ⟨h3, h4⟩ := fill_small hcap _ _ _ _ _ _ hf h2
        rw [hf] at h
        rw [h3]
        exact ih _ _ h h4

/-- The second-level table in use covers the bucket `B` of windows that share their first `root` bits. -/
structure CurOk (M root v : Nat) (L : List (Nat × Nat)) (st : Sub) (B : Nat) : Prop where
  low : st.low = some (rev root B)
  lt : B < 2 ^ root
  ge : B * 2 ^ (M - root) ≤ v
  le : v ≤ (B + 1) * 2 ^ (M - root)
  ptr : st.m (rev root B) = some ⟨st.tb + root, st.off - rev root B⟩
  size : st.size = 2 ^ st.tb
  off : 2 ^ root ≤ st.off
  tb : 0 < st.tb
  fits : ∀ x q, codeAt M v L x = some q → x < (B + 1) * 2 ^ (M - root) → q.1 ≤ st.tb + root

/-- Invariant of the second-level loop: `v` is where the next code starts. -/
structure SubInv (M root v : Nat) (L : List (Nat × Nat)) (st : Sub) : Prop where
  key : v < 2 ^ M → st.key = rev M v
  base : 2 ^ root ≤ st.off + st.size
  cur : (st.low = none ∧ 2 ^ (M - root) ∣ v) ∨ ∃ B, CurOk M root v L st B
  reads : ∀ W, rev M W < v → ∃ e, st.m (W % 2 ^ root) = some e ∧
    (root < e.bits → 2 ^ root ≤ W % 2 ^ root + e.value ∧ (st.low = some (W % 2 ^ root) ∨
      W % 2 ^ root + e.value + W / 2 ^ root % 2 ^ (e.bits - root) < st.off))

theorem low_bits {M root : Nat} (h : root ≤ M) (W : Nat) : W % 2 ^ root = rev root (rev M W / 2 ^ (M - root)) := by
  have h1 := rev_div_low (M := M) (l := M - root) (by omega) W
  rw [show M - (M - root) = root by omega] at h1
  rw [h1, rev_rev]

theorem bucket_lt {M root : Nat} (h : root ≤ M) {x : Nat} (hx : x < 2 ^ M) : x / 2 ^ (M - root) < 2 ^ root := by
  rw [Nat.div_lt_iff_lt_mul (Nat.two_pow_pos _), ← Nat.pow_add, show root + (M - root) = M by omega]
  exact hx

theorem key_low {M root v : Nat} (h : root ≤ M) : rev M v % 2 ^ root = rev root (v / 2 ^ (M - root)) :=
  rev_mod_low h v

theorem openSub_spec {cap M root v : Nat} {p : Nat × Nat} {L : List (Nat × Nat)} {st : Sub}
    (hroot : root ≤ M) (hc : CodeOk M v (p :: L)) (hp : root < p.1) (hi : SubInv M root v (p :: L) st)
    (hcap : 2 ^ root ≤ cap) (h16 : st.off + st.size ≤ 65535) :
    ∃ st1, openSub cap M root (lenCount (p :: L)) p.1 st = some st1 ∧
      SubInv M root v (p :: L) st1 ∧ st1.key = st.key ∧
      CurOk M root v (p :: L) st1 (v / 2 ^ (M - root)) ∧
      (∀ W, rev M W < v → lookup st1.m root W = lookup st.m root W) ∧
      (∀ t, subTotal M root st.key t st.low (p :: L) =
        subTotal M root (nextKey st.key p.1) (t + (st1.off + st1.size - (st.off + st.size))) st1.low L) ∧
      st.off + st.size ≤ st1.off + st1.size := by
  have hv := hc.lt
  have hkey := hi.key hv
  have hpos := Nat.two_pow_pos (M - root)
  have hb := bucket_lt hroot hv
  have hlow : st.key % 2 ^ root = rev root (v / 2 ^ (M - root)) := by rw [hkey]; exact key_low hroot
  by_cases hcur : st.low = some (st.key % 2 ^ root)
  · refine ⟨st, by simp only [openSub, hcur, ↓reduceIte], hi, rfl, ?_, fun _ _ => rfl, ?_, Nat.le_refl _⟩
    · rcases hi.cur with ⟨h, _⟩ | ⟨B, hB⟩
      · rw [h] at hcur; simp at hcur
      · have : B = v / 2 ^ (M - root) := by
          have h1 := hB.low
          rw [hcur, hlow, Option.some.injEq] at h1
          exact (rev_inj hb hB.lt h1).symm
        rw [← this]; exact hB
    · intro t; simp only [subTotal, hcur, ↓reduceIte, Nat.sub_self, Nat.add_zero]
  · -- a new table is opened: `v` is aligned
    have hal : 2 ^ (M - root) ∣ v := by
      rcases hi.cur with ⟨_, h⟩ | ⟨B, hB⟩
      · exact h
      · have hne : B ≠ v / 2 ^ (M - root) := by
          intro h; apply hcur; rw [hB.low, hlow, h]
        have h1 := hB.ge
        have h2 := hB.le
        have : v = (B + 1) * 2 ^ (M - root) := by
          apply Nat.le_antisymm h2
          apply Nat.le_of_not_lt
          intro hlt
          exact hne (Nat.div_eq_of_lt_le h1 hlt).symm
        rw [this]; exact Nat.dvd_mul_left _ _
    obtain ⟨c, hcv⟩ := hal
    have hdiv : v / 2 ^ (M - root) = c := by rw [hcv, Nat.mul_div_cancel_left _ hpos]
    obtain ⟨R, r1, r2, r3, r4, _⟩ := nextTableBits_fits hc hp
    have hlt : st.key % 2 ^ root < 2 ^ root := Nat.mod_lt _ (Nat.two_pow_pos _)
    let st1 : Sub := ⟨fun x => if x = st.key % 2 ^ root then
        some ⟨R - root + root, (st.off + st.size - st.key % 2 ^ root) % 65536⟩ else st.m x,
      st.key, st.off + st.size, 2 ^ (R - root), R - root, some (st.key % 2 ^ root)⟩
    have hopen : openSub cap M root (lenCount (p :: L)) p.1 st = some st1 := by
      simp only [openSub, hcur, ↓reduceIte, wr, r1, Nat.lt_of_lt_of_le hlt hcap]; rfl
    have hbase := hi.base
    have hRpos := Nat.two_pow_pos (R - root)
    have hmod : (st.off + st.size - st.key % 2 ^ root) % 65536 = st.off + st.size - st.key % 2 ^ root :=
      Nat.mod_eq_of_lt (by omega)
    have hneW : ∀ W, rev M W < v → W % 2 ^ root ≠ st.key % 2 ^ root := by
      intro W hW h
      rw [hlow, low_bits hroot W] at h
      have := rev_inj (bucket_lt hroot (by omega)) hb h
      rw [hdiv] at this
      have h2 := Nat.div_mul_le_self (rev M W) (2 ^ (M - root))
      rw [this, hcv] at *
      have h3 := Nat.lt_of_lt_of_le hW (Nat.le_of_eq (Nat.mul_comm _ _))
      omega
    refine ⟨st1, hopen, ⟨fun _ => hkey, ?_, Or.inr ⟨v / 2 ^ (M - root), ?cur⟩, ?_⟩, rfl, ?cur, ?_, ?_, ?_⟩
    case cur =>
      refine ⟨?_, hb, ?_, ?_, ?_, rfl, ?_, ?_, ?_⟩
      · show some _ = _; rw [hlow]
      · exact Nat.div_mul_le_self _ _
      · rw [hdiv, hcv, Nat.add_mul, Nat.mul_comm]; omega
      · show (if _ then _ else _) = _
        rw [if_pos hlow.symm, hmod, hlow]
      · exact hbase
      · show 0 < R - root; omega
      · intro x q hq hx
        show q.1 ≤ R - root + root
        have := r4 x q hq (by rw [hdiv, Nat.add_mul, Nat.one_mul, Nat.mul_comm] at hx; omega)
        omega
    · show 2 ^ root ≤ st.off + st.size + 2 ^ (R - root)
      exact Nat.le_trans hbase (Nat.le_add_right _ _)
    · intro W hW
      obtain ⟨e, he, hidx⟩ := hi.reads W hW
      refine ⟨e, ?_, ?_⟩
      · show (if _ then _ else _) = _
        rw [if_neg (hneW W hW)]; exact he
      · intro hbits
        refine ⟨(hidx hbits).1, ?_⟩
        right
        show _ < st.off + st.size
        rcases (hidx hbits).2 with h | h
        · -- the previous current table
          rcases hi.cur with ⟨hn, _⟩ | ⟨B, hB⟩
          · rw [hn] at h; simp at h
          · rw [hB.low, Option.some.injEq] at h
            rw [← h, hB.ptr, Option.some.injEq] at he
            subst he
            have h5 := hB.off
            have h6 := Nat.mod_lt (W / 2 ^ root) (Nat.two_pow_pos st.tb)
            have h7 := rev_lt root B
            rw [hB.size, ← h, Nat.add_sub_cancel]
            show rev root B + (st.off - rev root B) + _ < _
            omega
        · omega
    · intro W hW
      obtain ⟨e, he, hidx⟩ := hi.reads W hW
      have hm : st1.m (W % 2 ^ root) = some e := by
        show (if _ then _ else _) = _
        rw [if_neg (hneW W hW)]; exact he
      unfold lookup
      simp only [he, hm]
      by_cases hbits : root < e.bits
      · have hge : W % 2 ^ root + e.value + W / 2 ^ root % 2 ^ (e.bits - root) ≠ st.key % 2 ^ root := by
          have := (hidx hbits).1
          omega
        have : st1.m (W % 2 ^ root + e.value + W / 2 ^ root % 2 ^ (e.bits - root)) =
            st.m (W % 2 ^ root + e.value + W / 2 ^ root % 2 ^ (e.bits - root)) := by
          show (if _ then _ else _) = _
          rw [if_neg hge]
        rw [this]
      · simp only [hbits, ↓reduceIte]
    · intro t
      have : st1.off + st1.size - (st.off + st.size) = 2 ^ (R - root) := by
        show st.off + st.size + 2 ^ (R - root) - (st.off + st.size) = _
        exact Nat.add_sub_cancel_left _ _
      rw [this]
      simp only [subTotal, hcur, ↓reduceIte, r1]
      rfl
    · show st.off + st.size ≤ st.off + st.size + 2 ^ (R - root)
      exact Nat.le_add_right _ _

theorem subFill_spec {cap M root : Nat} (hroot : root ≤ M) (L : List (Nat × Nat)) : ∀ v st, CodeOk M v L →
    (∀ p ∈ L, root < p.1) → SubInv M root v L st →
    subTotal M root st.key (st.off + st.size) st.low L ≤ cap →
    subTotal M root st.key (st.off + st.size) st.low L ≤ 65535 →
    ∃ st', subFill cap M root st L = some st' ∧
      st'.off + st'.size = subTotal M root st.key (st.off + st.size) st.low L ∧
      (∀ W, rev M W < v → lookup st'.m root W = lookup st.m root W) ∧
      ∀ W p, codeAt M v L (rev M W) = some p → lookup st'.m root W = some p := by
  induction L with
  | nil =>
    intro v st _ _ _ _ _
    exact ⟨st, rfl, rfl, fun _ _ => rfl, by simp [codeAt]⟩
  | cons p L ih =>
    intro v st hc hroots hi hcap h16
    have hp := hroots p List.mem_cons_self
    have hge := subTotal_ge M root (p :: L) st.key (st.off + st.size) st.low
    obtain ⟨s1, o1, o2, o3, o4, o5, o6, o7⟩ := openSub_spec (cap := cap) hroot hc hp hi
      (Nat.le_trans hi.base (Nat.le_trans hge hcap)) (Nat.le_trans hge h16)
    rw [o6] at hcap h16
    rw [show st.off + st.size + (s1.off + s1.size - (st.off + st.size)) = s1.off + s1.size by omega] at hcap h16
    have hv := hc.lt
    have hr := hc.range p List.mem_cons_self
    have hd := hc.dvd p List.mem_cons_self
    have hkey : s1.key = rev M v := o2.key hv
    have hge1 := subTotal_ge M root L (nextKey st.key p.1) (s1.off + s1.size) s1.low
    have hpos := Nat.two_pow_pos (M - root)
    have hposl := Nat.two_pow_pos (M - p.1)
    have hBv : v < (v / 2 ^ (M - root) + 1) * 2 ^ (M - root) := by
      rw [Nat.mul_comm]; exact Nat.lt_mul_div_succ v hpos
    have hltb : p.1 ≤ s1.tb + root := o4.fits v p (by simp only [codeAt]; rw [if_pos (by omega)]) hBv
    have hklt : s1.key < 2 ^ p.1 := by
      rw [hkey, rev_aligned hr.2 hd]; exact rev_lt _ _
    have hksub : s1.key / 2 ^ root < 2 ^ (p.1 - root) := by
      rw [Nat.div_lt_iff_lt_mul (Nat.two_pow_pos _), ← Nat.pow_add, show p.1 - root + root = p.1 by omega]
      exact hklt
    have hfp : ∀ y, (∃ j < 2 ^ s1.tb / 2 ^ (p.1 - root), y = s1.key / 2 ^ root + j * 2 ^ (p.1 - root)) ↔ _ :=
      fun y => fill_positions hksub (by omega : p.1 - root ≤ s1.tb)
    obtain ⟨m1, e1, e2⟩ := fill_spec cap (s1.off + s1.key / 2 ^ root) (2 ^ (p.1 - root)) ⟨p.1 - root, p.2⟩
      (2 ^ s1.tb / 2 ^ (p.1 - root)) s1.m (by
        intro j hj
        have := ((hfp _).mp ⟨j, hj, rfl⟩).1
        have := o4.size
        omega)
    have e2' : ∀ y, m1 (s1.off + y) = if y < 2 ^ s1.tb ∧ y % 2 ^ (p.1 - root) = s1.key / 2 ^ root then
        some ⟨p.1 - root, p.2⟩ else s1.m (s1.off + y) := by
      intro y
      rw [e2]
      have hiff : (∃ j < 2 ^ s1.tb / 2 ^ (p.1 - root), s1.off + y = s1.off + s1.key / 2 ^ root + j * 2 ^ (p.1 - root)) ↔
          (y < 2 ^ s1.tb ∧ y % 2 ^ (p.1 - root) = s1.key / 2 ^ root) := by
        rw [← hfp]
        constructor
        · rintro ⟨j, hj, h⟩; exact ⟨j, hj, by omega⟩
        · rintro ⟨j, hj, h⟩; exact ⟨j, hj, by omega⟩
      simp only [hiff]
    have e2lo : ∀ i < s1.off, m1 i = s1.m i := by
      intro i hi
      rw [e2, if_neg]
      rintro ⟨j, _, h⟩
      have : s1.off ≤ i := by rw [h, Nat.add_assoc]; exact Nat.le_add_right _ _
      omega
    have hMroot : root ≤ p.1 := by omega
    have hcode : ∀ W, W / 2 ^ root % 2 ^ s1.tb % 2 ^ (p.1 - root) = s1.key / 2 ^ root → W % 2 ^ root = s1.key % 2 ^ root →
        W % 2 ^ p.1 = s1.key := by
      intro W h1 h2
      rw [Nat.mod_mod_of_dvd _ (Nat.pow_dvd_pow 2 (by omega))] at h1
      have e : 2 ^ p.1 = 2 ^ root * 2 ^ (p.1 - root) := by rw [← Nat.pow_add]; congr 1; omega
      rw [e, Nat.mod_mul, h1, h2]
      exact Nat.mod_add_div _ _
    have hoff := o4.off
    have hrl : ∀ W, W % 2 ^ root < s1.off := fun W => Nat.lt_of_lt_of_le (Nat.mod_lt _ (Nat.two_pow_pos _)) hoff
    have hklow : s1.key % 2 ^ root = rev root (v / 2 ^ (M - root)) := by rw [hkey]; exact key_low hroot
    have hptr : ∀ W, W % 2 ^ root = rev root (v / 2 ^ (M - root)) →
        W % 2 ^ root + (s1.off - rev root (v / 2 ^ (M - root))) + W / 2 ^ root % 2 ^ (s1.tb + root - root) =
          s1.off + W / 2 ^ root % 2 ^ s1.tb := by
      intro W h
      have := rev_lt root (v / 2 ^ (M - root))
      rw [h, Nat.add_sub_cancel]; omega
    have htbpos := o4.tb
    -- windows of the new code
    have hnew : ∀ W, v ≤ rev M W → rev M W < v + 2 ^ (M - p.1) → lookup m1 root W = some p := by
      intro W h1 h2
      have hW : W % 2 ^ p.1 = rev M v := (mod_eq_rev_iff hr.2 hd hv).mpr ⟨h1, h2⟩
      rw [← hkey] at hW
      have hlow : W % 2 ^ root = rev root (v / 2 ^ (M - root)) := by
        rw [← hklow, ← hW, Nat.mod_mod_of_dvd _ (Nat.pow_dvd_pow 2 hMroot)]
      have hm : m1 (W % 2 ^ root) = some ⟨s1.tb + root, s1.off - rev root (v / 2 ^ (M - root))⟩ := by
        rw [e2lo _ (hrl W), hlow, o4.ptr]
      unfold lookup
      simp only [hm]
      rw [if_pos (by omega), hptr W hlow, e2', if_pos]
      · show some (root + (p.1 - root), p.2) = some p
        rw [show root + (p.1 - root) = p.1 by omega]
      · refine ⟨Nat.mod_lt _ (Nat.two_pow_pos _), ?_⟩
        rw [Nat.mod_mod_of_dvd _ (Nat.pow_dvd_pow 2 (by omega)), ← hW]
        have e : 2 ^ p.1 = 2 ^ root * 2 ^ (p.1 - root) := by rw [← Nat.pow_add]; congr 1; omega
        rw [e, Nat.mod_mul_right_div_self]
    -- windows of earlier codes
    have hold : ∀ W, rev M W < v → ∃ e, s1.m (W % 2 ^ root) = some e ∧ m1 (W % 2 ^ root) = some e ∧
        (root < e.bits → m1 (W % 2 ^ root + e.value + W / 2 ^ root % 2 ^ (e.bits - root)) =
          s1.m (W % 2 ^ root + e.value + W / 2 ^ root % 2 ^ (e.bits - root)) ∧
          2 ^ root ≤ W % 2 ^ root + e.value ∧
          (s1.low = some (W % 2 ^ root) ∨
            W % 2 ^ root + e.value + W / 2 ^ root % 2 ^ (e.bits - root) < s1.off)) := by
      intro W hW
      obtain ⟨e, he, hidx⟩ := o2.reads W hW
      refine ⟨e, he, by rw [e2lo _ (hrl W)]; exact he, ?_⟩
      intro hbits
      obtain ⟨h0, h1⟩ := hidx hbits
      refine ⟨?_, h0, h1⟩
      rcases h1 with h | h
      · rw [o4.low, Option.some.injEq] at h
        rw [← h, o4.ptr, Option.some.injEq] at he
        subst he
        show m1 (W % 2 ^ root + (s1.off - rev root (v / 2 ^ (M - root))) + W / 2 ^ root % 2 ^ (s1.tb + root - root)) =
          s1.m (W % 2 ^ root + (s1.off - rev root (v / 2 ^ (M - root))) + W / 2 ^ root % 2 ^ (s1.tb + root - root))
        rw [hptr W h.symm, e2', if_neg]
        rintro ⟨_, h3⟩
        have h4 := hcode W h3 (by rw [hklow]; exact h.symm)
        rw [hkey] at h4
        have := (mod_eq_rev_iff hr.2 hd hv).mp h4
        omega
      · exact e2lo _ h
    let s2 : Sub := { s1 with m := m1, key := nextKey s1.key p.1 }
    have hs2 : SubInv M root (v + 2 ^ (M - p.1)) L s2 := by
      refine ⟨?_, o2.base, Or.inr ⟨v / 2 ^ (M - root), ?_⟩, ?_⟩
      · intro h
        show nextKey s1.key p.1 = _
        rw [hkey]; exact nextKey_step hr.2 hd h
      · refine ⟨o4.low, o4.lt, Nat.le_trans o4.ge (Nat.le_add_right _ _), ?_, ?_, o4.size, o4.off, o4.tb, ?_⟩
        · have hsp : 2 ^ (M - root) = 2 ^ (M - p.1) * 2 ^ (p.1 - root) := by rw [← Nat.pow_add]; congr 1; omega
          obtain ⟨c, hcc⟩ := hd
          rw [hsp] at hBv ⊢
          rw [hcc] at hBv ⊢
          rw [← Nat.mul_succ]
          rw [← Nat.mul_assoc, Nat.mul_comm _ (2 ^ (M - p.1)), Nat.mul_assoc] at hBv ⊢
          exact Nat.mul_le_mul_left _ (Nat.lt_of_mul_lt_mul_left hBv)
        · show m1 _ = _
          rw [e2lo _ (Nat.lt_of_lt_of_le (rev_lt _ _) hoff)]; exact o4.ptr
        · intro x q hq hx
          refine o4.fits x q ?_ hx
          simp only [codeAt]
          have := codeAt_ge hq
          rw [if_neg (by omega)]; exact hq
      · intro W hW
        show ∃ e, m1 (W % 2 ^ root) = some e ∧ (root < e.bits → 2 ^ root ≤ W % 2 ^ root + e.value ∧ (s1.low = _ ∨ _ < s1.off))
        by_cases hWv : rev M W < v
        · obtain ⟨e, _, he1, h1⟩ := hold W hWv
          exact ⟨e, he1, fun hb => (h1 hb).2⟩
        · have hW2 : W % 2 ^ p.1 = rev M v := (mod_eq_rev_iff hr.2 hd hv).mpr ⟨by omega, hW⟩
          rw [← hkey] at hW2
          have hlow : W % 2 ^ root = rev root (v / 2 ^ (M - root)) := by
            rw [← hklow, ← hW2, Nat.mod_mod_of_dvd _ (Nat.pow_dvd_pow 2 hMroot)]
          have := rev_lt root (v / 2 ^ (M - root))
          exact ⟨_, by rw [e2lo _ (hrl W), hlow, o4.ptr], fun _ =>
            ⟨by show 2 ^ root ≤ W % 2 ^ root + (s1.off - _); omega, Or.inl (by rw [o4.low, hlow])⟩⟩
    rw [← o3] at hcap h16
    obtain ⟨st', f1, f2, f3, f4⟩ := ih (v + 2 ^ (M - p.1)) s2 hc.tail
      (fun q hq => hroots q (List.mem_cons_of_mem _ hq)) hs2 hcap h16
    refine ⟨st', ?_, ?_, ?_, ?_⟩
    · rw [← o4.size] at e1
      simp only [subFill, o1, e1]; exact f1
    · rw [f2, o6, ← o3, show st.off + st.size + (s1.off + s1.size - (st.off + st.size)) = s1.off + s1.size by omega]
    · intro W hW
      rw [f3 W (by omega), ← o5 W hW]
      obtain ⟨e, h1, h2, h3⟩ := hold W hW
      show lookup m1 root W = _
      unfold lookup
      simp only [h1, h2]
      by_cases hb : root < e.bits
      · simp only [hb, ↓reduceIte, (h3 hb).1]
      · simp only [hb, ↓reduceIte]
    · intro W q hq
      simp only [codeAt] at hq
      by_cases hin : v ≤ rev M W ∧ rev M W < v + 2 ^ (M - p.1)
      · rw [if_pos hin, Option.some.injEq] at hq
        subst hq
        rw [f3 W hin.2]
        exact hnew W hin.1 hin.2
      · rw [if_neg hin] at hq
        exact f4 W q hq

end Brunsli
