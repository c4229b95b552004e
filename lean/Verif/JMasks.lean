import Verif.JMatch
/-!
# The order of scans

The reader keeps, for each component and coefficient, a mask of the bits that scans have provided, and rejects a scan that provides a bit again or
after a lower one (c/enc/jpeg_data_reader.cc:854-886).  So what a scan provided is never changed by a later one, and the writer, which only knows
the final coefficients, writes each scan as it was.
-/

namespace Brunsli

/-- `scan_progression`, by component and zigzag index (c/enc/jpeg_data_reader.cc:1039). -/
abbrev Masks := Nat → Nat → Nat

/-- `scan_bitmask` (c/enc/jpeg_data_reader.cc:858). -/
def scanBitmask (P : SP) : Nat := if P.ah = 0 then (0xffff <<< P.al) % 65536 else 1 <<< P.al

/-- `refinement_bitmask` (c/enc/jpeg_data_reader.cc:859). -/
def refinementBitmask (P : SP) : Nat := ((1 <<< P.al) - 1) % 65536

/-- The loop over the coefficients of a component (c/enc/jpeg_data_reader.cc:862-885). -/
def markBand (bm rm c : Nat) : List Nat → Masks → Option Masks
  | [], m => some m
  | k :: ks, m =>
    if m c k &&& bm ≠ 0 then none
    else if m c k &&& rm ≠ 0 then none
    else markBand bm rm c ks fun c' k' => if c' = c ∧ k' = k then m c k ||| bm else m c' k'

/-- The loop over the components of a scan (c/enc/jpeg_data_reader.cc:860-886). -/
def markComps (bm rm : Nat) (ks : List Nat) : List Nat → Masks → Option Masks
  | [], m => some m
  | c :: cs, m => (markBand bm rm c ks m).bind (markComps bm rm ks cs)

/-- All of the checks (c/enc/jpeg_data_reader.cc:858-891). -/
def markScan (P : SP) (cs : List Nat) (m : Masks) : Option Masks :=
  match markComps (scanBitmask P) (refinementBitmask P) (List.range' P.ss (P.se + 1 - P.ss)) cs m with
  | none => none
  | some m => if 10 < P.al then none else some m

theorem markBand_spec {bm rm c : Nat} (ks : List Nat) : ∀ {m m' : Masks}, ks.Nodup → markBand bm rm c ks m = some m' →
    (∀ k ∈ ks, m c k &&& bm = 0 ∧ m c k &&& rm = 0 ∧ m' c k = m c k ||| bm) ∧ (∀ c' k, c' ≠ c ∨ k ∉ ks → m' c' k = m c' k) := by
  induction ks with
  | nil => intro m m' _ h; rw [markBand] at h; cases h; exact ⟨(fun _ h => (List.not_mem_nil h).elim), fun _ _ _ => rfl⟩
  | cons k ks ih =>
    intro m m' hn h
    rw [markBand] at h
    split at h
    · exact nomatch h
    · rename_i h1
      split at h
      · exact nomatch h
      · rename_i h2
        obtain ⟨hk, hn⟩ := List.nodup_cons.mp hn
        obtain ⟨i1, i2⟩ := ih hn h
        constructor
        · intro j hj
          rcases List.mem_cons.mp hj with rfl | hj
          · refine ⟨by omega, by omega, ?_⟩
            rw [i2 c j (Or.inr hk), if_pos ⟨rfl, rfl⟩]
          · have hne : j ≠ k := fun e => hk (e ▸ hj)
            obtain ⟨j1, j2, j3⟩ := i1 j hj
            rw [if_neg (fun e => hne e.2)] at j1 j2 j3
            exact ⟨j1, j2, j3⟩
        · intro c' j hj
          rw [List.mem_cons, not_or] at hj
          rw [i2 c' j (hj.imp id fun h => h.2), if_neg]
          rintro ⟨rfl, rfl⟩
          rcases hj with hj | hj
          · exact hj rfl
          · exact hj.1 rfl

theorem markComps_spec {bm rm : Nat} {ks : List Nat} (hks : ks.Nodup) (cs : List Nat) : ∀ {m m' : Masks}, cs.Nodup → markComps bm rm ks cs m = some m' →
    (∀ c ∈ cs, ∀ k ∈ ks, m c k &&& bm = 0 ∧ m c k &&& rm = 0 ∧ m' c k = m c k ||| bm) ∧ (∀ c k, c ∉ cs ∨ k ∉ ks → m' c k = m c k) := by
  induction cs with
  | nil => intro m m' _ h; rw [markComps] at h; cases h; exact ⟨(fun _ h => (List.not_mem_nil h).elim), fun _ _ _ => rfl⟩
  | cons c cs ih =>
    intro m m' hn h
    rw [markComps] at h
    obtain ⟨m1, h1, h2⟩ := Option.bind_eq_some_iff.mp h
    obtain ⟨hc, hn⟩ := List.nodup_cons.mp hn
    obtain ⟨i1, i2⟩ := ih hn h2
    obtain ⟨j1, j2⟩ := markBand_spec ks hks h1
    constructor
    · intro c' hc' k hk
      rcases List.mem_cons.mp hc' with rfl | hc'
      · obtain ⟨a1, a2, a3⟩ := j1 k hk
        exact ⟨a1, a2, by rw [i2 c' k (Or.inl hc), a3]⟩
      · have hne : c' ≠ c := fun e => hc (e ▸ hc')
        have := i1 c' hc' k hk
        rwa [j2 c' k (Or.inl hne)] at this
    · intro c' k hk
      rw [List.mem_cons, not_or] at hk
      rw [i2 c' k (hk.imp (fun h => h.2) id), j2 c' k (hk.imp (fun h => h.1) id)]

theorem testBit_shl_ffff (a i : Nat) : ((0xffff <<< a) % 65536).testBit i = (decide (i < 16) && decide (a ≤ i)) := by
  rw [show (65536 : Nat) = 2 ^ 16 from rfl, Nat.testBit_mod_two_pow, Nat.testBit_shiftLeft, show (0xffff : Nat) = 2 ^ 16 - 1 from rfl, Nat.testBit_two_pow_sub_one]
  by_cases h1 : i < 16 <;> by_cases h2 : a ≤ i <;> simp [h1, h2]
  omega

theorem scanBitmask_testBit (P : SP) (i : Nat) : (scanBitmask P).testBit i = if P.ah = 0 then (decide (i < 16) && decide (P.al ≤ i)) else decide (i = P.al) := by
  unfold scanBitmask
  split
  · exact testBit_shl_ffff _ _
  · rw [Nat.one_shiftLeft, Nat.testBit_two_pow]
    exact decide_eq_decide.mpr eq_comm

theorem refinementBitmask_testBit {P : SP} (hP : P.al ≤ 10) (i : Nat) : (refinementBitmask P).testBit i = decide (i < P.al) := by
  unfold refinementBitmask
  rw [Nat.one_shiftLeft, Nat.mod_eq_of_lt, Nat.testBit_two_pow_sub_one]
  have : 2 ^ P.al ≤ 2 ^ 10 := Nat.pow_le_pow_right (by decide) hP
  omega

/-- What the checks of a scan give for one coefficient of its band, with the mask `m` before and `m'` after it. -/
structure Marked (P : SP) (m m' : Nat) : Prop where
  first : P.ah = 0 → m < 65536 → m = 0
  low : ∀ i, i ≤ P.al → m.testBit i = false
  bit : ∀ i, m'.testBit i = (m.testBit i || (scanBitmask P).testBit i)
  lt : m < 65536 → m' < 65536

theorem markScan_spec {P : SP} {cs : List Nat} {m m' : Masks} (hn : cs.Nodup) (h : markScan P cs m = some m') :
    P.al ≤ 10 ∧ (∀ c ∈ cs, ∀ k, P.ss ≤ k → k ≤ P.se → Marked P (m c k) (m' c k)) ∧ (∀ c k, c ∉ cs ∨ k < P.ss ∨ P.se < k → m' c k = m c k) := by
  unfold markScan at h
  split at h
  · exact nomatch h
  · rename_i m1 h1
    split at h
    · exact nomatch h
    · rename_i hal
      cases h
      have hP : P.al ≤ 10 := by omega
      obtain ⟨i1, i2⟩ := markComps_spec List.nodup_range' cs hn h1
      refine ⟨hP, fun c hc k hk1 hk2 => ?_, fun c k hk => i2 c k ?_⟩
      · obtain ⟨j1, j2, j3⟩ := i1 c hc k (List.mem_range'_1.mpr (by omega))
        have hz : ∀ i, (m c k).testBit i = true → (scanBitmask P).testBit i = false ∧ (refinementBitmask P).testBit i = false := by
          intro i hi
          have e1 := congrArg (Nat.testBit · i) j1
          have e2 := congrArg (Nat.testBit · i) j2
          simp only [Nat.testBit_and, Nat.zero_testBit, hi, Bool.true_and] at e1 e2
          exact ⟨e1, e2⟩
        constructor
        · intro ha hlt
          apply Nat.eq_of_testBit_eq
          intro i
          rw [Nat.zero_testBit]
          by_contra hb
          rw [Bool.not_eq_false] at hb
          obtain ⟨e1, e2⟩ := hz i hb
          rw [scanBitmask_testBit, if_pos ha] at e1
          rw [refinementBitmask_testBit hP] at e2
          have hi : i < 16 := by
            by_contra hi
            have : (m c k).testBit i = false := Nat.testBit_lt_two_pow (lt_of_lt_of_le hlt (by
              have : 2 ^ 16 ≤ 2 ^ i := Nat.pow_le_pow_right (by decide) (by omega)
              omega))
            rw [hb] at this
            exact nomatch this
          simp only [hi, decide_true, Bool.true_and, decide_eq_false_iff_not] at e1 e2
          omega
        · intro i hi
          by_contra hb
          rw [Bool.not_eq_false] at hb
          obtain ⟨e1, e2⟩ := hz i hb
          rw [refinementBitmask_testBit hP, decide_eq_false_iff_not] at e2
          have : i = P.al := by omega
          subst this
          rw [scanBitmask_testBit] at e1
          split at e1
          · simp at e1; omega
          · simp at e1
        · intro i
          rw [j3, Nat.testBit_or]
        · intro hlt
          rw [j3]
          apply Nat.or_lt_two_pow (n := 16) hlt
          unfold scanBitmask
          split
          · exact Nat.mod_lt _ (by decide)
          · rw [Nat.one_shiftLeft]
            exact Nat.pow_lt_pow_right (by decide) (by omega)
      · rcases hk with hk | hk
        · exact Or.inl hk
        · right
          intro hm
          have := List.mem_range'_1.mp hm
          omega

/-! ## Values -/

/-- What the mask of a coefficient says about its value. -/
structure Val (m k : Nat) (v : Int) : Prop where
  lt : m < 65536
  zero : m = 0 → v = 0
  mul : m ≠ 0 → ∀ a, (∀ i, i < a → m.testBit i = false) → (∃ c : Int, v = c * 2 ^ a) ∧
    (k ≠ 0 → v.natAbs + 2 ^ a ≤ 2 ^ 11) ∧ (k = 0 → -32768 ≤ v ∧ v + 2 ^ a ≤ 32768)

/-- The bits from `a` on are the same. -/
def Keeps (a k : Nat) (v w : Int) : Prop :=
  (k = 0 → v / 2 ^ a = w / 2 ^ a) ∧ (k ≠ 0 → v.natAbs / 2 ^ a = w.natAbs / 2 ^ a ∧ (v.natAbs / 2 ^ a ≠ 0 → (v < 0 ↔ w < 0)))

theorem Keeps.refl (a k : Nat) (v : Int) : Keeps a k v v := ⟨fun _ => rfl, fun _ => ⟨rfl, fun _ => Iff.rfl⟩⟩

theorem Keeps.trans {a k : Nat} {u v w : Int} (h1 : Keeps a k u v) (h2 : Keeps a k v w) : Keeps a k u w :=
  ⟨fun h => (h1.1 h).trans (h2.1 h), fun h => ⟨(h1.2 h).1.trans (h2.2 h).1, fun hz => ((h1.2 h).2 hz).trans ((h2.2 h).2 ((h1.2 h).1 ▸ hz))⟩⟩

/-- What a first scan may leave in a coefficient that was 0. -/
def FStep (al k : Nat) (w : Int) : Prop :=
  (k ≠ 0 → w = 0 ∨ ∃ c : Int, w = c * 2 ^ al ∧ c.natAbs * 2 ^ al + 2 ^ al ≤ 2 ^ 11) ∧ (k = 0 → ∃ c : Int, w = c * 2 ^ al ∧ -32768 ≤ w ∧ w ≤ 32767)

/-- What a refinement scan may do to a coefficient. -/
def GStep (al k : Nat) (v w : Int) : Prop := (k ≠ 0 → w = v ∨ RStep al v w) ∧ (k = 0 → w = v ∨ w = v + 2 ^ al)

theorem pow_split {a b : Nat} (h : a ≤ b) : (2 : Int) ^ b = 2 ^ (b - a) * 2 ^ a := by rw [← Int.pow_add, Nat.sub_add_cancel h]

theorem Marked.min {P : SP} {m m' : Nat} (hm : Marked P m m') (hP : P.al ≤ 10) {a : Nat} (h : ∀ i, i < a → m'.testBit i = false) : a ≤ P.al := by
  by_contra hc
  have := h P.al (by omega)
  rw [hm.bit, scanBitmask_testBit] at this
  have h16 : P.al < 16 := by omega
  split at this <;> simp [h16] at this

theorem Marked.ne {P : SP} {m m' : Nat} (hm : Marked P m m') (hP : P.al ≤ 10) : m' ≠ 0 := by
  intro h
  have := hm.bit P.al
  rw [h, Nat.zero_testBit, scanBitmask_testBit] at this
  have h16 : P.al < 16 := by omega
  split at this <;> simp [h16] at this

theorem Marked.set {P : SP} {m m' : Nat} (hm : Marked P m m') (hP : P.al ≤ 10) : m'.testBit P.al = true := by
  rw [hm.bit, scanBitmask_testBit]
  have h16 : P.al < 16 := by omega
  split <;> simp [h16]

/-- A first scan. -/
theorem Val.first {P : SP} {m m' k : Nat} {v w : Int} (hP : P.al ≤ 10) (hv : Val m k v) (hm : Marked P m m') (ha : P.ah = 0) (hw : FStep P.al k w) : Val m' k w where
  lt := hm.lt hv.lt
  zero := fun h => absurd h (hm.ne hP)
  mul := by
    intro _ a hlow
    have hle := hm.min hP hlow
    have h2 : (2 : Nat) ^ a ≤ 2 ^ P.al := Nat.pow_le_pow_right (by decide) hle
    have h3 : (2 : Nat) ^ P.al ≤ 2 ^ 10 := Nat.pow_le_pow_right (by decide) hP
    have h2' : (2 : Int) ^ a ≤ 2 ^ P.al := by exact_mod_cast h2
    have h3' : (2 : Int) ^ P.al ≤ 2 ^ 10 := by exact_mod_cast h3
    by_cases hk : k = 0
    · obtain ⟨c, h4, h5, h6⟩ := hw.2 hk
      refine ⟨⟨c * 2 ^ (P.al - a), by rw [h4, pow_split hle]; ring⟩, fun h => absurd hk h, fun _ => ⟨h5, ?_⟩⟩
      -- multiples of 2^al below 32768
      have h7 : (32768 : Int) = 2 ^ (15 - P.al) * 2 ^ P.al := by rw [← Int.pow_add, show 15 - P.al + P.al = 15 by omega]; rfl
      have hp : (0 : Int) < 2 ^ P.al := Int.pow_pos (by decide)
      have h8 : c < 2 ^ (15 - P.al) := by
        by_contra hc
        have : 2 ^ (15 - P.al) * 2 ^ P.al ≤ c * 2 ^ P.al := Int.mul_le_mul_of_nonneg_right (by omega) (by omega)
        omega
      have h9 : (c + 1) * 2 ^ P.al ≤ 2 ^ (15 - P.al) * 2 ^ P.al := Int.mul_le_mul_of_nonneg_right (by omega) (by omega)
      rw [Int.add_mul, Int.one_mul] at h9
      omega
    · refine ⟨?_, fun _ => ?_, fun h => absurd h hk⟩
      · rcases hw.1 hk with h4 | ⟨c, h4, _⟩
        · exact ⟨0, by rw [h4]; ring⟩
        · exact ⟨c * 2 ^ (P.al - a), by rw [h4, pow_split hle]; ring⟩
      · rcases hw.1 hk with h4 | ⟨c, h4, h5⟩
        · rw [h4]; simp only [Int.natAbs_zero]; omega
        · rw [h4, Int.natAbs_mul, Int.natAbs_pow]
          show c.natAbs * 2 ^ P.al + _ ≤ _
          omega

theorem RStep.abs {al : Nat} {v w : Int} (hh : Hist al v) (h : RStep al v w) : (∃ c : Int, w = c * 2 ^ al) ∧ (w.natAbs = v.natAbs ∨ w.natAbs = v.natAbs + 2 ^ al) ∧ (v ≠ 0 → (v < 0 ↔ w < 0)) := by
  rcases h with ⟨hv, b, rfl⟩ | ⟨hv, h⟩
  · obtain ⟨c, h1, h2, h3, h4, h5⟩ := refBit_spec hh hv b
    have e : (refBit al v b.toNat).natAbs = c.natAbs * 2 ^ al := by rw [h1, Int.natAbs_mul, Int.natAbs_pow]; rfl
    refine ⟨⟨c, h1⟩, ?_, fun _ => h5.symm⟩
    rw [e, h4]
    cases b
    · left; simp
    · right; simp
  · have e : ((2 : Int) ^ al).natAbs = 2 ^ al := by rw [Int.natAbs_pow]; rfl
    rcases h with h | h | h
    · rw [h, hv]; exact ⟨⟨0, by ring⟩, Or.inl rfl, fun h => absurd rfl h⟩
    · rw [h, hv, e]; exact ⟨⟨1, by ring⟩, Or.inr (by simp), fun h => absurd rfl h⟩
    · rw [h, hv, Int.natAbs_neg, e]; exact ⟨⟨-1, by ring⟩, Or.inr (by simp), fun h => absurd rfl h⟩

theorem Val.hist {P : SP} {m m' k : Nat} {v : Int} (hv : Val m k v) (hm : Marked P m m') : Hist P.al v := by
  by_cases hz : m = 0
  · exact ⟨0, by rw [hv.zero hz]; ring⟩
  · exact (hv.mul hz (P.al + 1) fun i hi => hm.low i (by omega)).1

/-- A refinement scan. -/
theorem Val.refine {P : SP} {m m' k : Nat} {v w : Int} (hP : P.al ≤ 10) (hv : Val m k v) (hm : Marked P m m') (hw : GStep P.al k v w) : Val m' k w where
  lt := hm.lt hv.lt
  zero := fun h => absurd h (hm.ne hP)
  mul := by
    intro _ a hlow
    have hle := hm.min hP hlow
    have h2 : (2 : Nat) ^ a ≤ 2 ^ P.al := Nat.pow_le_pow_right (by decide) hle
    have h3 : (2 : Nat) ^ P.al ≤ 2 ^ 10 := Nat.pow_le_pow_right (by decide) hP
    have h2' : (2 : Int) ^ a ≤ 2 ^ P.al := by exact_mod_cast h2
    have h3' : (2 : Int) ^ P.al ≤ 2 ^ 10 := by exact_mod_cast h3
    have hh := hv.hist hm
    have hb : (k ≠ 0 → v.natAbs + 2 * 2 ^ P.al ≤ 2 ^ 11) ∧ (k = 0 → -32768 ≤ v ∧ v + 2 * 2 ^ P.al ≤ 32768) := by
      by_cases hz : m = 0
      · rw [hv.zero hz]
        simp only [Int.natAbs_zero]
        constructor
        · intro _; omega
        · intro _; omega
      · have := (hv.mul hz (P.al + 1) fun i hi => hm.low i (by omega)).2
        rw [Nat.pow_succ, Int.pow_succ] at this
        refine ⟨fun hk => ?_, fun hk => ?_⟩
        · have := this.1 hk; omega
        · have := this.2 hk; omega
    have hmulv : ∃ c : Int, v = c * 2 ^ P.al := by
      obtain ⟨c, hc⟩ := hh
      exact ⟨c * 2, by rw [hc, Int.pow_succ]; ring⟩
    have hd : ∀ x : Int, (∃ c : Int, x = c * 2 ^ P.al) → ∃ c : Int, x = c * 2 ^ a := by
      rintro x ⟨c, hc⟩
      exact ⟨c * 2 ^ (P.al - a), by rw [hc, pow_split hle]; ring⟩
    by_cases hk : k = 0
    · have hb := hb.2 hk
      refine ⟨?_, fun h => absurd hk h, fun _ => ?_⟩
      · apply hd
        rcases hw.2 hk with h | h
        · rw [h]; exact hmulv
        · obtain ⟨c, hc⟩ := hmulv
          exact ⟨c + 1, by rw [h, hc]; ring⟩
      · have hp : (0 : Int) < 2 ^ P.al := Int.pow_pos (by decide)
        rcases hw.2 hk with h | h <;> rw [h] <;> omega
    · have hb := hb.1 hk
      have hr : (∃ c : Int, w = c * 2 ^ P.al) ∧ (w.natAbs = v.natAbs ∨ w.natAbs = v.natAbs + 2 ^ P.al) := by
        rcases hw.1 hk with h | h
        · rw [h]; exact ⟨hmulv, Or.inl rfl⟩
        · exact ⟨(h.abs hh).1, (h.abs hh).2.1⟩
      refine ⟨hd _ hr.1, fun _ => ?_, fun h => absurd h hk⟩
      rcases hr.2 with h | h <;> rw [h] <;> omega

/-- A refinement scan keeps what earlier scans provided. -/
theorem Val.keeps {P : SP} {m m' k a : Nat} {v w : Int} (hv : Val m k v) (hm : Marked P m m') (ha : m.testBit a = true) (hw : GStep P.al k v w) : Keeps a k v w := by
  have hal : P.al + 1 ≤ a := by
    by_contra hc
    have := hm.low a (by omega)
    rw [ha] at this
    exact nomatch this
  have hh := hv.hist hm
  have hh' := hh
  obtain ⟨c, hc⟩ := hh
  obtain ⟨d, rfl⟩ := Nat.exists_eq_add_of_le hal
  have hp : (0 : Int) < 2 ^ P.al := Int.pow_pos (by decide)
  have hp' : 0 < 2 ^ P.al := Nat.two_pow_pos _
  constructor
  · intro hk
    rcases hw.2 hk with h | h
    · rw [h]
    · rw [h, Int.pow_add, ← Int.ediv_ediv_of_nonneg (by exact Int.le_of_lt (Int.pow_pos (by decide))), ← Int.ediv_ediv_of_nonneg (by exact Int.le_of_lt (Int.pow_pos (by decide)))]
      congr 1
      rw [hc, Int.pow_succ]
      generalize (2 : Int) ^ P.al = z at *
      have e1 : c * (z * 2) = c * (z * 2) + 0 := by omega
      rw [Int.mul_ediv_cancel _ (by omega), Int.add_comm, Int.add_mul_ediv_right _ _ (by omega), Int.ediv_eq_zero_of_lt (by omega) (by omega)]
      omega
  · intro hk
    have hr : (w.natAbs = v.natAbs ∨ w.natAbs = v.natAbs + 2 ^ P.al) ∧ (v ≠ 0 → (v < 0 ↔ w < 0)) := by
      rcases hw.1 hk with h | h
      · rw [h]; exact ⟨Or.inl rfl, fun _ => Iff.rfl⟩
      · exact ⟨(h.abs hh').2.1, (h.abs hh').2.2⟩
    have hva : v.natAbs = c.natAbs * (2 ^ P.al * 2) := by rw [hc, Int.natAbs_mul, Int.natAbs_pow, Nat.pow_succ]; rfl
    constructor
    · rcases hr.1 with h | h
      · rw [h]
      · rw [h, Nat.pow_add, ← Nat.div_div_eq_div_mul, ← Nat.div_div_eq_div_mul]
        congr 1
        rw [hva, Nat.pow_succ]
        generalize 2 ^ P.al = z at *
        rw [Nat.mul_div_cancel _ (by omega), Nat.add_comm, Nat.add_mul_div_right _ _ (by omega), Nat.div_eq_of_lt (by omega)]
        omega
    · intro hz
      refine hr.2 ?_
      rintro rfl
      simp at hz

end Brunsli
