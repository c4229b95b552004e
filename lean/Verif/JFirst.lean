import Verif.JBlockSpec
/-!
# First scans: the encoder gives back what the decoder consumed
-/

namespace Brunsli

theorem huffExtend_spec {x s : Nat} (hs : 1 ≤ s) (hx : x < 2 ^ s) :
    Nat.log2 (huffExtend x s).natAbs + 1 = s ∧ huffExtend x s ≠ 0 ∧ (huffExtend x s).natAbs < 2 ^ s ∧
    ((if decide (huffExtend x s < 0) then - ((huffExtend x s).natAbs : Int) - 1 else (huffExtend x s).natAbs) % 2 ^ s).toNat = x := by
  obtain ⟨t, rfl⟩ : ∃ t, s = t + 1 := ⟨s - 1, by omega⟩
  have hp := Nat.two_pow_pos t
  rw [Nat.pow_succ] at hx
  have e : ((2 : Int) ^ (t + 1)) = ((2 ^ t : Nat) : Int) * 2 := by rw [pow_succ]; norm_cast
  unfold huffExtend
  rw [Nat.add_sub_cancel, e, Nat.pow_succ]
  generalize hq : 2 ^ t = q at *
  by_cases h : q ≤ x
  · rw [if_pos h]
    refine ⟨?_, by omega, by omega, ?_⟩
    · rw [Nat.add_right_cancel_iff, Nat.log2_eq_iff (by omega), Nat.pow_succ, hq]
      omega
    · have : ¬ ((x : Int) < 0) := by omega
      simp only [this, decide_false, Bool.false_eq_true, if_false]
      rw [Int.emod_eq_of_lt (by omega) (by omega)]
      omega
  · rw [if_neg h]
    refine ⟨?_, by omega, by omega, ?_⟩
    · rw [Nat.add_right_cancel_iff, Nat.log2_eq_iff (by omega), Nat.pow_succ, hq]
      omega
    · have : (x : Int) - (q : Int) * 2 + 1 < 0 := by omega
      simp only [this, decide_true, if_true]
      have h2 : (-(((x : Int) - (q : Int) * 2 + 1).natAbs : Int) - 1) = x - (q : Int) * 2 := by omega
      rw [h2, Int.sub_emod_right, Int.emod_eq_of_lt (by omega) (by omega)]
      omega

theorem natAbs_mul_pow (c : Int) (Al : Nat) : (c * 2 ^ Al).natAbs / 2 ^ Al = c.natAbs := by
  rw [Int.natAbs_mul, Int.natAbs_pow]
  exact Nat.mul_div_cancel _ (Nat.two_pow_pos Al)

theorem mul_pow_neg (c : Int) (Al : Nat) : c * 2 ^ Al < 0 ↔ c < 0 := by
  have : (0 : Int) < 2 ^ Al := Int.pow_pos (by decide)
  constructor
  · intro h
    by_contra hc
    have := Int.mul_nonneg (Int.not_lt.mp hc) (Int.le_of_lt this)
    omega
  · intro h; exact Int.mul_neg_of_neg_of_pos h this

/-- The decoder touches the coefficients from `k` to `Se` only. -/
theorem decAC_frame {ac : HSlot} {Ss Se Al : Nat} {allowed : Bool} {last e : Int} (n : Nat) : ∀ {k nzr : Nat} {B : Blk} {as : List Atom} {o : BlkOut},
    Eats (decAC ac Ss Se Al allowed last e n k nzr B) as o → (∀ j, j < k ∨ Se < j → o.blk j = B j) ∧ o.last = last := by
  induction n with
  | zero =>
    intro k nzr B as o h
    rw [decAC] at h
    cases h
    exact ⟨fun _ _ => rfl, rfl⟩
  | succ n ih =>
    intro k nzr B as o h
    rw [decAC] at h
    split at h
    · cases h
      exact ⟨fun _ _ => rfl, rfl⟩
    · cases h with
      | sym hv h =>
        dsimp only at h
        split at h
        · split at h
          · cases h
          · split at h
            · cases h
            · cases h with
              | bits hl h =>
                obtain ⟨i1, i2⟩ := ih h
                refine ⟨?_, i2⟩
                intro j hj
                rw [i1 j (by omega), Blk.set, if_neg (by omega)]
        · split at h
          · obtain ⟨i1, i2⟩ := ih h
            exact ⟨fun j hj => i1 j (by omega), i2⟩
          · split at h
            · split at h
              · cases h with
                | bits hl h =>
                  cases h
                  exact ⟨fun _ _ => rfl, rfl⟩
              · cases h
            · cases h
              exact ⟨fun _ _ => rfl, rfl⟩

theorem progAC_skip {ac : HSlot} {Al : Nat} {F : Blk} (m : Nat) : ∀ {n b r : Nat} {s : CS}, (∀ j, b ≤ j → j < b + m → (F j).natAbs / 2 ^ Al = 0) →
    progAC ac Al F (m + n) b r s = progAC ac Al F n (b + m) (r + m) s := by
  induction m with
  | zero => intro n b r s _; rw [Nat.zero_add]; rfl
  | succ m ih =>
    intro n b r s h
    rw [show m + 1 + n = m + n + 1 by omega, progAC, if_pos (h b (Nat.le_refl _) (by omega)), ih fun j h1 h2 => h j (by omega) (by omega)]
    rw [show b + 1 + m = b + (m + 1) by omega, show r + 1 + m = r + (m + 1) by omega]

/-- The zero runs read since the last coefficient. -/
def zrls (ac : HSlot) (n : Nat) : List Atom := List.replicate n (.sym ac 0xf0)

theorem atomsOf_zrls (ac : HSlot) (n : Nat) : atomsOf (List.replicate n (.sym ac 0xf0)) = zrls ac n := by
  unfold atomsOf zrls
  rw [List.flatMap_replicate]
  simp [reqAtoms, List.flatten_replicate_singleton]

theorem zrls_succ (ac : HSlot) (n : Nat) : zrls ac n ++ [.sym ac 0xf0] = zrls ac (n + 1) := by
  unfold zrls
  rw [List.replicate_succ']

/-- What the writer does from the index `b` on, with the run of zeros `0`. -/
def progFrom (ac : HSlot) (Se Al : Nat) (allowed : Bool) (nzr : Nat) (F : Blk) (b : Nat) (s : CS) : List WReq × CS :=
  let q := progAC ac Al F (Se + 1 - b) b 0 s
  let t := progTail ac allowed nzr q.2.1 q.2.2
  (q.1 ++ t.1, t.2)

/-- The rest of a block without further coefficients. -/
theorem progFrom_zero {ac : HSlot} {Se Al : Nat} {allowed : Bool} {nzr : Nat} {F : Blk} {b : Nat} {s : CS} (hz : ∀ j, b ≤ j → j ≤ Se → F j = 0) (hb : b ≤ Se + 1) :
    progFrom ac Se Al allowed nzr F b s = progTail ac allowed nzr (Se + 1 - b) s := by
  unfold progFrom
  have := progAC_skip (ac := ac) (Al := Al) (F := F) (Se + 1 - b) (n := 0) (b := b) (r := 0) (s := s) (by
    intro j h1 h2
    rw [hz j h1 (by omega)]
    simp)
  rw [Nat.add_zero] at this
  rw [this]
  simp [progAC]

/-- The next coefficient, after a run of zeros. -/
theorem progFrom_coeff {ac : HSlot} {Se Al : Nat} {allowed : Bool} {nzr : Nat} {F : Blk} {b k : Nat} {s : CS} (hbk : b ≤ k) (hk : k ≤ Se)
    (hz : ∀ j, b ≤ j → j < k → F j = 0) (hn : (F k).natAbs / 2 ^ Al ≠ 0) :
    progFrom ac Se Al allowed nzr F b s =
      (s.flush.1 ++ acReqs ac (k - b) ((F k).natAbs / 2 ^ Al) (decide (F k < 0)) ++ (progFrom ac Se Al allowed nzr F (k + 1) s.flush.2).1,
        (progFrom ac Se Al allowed nzr F (k + 1) s.flush.2).2) := by
  unfold progFrom
  have := progAC_skip (ac := ac) (Al := Al) (F := F) (k - b) (n := Se - k + 1) (b := b) (r := 0) (s := s) (by
    intro j h1 h2
    rw [hz j h1 (by omega)]
    simp)
  rw [show k - b + (Se - k + 1) = Se + 1 - b by omega, show b + (k - b) = k by omega, Nat.zero_add, progAC, if_neg hn] at this
  rw [this, show Se + 1 - (k + 1) = Se - k by omega]
  simp only [List.append_assoc]

theorem atomsOf_acReqs {ac : HSlot} {nzr r sz : Nat} {bs : List Bool} {v : Int} (hr : r < 16) (hs : 1 ≤ sz) (hl : bs.length = sz) (hv : v = huffExtend (ofMsb bs) sz) :
    atomsOf (acReqs ac (16 * nzr + r) v.natAbs (decide (v < 0))) = zrls ac nzr ++ (.sym ac (16 * r + sz) :: bs.map .bit) := by
  have hx := ofMsb_lt bs
  rw [hl] at hx
  obtain ⟨e1, -, -, e2⟩ := huffExtend_spec hs hx
  rw [← hv] at e1 e2
  unfold acReqs
  simp only
  rw [e1, e2, atomsOf_append, show (16 * nzr + r) / 16 = nzr by omega, show (16 * nzr + r) % 16 = r by omega, atomsOf_zrls, ← hl]
  congr 1
  simp [atomsOf, reqAtoms, msb_ofMsb]

/-- The tail of a block, when the zero runs end the band. -/
theorem progTail_full {ac : HSlot} {allowed : Bool} {nzr r : Nat} {s : CS} {C E : List Atom} (hr : r ≤ 16 * nzr) (hwf : s.Wf) (hcnt : s.count ≤ 63 * s.eob)
    (hC : C = E ++ s.pending) (h0 : nzr = 0 → s.eob = 0) {e : Int} (he : e ≤ 0) :
    Joint allowed e (progTail ac allowed nzr r s).2 (C ++ zrls ac nzr) (E ++ atomsOf (progTail ac allowed nzr r s).1) := by
  unfold progTail
  simp only
  rw [if_neg (by omega)]
  by_cases hn : 0 < nzr
  · rw [if_pos hn]
    constructor
    · exact (CS.flush_wf s).1
    · show (0 : Nat) < _; omega
    · show (0 : Nat) ≤ _; omega
    · intro _; rfl
    · intro _; exact ⟨rfl, he⟩
    · intro _
      rw [CS.flush_pending, atomsOf_append, CS.flush_atoms, atomsOf_zrls, hC]
      simp
    · intro h; omega
  · have hz : nzr = 0 := by omega
    subst hz
    rw [if_neg hn]
    have := h0 rfl
    constructor
    · exact hwf
    · show s.eob < _; omega
    · exact hcnt
    · intro _; exact this
    · intro _; exact ⟨this, he⟩
    · intro _
      rw [hC]
      simp [zrls, atomsOf]
    · intro h; omega

/-- The tail of a block, with an end of band. -/
theorem progTail_eob {ac : HSlot} {allowed : Bool} {nzr r : Nat} {s : CS} {C E : List Atom} (hr : 16 * nzr < r) (hwf : s.Wf) (hcnt : s.count ≤ 63 * s.eob)
    (hC : C = E ++ s.pending) (h0 : nzr = 0 → s.eob = 0) {run : Nat} (h1 : 1 ≤ run) (h2 : run ≤ 0x7FFF) (hal : allowed = false → run = 1) :
    Joint allowed ((run : Int) - 1) (progTail ac allowed nzr r s).2 (C ++ zrls ac nzr ++ eobAtoms ac run) (E ++ atomsOf (progTail ac allowed nzr r s).1) := by
  have key : ∃ p : List WReq × CS, p = (if 0 < nzr then (s.flush.1 ++ List.replicate nzr (.sym ac 0xf0), s.flush.2) else ([], s)) ∧ p.2.Wf ∧ p.2.eob = 0 ∧ p.2.count = 0 ∧
      E ++ atomsOf p.1 = C ++ zrls ac nzr := by
    by_cases hn : 0 < nzr
    · refine ⟨_, rfl, ?_⟩
      rw [if_pos hn]
      refine ⟨(CS.flush_wf s).1, rfl, rfl, ?_⟩
      rw [atomsOf_append, CS.flush_atoms, atomsOf_zrls, hC]
      simp
    · refine ⟨_, rfl, ?_⟩
      rw [if_neg hn]
      have hz : nzr = 0 := by omega
      have := h0 hz
      refine ⟨hwf, this, by simp only; omega, ?_⟩
      rw [hC, CS.pending_empty this (by omega), hz]
      simp [zrls, atomsOf]
  obtain ⟨p, hp, p1, p2, p3, p4⟩ := key
  obtain ⟨-, j⟩ := Joint.start (ac := ac) (allowed := allowed) (C := C ++ zrls ac nzr) (bs := []) p1 p2 p3 (by simp) h1 h2 hal
  unfold progTail
  simp only
  rw [← hp, if_pos hr]
  cases allowed with
  | true =>
    simp only [if_true] at j ⊢
    rw [atomsOf_append, ← List.append_assoc, p4]
    simpa using j
  | false =>
    simp only [Bool.false_eq_true, if_false] at j ⊢
    rw [List.append_assoc p.1, atomsOf_append, ← List.append_assoc, p4]
    simpa using j

/-- **AC coefficients of a first scan.** -/
theorem decAC_write {ac : HSlot} {Ss Se Al : Nat} {allowed : Bool} {last e : Int} (he : e ≤ 0) (n : Nat) : ∀ {k nzr : Nat} {B : Blk} {as : List Atom} {o : BlkOut},
    Eats (decAC ac Ss Se Al allowed last e n k nzr B) as o → Se + 1 ≤ k + n → ∀ {b : Nat}, Ss ≤ b → k = b + 16 * nzr → b ≤ Se + 1 → (Ss = b → nzr = 0 → b ≤ Se) →
    (∀ j, b ≤ j → j ≤ Se → B j = 0) → ∀ {s : CS} {C E : List Atom}, s.Wf → s.count ≤ 63 * s.eob → C = E ++ s.pending →
    ((Ss ≠ b ∨ e < 0 ∨ allowed = false ∨ o.reset = true) → s.eob = 0) →
    Joint allowed o.eob (progFrom ac Se Al allowed o.nzr o.blk b s).2 (C ++ zrls ac nzr ++ as)
      (E ++ atomsOf (progFrom ac Se Al allowed o.nzr o.blk b s).1) := by
  have fin : ∀ {k nzr : Nat} {B : Blk}, Se < k → ∀ {b : Nat}, Ss ≤ b → k = b + 16 * nzr → b ≤ Se + 1 → (Ss = b → nzr = 0 → b ≤ Se) →
      (∀ j, b ≤ j → j ≤ Se → B j = 0) → ∀ {s : CS} {C E : List Atom}, s.Wf → s.count ≤ 63 * s.eob → C = E ++ s.pending → (Ss ≠ b → s.eob = 0) →
      Joint allowed (e - 1) (progFrom ac Se Al allowed nzr B b s).2 (C ++ zrls ac nzr ++ []) (E ++ atomsOf (progFrom ac Se Al allowed nzr B b s).1) := by
    intro k nzr B hk b hSs hkb hb hnz hB s C E hwf hcnt hC hempty
    rw [progFrom_zero hB hb, List.append_nil]
    exact progTail_full (by omega) hwf hcnt hC (fun h => hempty (by intro h2; have := hnz h2 h; omega)) (by omega)
  induction n with
  | zero =>
    intro k nzr B as o h hn b hSs hk hb hnz hB s C E hwf hcnt hC hempty
    rw [decAC] at h
    cases h
    exact fin (k := k) (by omega) hSs hk hb hnz hB hwf hcnt hC (fun h => hempty (Or.inl h))
  | succ n ih =>
    intro k nzr B as o h hn b hSs hk hb hnz hB s C E hwf hcnt hC hempty
    rw [decAC] at h
    split at h
    · cases h
      exact fin (k := k) (by omega) hSs hk hb hnz hB hwf hcnt hC (fun h => hempty (Or.inl h))
    · rename_i hkSe
      cases h with
      | sym hv h =>
        rename_i sr as
        dsimp only at h
        split at h
        · rename_i hs
          split at h
          · cases h
          · rename_i hr
            split at h
            · cases h
            · rename_i hal
              cases h with
              | bits hl h =>
                rename_i bs as
                have hfr := (decAC_frame n h).1
                have hx := ofMsb_lt bs
                rw [hl] at hx
                obtain ⟨-, x1, -, -⟩ := huffExtend_spec (by omega) hx
                have hv1 : o.blk (k + sr / 16) = huffExtend (ofMsb bs) (sr % 16) * 2 ^ Al := by
                  rw [hfr _ (by omega), Blk.set, if_pos rfl]
                have ha : (o.blk (k + sr / 16)).natAbs / 2 ^ Al = (huffExtend (ofMsb bs) (sr % 16)).natAbs := by
                  rw [hv1, natAbs_mul_pow]
                have hneg : decide (o.blk (k + sr / 16) < 0) = decide (huffExtend (ofMsb bs) (sr % 16) < 0) := by
                  rw [hv1]
                  exact decide_eq_decide.mpr (mul_pow_neg _ _)
                have hz : ∀ j, b ≤ j → j < k + sr / 16 → o.blk j = 0 := by
                  intro j h1 h2
                  rw [hfr j (by omega), Blk.set, if_neg (by omega)]
                  exact hB j h1 (by omega)
                have hp := progFrom_coeff (ac := ac) (Se := Se) (Al := Al) (allowed := allowed) (nzr := o.nzr) (F := o.blk) (b := b) (k := k + sr / 16) (s := s)
                  (by omega) (by omega) hz (by rw [ha]; omega)
                have hat := atomsOf_acReqs (ac := ac) (nzr := nzr) (r := sr / 16) (sz := sr % 16) (bs := bs) (by omega) (by omega) hl rfl
                rw [ha, hneg, show k + sr / 16 - b = 16 * nzr + sr / 16 by omega] at hp
                rw [show 16 * (sr / 16) + sr % 16 = sr by omega] at hat
                have := ih h (by omega) (b := k + sr / 16 + 1) (by omega) (by omega) (by omega) (by omega) (by
                    intro j h1 h2
                    rw [Blk.set, if_neg (by omega)]
                    exact hB j (by omega) h2) (s := s.flush.2) (C := C ++ zrls ac nzr ++ (.sym ac sr :: bs.map .bit))
                  (E := C ++ zrls ac nzr ++ (.sym ac sr :: bs.map .bit)) (CS.flush_wf s).1 (Nat.zero_le _) (by rw [CS.flush_pending, List.append_nil]) (fun _ => rfl)
                rw [hp]
                simp only
                rw [atomsOf_append, atomsOf_append, CS.flush_atoms, hat, hC]
                rw [hC] at this
                simpa [zrls] using this
        · rename_i hs
          split at h
          · rename_i hr
            have := ih h (by omega) (b := b) hSs (by omega) hb (by omega) hB hwf hcnt hC hempty
            rw [← zrls_succ] at this
            have hsr : sr = 0xf0 := by omega
            subst hsr
            simpa using this
          · rename_i hr15
            have hno : ∀ r : Bool, (allowed && decide (k = Ss) && decide (e = 0)) = r → (Ss ≠ b ∨ e < 0 ∨ allowed = false ∨ r = true → s.eob = 0) → nzr = 0 → s.eob = 0 := by
              intro r hre hh hnz0
              apply hh
              by_contra hc
              push Not at hc
              obtain ⟨c1, c2, c3, c4⟩ := hc
              apply c4
              rw [← hre]
              have e0 : e = 0 := by omega
              have k0 : k = Ss := by omega
              have a0 : allowed = true := by cases allowed <;> simp_all
              simp [e0, k0, a0]
            split at h
            · rename_i hr0
              split at h
              · rename_i hall
                cases h with
                | bits hl h =>
                  rename_i bs as
                  cases h
                  simp only at hempty ⊢
                  rw [progFrom_zero hB hb]
                  have hx := ofMsb_lt bs
                  rw [hl] at hx
                  have hpw : 2 ^ (sr / 16) ≤ 2 ^ 14 := Nat.pow_le_pow_right (by omega) (by omega)
                  have := progTail_eob (ac := ac) (allowed := allowed) (nzr := nzr) (r := Se + 1 - b) (by omega) hwf hcnt hC (hno _ rfl hempty)
                    (run := 2 ^ (sr / 16) + ofMsb bs) (by omega) (by omega) (by intro h; rw [h] at hall; cases hall)
                  rw [eobAtoms_run hx, show 16 * (sr / 16) = sr by omega, ← hl, msb_ofMsb, hl] at this
                  simpa using this
              · cases h
            · cases h
              simp only at hempty ⊢
              rw [progFrom_zero hB hb]
              have hsr : sr = 0 := by omega
              have := progTail_eob (ac := ac) (allowed := allowed) (nzr := nzr) (r := Se + 1 - b) (by omega) hwf hcnt hC (hno _ rfl hempty)
                (run := 1) (by omega) (by omega) (fun _ => rfl)
              subst hsr
              rw [show eobAtoms ac 1 = [.sym ac 0] from rfl] at this
              simpa using this

/-! ## Whole blocks -/

/-- Two blocks look the same to the encoder of a first scan. -/
def SameFirst (Ss Se Al : Nat) (F G : Blk) : Prop :=
  (Ss = 0 → F 0 / 2 ^ Al = G 0 / 2 ^ Al) ∧
  ∀ k, 1 ≤ k → Ss ≤ k → k ≤ Se → (F k).natAbs / 2 ^ Al = (G k).natAbs / 2 ^ Al ∧ ((F k).natAbs / 2 ^ Al ≠ 0 → (F k < 0 ↔ G k < 0))

theorem progAC_congr {ac : HSlot} {Al : Nat} {F G : Blk} (n : Nat) : ∀ {k r : Nat} {s : CS},
    (∀ j, k ≤ j → j < k + n → (F j).natAbs / 2 ^ Al = (G j).natAbs / 2 ^ Al ∧ ((F j).natAbs / 2 ^ Al ≠ 0 → (F j < 0 ↔ G j < 0))) →
    progAC ac Al F n k r s = progAC ac Al G n k r s := by
  induction n with
  | zero => intro k r s _; rfl
  | succ n ih =>
    intro k r s h
    have hk := h k (Nat.le_refl _) (by omega)
    rw [progAC, progAC, ih fun j h1 h2 => h j (by omega) (by omega), ih fun j h1 h2 => h j (by omega) (by omega), hk.1]
    by_cases hz : (G k).natAbs / 2 ^ Al = 0
    · rw [if_pos hz, if_pos hz]
    · rw [if_neg hz, if_neg hz, decide_eq_decide.mpr (hk.2 (by rw [hk.1]; exact hz))]

theorem encProg_congr {dc ac : HSlot} {Ss Se Al nzr : Nat} {last : Int} {F G : Blk} {s : CS} (h : SameFirst Ss Se Al F G) :
    encProg dc ac Ss Se Al nzr last F s = encProg dc ac Ss Se Al nzr last G s := by
  unfold encProg progRest
  by_cases h0 : Ss = 0
  · rw [if_pos h0, if_pos h0, h.1 h0]
    by_cases h1 : Se < 1
    · rw [if_pos h1, if_pos h1]
    · rw [if_neg h1, if_neg h1, progAC_congr _ fun j h1 h2 => h.2 j h1 (by omega) (by omega)]
  · rw [if_neg h0, if_neg h0]
    by_cases h1 : Se < Ss
    · rw [if_pos h1, if_pos h1]
    · rw [if_neg h1, if_neg h1, progAC_congr _ fun j h1 h2 => h.2 j (by omega) h1 (by omega)]

/-- The AC part of a block. -/
theorem decRest_write {ac : HSlot} {Ss Se Al : Nat} {allowed : Bool} {last e : Int} {B : Blk} {as : List Atom} {o : BlkOut}
    (h : Eats (decRest ac Ss Se Al allowed last e B) as o) (hB : ∀ j, Ss ≤ j → j ≤ Se → B j = 0) {s : CS} {C E : List Atom}
    (hj : Joint allowed e s C E) (hr : o.reset = true → s.eob = 0) :
    Joint allowed o.eob (progRest ac Ss Se Al allowed o.nzr o.blk s).2 (C ++ as) (E ++ atomsOf (progRest ac Ss Se Al allowed o.nzr o.blk s).1) ∧
      o.last = last ∧ ∀ j, j < Ss ∨ Se < j → o.blk j = B j := by
  unfold decRest at h
  unfold progRest
  split at h
  · rename_i hlt
    cases h
    rw [if_pos hlt]
    exact ⟨by simpa [atomsOf] using hj, rfl, fun _ _ => rfl⟩
  · rename_i hlt
    rw [if_neg hlt]
    split at h
    · rename_i he
      cases h
      refine ⟨?_, rfl, fun _ _ => rfl⟩
      have hall : allowed = true := by
        by_contra hc
        have := hj.plain (by cases allowed <;> simp_all)
        omega
      subst hall
      change Joint true (e - 1) (progFrom ac Se Al true 0 B Ss s).2 (C ++ []) (E ++ atomsOf (progFrom ac Se Al true 0 B Ss s).1)
      rw [progFrom_zero hB (by omega)]
      unfold progTail
      simp only [Nat.lt_irrefl, if_false, Nat.mul_zero, if_true]
      rw [if_pos (by omega)]
      have := (Joint.next (ac := ac) (bs := []) hj he (by simp)).2
      simpa using this
    · rename_i he
      have hf := decAC_frame _ h
      refine ⟨?_, hf.2, fun j hj => hf.1 j (by omega)⟩
      have := decAC_write (by omega) _ h (by omega) (b := Ss) (Nat.le_refl _) (by omega) (by omega) (by omega) hB hj.wf hj.cnt (hj.done (by omega)) (by
        rintro (h1 | h1 | h1 | h1)
        · exact absurd rfl h1
        · exact hj.idle h1
        · exact (hj.plain h1).1
        · exact hr h1)
      simpa [progFrom, zrls] using this

theorem i16_of_range {x : Int} (h1 : -32768 ≤ x) (h2 : x < 32768) : i16 x = x := by
  unfold i16
  rw [Int.bmod_def]
  split <;> omega

theorem i16_range (x : Int) : -32768 ≤ i16 x ∧ i16 x < 32768 := by
  unfold i16
  rw [Int.bmod_def]
  split <;> omega

theorem atomsOf_dcReqs {dc : HSlot} {sz : Nat} {bs : List Bool} (hs : sz < 12) (hl : bs.length = sz) {v : Int} (hv : v = if 0 < sz then huffExtend (ofMsb bs) sz else 0) :
    atomsOf (dcReqs dc v) = .sym dc sz :: bs.map .bit := by
  unfold dcReqs
  simp only
  by_cases h0 : 0 < sz
  · rw [if_pos h0] at hv
    have hx := ofMsb_lt bs
    rw [hl] at hx
    obtain ⟨e1, e2, e3, e4⟩ := huffExtend_spec h0 hx
    rw [← hv] at e1 e2 e3 e4
    have hp : (2 : Nat) ^ sz ≤ 2 ^ 11 := Nat.pow_le_pow_right (by omega) (by omega)
    have hlt : v.natAbs < 2048 := by omega
    have ha : (if v < 0 then i16 (-v) else v) = (v.natAbs : Int) := by
      split
      · rw [i16_of_range (by omega) (by omega)]; omega
      · omega
    have ht : (if v < 0 then i16 (v - 1) else v) = (if decide (v < 0) then - (v.natAbs : Int) - 1 else v.natAbs) := by
      by_cases hn : v < 0
      · rw [if_pos hn, i16_of_range (by omega) (by omega)]
        simp only [hn, decide_true, if_true]
        omega
      · rw [if_neg hn]
        simp only [hn, decide_false, Bool.false_eq_true, if_false]
        omega
    rw [ha, ht, if_neg (by omega)]
    have hm : ((v.natAbs : Int) % 2 ^ 32).toNat = v.natAbs := by omega
    rw [hm, e1, if_pos h0, e4]
    simp only [atomsOf, List.flatMap_cons, reqAtoms, List.flatMap_nil]
    rw [← hl, msb_ofMsb]
    simp
  · have : sz = 0 := by omega
    subst this
    rw [if_neg h0] at hv
    subst hv
    have : bs = [] := List.length_eq_zero_iff.mp hl
    subst this
    simp [atomsOf, reqAtoms]

/-- **Blocks of a first scan**: what the reader consumed is what the writer gives for the decoded coefficients. -/
theorem decodeBlock_write {dc ac : HSlot} {Ss Se Al : Nat} {last e : Int} {B : Blk} {as : List Atom} {o : BlkOut}
    (h : Eats (decodeBlock dc ac Ss Se Al last e B) as o) (hB : ∀ j, Ss ≤ j → j ≤ Se → B j = 0) {s : CS} {C E : List Atom}
    (hj : Joint (decide (Ss ≠ 0)) e s C E) (hr : o.reset = true → s.eob = 0) {F : Blk} (hF : SameFirst Ss Se Al F o.blk) :
    Joint (decide (Ss ≠ 0)) o.eob (encProg dc ac Ss Se Al o.nzr last F s).2.2 (C ++ as) (E ++ atomsOf (encProg dc ac Ss Se Al o.nzr last F s).1) ∧
      (encProg dc ac Ss Se Al o.nzr last F s).2.1 = o.last ∧
      (∀ j, j < Ss ∨ Se < j → 1 ≤ j ∨ Ss ≠ 0 → o.blk j = B j) ∧
      (Ss = 0 → i16 (o.blk 0) = o.blk 0 ∧ o.blk 0 / 2 ^ Al * 2 ^ Al = o.blk 0 ∧ -2048 < i16 (i16 (F 0 / 2 ^ Al) - last) ∧ i16 (i16 (F 0 / 2 ^ Al) - last) < 2048) := by
  rw [encProg_congr hF]
  unfold decodeBlock at h
  unfold encProg
  by_cases h0 : Ss = 0
  · rw [if_pos h0] at h
    rw [if_pos h0]
    subst h0
    cases h with
    | sym hv h =>
      rename_i sz as
      have key : ∃ bs as' diff, as = bs.map .bit ++ as' ∧ sz < 12 ∧ bs.length = sz ∧ (diff = if 0 < sz then huffExtend (ofMsb bs) sz else 0) ∧
          Eats (if i16 ((diff + last) * 2 ^ Al) = (diff + last) * 2 ^ Al then
            decRest ac 1 Se Al false (i16 (diff + last)) e (B.set 0 ((diff + last) * 2 ^ Al)) else .fail) as' o := by
        dsimp only at h
        by_cases c1 : 12 ≤ sz
        · rw [if_pos c1] at h; cases h
        · rw [if_neg c1] at h
          by_cases c2 : 0 < sz
          · rw [if_pos c2] at h
            cases h with
            | bits hl h => exact ⟨_, _, _, rfl, by omega, hl, by rw [if_pos c2], h⟩
          · rw [if_neg c2] at h
            exact ⟨[], as, 0, rfl, by omega, by simp; omega, by rw [if_neg c2], h⟩
      obtain ⟨bs, as', diff, e1, e2, e3, e4, h⟩ := key
      split at h
      · rename_i hfit
        have hd : -2048 < diff ∧ diff < 2048 := by
          have hx := ofMsb_lt bs
          rw [e3] at hx
          by_cases c : 0 < sz
          · rw [if_pos c] at e4
            have := (huffExtend_spec c hx).2.2.1
            have hp : (2 : Nat) ^ sz ≤ 2 ^ 11 := Nat.pow_le_pow_right (by omega) (by omega)
            omega
          · rw [if_neg c] at e4; omega
        have hpos : (0 : Int) < 2 ^ Al := Int.pow_pos (by decide)
        have hrange : -32768 ≤ diff + last ∧ diff + last < 32768 := by
          have := i16_range ((diff + last) * 2 ^ Al)
          rw [hfit] at this
          constructor
          · by_contra hc
            have h1 : diff + last ≤ -32769 := by omega
            have h2 : (diff + last) * 2 ^ Al ≤ (diff + last) * 1 := Int.mul_le_mul_of_nonpos_left (by omega) (by omega)
            omega
          · by_contra hc
            have h2 : (diff + last) * 1 ≤ (diff + last) * 2 ^ Al := Int.mul_le_mul_of_nonneg_left (by omega) (by omega)
            omega
        obtain ⟨pl1, pl2⟩ := hj.plain (by simp)
        have hemp : s.count = 0 := by have := hj.cnt; omega
        obtain ⟨d1, d2, d3⟩ := decRest_write (C := C ++ (.sym dc sz :: bs.map .bit)) (E := E ++ (.sym dc sz :: bs.map .bit)) (s := s) h (by
            intro j h1 h2
            rw [Blk.set, if_neg (by omega)]
            exact hB j (by omega) h2) (by
            constructor
            · exact hj.wf
            · exact hj.small
            · exact hj.cnt
            · exact hj.idle
            · exact fun _ => ⟨pl1, pl2⟩
            · intro he
              rw [hj.done he, CS.pending_empty pl1 hemp]
              simp
            · intro he; omega) hr
        have hb0 : o.blk 0 = (diff + last) * 2 ^ Al := by rw [d3 0 (by omega), Blk.set, if_pos rfl]
        have hdiv : o.blk 0 / 2 ^ Al = diff + last := by rw [hb0]; exact Int.mul_ediv_cancel _ (by omega)
        rw [hF.1 rfl, hdiv, i16_of_range hrange.1 hrange.2]
        dsimp only
        rw [show diff + last - last = diff by omega, i16_of_range (by omega) (by omega)]
        refine ⟨?_, ?_, ?_, ?_⟩
        · rw [atomsOf_append, atomsOf_dcReqs e2 e3 e4, e1]
          simpa using d1
        · rw [d2, i16_of_range hrange.1 hrange.2]
        · intro j hj1 hj2
          rw [d3 j (by omega), Blk.set, if_neg (by omega)]
        · intro _
          rw [hb0]
          exact ⟨hfit, rfl, by omega, by omega⟩
      · cases h
  · rw [if_neg h0] at h
    rw [if_neg h0]
    have hd : decide (Ss ≠ 0) = true := by simpa using h0
    rw [hd] at hj ⊢
    obtain ⟨d1, d2, d3⟩ := decRest_write h hB hj hr
    exact ⟨d1, d2.symm, fun j hj _ => d3 j hj, fun h => absurd h h0⟩

/-! ## Values -/

/-- The coefficients that the decoder sets are multiples of `2 ^ Al` with at most 11 bits. -/
theorem decAC_vals {ac : HSlot} {Ss Se Al : Nat} {allowed : Bool} {last e : Int} (n : Nat) : ∀ {k nzr : Nat} {B : Blk} {as : List Atom} {o : BlkOut},
    Eats (decAC ac Ss Se Al allowed last e n k nzr B) as o → ∀ j, o.blk j = B j ∨ (∃ c : Int, o.blk j = c * 2 ^ Al ∧ c.natAbs * 2 ^ Al + 2 ^ Al ≤ 2 ^ 11) := by
  induction n with
  | zero =>
    intro k nzr B as o h
    rw [decAC] at h
    cases h
    exact fun _ => Or.inl rfl
  | succ n ih =>
    intro k nzr B as o h
    rw [decAC] at h
    split at h
    · cases h
      exact fun _ => Or.inl rfl
    · cases h with
      | sym hv h =>
        dsimp only at h
        split at h
        · rename_i hs
          split at h
          · cases h
          · split at h
            · cases h
            · rename_i hal
              cases h with
              | bits hl h =>
                rename_i sr _ bs _
                intro j
                rcases ih h j with hj | hj
                · by_cases hk : j = k + sr / 16
                  · right
                    rw [Blk.set, if_pos hk] at hj
                    refine ⟨_, hj, ?_⟩
                    have hx := ofMsb_lt bs
                    rw [hl] at hx
                    have h1 := (huffExtend_spec hs hx).2.2.1
                    calc _ = ((huffExtend (ofMsb bs) (sr % 16)).natAbs + 1) * 2 ^ Al := by rw [Nat.add_mul, Nat.one_mul]
                      _ ≤ 2 ^ (sr % 16) * 2 ^ Al := Nat.mul_le_mul_right _ h1
                      _ = 2 ^ (sr % 16 + Al) := (Nat.pow_add _ _ _).symm
                      _ ≤ 2 ^ 11 := Nat.pow_le_pow_right (by omega) (by omega)
                  · left
                    rwa [Blk.set, if_neg hk] at hj
                · exact Or.inr hj
        · split at h
          · exact ih h
          · split at h
            · split at h
              · cases h with
                | bits hl h =>
                  cases h
                  exact fun _ => Or.inl rfl
              · cases h
            · cases h
              exact fun _ => Or.inl rfl

theorem decRest_vals {ac : HSlot} {Ss Se Al : Nat} {allowed : Bool} {last e : Int} {B : Blk} {as : List Atom} {o : BlkOut}
    (h : Eats (decRest ac Ss Se Al allowed last e B) as o) : ∀ j, o.blk j = B j ∨ (∃ c : Int, o.blk j = c * 2 ^ Al ∧ c.natAbs * 2 ^ Al + 2 ^ Al ≤ 2 ^ 11) := by
  unfold decRest at h
  split at h
  · cases h; exact fun _ => Or.inl rfl
  · split at h
    · cases h; exact fun _ => Or.inl rfl
    · exact decAC_vals _ h

theorem decodeBlock_vals {dc ac : HSlot} {Ss Se Al : Nat} {last e : Int} {B : Blk} {as : List Atom} {o : BlkOut}
    (h : Eats (decodeBlock dc ac Ss Se Al last e B) as o) : ∀ j, 1 ≤ j → o.blk j = B j ∨ (∃ c : Int, o.blk j = c * 2 ^ Al ∧ c.natAbs * 2 ^ Al + 2 ^ Al ≤ 2 ^ 11) := by
  intro j hj
  unfold decodeBlock at h
  by_cases h0 : Ss = 0
  · rw [if_pos h0] at h
    cases h with
    | sym hv h =>
      rename_i sz as
      have key : ∃ as' diff, Eats (if i16 ((diff + last) * 2 ^ Al) = (diff + last) * 2 ^ Al then
            decRest ac 1 Se Al false (i16 (diff + last)) e (B.set 0 ((diff + last) * 2 ^ Al)) else .fail) as' o := by
        dsimp only at h
        by_cases c1 : 12 ≤ sz
        · rw [if_pos c1] at h; cases h
        · rw [if_neg c1] at h
          by_cases c2 : 0 < sz
          · rw [if_pos c2] at h
            cases h with
            | bits hl h => exact ⟨_, _, h⟩
          · rw [if_neg c2] at h
            exact ⟨as, 0, h⟩
      obtain ⟨as', diff, h⟩ := key
      split at h
      · rcases decRest_vals h j with h | h
        · left
          rwa [Blk.set, if_neg (by omega)] at h
        · exact Or.inr h
      · cases h
  · rw [if_neg h0] at h
    exact decRest_vals h j

/-! ## The sequential encoder -/

theorem CS.flush_idle {s : CS} (hwf : s.Wf) (h0 : s.eob = 0) (hc : s.count = 0) : s.flush.1 = [] := by
  have : s.words = [] := List.length_eq_zero_iff.mp (by rw [hwf, hc])
  unfold CS.flush
  simp [h0, hc, this]

/-- With nothing pending the loops of the two encoders agree. -/
theorem seqAC_eq {ac : HSlot} {F : Blk} (n : Nat) : ∀ {k r : Nat} {s : CS}, s.Wf → s.eob = 0 → s.count = 0 →
    ∃ s', progAC ac 0 F n k r s = ((seqAC ac F n k r).1, (seqAC ac F n k r).2, s') ∧ s'.Wf ∧ s'.eob = 0 ∧ s'.count = 0 := by
  induction n with
  | zero => intro k r s h1 h2 h3; exact ⟨s, rfl, h1, h2, h3⟩
  | succ n ih =>
    intro k r s h1 h2 h3
    rw [progAC, seqAC]
    simp only [Nat.pow_zero, Nat.div_one, Int.natAbs_eq_zero]
    by_cases hz : F k = 0
    · rw [if_pos hz, if_pos hz]
      exact ih h1 h2 h3
    · rw [if_neg hz, if_neg hz]
      obtain ⟨s', e1, e2⟩ := ih (k := k + 1) (r := 0) (CS.flush_wf s).1 (CS.flush_wf s).2.1 (CS.flush_wf s).2.2
      refine ⟨s', ?_, e2⟩
      rw [e1, CS.flush_idle h1 h2 h3]
      rfl

/-- The sequential encoder is the progressive one for a whole block at full precision. -/
theorem encSeq_eq {dc ac : HSlot} {nzr : Nat} {last : Int} {F : Blk} {s : CS} (hwf : s.Wf) (h0 : s.eob = 0) (hc : s.count = 0) (h16 : i16 (F 0) = F 0) :
    atomsOf (encSeq dc ac nzr last F).1 = atomsOf (encProg dc ac 0 63 0 nzr last F s).1 ∧ (encSeq dc ac nzr last F).2 = (encProg dc ac 0 63 0 nzr last F s).2.1 := by
  unfold encSeq encProg progRest
  simp only [if_true]
  rw [if_neg (show ¬ 63 < 1 by omega), show (F 0 / 2 ^ 0 : Int) = F 0 by simp, h16]
  refine ⟨?_, rfl⟩
  obtain ⟨s', e1, e2, e3, e4⟩ := seqAC_eq (ac := ac) (F := F) 63 (k := 1) (r := 0) hwf h0 hc
  rw [show 63 + 1 - 1 = 63 by omega, e1]
  simp only [atomsOf_append, List.append_assoc]
  congr 2
  unfold progTail
  simp only
  have key : ∃ p : List WReq × CS, p = (if 0 < nzr then (s'.flush.1 ++ List.replicate nzr (.sym ac 0xf0), s'.flush.2) else ([], s')) ∧ p.2.Wf ∧ p.2.eob = 0 ∧ p.2.count = 0 ∧
      p.1 = List.replicate nzr (.sym ac 0xf0) := by
    by_cases hn : 0 < nzr
    · refine ⟨_, rfl, ?_⟩
      rw [if_pos hn]
      exact ⟨(CS.flush_wf s').1, rfl, rfl, by rw [CS.flush_idle e2 e3 e4]; rfl⟩
    · refine ⟨_, rfl, ?_⟩
      rw [if_neg hn]
      refine ⟨e2, e3, e4, ?_⟩
      rw [show nzr = 0 by omega]
      rfl
  obtain ⟨p, hp, p1, p2, p3, p4⟩ := key
  rw [← hp]
  by_cases hr : 16 * nzr < (seqAC ac F 63 1 0).2
  · rw [if_pos hr, if_pos hr]
    simp only [Bool.false_eq_true, if_false]
    obtain ⟨-, -, b⟩ := CS.buffer_step (ac := ac) (bs := []) p1 (by omega) (by omega) (by simp)
    rw [if_neg (by omega)] at b
    obtain ⟨b4, b5, b6, b7, b8⟩ := b
    rw [atomsOf_append, atomsOf_append, CS.flush_atoms, p4, b4]
    unfold CS.pending
    rw [if_pos (by omega), b5, b6, b8, p2, CS.bits_empty p3]
    simp only [if_true]
    rw [show eobAtoms ac (0 + 1) = [.sym ac 0] from rfl]
    simp [atomsOf, reqAtoms]
  · rw [if_neg hr, if_neg hr, p4]
    simp [atomsOf]

/-- **Sequential blocks**. -/
theorem decodeBlock_write_seq {dc ac : HSlot} {last e : Int} {B : Blk} {as : List Atom} {o : BlkOut}
    (h : Eats (decodeBlock dc ac 0 63 0 last e B) as o) (hB : ∀ j, j ≤ 63 → B j = 0) {s : CS} {C E : List Atom}
    (hj : Joint false e s C E) {F : Blk} (hF : ∀ j, j ≤ 63 → F j = o.blk j) :
    Joint false o.eob s (C ++ as) (E ++ atomsOf (encSeq dc ac o.nzr last F).1) ∧ (encSeq dc ac o.nzr last F).2 = o.last ∧
      (∀ j, 63 < j → o.blk j = B j) ∧ -2048 < i16 (F 0 - last) ∧ i16 (F 0 - last) < 2048 := by
  have hp := hj.plain rfl
  have hc : s.count = 0 := by have := hj.cnt; omega
  have hF' : SameFirst 0 63 0 F o.blk := by
    refine ⟨fun _ => by rw [hF 0 (by omega)], fun k _ _ h3 => ?_⟩
    rw [hF k h3]
    exact ⟨rfl, fun _ => Iff.rfl⟩
  have hd : decide ((0 : Nat) ≠ 0) = false := by simp
  obtain ⟨d1, d2, d3, d4⟩ := decodeBlock_write h (fun j _ h2 => hB j h2) (s := s) (C := C) (E := E) (by rw [hd]; exact hj) (fun _ => hp.1) hF'
  obtain ⟨e1, e2⟩ := encSeq_eq (dc := dc) (ac := ac) (nzr := o.nzr) (last := last) (F := F) hj.wf hp.1 hc (by rw [hF 0 (by omega)]; exact (d4 rfl).1)
  rw [hd] at d1
  rw [e1, e2]
  have d5 := d4 rfl
  rw [show (F 0 / 2 ^ 0 : Int) = F 0 by simp, hF 0 (by omega), d5.1, ← hF 0 (by omega)] at d5
  refine ⟨?_, d2, fun j hj => d3 j (by omega) (by omega), d5.2.2.1, d5.2.2.2⟩
  have hq := d1.plain rfl
  constructor
  · exact hj.wf
  · exact hj.small
  · exact hj.cnt
  · exact fun _ => hp.1
  · exact fun _ => ⟨hp.1, hq.2⟩
  · intro he
    rw [d1.done he, CS.pending_empty hq.1 (by have := d1.cnt; omega), CS.pending_empty hp.1 hc]
  · intro he; omega

end Brunsli
