import Verif.AcCtx
/-!
# One block of AC coefficients
-/

namespace Brunsli

/-! ## The number of the last nonzero coefficient -/

theorem nnz_sim {N base v : Nat} (hb : base + 63 ≤ 2016) (b : Nat) : ∀ {ctx : Nat} {l : List Prob}, 1 ≤ ctx → (ctx + 1) * 2 ^ b ≤ 128 → Probs 2016 l →
    Sim N (fun l' r => r = (ctx * 2 ^ b + v % 2 ^ b, l') ∧ Probs 2016 l') (encNnz base v b ctx l) (decNnz base b ctx l) := by
  induction b with
  | zero =>
    intro ctx l h1 h2 hl
    refine Sim.pure ⟨?_, hl⟩
    simp [Nat.mod_one]
  | succ b ih =>
    intro ctx l h1 h2 hl
    rw [Nat.pow_succ] at h2
    have hp := Nat.two_pow_pos b
    have hc : ctx + 1 ≤ 64 := by
      have : (ctx + 1) * (1 * 2) ≤ (ctx + 1) * (2 ^ b * 2) := Nat.mul_le_mul_left _ (Nat.mul_le_mul_right _ hp)
      omega
    rw [encNnz, decNnz]
    refine Sim.bind (Sim.bitAt hl (by omega)) fun l' r hr => ?_
    obtain ⟨rfl, hl'⟩ := hr
    have hbit : (decide (v / 2 ^ b % 2 = 1)).toNat = v / 2 ^ b % 2 := by
      rcases Nat.mod_two_eq_zero_or_one (v / 2 ^ b) with h | h <;> rw [h] <;> rfl
    have hlt : v / 2 ^ b % 2 < 2 := Nat.mod_lt _ (by decide)
    simp only [hbit]
    refine (ih (ctx := 2 * ctx + v / 2 ^ b % 2) (by omega) ?_ hl').mono fun l'' r hr => ?_
    · have : (2 * ctx + v / 2 ^ b % 2 + 1) * 2 ^ b ≤ (2 * ctx + 2) * 2 ^ b := Nat.mul_le_mul_right _ (by omega)
      have e : (2 * ctx + 2) * 2 ^ b = (ctx + 1) * (2 ^ b * 2) := by
        rw [Nat.mul_comm (2 ^ b) 2, ← Nat.mul_assoc]; congr 1; omega
      omega
    · obtain ⟨rfl, hl''⟩ := hr
      refine ⟨?_, hl''⟩
      rw [Prod.mk.injEq]
      refine ⟨?_, rfl⟩
      rw [Nat.mod_pow_succ, Nat.pow_succ, Nat.add_mul]
      have e : 2 * ctx * 2 ^ b = ctx * (2 ^ b * 2) := by
        rw [Nat.mul_comm (2 ^ b) 2, ← Nat.mul_assoc, Nat.mul_comm 2 ctx]
      rw [e, Nat.mul_comm (2 ^ b) (v / 2 ^ b % 2)]
      omega

theorem decNnz_all {base : Nat} (hb : base + 63 ≤ 2016) (b : Nat) : ∀ {ctx : Nat} {l : List Prob}, 1 ≤ ctx → (ctx + 1) * 2 ^ b ≤ 128 → Probs 2016 l →
    (decNnz base b ctx l).All fun r => ctx * 2 ^ b ≤ r.1 ∧ r.1 < 128 ∧ Probs 2016 r.2 := by
  induction b with
  | zero =>
    intro ctx l h1 h2 hl
    exact Prog.All.pure ⟨by simp, by simp only; omega, hl⟩
  | succ b ih =>
    intro ctx l h1 h2 hl
    rw [Nat.pow_succ] at h2
    have hp := Nat.two_pow_pos b
    have hc : ctx + 1 ≤ 64 := by
      have : (ctx + 1) * (1 * 2) ≤ (ctx + 1) * (2 ^ b * 2) := Nat.mul_le_mul_left _ (Nat.mul_le_mul_right _ hp)
      omega
    rw [decNnz]
    refine Prog.All.bind (Prog.bitAt_all hl (by omega)) fun r hr => ?_
    have hlt : r.1.toNat < 2 := by cases r.1 <;> decide
    refine Prog.All.mono ?_ (ih (ctx := 2 * ctx + r.1.toNat) (by omega) ?_ hr)
    · intro q hq
      refine ⟨?_, hq.2⟩
      rw [Nat.pow_succ]
      have e : 2 * ctx * 2 ^ b = ctx * (2 ^ b * 2) := by
        rw [Nat.mul_comm (2 ^ b) 2, ← Nat.mul_assoc, Nat.mul_comm 2 ctx]
      have := Nat.le_trans (Nat.mul_le_mul_right (2 ^ b) (Nat.le_add_right (2 * ctx) r.1.toNat)) hq.1
      omega
    · have : (2 * ctx + r.1.toNat + 1) * 2 ^ b ≤ (2 * ctx + 2) * 2 ^ b := Nat.mul_le_mul_right _ (by omega)
      have e : (2 * ctx + 2) * 2 ^ b = (ctx + 1) * (2 ^ b * 2) := by
        rw [Nat.mul_comm (2 ^ b) 2, ← Nat.mul_assoc]; congr 1; omega
      omega

theorem last_sim {N w x y last : Nat} {st : AcState} (hi : AcInv w st) (hx : x < w) (hl : last < 64) :
    Sim N (fun l r => r = (last, l) ∧ Probs 2016 l) (encLast last x y st) (decLast x y st) := by
  unfold encLast decLast
  obtain ⟨c, e, hc⟩ := nnzContext_some (y := y) hi.nnz hx
  refine Sim.liftL e (Sim.liftR e ?_)
  have h := nnz_sim (N := N) (v := last) (show 63 * c + 63 ≤ 2016 by omega) 6 (ctx := 1) (by decide) (by decide) hi.nnzProb
  have := Sim.bind (f := fun l => (Pure.pure l : E _)) (g := fun r => (Pure.pure (r.1 - 64, r.2) : Prog _)) h
    (R := fun l r => r = (last, l) ∧ Probs 2016 l) (fun l r hr => by
      obtain ⟨rfl, hl'⟩ := hr
      refine Sim.pure ⟨?_, hl'⟩
      rw [Prod.mk.injEq]
      refine ⟨?_, rfl⟩
      simp only
      omega)
  have eb : ∀ (e : E (List Prob)), (e >>= fun l => Pure.pure l) = e := by
    intro e
    show E.bind e _ = e
    unfold E.bind
    cases e with
    | none => rfl
    | some r => simp only [Pure.pure, List.append_nil]; rfl
  rw [eb] at this
  exact this

theorem decLast_all {w x y : Nat} {st : AcState} (hi : AcInv w st) (hx : x < w) :
    (decLast x y st).All fun r => r.1 < 64 ∧ Probs 2016 r.2 := by
  unfold decLast
  obtain ⟨c, e, hc⟩ := nnzContext_some (y := y) hi.nnz hx
  refine Prog.All.bind (Prog.lift_all (q := fun c => c < 32) ⟨c, e, hc⟩) fun c hc => ?_
  refine Prog.All.bind (decNnz_all (show 63 * c + 63 ≤ 2016 by omega) 6 (ctx := 1) (by decide) (by decide) hi.nnzProb) fun r hr => ?_
  exact Prog.All.pure ⟨by simp only; omega, hr.2.2⟩

/-! ## Orders -/

theorem CoeffOrder.length {o : List Nat} (h : CoeffOrder o) : o.length = 64 := by rw [h.1.length_eq]; simp

theorem CoeffOrder.get {o : List Nat} (h : CoeffOrder o) {k : Nat} (hk : k < 64) : ∃ kn, o[k]? = some kn ∧ kn < 64 := by
  have hl := h.length
  refine ⟨o[k], List.getElem?_eq_getElem _, ?_⟩
  have := (h.1.mem_iff).mp (List.getElem_mem (show k < o.length by omega))
  simpa using this

theorem CoeffOrder.inj {o : List Nat} (h : CoeffOrder o) {i j kn : Nat} (hi : o[i]? = some kn) (hj : o[j]? = some kn) : i = j := by
  have hn : o.Nodup := h.1.nodup_iff.mpr List.nodup_range
  obtain ⟨h1, e1⟩ := List.getElem?_eq_some_iff.mp hi
  obtain ⟨h2, e2⟩ := List.getElem?_eq_some_iff.mp hj
  exact (List.Nodup.getElem_inj_iff hn).mp (e1.trans e2.symm)

theorem CoeffOrder.zero {o : List Nat} (h : CoeffOrder o) : o[0]? = some 0 := by
  rw [← List.head?_eq_getElem?]; exact h.2

theorem CoeffOrder.ne {o : List Nat} (h : CoeffOrder o) {k kn : Nat} (hk : o[k]? = some kn) (h1 : 1 ≤ k) : kn ≠ 0 := by
  intro e
  subst e
  have := h.inj hk h.zero
  omega

theorem CoeffOrder.surj {o : List Nat} (h : CoeffOrder o) {kn : Nat} (hk : kn < 64) : ∃ k < 64, o[k]? = some kn := by
  have : kn ∈ o := (h.1.mem_iff).mpr (by simpa using hk)
  obtain ⟨k, hk, e⟩ := List.getElem_of_mem this
  exact ⟨k, by rw [← h.length]; exact hk, by rw [List.getElem?_eq_getElem hk, e]⟩

/-! ## Coefficients -/

/-- All DC coefficients, and the AC coefficients of the first `n` blocks. -/
def acUpTo (n i : Nat) : Bool := decide (i % 64 = 0) || decide (i / 64 < n)

/-- The decoder's buffer while block `b` is decoded: earlier blocks are complete, the block itself agrees with
`encoded_coeffs`. -/
structure BlkRel (img : List Int) (b : Nat) (cur D : List Int) : Prop where
  len : D.length = img.length
  curLen : cur.length = 64
  old : ∀ p, p / 64 ≠ b ∨ p % 64 = 0 → D[p]? = (keep (acUpTo b) img)[p]?
  blk : ∀ i < 64, 1 ≤ i → D[b * 64 + i]? = cur[i]?

/-- What is known about the component and the block position. -/
structure EnvOk (v : AcEnv) (h : Nat) : Prop where
  modes : 64 ≤ v.modes.length
  pr : ParamOk v.pr
  bits : v.m.ctxBits < 7
  ctx : (v.m.ctxOffset + kNumNonzeroContextSkip.getD v.m.ctxBits 0) * 9 ≤ v.n
  hx : v.x < v.m.w
  hy : v.y < h

/-- The same block, seen by the decoder. -/
def AcEnv.dec (v : AcEnv) (n : Nat) : AcEnv := { v with n := n }

theorem putAt_some {α : Type} {l : List α} {i : Nat} (h : i < l.length) (v : α) : putAt l i v = some (l.set i v) := by
  unfold putAt; rw [if_pos h]

theorem blkRel_set {img cur D : List Int} {b kn : Nat} {v : Int} (h : BlkRel img b cur D) (hkn : kn < 64) (h0 : kn ≠ 0)
    (hb : (b + 1) * 64 ≤ img.length) : BlkRel img b (cur.set kn v) (D.set (b * 64 + kn) v) := by
  refine ⟨by rw [List.length_set]; exact h.len, by rw [List.length_set]; exact h.curLen, fun p hp => ?_, fun i hi h1 => ?_⟩
  · rw [List.getElem?_set_ne (by omega)]; exact h.old p hp
  · by_cases e : kn = i
    · subst e
      rw [List.getElem?_set_self (by rw [h.len]; omega), List.getElem?_set_self (by rw [h.curLen]; exact hi)]
    · rw [List.getElem?_set_ne (by omega), List.getElem?_set_ne e]
      exact h.blk i hi h1

theorem acUpTo_lt {n i : Nat} (h : i / 64 < n) : acUpTo n i = true := by unfold acUpTo; simp [h]

theorem BlkRel.before {img cur D : List Int} {b c : Nat} (h : BlkRel img b cur D) (hc : c < b) {i : Nat} (hi : i < 64) :
    D[c * 64 + i]? = img[c * 64 + i]? := by
  rw [h.old _ (Or.inl (by omega)), keep_getElem?_of (acUpTo_lt (by omega))]

theorem EnvOk.pos {v : AcEnv} {h : Nat} (hv : EnvOk v h) : v.y * v.m.w + v.x < v.m.w * h := pos_lt hv.hx hv.hy

theorem EnvOk.above {v : AcEnv} {h : Nat} (_ : EnvOk v h) (hy : 0 < v.y) : v.m.w ≤ v.y * v.m.w + v.x := by
  have := Nat.mul_le_mul_right v.m.w hy
  omega

theorem acNonzero_sim {v : AcEnv} {Nd h k kn : Nat} {img : List Int} {coeff : Int} {a : AcEncBlk} {d : AcDecBlk} (hv : EnvOk v h) (hd : v.n ≤ Nd)
    (hsz : img.length = v.m.w * h * 64) (him : ∀ v ∈ img, Short16 v) (hcu : ∀ v ∈ a.cur, Short16 v) (hk1 : 1 ≤ k) (hk : k < 64) (hkn : v.pr.order[k]? = some kn) (hc0 : coeff ≠ 0) (hc : coeff.natAbs ≤ 2054)
    (hst : d.st = a.st) (hnn : d.nnz = a.nnz) (hinv : AcInv v.m.w a.st) (hn : a.nnz + k ≤ 63)
    (hb : BlkRel img (v.y * v.m.w + v.x) a.cur d.coeffs) :
    Sim v.n (fun a' d' => d'.st = a'.st ∧ d'.nnz = a'.nnz ∧ AcInv v.m.w a'.st ∧ a'.nnz = a.nnz + 1 ∧ a'.cur = a.cur.set kn coeff ∧
        BlkRel img (v.y * v.m.w + v.x) a'.cur d'.coeffs)
      (encAcNonzero v (fun i => img[(v.y * v.m.w + v.x - v.m.w) * 64 + i]?) (fun i => img[(v.y * v.m.w + v.x - 1) * 64 + i]?) k coeff a)
      (decAcNonzero (v.dec Nd) k kn d) := by
  have hpos := hv.pos
  have hkn64 : kn < 64 := by obtain ⟨kn', e, h⟩ := hv.pr.order.get hk; rw [hkn] at e; cases e; exact h
  have hkn0 := hv.pr.order.ne hkn hk1
  have hdl : d.coeffs.length = v.m.w * h * 64 := by rw [hb.len, hsz]
  unfold encAcNonzero decAcNonzero
  simp only [AcEnv.dec, hst, hnn]
  refine Sim.liftL hkn ?_
  obtain ⟨ctx, e1, hc9, hc17⟩ := acContext_some (w := v.m.w) (y := v.y) (x := v.x) (k := k) (kn := kn) hv.modes hv.pr.mr hv.pr.mc hinv.abs hinv.sgn hv.hx hk hkn64
    (prevRow := fun i => img[(v.y * v.m.w + v.x - v.m.w) * 64 + i]?) (prevCol := fun i => img[(v.y * v.m.w + v.x - 1) * 64 + i]?)
    (cur := fun i => a.cur[i]?)
    (fun hy i hi => ⟨_, List.getElem?_eq_getElem (by omega), him _ (List.getElem_mem _)⟩) (fun hy i hi => ⟨_, List.getElem?_eq_getElem (by omega), him _ (List.getElem_mem _)⟩)
    (fun i hi => ⟨_, List.getElem?_eq_getElem (by rw [hb.curLen]; exact hi), hcu _ (List.getElem_mem _)⟩)
  have e2 : acContext v.modes v.pr.mr v.pr.mc v.m.w v.y v.x a.st.abs a.st.sgn (fun i => d.coeffs[(v.y * v.m.w + v.x - v.m.w) * 64 + i]?)
      (fun i => d.coeffs[(v.y * v.m.w + v.x - 1) * 64 + i]?) (fun i => d.coeffs[(v.y * v.m.w + v.x) * 64 + i]?) k kn = some ctx := by
    rw [← e1]
    refine acContext_congr hkn64 (fun hy i hi => ?_) (fun hx i hi => ?_) (fun i hi h1 => hb.blk i hi h1)
    · have hw := hv.hx
      exact hb.before (by have := hv.above hy; omega) hi
    · exact hb.before (by omega) hi
  refine Sim.liftL e1 (Sim.liftR e2 ?_)
  refine Sim.bind (Sim.bitAt hinv.sign (by omega)) fun l r hr => ?_
  obtain ⟨rfl, hl⟩ := hr
  have hsi := sgnIx_lt (k := k) hv.hx hk
  obtain ⟨sgn, e3, h3⟩ := hinv.sgn.wr (i := sgnIx v.x k) (v := (decide (coeff < 0)).toNat + 1) (by omega)
    (by cases decide (coeff < 0) <;> decide)
  refine Sim.liftL e3 (Sim.liftR e3 ?_)
  obtain ⟨zd, e4, h4⟩ := zeroDensity_some hv.bits hn
  refine Sim.liftL e4 (Sim.liftR e4 ?_)
  have hctx := hv.ctx
  refine Sim.bind (abs_sim (by omega) hd hinv.extra (by omega) (by omega) hc) fun ex r hr => ?_
  obtain ⟨rfl, hex⟩ := hr
  refine Sim.liftL (putAt_some (by rw [hb.curLen]; exact hkn64) _) ?_
  have hval : wrap16 ((1 - 2 * ((decide (coeff < 0)).toNat : Int)) * (coeff.natAbs : Int)) = coeff := by
    have : (1 - 2 * ((decide (coeff < 0)).toNat : Int)) * (coeff.natAbs : Int) = coeff := by
      by_cases hneg : coeff < 0
      · simp only [hneg, decide_true, Bool.toNat_true]; omega
      · simp only [hneg, decide_false, Bool.toNat_false]; omega
    rw [this]
    exact wrap16_id (by omega) (by omega)
  simp only [hval]
  refine Sim.liftR (putAt_some (by omega) _) ?_
  have hai := absIx_lt (y := v.y) (k := k) hv.hx hk
  obtain ⟨ab, e5, h5⟩ := hinv.abs.wr (i := absIx v.m.w v.y v.x k) (v := coeff.natAbs) (by omega) hc
  refine Sim.liftL e5 (Sim.liftR e5 ?_)
  exact Sim.pure ⟨rfl, rfl, { hinv with sign := hl, sgn := h3, extra := hex, abs := h5 }, rfl, rfl, blkRel_set hb hkn64 hkn0 (by omega)⟩

theorem acZero_sim {v : AcEnv} {Nd h k kn : Nat} {img : List Int} {a : AcEncBlk} {d : AcDecBlk} (hv : EnvOk v h)
    (hsz : img.length = v.m.w * h * 64) (hk1 : 1 ≤ k) (hk : k < 64) (hkn : v.pr.order[k]? = some kn) (hcur : a.cur[kn]? = some 0)
    (hst : d.st = a.st) (hnn : d.nnz = a.nnz) (hinv : AcInv v.m.w a.st)
    (hb : BlkRel img (v.y * v.m.w + v.x) a.cur d.coeffs) :
    Sim v.n (fun a' d' => d'.st = a'.st ∧ d'.nnz = a'.nnz ∧ AcInv v.m.w a'.st ∧ a'.nnz = a.nnz ∧ a'.cur = a.cur ∧
        BlkRel img (v.y * v.m.w + v.x) a'.cur d'.coeffs)
      (encAcZero v k a) (decAcZero (v.dec Nd) k kn d) := by
  have hpos := hv.pos
  have hkn64 : kn < 64 := by obtain ⟨kn', e, h⟩ := hv.pr.order.get hk; rw [hkn] at e; cases e; exact h
  have hkn0 := hv.pr.order.ne hkn hk1
  have hdl : d.coeffs.length = v.m.w * h * 64 := by rw [hb.len, hsz]
  unfold encAcZero decAcZero
  simp only [AcEnv.dec, hst, hnn]
  have hsi := sgnIx_lt (k := k) hv.hx hk
  obtain ⟨sgn, e3, h3⟩ := hinv.sgn.wr (i := sgnIx v.x k) (v := 0) (by omega) (by decide)
  refine Sim.liftL e3 (Sim.liftR e3 ?_)
  refine Sim.liftR (putAt_some (by omega) _) ?_
  have hai := absIx_lt (y := v.y) (k := k) hv.hx hk
  obtain ⟨ab, e5, h5⟩ := hinv.abs.wr (i := absIx v.m.w v.y v.x k) (v := 0) (by omega) (by decide)
  refine Sim.liftL e5 (Sim.liftR e5 ?_)
  refine Sim.pure ⟨rfl, rfl, { hinv with sgn := h3, abs := h5 }, rfl, rfl, ?_⟩
  have hset : a.cur.set kn 0 = a.cur := by
    obtain ⟨h1, e⟩ := List.getElem?_eq_some_iff.mp hcur
    rw [← e]; exact List.set_getElem_self h1
  have := blkRel_set (v := 0) hb hkn64 hkn0 (by omega)
  rw [hset] at this
  exact this

/-- The state of both sides when the coefficients above `k` have been coded. -/
structure CoefRel (v : AcEnv) (img cs : List Int) (last k : Nat) (a : AcEncBlk) (d : AcDecBlk) : Prop where
  st : d.st = a.st
  nnz : d.nnz = a.nnz
  inv : AcInv v.m.w a.st
  le : a.nnz + k ≤ 63
  pos : k < last → 1 ≤ a.nnz
  blk : BlkRel img (v.y * v.m.w + v.x) a.cur d.coeffs
  cur : ∀ v ∈ a.cur, Short16 v
  done : ∀ j kn, 1 ≤ j → j < 64 → v.pr.order[j]? = some kn → a.cur[kn]? = if k < j then cs[j]? else some 0

theorem acCoeff_sim {v : AcEnv} {Nd h k last : Nat} {img cs : List Int} {a : AcEncBlk} {d : AcDecBlk} (hv : EnvOk v h) (hd : v.n ≤ Nd)
    (hsz : img.length = v.m.w * h * 64) (him : ∀ v ∈ img, Short16 v) (hcs : cs.length = 64) (hrange : ∀ j, 1 ≤ j → ∀ x, cs[j]? = some x → x.natAbs ≤ 2054)
    (hlast : last < 64) (hl0 : last ≠ 0 → cs.getD last 0 ≠ 0) (hk : k + 1 ≤ last) (hr : CoefRel v img cs last (k + 1) a d) :
    Sim v.n (CoefRel v img cs last k)
      (encAcCoeff v (fun i => img[(v.y * v.m.w + v.x - v.m.w) * 64 + i]?) (fun i => img[(v.y * v.m.w + v.x - 1) * 64 + i]?) cs last (k + 1) a)
      (decAcCoeff (v.dec Nd) last (k + 1) d) := by
  obtain ⟨kn, hkn, hkn64⟩ := hv.pr.order.get (show k + 1 < 64 by omega)
  have hco : cs[k + 1]? = some (cs[k + 1]'(by omega)) := List.getElem?_eq_getElem _
  generalize cs[k + 1]'(by omega) = coeff at hco
  have hc := hrange (k + 1) (by omega) _ hco
  have hcl : k + 1 = last → coeff ≠ 0 := by
    intro e
    have := hl0 (by omega)
    rw [← e, List.getD_eq_getElem?_getD, hco] at this
    exact this
  unfold encAcCoeff decAcCoeff
  refine Sim.liftL hco ?_
  refine Sim.bind (Q := fun l r => r = (decide (coeff = 0), l) ∧ Probs 704 l) ?_ fun l r hq => ?_
  · unfold encIsZero decIsZero
    by_cases hkl : k + 1 < last
    · rw [if_pos hkl, if_pos hkl]
      have hle := hr.le
      obtain ⟨i, e1, h1⟩ := isZeroIx_some (k := k + 1) (hr.pos hkl) (by omega) (by omega)
      refine Sim.liftL e1 (Sim.liftR (by rw [hr.nnz]; exact e1) ?_)
      rw [hr.st]
      exact Sim.bitAt hr.inv.isZero h1
    · rw [if_neg hkl, if_neg hkl, hr.st]
      exact Sim.pure ⟨by rw [decide_eq_false (hcl (by omega))], hr.inv.isZero⟩
  · obtain ⟨rfl, hl⟩ := hq
    refine Sim.liftR (show (v.dec Nd).pr.order[k + 1]? = some kn from hkn) ?_
    have hinv : AcInv v.m.w { a.st with isZero := l } := { hr.inv with isZero := hl }
    have hcur := hr.done (k + 1) kn (by omega) (by omega) hkn
    rw [if_neg (by omega)] at hcur
    by_cases h0 : coeff = 0
    · simp only [h0, decide_true, ↓reduceIte]
      refine (acZero_sim (a := { a with st := { a.st with isZero := l } }) (d := { d with st := { d.st with isZero := l } }) hv hsz
        (by omega) (by omega) hkn hcur (by simp only [hr.st]) hr.nnz hinv hr.blk).mono fun a' d' hq => ?_
      obtain ⟨q1, q2, q3, q4, q5, q6⟩ := hq
      have hle := hr.le
      refine ⟨q1, q2, q3, by rw [q4]; simp only; omega, fun hkl => ?_, q6, by rw [q5]; exact hr.cur, fun j kn' h1 h2 h3 => ?_⟩
      · rw [q4]
        refine hr.pos ?_
        apply Decidable.byContradiction
        intro hn
        exact hcl (by omega) h0
      · rw [q5]
        by_cases e : j = k + 1
        · subst e
          rw [hkn] at h3; cases h3
          rw [if_pos (by omega), hco, h0]
          exact hcur
        · have := hr.done j kn' h1 h2 h3
          simp only
          rw [this]
          by_cases hj : k < j
          · rw [if_pos hj, if_pos (by omega)]
          · rw [if_neg hj, if_neg (by omega)]
    · simp only [h0, decide_false, Bool.false_eq_true, ↓reduceIte]
      refine (acNonzero_sim (a := { a with st := { a.st with isZero := l } }) (d := { d with st := { d.st with isZero := l } }) hv hd hsz him hr.cur
        (by omega) (by omega) hkn h0 hc (by simp only [hr.st]) hr.nnz hinv hr.le hr.blk).mono fun a' d' hq => ?_
      obtain ⟨q1, q2, q3, q4, q5, q6⟩ := hq
      have hle := hr.le
      simp only at q4
      refine ⟨q1, q2, q3, by rw [q4]; omega, fun _ => by rw [q4]; omega, q6, fun x hx => ?_, fun j kn' h1 h2 h3 => ?_⟩
      · rw [q5] at hx
        rcases List.mem_or_eq_of_mem_set hx with hx | rfl
        · exact hr.cur x hx
        · exact ⟨by omega, by omega⟩
      rw [q5]
      by_cases e : j = k + 1
      · subst e
        rw [hkn] at h3; cases h3
        rw [if_pos (by omega), hco]
        exact List.getElem?_set_self (by have := hr.blk.curLen; simp only; omega)
      · have hne : kn ≠ kn' := by
          intro he
          subst he
          exact e (hv.pr.order.inj h3 hkn)
        rw [List.getElem?_set_ne hne]
        have := hr.done j kn' h1 h2 h3
        simp only
        rw [this]
        by_cases hj : k < j
        · rw [if_pos hj, if_pos (by omega)]
        · rw [if_neg hj, if_neg (by omega)]

theorem acCoeffs_sim {v : AcEnv} {Nd h last : Nat} {img cs : List Int} (hv : EnvOk v h) (hd : v.n ≤ Nd)
    (hsz : img.length = v.m.w * h * 64) (him : ∀ v ∈ img, Short16 v) (hcs : cs.length = 64) (hrange : ∀ j, 1 ≤ j → ∀ x, cs[j]? = some x → x.natAbs ≤ 2054)
    (hlast : last < 64) (hl0 : last ≠ 0 → cs.getD last 0 ≠ 0) (k : Nat) : ∀ {a : AcEncBlk} {d : AcDecBlk}, k ≤ last → CoefRel v img cs last k a d →
    Sim v.n (CoefRel v img cs last 0)
      (encAcCoeffs v (fun i => img[(v.y * v.m.w + v.x - v.m.w) * 64 + i]?) (fun i => img[(v.y * v.m.w + v.x - 1) * 64 + i]?) cs last k a)
      (decAcCoeffs (v.dec Nd) last k d) := by
  induction k with
  | zero => intro a d _ hr; exact Sim.pure hr
  | succ k ih =>
    intro a d hk hr
    rw [encAcCoeffs, decAcCoeffs]
    exact Sim.bind (acCoeff_sim hv hd hsz him hcs hrange hlast hl0 hk hr) fun a' d' hr' => ih (by omega) hr'

/-! ## Blocks -/

theorem lastNz_le (cs : List Int) (k : Nat) : lastNz cs k ≤ k := by
  induction k with
  | zero => exact Nat.le_refl _
  | succ k ih => rw [lastNz]; split <;> omega

theorem lastNz_ne (cs : List Int) (k : Nat) : lastNz cs k ≠ 0 → cs.getD (lastNz cs k) 0 ≠ 0 := by
  induction k with
  | zero => intro h; exact absurd rfl h
  | succ k ih =>
    rw [lastNz]
    split
    · rename_i h; intro _; exact h
    · exact ih

theorem lastNz_above (cs : List Int) (k : Nat) : ∀ j, lastNz cs k < j → j ≤ k → cs.getD j 0 = 0 := by
  induction k with
  | zero => intro j h1 h2; rw [lastNz] at h1; omega
  | succ k ih =>
    intro j
    rw [lastNz]
    split
    · intro h1 h2; omega
    · rename_i h
      intro h1 h2
      by_cases e : j = k + 1
      · subst e; exact Decidable.not_not.mp h
      · exact ih j h1 (by omega)

theorem mapM_int {f : Nat → Option Int} : ∀ (l : List Nat), (∀ x ∈ l, ∃ v, f x = some v) →
    ∃ cs, l.mapM f = some cs ∧ cs.length = l.length ∧ ∀ (j kn : Nat), l[j]? = some kn → cs[j]? = f kn := by
  intro l
  induction l with
  | nil => intro _; exact ⟨[], rfl, rfl, fun j kn h => by simp at h⟩
  | cons a l ih =>
    intro h
    obtain ⟨v, hv⟩ := h a List.mem_cons_self
    obtain ⟨cs, e, hl, hg⟩ := ih fun x hx => h x (List.mem_cons_of_mem _ hx)
    refine ⟨v :: cs, ?_, by simp [hl], fun j kn hj => ?_⟩
    · rw [List.mapM_cons, hv, e]; rfl
    · cases j with
      | zero => simp only [List.getElem?_cons_zero, Option.some.injEq] at hj ⊢; subst hj; exact hv.symm
      | succ j => simp only [List.getElem?_cons_succ] at hj ⊢; exact hg j kn hj

/-- AC coefficients the encoder can represent. -/
def AcRange (img : List Int) : Prop := ∀ i v, img[i]? = some v → i % 64 ≠ 0 → v.natAbs ≤ 2054

theorem acBlock_sim {v : AcEnv} {Nd h : Nat} {img : List Int} {empty : Bool} {st : AcState} {d : AcDec} (hv : EnvOk v h) (hd : v.n ≤ Nd)
    (hsz : img.length = v.m.w * h * 64) (him : ∀ v ∈ img, Short16 v) (hrange : AcRange img)
    (hem : empty = true → ∀ k < 64, k ≠ 0 → img[(v.y * v.m.w + v.x) * 64 + k]? = some 0)
    (hst : d.st = st) (hinv : AcInv v.m.w st) (hco : d.coeffs = keep (acUpTo (v.y * v.m.w + v.x)) img) :
    Sim v.n (fun st' d' => d'.st = st' ∧ AcInv v.m.w st' ∧ d'.coeffs = keep (acUpTo (v.y * v.m.w + v.x + 1)) img)
      (encAcBlock v img empty st) (decAcBlock (v.dec Nd) empty d) := by
  have hpos := hv.pos
  unfold encAcBlock decAcBlock
  simp only
  rw [hst]
  refine Sim.liftL (blockOf_some (n := v.m.w * h) hsz hpos) ?_
  have hblk : ∀ i < 64, ((img.drop ((v.y * v.m.w + v.x) * 64)).take 64)[i]? = img[(v.y * v.m.w + v.x) * 64 + i]? := fun i hi => by
    rw [List.getElem?_take_of_lt hi, List.getElem?_drop]
  obtain ⟨cs, ecs, hcl, hcg⟩ := mapM_int (f := fun kn => ((img.drop ((v.y * v.m.w + v.x) * 64)).take 64)[kn]?) v.pr.order (fun kn hkn => by
    have : kn < 64 := by simpa using (hv.pr.order.1.mem_iff).mp hkn
    rw [hblk kn this]
    exact ⟨_, List.getElem?_eq_getElem (by omega)⟩)
  refine Sim.liftL ecs ?_
  rw [hv.pr.order.length] at hcl
  have hcv : ∀ (j kn : Nat), v.pr.order[j]? = some kn → cs[j]? = img[(v.y * v.m.w + v.x) * 64 + kn]? := by
    intro j kn hj
    rw [hcg j kn hj]
    have : kn < 64 := by simpa using (hv.pr.order.1.mem_iff).mp (List.mem_of_getElem? hj)
    exact hblk kn this
  have hrange' : ∀ (j : Nat), 1 ≤ j → ∀ x, cs[j]? = some x → x.natAbs ≤ 2054 := by
    intro j hj x hx
    have hj64 : j < 64 := by
      apply Decidable.byContradiction; intro hn; rw [List.getElem?_eq_none (by omega)] at hx; cases hx
    obtain ⟨kn, hkn, hk64⟩ := hv.pr.order.get hj64
    rw [hcv j kn hkn] at hx
    have hk0 := hv.pr.order.ne hkn hj
    exact hrange _ x hx (by omega)
  have hz : empty = true → ∀ j, 1 ≤ j → j < 64 → cs.getD j 0 = 0 := by
    intro he j h1 h2
    obtain ⟨kn, hkn, hk64⟩ := hv.pr.order.get h2
    rw [List.getD_eq_getElem?_getD, hcv j kn hkn, hem he kn hk64 (hv.pr.order.ne hkn h1)]
    rfl
  obtain ⟨last, hlast⟩ : ∃ last, last = if empty then 0 else lastNz cs 63 := ⟨_, rfl⟩
  rw [← hlast]
  have hl64 : last < 64 := by
    rw [hlast]; split
    · decide
    · have := lastNz_le cs 63; omega
  have hl0 : last ≠ 0 → cs.getD last 0 ≠ 0 := by
    rw [hlast]; split
    · intro h; exact absurd rfl h
    · exact lastNz_ne cs 63
  have habove : ∀ j, last < j → j < 64 → cs[j]? = some 0 := by
    intro j h1 h2
    have : cs.getD j 0 = 0 := by
      cases he : empty with
      | true => exact hz he j (by omega) h2
      | false =>
        rw [he] at hlast
        rw [hlast] at h1
        exact lastNz_above cs 63 j h1 (by omega)
    rw [List.getD_eq_getElem?_getD, List.getElem?_eq_getElem (show j < cs.length by omega)] at this
    rw [List.getElem?_eq_getElem (show j < cs.length by omega)]
    exact congrArg some this
  refine Sim.bind (Q := fun np r => r = (last, np) ∧ Probs 2016 np) ?_ fun np r hq => ?_
  · cases he : empty with
    | true =>
      rw [he] at hlast
      exact Sim.pure ⟨by rw [hlast]; rfl, hinv.nnzProb⟩
    | false => exact last_sim hinv hv.hx hl64
  obtain ⟨rfl, hnp⟩ := hq
  simp only
  have hw := hv.hx
  have hai := absIx_lt (y := v.y) (k := 63) hv.hx (by decide)
  have hsi := sgnIx_lt (k := 63) hv.hx (by decide)
  obtain ⟨sgn, e1, h1⟩ := zeroRange_some (q := (· ≤ 2)) (by decide) (63 - last) (i := sgnIx v.x (last + 1)) hinv.sgn (by unfold sgnIx at hsi ⊢; omega)
  obtain ⟨ab, e2, h2⟩ := zeroRange_some (q := (· ≤ 2054)) (by decide) (63 - last) (i := absIx v.m.w v.y v.x (last + 1)) hinv.abs (by
    unfold absIx at hai ⊢; omega)
  refine Sim.liftL e1 (Sim.liftR e1 (Sim.liftL e2 (Sim.liftR e2 ?_)))
  have hrel : CoefRel v img cs last last ⟨{ st with nnzProb := np, sgn := sgn, abs := ab }, List.replicate 64 0, 0⟩
      ⟨{ st with nnzProb := np, sgn := sgn, abs := ab }, d.coeffs, 0⟩ := by
    refine ⟨rfl, rfl, { hinv with nnzProb := hnp, sgn := h1, abs := h2 }, by simp only; omega, fun h => absurd h (by omega), ?_, fun x hx => ?_, ?_⟩
    · refine ⟨?_, ?_, ?_, ?_⟩
      · simp only [hco, keep_length]
      · simp only [List.length_replicate]
      · intro p _
        simp only [hco]
      · intro i hi h1
        simp only
        rw [hco, keep_getElem?, List.getElem?_eq_getElem (show (v.y * v.m.w + v.x) * 64 + i < img.length by omega), List.getElem?_replicate, if_pos hi]
        have : acUpTo (v.y * v.m.w + v.x) ((v.y * v.m.w + v.x) * 64 + i) = false := by
          unfold acUpTo
          rw [decide_eq_false (by omega), decide_eq_false (by omega)]; rfl
        rw [this]; rfl
    · rw [List.eq_of_mem_replicate hx]
      exact ⟨by decide, by decide⟩
    · intro j kn h1 h2 h3
      have hk64 : kn < 64 := by simpa using (hv.pr.order.1.mem_iff).mp (List.mem_of_getElem? h3)
      simp only
      rw [List.getElem?_replicate, if_pos hk64]
      split
      · rename_i hj; exact (habove j hj h2).symm
      · rfl
  refine Sim.bind (acCoeffs_sim hv hd hsz him hcl hrange' hl64 hl0 last (Nat.le_refl _) hrel) fun a' d' hr => ?_
  have hle := hr.le
  obtain ⟨nn, e3, h3⟩ := hr.inv.nnz.wr (i := v.x) (v := a'.nnz) hv.hx (by omega)
  refine Sim.liftL e3 (Sim.liftR (by rw [hr.st, hr.nnz]; exact e3) ?_)
  refine Sim.pure ⟨by simp only [hr.st], { hr.inv with nnz := h3 }, ?_⟩
  simp only
  apply List.ext_getElem?
  intro p
  by_cases hp : p / 64 ≠ v.y * v.m.w + v.x ∨ p % 64 = 0
  · rw [hr.blk.old p hp, keep_getElem?, keep_getElem?]
    have : acUpTo (v.y * v.m.w + v.x) p = acUpTo (v.y * v.m.w + v.x + 1) p := by
      unfold acUpTo
      rcases hp with hp | hp
      · congr 1
        exact decide_eq_decide.mpr (by omega)
      · rw [hp]; rfl
    rw [this]
  · have hp1 : p / 64 = v.y * v.m.w + v.x := by
      apply Decidable.byContradiction; intro h; exact hp (Or.inl h)
    have hp2 : p % 64 ≠ 0 := fun h => hp (Or.inr h)
    have hpe : p = (v.y * v.m.w + v.x) * 64 + p % 64 := by omega
    rw [keep_getElem?_of (acUpTo_lt (by omega)), hpe, hr.blk.blk (p % 64) (by omega) (by omega)]
    obtain ⟨j, hj64, hj⟩ := hv.pr.order.surj (show p % 64 < 64 by omega)
    have hj0 : 1 ≤ j := by
      apply Decidable.byContradiction
      intro h0
      have : j = 0 := by omega
      subst this
      rw [hv.pr.order.zero, Option.some.injEq] at hj
      omega
    have := hr.done j (p % 64) hj0 hj64 hj
    rw [if_pos (by omega), hcv j _ hj] at this
    exact this

/-! ## Safety of the decoder -/

/-- What the decoder keeps while it decodes a block. -/
structure CoefSafe (w h k last : Nat) (d : AcDecBlk) : Prop where
  inv : AcInv w d.st
  le : d.nnz + k ≤ 63
  pos : k < last → 1 ≤ d.nnz
  coeffs : Arr (w * h * 64) (fun v => -32768 ≤ v ∧ v < 32768) d.coeffs

theorem decAcNonzero_all {v : AcEnv} {h k kn last : Nat} {d : AcDecBlk} (hv : EnvOk v h) (hk : k + 1 < 64)
    (hkn : v.pr.order[k + 1]? = some kn) (hs : CoefSafe v.m.w h (k + 1) last d) :
    (decAcNonzero v (k + 1) kn d).All (CoefSafe v.m.w h k last) := by
  have hpos := hv.pos
  have hkn64 : kn < 64 := by obtain ⟨kn', e, h⟩ := hv.pr.order.get hk; rw [hkn] at e; cases e; exact h
  have hdl := hs.coeffs.1
  have hle := hs.le
  unfold decAcNonzero
  simp only
  obtain ⟨ctx, e1, hc9, hc17⟩ := acContext_some (w := v.m.w) (y := v.y) (x := v.x) (k := k + 1) (kn := kn) hv.modes hv.pr.mr hv.pr.mc hs.inv.abs hs.inv.sgn hv.hx hk hkn64
    (prevRow := fun i => d.coeffs[(v.y * v.m.w + v.x - v.m.w) * 64 + i]?) (prevCol := fun i => d.coeffs[(v.y * v.m.w + v.x - 1) * 64 + i]?)
    (cur := fun i => d.coeffs[(v.y * v.m.w + v.x) * 64 + i]?)
    (fun hy i hi => hs.coeffs.get (by omega)) (fun hy i hi => hs.coeffs.get (by omega)) (fun i hi => hs.coeffs.get (by omega))
  refine Prog.All.bind (Prog.lift_all (q := fun c : Nat × Nat => c.1 < 9 ∧ c.2 < 17) ⟨ctx, e1, hc9, hc17⟩) fun ctx hctx => ?_
  refine Prog.All.bind (Prog.bitAt_all hs.inv.sign (by omega)) fun r hr => ?_
  have hsi := sgnIx_lt (k := k + 1) hv.hx hk
  obtain ⟨sgn, e3, h3⟩ := hs.inv.sgn.wr (i := sgnIx v.x (k + 1)) (v := r.1.toNat + 1) (by omega)
    (by cases r.1 <;> decide)
  refine Prog.All.bind (Prog.lift_all ⟨sgn, e3, h3⟩) fun sgn h3 => ?_
  obtain ⟨zd, e4, h4⟩ := zeroDensity_some hv.bits hs.le
  refine Prog.All.bind (Prog.lift_all (q := fun z => z < kNumNonzeroContextSkip.getD v.m.ctxBits 0) ⟨zd, e4, h4⟩) fun zd h4 => ?_
  have hcx := hv.ctx
  refine Prog.All.bind (decAbs_all (by omega) hs.inv.extra (by omega)) fun r' hr' => ?_
  obtain ⟨cs, e5, h5⟩ := hs.coeffs.wr (i := (v.y * v.m.w + v.x) * 64 + kn) (v := wrap16 ((1 - 2 * (r.1.toNat : Int)) * r'.1)) (by omega) (wrap16_range _)
  refine Prog.All.bind (Prog.lift_all ⟨cs, e5, h5⟩) fun cs h5 => ?_
  have hai := absIx_lt (y := v.y) (k := k + 1) hv.hx hk
  obtain ⟨ab, e6, h6⟩ := hs.inv.abs.wr (i := absIx v.m.w v.y v.x (k + 1)) (v := r'.1) (by omega) hr'.2.1
  refine Prog.All.bind (Prog.lift_all ⟨ab, e6, h6⟩) fun ab h6 => ?_
  exact Prog.All.pure ⟨{ hs.inv with sign := hr, sgn := h3, extra := hr'.2.2, abs := h6 }, by simp only; omega, fun _ => by simp only; omega, h5⟩

theorem decAcZero_all {v : AcEnv} {h k kn last : Nat} {d : AcDecBlk} (hv : EnvOk v h) (hk : k + 1 < 64) (hl : k + 1 < last)
    (hkn : v.pr.order[k + 1]? = some kn) (hs : CoefSafe v.m.w h (k + 1) last d) :
    (decAcZero v (k + 1) kn d).All (CoefSafe v.m.w h k last) := by
  have hpos := hv.pos
  have hkn64 : kn < 64 := by obtain ⟨kn', e, h⟩ := hv.pr.order.get hk; rw [hkn] at e; cases e; exact h
  have hle := hs.le
  unfold decAcZero
  have hsi := sgnIx_lt (k := k + 1) hv.hx hk
  obtain ⟨sgn, e3, h3⟩ := hs.inv.sgn.wr (i := sgnIx v.x (k + 1)) (v := 0) (by omega) (by decide)
  refine Prog.All.bind (Prog.lift_all ⟨sgn, e3, h3⟩) fun sgn h3 => ?_
  obtain ⟨cs, e5, h5⟩ := hs.coeffs.wr (i := (v.y * v.m.w + v.x) * 64 + kn) (v := 0) (by omega) (by decide)
  refine Prog.All.bind (Prog.lift_all ⟨cs, e5, h5⟩) fun cs h5 => ?_
  have hai := absIx_lt (y := v.y) (k := k + 1) hv.hx hk
  obtain ⟨ab, e6, h6⟩ := hs.inv.abs.wr (i := absIx v.m.w v.y v.x (k + 1)) (v := 0) (by omega) (by decide)
  refine Prog.All.bind (Prog.lift_all ⟨ab, e6, h6⟩) fun ab h6 => ?_
  exact Prog.All.pure ⟨{ hs.inv with sgn := h3, abs := h6 }, by simp only; omega, fun _ => hs.pos hl, h5⟩

theorem decAcCoeff_all {v : AcEnv} {h k last : Nat} {d : AcDecBlk} (hv : EnvOk v h) (hk : k + 1 < 64)
    (hs : CoefSafe v.m.w h (k + 1) last d) : (decAcCoeff v last (k + 1) d).All (CoefSafe v.m.w h k last) := by
  obtain ⟨kn, hkn, -⟩ := hv.pr.order.get hk
  have hle := hs.le
  unfold decAcCoeff
  refine Prog.All.bind (q := fun z => Probs 704 z.2 ∧ (z.1 = true → k + 1 < last)) ?_ fun z hz => ?_
  · unfold decIsZero
    by_cases hkl : k + 1 < last
    · rw [if_pos hkl]
      obtain ⟨i, e1, h1⟩ := isZeroIx_some (k := k + 1) (hs.pos hkl) (by omega) (by omega)
      refine Prog.All.bind (Prog.lift_all (q := fun i => i < 704) ⟨i, e1, h1⟩) fun i h1 => ?_
      exact Prog.All.mono (fun r hr => ⟨hr, fun _ => hkl⟩) (Prog.bitAt_all hs.inv.isZero h1)
    · rw [if_neg hkl]
      exact Prog.All.pure ⟨hs.inv.isZero, fun h => by cases h⟩
  · refine Prog.All.bind (Prog.lift_all (q := fun r => v.pr.order[k + 1]? = some r) ⟨kn, hkn, hkn⟩) fun kn hkn => ?_
    have hs' : CoefSafe v.m.w h (k + 1) last { d with st := { d.st with isZero := z.2 } } :=
      { hs with inv := { hs.inv with isZero := hz.1 } }
    split
    · rename_i he
      exact decAcZero_all hv hk (hz.2 he) hkn hs'
    · exact decAcNonzero_all hv hk hkn hs'

theorem decAcCoeffs_all {v : AcEnv} {h last : Nat} (hv : EnvOk v h) (k : Nat) : ∀ {d : AcDecBlk}, k < 64 → CoefSafe v.m.w h k last d →
    (decAcCoeffs v last k d).All (CoefSafe v.m.w h 0 last) := by
  induction k with
  | zero => intro d _ hs; exact Prog.All.pure hs
  | succ k ih =>
    intro d hk hs
    rw [decAcCoeffs]
    exact Prog.All.bind (decAcCoeff_all hv hk hs) fun d' hs' => ih (by omega) hs'

theorem decAcBlock_all {v : AcEnv} {h : Nat} {empty : Bool} {d : AcDec} (hv : EnvOk v h) (hinv : AcInv v.m.w d.st)
    (hco : Arr (v.m.w * h * 64) (fun v => -32768 ≤ v ∧ v < 32768) d.coeffs) :
    (decAcBlock v empty d).All fun d' => AcInv v.m.w d'.st ∧ Arr (v.m.w * h * 64) (fun v => -32768 ≤ v ∧ v < 32768) d'.coeffs := by
  unfold decAcBlock
  refine Prog.All.bind (q := fun r => r.1 < 64 ∧ Probs 2016 r.2) ?_ fun r hr => ?_
  · cases empty with
    | true => exact Prog.All.pure ⟨show 0 < 64 by decide, hinv.nnzProb⟩
    | false => exact decLast_all hinv hv.hx
  have hw := hv.hx
  have hai := absIx_lt (y := v.y) (k := 63) hv.hx (by decide)
  have hsi := sgnIx_lt (k := 63) hv.hx (by decide)
  obtain ⟨sgn, e1, h1⟩ := zeroRange_some (q := (· ≤ 2)) (by decide) (63 - r.1) (i := sgnIx v.x (r.1 + 1)) hinv.sgn (by unfold sgnIx at hsi ⊢; omega)
  obtain ⟨ab, e2, h2⟩ := zeroRange_some (q := (· ≤ 2054)) (by decide) (63 - r.1) (i := absIx v.m.w v.y v.x (r.1 + 1)) hinv.abs (by
    unfold absIx at hai ⊢; omega)
  refine Prog.All.bind (Prog.lift_all ⟨sgn, e1, h1⟩) fun sgn h1 => ?_
  refine Prog.All.bind (Prog.lift_all ⟨ab, e2, h2⟩) fun ab h2 => ?_
  refine Prog.All.bind (decAcCoeffs_all (h := h) (last := r.1) hv r.1 hr.1
    ⟨{ hinv with nnzProb := hr.2, sgn := h1, abs := h2 }, by simp only; omega, fun h => absurd h (by omega), hco⟩) fun s hs => ?_
  have hle := hs.le
  obtain ⟨nn, e3, h3⟩ := hs.inv.nnz.wr (i := v.x) (v := s.nnz) hv.hx (by omega)
  refine Prog.All.bind (Prog.lift_all ⟨nn, e3, h3⟩) fun nn h3 => ?_
  exact Prog.All.pure ⟨{ hs.inv with nnz := h3 }, hs.coeffs⟩

end Brunsli
