import Verif.AcBlock
/-!
# The AC coefficients of all components
-/

namespace Brunsli

theorem orders_sim {n : Nat} : ∀ (orders : List (List Nat)), (∀ o ∈ orders, CoeffOrder o) →
    Sim n (fun _ os => os = orders) (encOrders orders) (decOrders orders.length) := by
  intro orders
  induction orders with
  | nil => intro _; exact Sim.pure rfl
  | cons o os ih =>
    intro h
    rw [encOrders, List.length_cons, decOrders]
    refine Sim.bind (Q := fun _ r => r = o) ?_ fun _ r hr => ?_
    · obtain ⟨ops, e1, e2, e3⟩ := coeffOrder_roundtrip o (h o List.mem_cons_self)
      refine ⟨(), ops, o, ?_, fun op hop => ?_, e2, rfl⟩
      · unfold E.emit; rw [e1]; rfl
      · obtain ⟨k, v, rfl, h1, h2⟩ := e3 op hop
        exact ⟨h1, h2⟩
    · subst hr
      have := Sim.bind (f := fun u => (Pure.pure u : E Unit)) (g := fun l => (Pure.pure (r :: l) : Prog _)) (R := fun _ l => l = r :: os)
        (ih fun o' ho => h o' (List.mem_cons_of_mem _ ho)) (fun _ l hl => Sim.pure (by rw [hl]))
      have eb : ∀ (e : E Unit), (e >>= fun l => Pure.pure l) = e := by
        intro e
        show E.bind e _ = e
        unfold E.bind
        cases e with
        | none => rfl
        | some r => simp only [Pure.pure, List.append_nil]; rfl
      rw [eb] at this
      exact this

theorem decOrders_all (n : Nat) : (decOrders n).All fun os => os.length = n ∧ ∀ o ∈ os, CoeffOrder o := by
  induction n with
  | zero => exact Prog.All.pure ⟨rfl, by simp⟩
  | succ n ih =>
    rw [decOrders]
    refine Prog.All.bind decodeCoeffOrder_all fun o ho => Prog.All.bind ih fun os hos => Prog.All.pure ⟨by simp [hos.1], ?_⟩
    intro o' ho'
    rcases List.mem_cons.mp ho' with rfl | h
    · exact ho
    · exact hos.2 _ h

theorem acParams_some : ∀ (orders quants : List (List Nat)), orders.length = quants.length → (∀ o ∈ orders, CoeffOrder o) → (∀ q ∈ quants, QuantOk q) →
    ∃ prs, acParams orders quants = some prs ∧ prs.length = orders.length ∧ ∀ pr ∈ prs, ParamOk pr := by
  intro orders
  induction orders with
  | nil =>
    intro quants hl _ _
    have : quants = [] := List.length_eq_zero_iff.mp hl.symm
    subst this
    exact ⟨[], rfl, rfl, by simp⟩
  | cons o os ih =>
    intro quants hl ho hq
    cases quants with
    | nil => simp at hl
    | cons q qs =>
      obtain ⟨prs, e, hl', hp⟩ := ih qs (by simpa using hl) (fun o' h => ho o' (List.mem_cons_of_mem _ h)) (fun q' h => hq q' (List.mem_cons_of_mem _ h))
      obtain ⟨mr, e1, h1⟩ := multRow_some (hq q List.mem_cons_self)
      obtain ⟨mc, e2, h2⟩ := multCol_some (hq q List.mem_cons_self)
      refine ⟨⟨o, mr, mc⟩ :: prs, ?_, by simp [hl'], ?_⟩
      · unfold acParams acParam; rw [e1, e2, e]; rfl
      · intro pr hpr
        rcases List.mem_cons.mp hpr with rfl | h
        · exact ⟨ho o List.mem_cons_self, h1, h2⟩
        · exact hp _ h

theorem acDecInit_get : ∀ (ms : List Meta) (cs : List (List Int)), (acDecInit ms cs).length = min ms.length cs.length ∧
    ∀ (c : Nat) (m : Meta) (co : List Int), ms[c]? = some m → cs[c]? = some co → (acDecInit ms cs)[c]? = some ⟨AcState.init m.w, co⟩ := by
  intro ms
  induction ms with
  | nil => intro cs; exact ⟨by simp [acDecInit], fun c m co h => by simp at h⟩
  | cons m ms ih =>
    intro cs
    cases cs with
    | nil => exact ⟨by simp [acDecInit], fun c m co _ h => by simp at h⟩
    | cons co cs =>
      rw [acDecInit]
      refine ⟨?_, fun c m' co' h1 h2 => ?_⟩
      · simp only [List.length_cons, (ih cs).1]; omega
      · cases c with
        | zero => simp only [List.getElem?_cons_zero, Option.some.injEq] at h1 h2 ⊢; rw [h1, h2]
        | succ c => simp only [List.getElem?_cons_succ] at h1 h2 ⊢; exact (ih cs).2 c m' co' h1 h2

theorem contextModes_length (legacy : Bool) : 64 ≤ (contextModes legacy).length := by cases legacy <;> decide +kernel

/-- The contexts of a component lie below `n`. -/
def MetaOk (n : Nat) (m : Meta) : Prop := m.ctxBits < 7 ∧ (m.ctxOffset + kNumNonzeroContextSkip.getD m.ctxBits 0) * 9 ≤ n

instance (n : Nat) (m : Meta) : Decidable (MetaOk n m) := by unfold MetaOk; infer_instance

/-- What the AC coder needs of a component. -/
structure AcPlaneOk (rows : Nat) (m : Meta) (img : List Int) (fl : List Bool) : Prop where
  size : img.length = m.w * (rows * m.vs) * 64
  short : ∀ v ∈ img, Short16 v
  range : AcRange img
  flags : fl.length = m.w * (rows * m.vs)
  empty : EmptyOk img fl (m.w * (rows * m.vs))

/-- The states of both coders, `n c` blocks of component `c` done. -/
structure AcRels (ms : List Meta) (imgs : List (List Int)) (n : Nat → Nat) (a : List AcState) (b : List AcDec) : Prop where
  lenA : a.length = ms.length
  lenB : b.length = ms.length
  rel : ∀ (c : Nat) (m : Meta) (img : List Int), ms[c]? = some m → imgs[c]? = some img → ∃ d, b[c]? = some d ∧ a[c]? = some d.st ∧
    AcInv m.w d.st ∧ d.coeffs = keep (acUpTo (n c)) img

theorem acStep_sim {rows N Nd : Nat} {modes : List Nat} {ms : List Meta} {prs : List AcParam} {imgs : List (List Int)} {flags : List (List Bool)}
    (hd : N ≤ Nd) (hmo : 64 ≤ modes.length) (hms : ∀ m ∈ ms, MetaOk N m)
    (hli : imgs.length = ms.length) (hlf : flags.length = ms.length) (hlp : prs.length = ms.length) (hpr : ∀ pr ∈ prs, ParamOk pr)
    (hp : ∀ (c : Nat) (m : Meta) (img : List Int) (fl : List Bool), ms[c]? = some m → imgs[c]? = some img → flags[c]? = some fl → AcPlaneOk rows m img fl)
    (n : Nat → Nat) (a : List AcState) (b : List AcDec) (c y x : Nat) (m : Meta) (hr : AcRels ms imgs n a b)
    (hm : ms[c]? = some m) (hx : x < m.w) (hy : y < rows * m.vs) (hn : n c = y * m.w + x) :
    Sim N (AcRels ms imgs (Function.update n c (n c + 1)))
      (encAcStep N modes ms prs imgs flags a (c, y, x)) (decAcStep Nd modes ms prs flags b (c, y, x)) := by
  have hc : c < ms.length := by
    apply Decidable.byContradiction; intro h; rw [List.getElem?_eq_none (by omega)] at hm; cases hm
  have hi : imgs[c]? = some (imgs[c]'(by omega)) := List.getElem?_eq_getElem _
  generalize imgs[c]'(by omega) = img at hi
  have hf : flags[c]? = some (flags[c]'(by omega)) := List.getElem?_eq_getElem _
  generalize flags[c]'(by omega) = fl at hf
  have hpc : prs[c]? = some (prs[c]'(by omega)) := List.getElem?_eq_getElem _
  generalize prs[c]'(by omega) = pr at hpc
  have hok := hp c m img fl hm hi hf
  obtain ⟨d, hb, ha, hinv, hco⟩ := hr.rel c m img hm hi
  have hpos := pos_lt hx hy
  have hfl : fl[y * m.w + x]? = some (fl[y * m.w + x]'(by rw [hok.flags]; exact hpos)) := List.getElem?_eq_getElem _
  generalize fl[y * m.w + x]'(by rw [hok.flags]; exact hpos) = empty at hfl
  have hmk := hms m (List.mem_of_getElem? hm)
  unfold encAcStep decAcStep
  simp only
  refine Sim.liftL hm (Sim.liftR hm (Sim.liftL hpc (Sim.liftR hpc (Sim.liftL hi (Sim.liftL hf (Sim.liftR hf (Sim.liftL ha (Sim.liftR hb
    (Sim.liftL hfl (Sim.liftR hfl ?_))))))))))
  have hv : EnvOk ⟨N, modes, m, pr, y, x⟩ (rows * m.vs) := ⟨hmo, hpr pr (List.mem_of_getElem? hpc), hmk.1, hmk.2, hx, hy⟩
  have hs := acBlock_sim (v := ⟨N, modes, m, pr, y, x⟩) (Nd := Nd) (empty := empty) (st := d.st) (d := d) hv hd hok.size hok.short hok.range
    (fun h => hok.empty _ hpos (by rw [hfl, h])) rfl hinv (by rw [hco, hn])
  refine Sim.bind hs fun st d' hq => ?_
  obtain ⟨q1, q2, q3⟩ := hq
  refine Sim.lift ⟨a.set c st, b.set c d', putAt_some (by rw [hr.lenA]; exact hc) _, putAt_some (by rw [hr.lenB]; exact hc) _,
    by rw [List.length_set]; exact hr.lenA, by rw [List.length_set]; exact hr.lenB, fun c' m' img' hm' hi' => ?_⟩
  by_cases hcc : c = c'
  · subst hcc
    rw [hm] at hm'; cases hm'
    rw [hi] at hi'; cases hi'
    refine ⟨d', List.getElem?_set_self (by rw [hr.lenB]; exact hc), ?_, by rw [q1]; exact q2, ?_⟩
    · rw [q1]; exact List.getElem?_set_self (by rw [hr.lenA]; exact hc)
    · rw [Function.update_self, hn]; exact q3
  · obtain ⟨d'', k1, k2, k3, k4⟩ := hr.rel c' m' img' hm' hi'
    refine ⟨d'', ?_, ?_, k3, ?_⟩
    · rw [List.getElem?_set_ne hcc]; exact k1
    · rw [List.getElem?_set_ne hcc]; exact k2
    · rw [Function.update_of_ne (fun h => hcc h.symm)]; exact k4

/-- `decodeAC` follows `encodeAC`. -/
theorem ac_sim {rows N Nd : Nat} {legacy : Bool} {ms : List Meta} {orders quants : List (List Nat)} {imgs : List (List Int)} {flags : List (List Bool)}
    (hd : N ≤ Nd) (hms : ∀ m ∈ ms, MetaOk N m) (hlo : orders.length = ms.length) (hlq : quants.length = ms.length)
    (hli : imgs.length = ms.length) (hlf : flags.length = ms.length) (ho : ∀ o ∈ orders, CoeffOrder o) (hq : ∀ q ∈ quants, QuantOk q)
    (hp : ∀ (c : Nat) (m : Meta) (img : List Int) (fl : List Bool), ms[c]? = some m → imgs[c]? = some img → flags[c]? = some fl → AcPlaneOk rows m img fl) :
    Sim N (fun _ r => r = imgs) (encodeAC N legacy rows ms orders quants imgs flags) (decodeAC Nd legacy rows ms quants (imgs.map dcOnly) flags) := by
  obtain ⟨prs, e1, h1, h2⟩ := acParams_some orders quants (by omega) ho hq
  have himg : ∀ (c : Nat) (m : Meta), ms[c]? = some m → ∃ img fl, imgs[c]? = some img ∧ flags[c]? = some fl := fun c m hm => by
    have : c < ms.length := by
      apply Decidable.byContradiction; intro h; rw [List.getElem?_eq_none (by omega)] at hm; cases hm
    exact ⟨imgs[c], flags[c], List.getElem?_eq_getElem (by omega), List.getElem?_eq_getElem (by omega)⟩
  unfold encodeAC decodeAC
  refine Sim.liftL e1 ?_
  rw [← hlo]
  refine Sim.bind (orders_sim orders ho) fun _ os hos => ?_
  subst hos
  refine Sim.liftR e1 ?_
  refine Sim.bind (Sim.loop (rows := rows) (ms := ms) (R := AcRels ms imgs) (fun n a b c y x m =>
    acStep_sim hd (contextModes_length legacy) hms hli hlf (by omega) h2 hp n a b c y x m) (d := fun _ => 0) sched_all ⟨by simp, ?_, ?_⟩) fun a b hr => ?_
  · rw [(acDecInit_get ms _).1]; simp [hli]
  · intro c m img hm hi
    have := (acDecInit_get ms (imgs.map dcOnly)).2 c m (dcOnly img) hm (by rw [List.getElem?_map, hi]; rfl)
    refine ⟨_, this, by rw [List.getElem?_map, hm]; rfl, acInv_init _, ?_⟩
    simp only
    unfold dcOnly
    refine keep_congr fun i _ => ?_
    unfold acUpTo
    simp
  · refine Sim.pure ?_
    apply List.ext_getElem?
    intro c
    rw [List.getElem?_map]
    by_cases hc : c < ms.length
    · have hm : ms[c]? = some ms[c] := List.getElem?_eq_getElem hc
      obtain ⟨img, fl, hi, hf⟩ := himg c _ hm
      obtain ⟨d, k1, k2, k3, k4⟩ := hr.rel c _ img hm hi
      rw [k1, hi]
      simp only [Option.map_some, Option.some.injEq]
      rw [k4]
      apply List.ext_getElem?
      intro i
      by_cases hil : i < img.length
      · refine keep_getElem?_of (acUpTo_lt ?_)
        have hs := (hp c _ img fl hm hi hf).size
        unfold visited
        rw [hm]
        simp only
        rw [Nat.mul_comm (rows * _) _]
        omega
      · rw [List.getElem?_eq_none (by rw [keep_length]; omega), List.getElem?_eq_none (by omega)]
    · rw [List.getElem?_eq_none (by rw [hr.lenB]; omega), List.getElem?_eq_none (by omega)]; rfl

/-! ## Safety of the decoder -/

/-- The decoder's state. -/
def AcSafes (rows : Nat) (ms : List Meta) (s : List AcDec) : Prop :=
  s.length = ms.length ∧ ∀ (c : Nat) (m : Meta), ms[c]? = some m → ∃ d, s[c]? = some d ∧ AcInv m.w d.st ∧
    Arr (m.w * (rows * m.vs) * 64) (fun v => -32768 ≤ v ∧ v < 32768) d.coeffs

theorem decAcStep_all {rows Nd : Nat} {modes : List Nat} {ms : List Meta} {prs : List AcParam} {flags : List (List Bool)}
    (hmo : 64 ≤ modes.length) (hms : ∀ m ∈ ms, MetaOk Nd m) (hlp : prs.length = ms.length) (hpr : ∀ pr ∈ prs, ParamOk pr)
    (hfl : ∀ (c : Nat) (m : Meta), ms[c]? = some m → ∃ fl, flags[c]? = some fl ∧ fl.length = m.w * (rows * m.vs))
    {c y x : Nat} {m : Meta} (hm : ms[c]? = some m) (hx : x < m.w) (hy : y < rows * m.vs) (s : List AcDec) (hs : AcSafes rows ms s) :
    (decAcStep Nd modes ms prs flags s (c, y, x)).All (AcSafes rows ms) := by
  have hc : c < ms.length := by
    apply Decidable.byContradiction; intro h; rw [List.getElem?_eq_none (by omega)] at hm; cases hm
  have hpc : prs[c]? = some (prs[c]'(by omega)) := List.getElem?_eq_getElem _
  obtain ⟨fl, hf, hfs⟩ := hfl c m hm
  obtain ⟨d, hdc, hi, ha⟩ := hs.2 c m hm
  have hpos := pos_lt hx hy
  have hmk := hms m (List.mem_of_getElem? hm)
  unfold decAcStep
  refine Prog.All.bind (Prog.lift_all (q := fun r => r = m) ⟨m, hm, rfl⟩) fun m' hr => ?_
  subst m'
  refine Prog.All.bind (Prog.lift_all (q := ParamOk) ⟨_, hpc, hpr _ (List.getElem_mem _)⟩) fun pr hpr => ?_
  refine Prog.All.bind (Prog.lift_all (q := fun r => r = fl) ⟨fl, hf, rfl⟩) fun f' hr => ?_
  subst f'
  refine Prog.All.bind (Prog.lift_all (q := fun r => r = d) ⟨d, hdc, rfl⟩) fun d' hr => ?_
  subst d'
  refine Prog.All.bind (Prog.lift_all (q := fun _ => True) ⟨_, List.getElem?_eq_getElem (by rw [hfs]; exact hpos), trivial⟩) fun empty _ => ?_
  have hv : EnvOk ⟨Nd, modes, m, pr, y, x⟩ (rows * m.vs) := ⟨hmo, hpr, hmk.1, hmk.2, hx, hy⟩
  refine Prog.All.bind (decAcBlock_all hv hi ha) fun d' hd' => ?_
  refine Prog.lift_all ⟨s.set c d', putAt_some (by rw [hs.1]; exact hc) _, by rw [List.length_set]; exact hs.1, fun c' m' hm' => ?_⟩
  by_cases hcc : c = c'
  · subst hcc
    rw [hm] at hm'; cases hm'
    exact ⟨_, List.getElem?_set_self (by rw [hs.1]; exact hc), hd'⟩
  · rw [List.getElem?_set_ne hcc]
    exact hs.2 c' m' hm'

theorem decodeAC_all {rows Nd : Nat} {legacy : Bool} {ms : List Meta} {quants : List (List Nat)} {coeffs : List (List Int)} {flags : List (List Bool)}
    (hms : ∀ m ∈ ms, MetaOk Nd m) (hlq : quants.length = ms.length) (hq : ∀ q ∈ quants, QuantOk q) (hlc : coeffs.length = ms.length)
    (hco : ∀ (c : Nat) (m : Meta) (co : List Int), ms[c]? = some m → coeffs[c]? = some co → Arr (m.w * (rows * m.vs) * 64) (fun v => -32768 ≤ v ∧ v < 32768) co)
    (hfl : ∀ (c : Nat) (m : Meta), ms[c]? = some m → ∃ fl, flags[c]? = some fl ∧ fl.length = m.w * (rows * m.vs)) :
    (decodeAC Nd legacy rows ms quants coeffs flags).All fun r => r.length = ms.length ∧ ∀ (c : Nat) (m : Meta) (co : List Int), ms[c]? = some m →
      r[c]? = some co → Arr (m.w * (rows * m.vs) * 64) (fun v => -32768 ≤ v ∧ v < 32768) co := by
  unfold decodeAC
  refine Prog.All.bind (decOrders_all ms.length) fun os hos => ?_
  obtain ⟨prs, e1, h1, h2⟩ := acParams_some os quants (by omega) hos.2 hq
  refine Prog.All.bind (Prog.lift_all (q := fun prs => prs.length = ms.length ∧ ∀ pr ∈ prs, ParamOk pr) ⟨prs, e1, by omega, h2⟩) fun prs hprs => ?_
  refine Prog.All.bind (Prog.loop_all (q := AcSafes rows ms) (fun i hi s hs => ?_) ⟨?_, fun c m hm => ?_⟩) fun s hs => ?_
  · obtain ⟨m, h1, h2, h3⟩ := sched_all.mem i hi
    exact decAcStep_all (contextModes_length legacy) hms hprs.1 hprs.2 hfl h1 h2 h3 s hs
  · rw [(acDecInit_get ms _).1]; omega
  · have : c < ms.length := by
      apply Decidable.byContradiction; intro h; rw [List.getElem?_eq_none (by omega)] at hm; cases hm
    have hcc : coeffs[c]? = some (coeffs[c]'(by omega)) := List.getElem?_eq_getElem _
    exact ⟨_, (acDecInit_get ms _).2 c m _ hm hcc, acInv_init _, hco c m _ hm hcc⟩
  · refine Prog.All.pure ⟨by rw [List.length_map]; exact hs.1, fun c m p hm hp => ?_⟩
    obtain ⟨d, h1, h2⟩ := hs.2 c m hm
    rw [List.getElem?_map, h1] at hp
    cases hp
    exact h2.2

end Brunsli
