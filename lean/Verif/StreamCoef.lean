import Verif.StreamWords
/-!
# DC and AC data read while they arrive

The tests of `DecodeDC`, `DecodeAC` (c/dec/brunsli_decode.cc:615-739, 865-976): five words for the set-up (:630, :882), six for
a DC block (:661), 121 for the order of a component (:887), 297 for an AC block that is not empty (:941).  What is read after each
test is shown to fit into the words tested for.
-/

namespace Brunsli

namespace Prog

theorem Costs.decExtra (n : Nat) (h : n ≤ 9) : (decExtra n).Costs (fun _ => True) 0 9 := by
  unfold Brunsli.decExtra
  split
  · exact ⟨by omega, by omega, fun v _ => trivial⟩
  · exact trivial

/-- An absolute value: a symbol, an adaptive bit and at most nine bits. -/
theorem Costs.decAbs (n ctx : Nat) (extra : List Prob) (base : Nat) : (decAbs n ctx extra base).Costs (fun _ => True) 2 9 := by
  unfold Brunsli.decAbs
  refine (Costs.codeAt n ctx).bind (b₂ := 1) (r₂ := 9) (fun code hc => ?_) (by omega) (by omega)
  split
  · exact trivial
  · refine (Costs.bitAt _ _).bind (b₂ := 0) (r₂ := 9) (fun r _ => ?_) (by omega) (by omega)
    refine (Costs.decExtra _ (by omega)).bind (b₂ := 0) (r₂ := 0) (fun v _ => ?_) (by omega) (by omega)
    exact trivial

theorem Costs.lift' {α β : Type} {post : β → Prop} {o : Option α} {f : α → Prog β} {b r : Nat} (hf : ∀ a, o = some a → (f a).Costs post b r) :
    (Prog.lift o >>= f).Costs post b r := (Costs.lift o).bind hf (by omega) (by omega)

end Prog

open Prog

theorem decDcNonzero_costs (n c x : Nat) (st : DcState) : (decDcNonzero n c x st).Costs (fun _ => True) 3 9 := by
  unfold decDcNonzero
  refine Costs.lift' fun avg _ => Costs.lift' fun sc _ => ?_
  refine (Costs.bitAt _ _).bind (b₂ := 2) (r₂ := 9) (fun sign _ => ?_) (by omega) (by omega)
  refine (Costs.decAbs _ _ _ _).bind (b₂ := 0) (r₂ := 0) (fun r _ => ?_) (by omega) (by omega)
  exact trivial

theorem decDcValue_costs (n c x : Nat) (st : DcState) : (decDcValue n c x st).Costs (fun _ => True) 4 9 := by
  unfold decDcValue
  refine (Costs.bitAt _ _).bind (b₂ := 3) (r₂ := 9) (fun z _ => ?_) (by omega) (by omega)
  split
  · exact trivial
  · exact decDcNonzero_costs _ _ _ _

theorem decDcBlock_costs (n c x : Nat) (st : DcState) : (decDcBlock n c x st).Costs (fun _ => True) 5 9 := by
  unfold decDcBlock
  refine Costs.lift' fun ctx _ => ?_
  refine (Costs.bitAt _ _).bind (b₂ := 4) (r₂ := 9) (fun pe _ => ?_) (by omega) (by omega)
  refine Costs.lift' fun ne _ => ?_
  have h : (if pe.1 then decDcValue n c x { st with isEmpty := pe.2, nonempty := ne }
      else Pure.pure ({ st with isEmpty := pe.2, nonempty := ne }, 0) : Prog (DcState × Int)).Costs (fun _ => True) 4 9 := by
    split
    · exact decDcValue_costs _ _ _ _
    · exact trivial
  refine h.bind (b₂ := 0) (r₂ := 0) (fun r _ => ?_) (by omega) (by omega)
  exact Costs.lift' fun abs _ => Costs.lift' fun sgn _ => trivial

/-- A DC block takes at most five words and nine bits. -/
theorem decDcStep_costs (n : Nat) (ms : List Meta) (s : List DcDec) (p : Nat × Nat × Nat) : (decDcStep n ms s p).Costs (fun _ => True) 5 9 := by
  unfold decDcStep
  refine Costs.lift' fun m _ => Costs.lift' fun d _ => ?_
  refine (decDcBlock_costs _ _ _ _).bind (b₂ := 0) (r₂ := 0) (fun r _ => ?_) (by omega) (by omega)
  refine Costs.lift' fun fl _ => Costs.lift' fun pred _ => Costs.lift' fun _ _ => Costs.lift' fun cs _ => ?_
  exact (Costs.lift _).mono (fun _ _ => trivial) (Nat.le_refl _) (Nat.le_refl _)

/-! ## The order of coefficients -/

theorem decDigits_costs (v : Nat) : (decDigits v).Costs (fun _ => True) 0 (3 * ((71 - v) / 7)) := by
  induction v using decDigits.induct with
  | case1 v hv ih =>
    rw [decDigits, dif_pos hv]
    refine ⟨by omega, by omega, fun b hb => ?_⟩
    show Prog.Costs _ (if _hb : b < 7 then if v + b > 64 then .fail else .ret (v + b) else decDigits (v + b)) _ _
    split
    · split <;> trivial
    · rename_i h7
      exact (ih b h7).mono (fun _ _ => trivial) (Nat.le_refl _) (by omega)
  | case2 v hv => rw [decDigits, dif_neg hv]; exact trivial

theorem decEntries_costs (n : Nat) : (decEntries n).Costs (fun _ => True) 0 (30 * n) := by
  induction n with
  | zero => exact trivial
  | succ n ih =>
    refine (decDigits_costs 0).bind (b₂ := 0) (r₂ := 30 * n) (fun v _ => ?_) (by omega) (by omega)
    refine ih.bind (b₂ := 0) (r₂ := 0) (fun vs _ => ?_) (by omega) (by omega)
    exact trivial

theorem decSpan_costs (n : Nat) : (decSpan n).Costs (fun _ => True) 0 (30 * n + 1) := by
  unfold decSpan
  have h : (Prog.readBits 1).Costs (fun _ => True) 0 1 := ⟨by omega, by omega, fun v _ => trivial⟩
  refine h.bind (b₂ := 0) (r₂ := 30 * n) (fun f _ => ?_) (by omega) (by omega)
  split
  · exact trivial
  · exact decEntries_costs n

/-- The order of a component takes at most 1894 bits. -/
theorem decodeCoeffOrder_costs : decodeCoeffOrder.Costs (fun _ => True) 0 1894 := by
  unfold decodeCoeffOrder
  refine (decSpan_costs 15).bind (b₂ := 0) (r₂ := 1443) (fun a _ => ?_) (by omega) (by omega)
  refine (decSpan_costs 16).bind (b₂ := 0) (r₂ := 962) (fun b _ => ?_) (by omega) (by omega)
  refine (decSpan_costs 16).bind (b₂ := 0) (r₂ := 481) (fun c _ => ?_) (by omega) (by omega)
  refine (decSpan_costs 16).bind (b₂ := 0) (r₂ := 0) (fun d _ => ?_) (by omega) (by omega)
  split <;> exact trivial

/-! ## AC blocks -/

theorem decNnz_costs (base : Nat) : ∀ (b ctx : Nat) (l : List Prob), (decNnz base b ctx l).Costs (fun r => r.1 < (ctx + 1) * 2 ^ b) b 0
  | 0, ctx, l => by simp [decNnz, Costs.pure]
  | b + 1, ctx, l => by
    unfold decNnz
    refine (Costs.bitAt _ _).bind (b₂ := b) (r₂ := 0) (fun r _ => ?_) (by omega) (by omega)
    refine (decNnz_costs base b _ _).mono (fun a ha => ?_) (Nat.le_refl _) (Nat.le_refl _)
    refine Nat.lt_of_lt_of_le ha ?_
    rw [Nat.pow_succ, Nat.mul_comm (2 ^ b) 2, ← Nat.mul_assoc]
    refine Nat.mul_le_mul_right _ ?_
    cases r.1 <;> simp only [Bool.toNat_true, Bool.toNat_false] <;> omega

theorem decIsZero_costs (last k nnz : Nat) (l : List Prob) : (decIsZero last k nnz l).Costs (fun _ => True) 1 0 := by
  unfold decIsZero
  split
  · exact Costs.lift' fun i _ => Costs.bitAt _ _
  · exact trivial

theorem decAcNonzero_costs (v : AcEnv) (k kn : Nat) (s : AcDecBlk) : (decAcNonzero v k kn s).Costs (fun _ => True) 3 9 := by
  unfold decAcNonzero
  refine Costs.lift' fun ctx _ => ?_
  refine (Costs.bitAt _ _).bind (b₂ := 2) (r₂ := 9) (fun sign _ => ?_) (by omega) (by omega)
  refine Costs.lift' fun sgn _ => Costs.lift' fun zd _ => ?_
  refine (Costs.decAbs _ _ _ _).bind (b₂ := 0) (r₂ := 0) (fun r _ => ?_) (by omega) (by omega)
  exact Costs.lift' fun cs _ => Costs.lift' fun abs _ => trivial

theorem decAcCoeff_costs (v : AcEnv) (last k : Nat) (s : AcDecBlk) : (decAcCoeff v last k s).Costs (fun _ => True) 4 9 := by
  unfold decAcCoeff
  refine (decIsZero_costs _ _ _ _).bind (b₂ := 3) (r₂ := 9) (fun z _ => ?_) (by omega) (by omega)
  refine Costs.lift' fun kn _ => ?_
  split
  · unfold decAcZero
    exact Costs.lift' fun sgn _ => Costs.lift' fun cs _ => Costs.lift' fun abs _ => trivial
  · exact decAcNonzero_costs _ _ _ _

theorem decAcCoeffs_costs (v : AcEnv) (last : Nat) : ∀ (k : Nat) (s : AcDecBlk), (decAcCoeffs v last k s).Costs (fun _ => True) (4 * k) (9 * k)
  | 0, s => trivial
  | k + 1, s => by
    unfold decAcCoeffs
    refine (decAcCoeff_costs _ _ _ _).bind (b₂ := 4 * k) (r₂ := 9 * k) (fun s _ => ?_) (by omega) (by omega)
    exact decAcCoeffs_costs v last k s

theorem decLast_costs (x y : Nat) (st : AcState) : (decLast x y st).Costs (fun r => r.1 ≤ 63) 6 0 := by
  unfold decLast
  refine Costs.lift' fun c _ => ?_
  refine (decNnz_costs _ 6 1 _).bind (b₂ := 0) (r₂ := 0) (fun r hr => ?_) (by omega) (by omega)
  refine Costs.pure ?_
  simp only at hr ⊢
  omega

/-- An AC block takes at most 258 words and 567 bits; an empty one takes nothing. -/
theorem decAcBlock_costs (v : AcEnv) (empty : Bool) (d : AcDec) :
    (decAcBlock v empty d).Costs (fun _ => True) (if empty then 0 else 258) (if empty then 0 else 567) := by
  unfold decAcBlock
  have h : (if empty then Pure.pure (0, d.st.nnzProb) else decLast v.x v.y d.st : Prog (Nat × List Prob)).Costs
      (fun r => r.1 ≤ if empty then 0 else 63) (if empty then 0 else 6) 0 := by
    cases empty with
    | true => exact Nat.le_refl 0
    | false => exact decLast_costs _ _ _
  refine h.bind (b₂ := if empty then 0 else 252) (r₂ := if empty then 0 else 567) (fun r hr => ?_) (by cases empty <;> simp) (by omega)
  refine Costs.lift' fun sgn _ => Costs.lift' fun abs _ => ?_
  refine (decAcCoeffs_costs _ _ _ _).bind (b₂ := 0) (r₂ := 0) (fun s _ => ?_) ?_ ?_
  · exact Costs.lift' fun nnz _ => trivial
  · cases empty <;> simp at hr ⊢ <;> omega
  · cases empty <;> simp at hr ⊢ <;> omega

/-- Whether a block is marked empty (c/dec/brunsli_decode.cc:939). -/
def emptyAt (ms : List Meta) (flags : List (List Bool)) (p : Nat × Nat × Nat) : Bool :=
  match ms[p.1]?, flags[p.1]? with
  | some m, some fl => fl[p.2.1 * m.w + p.2.2]? == some true
  | _, _ => false

theorem decAcStep_costs (n : Nat) (modes : List Nat) (ms : List Meta) (prs : List AcParam) (flags : List (List Bool)) (s : List AcDec)
    (p : Nat × Nat × Nat) : (decAcStep n modes ms prs flags s p).Costs (fun _ => True)
      (if emptyAt ms flags p then 0 else 258) (if emptyAt ms flags p then 0 else 567) := by
  unfold decAcStep
  refine Costs.lift' fun m hm => Costs.lift' fun pr _ => Costs.lift' fun fl hfl => Costs.lift' fun d _ => Costs.lift' fun empty he => ?_
  have e : emptyAt ms flags p = empty := by
    unfold emptyAt
    rw [hm, hfl]
    simp only [he]
    cases empty <;> rfl
  rw [e]
  refine (decAcBlock_costs _ _ _).bind (b₂ := 0) (r₂ := 0) (fun r _ => ?_) (by omega) (by omega)
  exact (Costs.lift _).mono (fun _ _ => trivial) (Nat.le_refl _) (Nat.le_refl _)

/-! ## The programs with their tests -/

namespace WP

/-- A loop. -/
def loop {α ι : Type} (f : α → ι → WP α) : α → List ι → WP α
  | a, [] => ret a
  | a, i :: l => bind (f a i) fun a => loop f a l

theorem run_loop {α ι : Type} {maps : Nat → Option (List SymInfo)} {f : α → ι → WP α} {g : α → ι → Prog α}
    (h : ∀ a i d ws, (f a i).run maps d ws = (g a i).run maps d ws) :
    ∀ (l : List ι) (a : α) (d : DecSt) (ws : List Nat), (loop f a l).run maps d ws = (Prog.loop g a l).run maps d ws
  | [], a, d, ws => rfl
  | i :: l, a, d, ws => by
    have e : (Prog.loop g a (i :: l)).run maps d ws = _ := Prog.run_bind maps (g a i) (fun a => Prog.loop g a l) d ws
    rw [e]
    simp only [loop]
    rw [run_bind, h]
    cases (g a i).run maps d ws with
    | none => rfl
    | some r => exact run_loop h l _ _ _

theorem loop_within {α ι : Type} {f : α → ι → WP α} (h : ∀ a i, Within (fun _ => True) (f a i) 0 0) :
    ∀ (l : List ι) (a : α), Within (fun _ => True) (loop f a l) 0 0
  | [], _ => trivial
  | _ :: l, _ => Within.bind (fun a _ => loop_within h l a) (h _ _)

/-- Set-up, program, final checks. -/
def framed {α : Type} (e : Seen) (p : WP α) : WP α := need 5 e (op .init fun _ => bind p fun a => op .fin fun _ => ret a)

theorem framed_within {α : Type} {e : Seen} {p : WP α} (h : Within (fun _ => True) p 0 0) : Within (fun _ => True) (framed e p) 0 0 :=
  ⟨by omega, 5, 0, by omega, Nat.zero_le _, Nat.le_refl _, Nat.le_refl _, fun _ _ =>
    Within.bind (p1 := fun _ => True) (p2 := fun _ => True) (f := fun a => op .fin fun _ => ret a)
      (fun _ _ => ⟨Nat.zero_le _, Nat.le_refl _, Nat.le_refl _, fun _ _ => trivial⟩) h⟩

end WP

/-- The row of MCUs a block belongs to: the outer loop variable (c/dec/brunsli_decode.cc:643, :918). -/
def mcuRow (ms : List Meta) (p : Nat × Nat × Nat) : Nat :=
  match ms[p.1]? with
  | some m => p.2.1 / m.vs
  | none => 0

/-- The state in which `DecodeDC` starts; the coefficients are zero (`WarmupMeta`, c/dec/brunsli_decode.cc:2243-2265). -/
def dcDecInit (rows : Nat) (ms : List Meta) : List DcDec :=
  ms.map fun m => ⟨DcState.init m.w, List.replicate (m.w * (rows * m.vs) * 64) 0, List.replicate (m.w * (rows * m.vs)) false⟩

/-- One iteration of the loops of `DecodeDC` (c/dec/brunsli_decode.cc:660-719), with its test. -/
def dcStepWP (n : Nat) (ms : List Meta) (s : List DcDec) (p : Nat × Nat × Nat) : WP (List DcDec) :=
  .need 6 ⟨mcuRow ms p, s.map DcDec.coeffs⟩ (.ofProg (decDcStep n ms s p))

/-- `DecodeDC` (c/dec/brunsli_decode.cc:615-739) with its tests. -/
def dcWP (n rows : Nat) (ms : List Meta) : WP (List (List Int × List Bool)) :=
  WP.bind (WP.loop (dcStepWP n ms) (dcDecInit rows ms) (schedule rows ms)) fun s => .ret (s.map fun d => (d.coeffs, d.empty))

theorem dcWP_run (maps : Nat → Option (List SymInfo)) (n rows : Nat) (ms : List Meta) (d : DecSt) (ws : List Nat) :
    (dcWP n rows ms).run maps d ws = (decodeDC n rows ms).run maps d ws := by
  unfold dcWP decodeDC
  rw [WP.run_bind, WP.run_loop (f := dcStepWP n ms) (g := decDcStep n ms)
    (fun a i d ws => WP.run_ofProg _ _ _ _)]
  refine Eq.trans ?_ (Prog.run_bind maps _ _ d ws).symm
  rfl

theorem dcWP_within (n rows : Nat) (ms : List Meta) : (dcWP n rows ms).Within (fun _ => True) 0 0 :=
  WP.Within.bind (p1 := fun _ => True) (p2 := fun _ => True) (f := fun s : List DcDec => .ret (s.map fun d => (d.coeffs, d.empty)))
    (fun _ _ => trivial) (WP.loop_within (f := dcStepWP n ms) (fun s p =>
      ⟨by omega, 5, 9, by omega, (decDcStep_costs n ms s p).within⟩) _ _)

/-- The orders of `n` components (c/dec/brunsli_decode.cc:885-898) with their tests. -/
def ordersWP (e : Seen) : Nat → WP (List (List Nat))
  | 0 => .ret []
  | n + 1 => .need 121 e (WP.bind (.ofProg decodeCoeffOrder) fun o => WP.bind (ordersWP e n) fun os => .ret (o :: os))

theorem ordersWP_run (e : Seen) (maps : Nat → Option (List SymInfo)) : ∀ (n : Nat) (d : DecSt) (ws : List Nat),
    (ordersWP e n).run maps d ws = (decOrders n).run maps d ws
  | 0, d, ws => rfl
  | n + 1, d, ws => by
    have e0 : (decOrders (n + 1)).run maps d ws = _ :=
      Prog.run_bind maps decodeCoeffOrder (fun o => decOrders n >>= fun os => Pure.pure (o :: os)) d ws
    rw [e0]
    simp only [ordersWP, WP.run]
    rw [WP.run_bind, WP.run_ofProg]
    cases decodeCoeffOrder.run maps d ws with
    | none => rfl
    | some r =>
      obtain ⟨o, d, ws⟩ := r
      have e' : (decOrders n >>= fun os => (Pure.pure (o :: os) : Prog _)).run maps d ws = _ :=
        Prog.run_bind maps (decOrders n) (fun os => Pure.pure (o :: os)) d ws
      simp only
      rw [e', WP.run_bind, ordersWP_run e maps n]
      rfl

theorem ordersWP_within (e : Seen) : ∀ n : Nat, (ordersWP e n).Within (fun _ => True) 0 0
  | 0 => trivial
  | n + 1 => ⟨by omega, 0, 1894, by omega, WP.Within.bind (p1 := fun _ => True)
      (p2 := fun _ => True) (f := fun o => WP.bind (ordersWP e n) fun os => .ret (o :: os))
      (fun o _ => WP.Within.bind (p1 := fun _ => True) (p2 := fun _ => True) (f := fun os => .ret (o :: os)) (fun _ _ => trivial) (ordersWP_within e n))
      decodeCoeffOrder_costs.within⟩

/-- One iteration of the loops of `DecodeAC` (c/dec/brunsli_decode.cc:938-962): the test is made when the block is not empty. -/
def acStepWP (n : Nat) (modes : List Nat) (ms : List Meta) (prs : List AcParam) (flags : List (List Bool)) (s : List AcDec)
    (p : Nat × Nat × Nat) : WP (List AcDec) :=
  if emptyAt ms flags p then .ofProg (decAcStep n modes ms prs flags s p) else .need 297 ⟨mcuRow ms p, s.map AcDec.coeffs⟩ (.ofProg (decAcStep n modes ms prs flags s p))

/-- `DecodeAC` (c/dec/brunsli_decode.cc:865-976) with its tests. -/
def acWP (n : Nat) (legacy : Bool) (rows : Nat) (ms : List Meta) (quants : List (List Nat)) (coeffs : List (List Int))
    (flags : List (List Bool)) : WP (List (List Int)) :=
  WP.bind (ordersWP ⟨0, coeffs⟩ ms.length) fun orders =>
    WP.bind (.ofProg (Prog.lift (acParams orders quants))) fun prs =>
      WP.bind (WP.loop (acStepWP n (contextModes legacy) ms prs flags) (acDecInit ms coeffs) (schedule rows ms)) fun s =>
        .ret (s.map AcDec.coeffs)

theorem acWP_run (maps : Nat → Option (List SymInfo)) (n : Nat) (legacy : Bool) (rows : Nat) (ms : List Meta) (quants : List (List Nat))
    (coeffs : List (List Int)) (flags : List (List Bool)) (d : DecSt) (ws : List Nat) :
    (acWP n legacy rows ms quants coeffs flags).run maps d ws = (decodeAC n legacy rows ms quants coeffs flags).run maps d ws := by
  unfold acWP decodeAC
  refine Eq.trans ?_ (Prog.run_bind maps _ _ d ws).symm
  rw [WP.run_bind, ordersWP_run]
  cases (decOrders ms.length).run maps d ws with
  | none => rfl
  | some r =>
    obtain ⟨orders, d, ws⟩ := r
    refine Eq.trans ?_ (Prog.run_bind maps _ _ d ws).symm
    simp only
    rw [WP.run_bind, WP.run_ofProg]
    cases (Prog.lift (acParams orders quants)).run maps d ws with
    | none => rfl
    | some r =>
      obtain ⟨prs, d, ws⟩ := r
      refine Eq.trans ?_ (Prog.run_bind maps _ _ d ws).symm
      simp only
      rw [WP.run_bind, WP.run_loop (g := decAcStep n (contextModes legacy) ms prs flags) (fun a i d ws => ?_)]
      · rfl
      · unfold acStepWP
        split
        · exact WP.run_ofProg _ _ _ _
        · exact WP.run_ofProg _ _ _ _

theorem acWP_within (n : Nat) (legacy : Bool) (rows : Nat) (ms : List Meta) (quants : List (List Nat))
    (coeffs : List (List Int)) (flags : List (List Bool)) : (acWP n legacy rows ms quants coeffs flags).Within (fun _ => True) 0 0 := by
  refine WP.Within.bind (p1 := fun _ => True) (fun orders _ => ?_) (ordersWP_within _ _)
  refine WP.Within.bind (p1 := fun _ => True) (fun prs _ => ?_)
    ((Costs.lift (acParams orders quants)).mono (fun _ _ => trivial) (Nat.le_refl _) (Nat.le_refl _)).within
  refine WP.Within.bind (p1 := fun _ => True) (p2 := fun _ => True) (f := fun s : List AcDec => .ret (s.map AcDec.coeffs))
    (fun _ _ => trivial) (WP.loop_within (fun s p => ?_) _ _)
  have h := (decAcStep_costs n (contextModes legacy) ms prs flags s p).within
  unfold acStepWP
  split
  · rename_i he
    rw [he] at h
    exact h
  · rename_i he
    rw [if_neg he, if_neg he] at h
    exact ⟨by omega, 258, 567, by omega, h⟩

/-! ## Whole sections -/

/-- Where a section of words starts, `e` being what can be seen then; the sub-decoders are set up by the first instruction. -/
def wordStart {α : Type} (maps : Nat → Option (List SymInfo)) (e : Seen) (p : WP α) : WordSt α :=
  ⟨maps, ⟨0, 0, 0, 0, 0, 0⟩, p.framed e⟩

theorem wordStart_inv {α : Type} {maps : Nat → Option (List SymInfo)} {e : Seen} {p : WP α} {rem : Nat} (hm : Prog.MapsOk maps)
    (hp : p.Within (fun _ => True) 0 0) (hr : rem % 2 = 0) : wordInv (fun _ => True) (wordStart maps e p) rem :=
  ⟨hm, Nat.zero_le _, hr, trivial, WP.framed_within hp⟩

theorem wordStart_sem {α : Type} {maps : Nat → Option (List SymInfo)} {e : Seen} {p : WP α} {q : Prog α} {payload : List Nat} (hm : Prog.MapsOk maps)
    (hp : p.Within (fun _ => True) 0 0) (hq : ∀ d ws, p.run maps d ws = q.run maps d ws) (hr : payload.length % 2 = 0) :
    atEnd (wordSem (wordStart maps e p) payload) = decodeWords maps q (bytesWords payload) := by
  unfold wordSem wordStart WP.framed decodeWords
  simp only [WP.run, WOp.run]
  cases hi : decInit (bytesWords payload) with
  | none => rfl
  | some r =>
    obtain ⟨d, ws⟩ := r
    obtain ⟨⟨u, e, _⟩, hb⟩ := decInit_res hi
    simp only [Option.map_some]
    rw [WP.run_bind, hq]
    cases hrun : q.run maps d ws with
    | none => rfl
    | some r =>
      obtain ⟨a, d', ws'⟩ := r
      rw [← hq] at hrun
      obtain ⟨v, e'⟩ := WP.run_suffix hm p hp (by omega) hrun
      have hl := bytesWords_length payload
      have hl2 : (bytesWords payload).length = u.length + (v.length + ws'.length) := by rw [e, e']; simp
      simp only [WP.run, WOp.run]
      by_cases hf : decFinish d' = true
      · rw [if_pos hf]
        simp only
        cases ws' with
        | nil =>
          show _ = if decFinish d' = true then some a else none
          rw [if_pos hf]
          simp only [List.length_nil, Nat.sub_zero]
          rw [List.drop_eq_nil_of_le (by omega)]
          rfl
        | cons x ws' =>
          simp only [List.length_cons] at hl2 ⊢
          have : payload.drop (2 * ((bytesWords payload).length - (ws'.length + 1))) ≠ [] := by
            rw [Ne, List.drop_eq_nil_iff]; omega
          cases hd : payload.drop (2 * ((bytesWords payload).length - (ws'.length + 1))) with
          | nil => exact (this hd).elim
          | cons y ys => rfl
      · rw [if_neg hf]
        cases ws' with
        | nil =>
          show _ = if decFinish d' = true then some a else none
          rw [if_neg hf]; rfl
        | cons x ws' => rfl

end Brunsli
