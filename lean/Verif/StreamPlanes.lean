import Verif.StreamSane
/-!
# The planes of coefficients seen while they are decoded

At every point where `DecodeDC` or `DecodeAC` waits, the planes have the sizes given by the header and the AC coefficients have at most twelve bits.
-/

namespace Brunsli

/-! ## What is seen -/

namespace WP
variable {α β : Type}

/-- Wherever the program waits, `q` holds of what can be seen. -/
def Always (q : Seen → Prop) : WP α → Prop
  | ret _ => True
  | fail => True
  | ub => True
  | need _ e k => q e ∧ Always q k
  | op o k => ∀ a, o.post a → Always q (k a)

/-- The program has not come to an end other than a result. -/
def Live : WP α → Prop
  | fail => False
  | ub => False
  | _ => True

theorem Always.ofProg {q : Seen → Prop} : ∀ p : Prog α, Always q (WP.ofProg p)
  | .ret _ => trivial
  | .fail => trivial
  | .ub => trivial
  | .code _ k => fun s _ => Always.ofProg (k s)
  | .bits _ k => fun s _ => Always.ofProg (k s)
  | .bit _ k => fun s _ => Always.ofProg (k s)

theorem Always.bind {q : Seen → Prop} {r : α → Prop} {f : α → WP β} (hf : ∀ a, r a → Always q (f a)) : ∀ {p : WP α}, Always q p → Post r p → Always q (WP.bind p f)
  | ret _, _, h => hf _ h
  | fail, _, _ => trivial
  | ub, _, _ => trivial
  | need _ _ _, h1, h2 => ⟨h1.1, Always.bind hf h1.2 h2⟩
  | op _ _, h1, h2 => fun a ha => Always.bind hf (h1 a ha) (h2 a ha)

theorem Always.map {q : Seen → Prop} (g : α → β) {p : WP α} (h : Always q p) : Always q (WP.bind p fun a => ret (g a)) :=
  Always.bind (r := fun _ => True) (f := fun a => ret (g a)) (fun _ _ => trivial) h (Post.any _)

theorem exec_always {maps : Nat → Option (List SymInfo)} (hm : Prog.MapsOk maps) {w : α → Prop} {q : Seen → Prop} (p : WP α) :
    ∀ {b r : Nat} {d : DecSt} {ws : List Nat} {p' : WP α} {d' : DecSt} {ws' : List Nat}, Within w p b r → d.bpos ≤ 16 →
      exec maps p d ws = some (p', d', ws') → Always q p → Always q p' ∧ p'.Live := by
  induction p with
  | ret a => intro b r d ws p' d' ws' hw hd h hp; cases h; exact ⟨hp, trivial⟩
  | fail => intro b r d ws p' d' ws' hw hd h; cases h
  | ub => intro b r d ws p' d' ws' hw hd h; cases h
  | need n e k ih => intro b r d ws p' d' ws' hw hd h hp; cases h; exact ⟨hp, trivial⟩
  | op o k ih =>
    intro b r d ws p' d' ws' hw hd h hp
    simp only [exec] at h
    split at h
    · cases h
    · rename_i y hq
      obtain ⟨a, d1, ws1⟩ := y
      obtain ⟨pa, _, hd1, _⟩ := WOp.res hm o hw.1 hq hd
      exact ih a (hw.2.2.2 a pa) hd1 h (hp a pa)

theorem framed_always {q : Seen → Prop} {e : Seen} {p : WP α} (h1 : q e) (h2 : Always q p) : Always q (framed e p) :=
  ⟨h1, fun _ _ => Always.bind (r := fun _ => True) (f := fun a => op .fin fun _ => ret a) (fun _ _ _ _ => trivial) h2 (Post.any _)⟩

theorem framed_post {q : α → Prop} {e : Seen} {p : WP α} (h : Post q p) : Post q (framed e p) :=
  fun _ _ => Post.bind (q := q) (r := q) (f := fun a => op .fin fun _ => ret a) (fun _ ha _ _ => ha) h

theorem loop_always {ι : Type} {f : α → ι → WP α} {I : α → Prop} {q : Seen → Prop} : ∀ (l : List ι) {a : α}, (∀ a, ∀ i ∈ l, I a → (f a i).Post I ∧ (f a i).Always q) → I a →
    (loop f a l).Post I ∧ (loop f a l).Always q
  | [], _, _, ha => ⟨ha, trivial⟩
  | i :: l, a, h, ha => by
    have hi := h a i List.mem_cons_self ha
    have ih := fun b hb => loop_always l (a := b) (fun a j hj => h a j (List.mem_cons_of_mem _ hj)) hb
    exact ⟨Post.bind (fun b hb => (ih b hb).1) hi.1, Always.bind (fun b hb => (ih b hb).2) hi.2 hi.1⟩

end WP

/-! ## Planes -/

/-- The AC coefficients of a plane are small. -/
def AcBound (p : List Int) : Prop := ∀ (i : Nat) (x : Int), p[i]? = some x → i % 64 ≠ 0 → x.natAbs ≤ 2054

/-- The planes have their sizes, and their AC coefficients are small. -/
structure Planes (rows : Nat) (ms : List Meta) (b : List (List Int)) : Prop where
  sized : Sized rows ms b
  small : ∀ p ∈ b, AcBound p

/-- What is seen fits. -/
structure Seen.Fit (rows : Nat) (ms : List Meta) (e : Seen) : Prop where
  row : e.row = 0 ∨ e.row < rows
  planes : Planes rows ms e.coeffs

theorem Changed.sized {F : Nat → Nat → Prop} {rows : Nat} {ms : List Meta} {a b : List (List Int)} (h : Changed F a b) (ha : Sized rows ms a) : Sized rows ms b := by
  refine ⟨by rw [← h.1, ha.1], fun c m q hm hq => ?_⟩
  have hc : c < a.length := by rw [h.1]; exact (List.getElem?_eq_some_iff.mp hq).1
  obtain ⟨q', h1, h2, _⟩ := h.2 c a[c] (List.getElem?_eq_getElem hc)
  rw [hq] at h1; cases h1
  rw [← h2]
  exact ha.2 c m _ hm (List.getElem?_eq_getElem hc)

theorem Changed.planesDc {rows : Nat} {ms : List Meta} {p : Nat × Nat × Nat} {a b : List (List Int)} (h : Changed (inBlock ms false p) a b) (ha : Planes rows ms a) : Planes rows ms b := by
  refine ⟨h.sized ha.sized, fun q hq i x hx hi => ?_⟩
  obtain ⟨c, hc⟩ := List.getElem?_of_mem hq
  have hl : c < a.length := by rw [h.1]; exact (List.getElem?_eq_some_iff.mp hc).1
  obtain ⟨q', h1, _, h3⟩ := h.2 c a[c] (List.getElem?_eq_getElem hl)
  rw [hc] at h1; cases h1
  refine ha.small a[c] (List.getElem_mem hl) i x ?_ hi
  rw [h3 i ?_, hx]
  rintro ⟨m, _, _, _, h5⟩
  exact absurd (h5.mp hi) (by decide)

/-! ## The DC section -/

theorem dcDecInit_planes (rows : Nat) (ms : List Meta) : Planes rows ms ((dcDecInit rows ms).map DcDec.coeffs) := by
  have e : (dcDecInit rows ms).map DcDec.coeffs = ms.map fun m => List.replicate (m.w * (rows * m.vs) * 64) 0 := by
    unfold dcDecInit
    rw [List.map_map]; rfl
  rw [e]
  refine ⟨⟨by simp, fun c m p hm hp => ?_⟩, fun p hp i x hx hi => ?_⟩
  · rw [List.getElem?_map, hm] at hp
    cases hp
    simp
  · obtain ⟨m, _, rfl⟩ := List.mem_map.mp hp
    have := List.mem_of_getElem? hx
    rw [(List.mem_replicate.mp this).2]
    decide

theorem dcWP_fit (n rows : Nat) (ms : List Meta) :
    (WP.framed ⟨0, (dcDecInit rows ms).map DcDec.coeffs⟩ (dcWP n rows ms)).Always (Seen.Fit rows ms) ∧
      (WP.framed ⟨0, (dcDecInit rows ms).map DcDec.coeffs⟩ (dcWP n rows ms)).Post fun a => Planes rows ms (a.map Prod.fst) := by
  have h := WP.loop_always (f := dcStepWP n ms) (I := fun s => Planes rows ms (s.map DcDec.coeffs)) (q := Seen.Fit rows ms) (schedule rows ms)
    (a := dcDecInit rows ms) (fun s p hp hs => ⟨(dcStep_changed n ms s p).mono fun s' h => h.planesDc hs,
      ⟨.inr (schedule_row hp), hs⟩, WP.Always.ofProg _⟩) (dcDecInit_planes rows ms)
  have e : ∀ s : List DcDec, (s.map fun d => (d.coeffs, d.empty)).map Prod.fst = s.map DcDec.coeffs := fun s => by simp
  refine ⟨WP.framed_always ⟨.inl rfl, dcDecInit_planes rows ms⟩ ?_, WP.framed_post ?_⟩
  · exact WP.Always.map _ h.2
  · refine WP.Post.bind (fun s hs => ?_) h.1
    show Planes rows ms (List.map Prod.fst (s.map fun d => (d.coeffs, d.empty)))
    rw [e]
    exact hs

/-! ## The AC section -/

theorem decAbs_post (n ctx : Nat) (extra : List Prob) (base : Nat) : (decAbs n ctx extra base).Post fun r => r.1 ≤ 2054 := by
  unfold decAbs
  refine Prog.Post.bind (q := fun c => c < 18) ?_ fun code hc => ?_
  · unfold Prog.codeAt
    split
    · exact fun s hs => hs
    · trivial
  split
  · show code + 1 ≤ 2054
    omega
  · refine Prog.Post.then fun r => Prog.Post.bind (q := fun v => v < 2 ^ (code - 8)) ?_ fun v hv => ?_
    · unfold decExtra
      split
      · exact fun v hv => hv
      · exact Nat.two_pow_pos _
    · show 7 + 2 * 2 ^ (code - 8) + (r.1.toNat * 2 ^ (code - 8) + v) ≤ 2054
      have h1 : 2 ^ (code - 8) ≤ 2 ^ 9 := Nat.pow_le_pow_right (by decide) (by omega)
      have h2 : r.1.toNat * 2 ^ (code - 8) ≤ 2 ^ (code - 8) := by
        cases r.1
        · simp
        · simp
      omega

theorem AcBound.set {p q : List Int} {i : Nat} {v : Int} (h : putAt p i v = some q) (hp : AcBound p) (hv : v.natAbs ≤ 2054) : AcBound q := by
  obtain ⟨_, rfl⟩ := putAt_eq h
  intro j x hx hj
  by_cases e : i = j
  · subst e
    rw [List.getElem?_set_self (by assumption)] at hx
    cases hx
    exact hv
  · rw [List.getElem?_set_ne e] at hx
    exact hp j x hx hj

theorem wrap16_small {s : Bool} {a : Nat} (h : a ≤ 2054) : (wrap16 ((1 - 2 * (s.toNat : Int)) * a)).natAbs ≤ 2054 := by
  unfold wrap16
  cases s
  · simp only [Bool.toNat_false]
    rw [Int.bmod_eq_of_le (by omega) (by omega)]
    omega
  · simp only [Bool.toNat_true]
    rw [Int.bmod_eq_of_le (by omega) (by omega)]
    omega

theorem acCoeff_bound (v : AcEnv) (last k : Nat) {s : AcDecBlk} (hs : AcBound s.coeffs) : (decAcCoeff v last k s).Post fun t => AcBound t.coeffs := by
  unfold decAcCoeff
  refine Prog.Post.then fun z => Prog.Post.lift' fun kn _ => ?_
  split
  · unfold decAcZero
    exact Prog.Post.lift' fun _ _ => Prog.Post.lift' fun cs hcs => Prog.Post.lift' fun _ _ => AcBound.set hcs hs (by decide)
  · unfold decAcNonzero
    exact Prog.Post.lift' fun _ _ => Prog.Post.then fun _ => Prog.Post.lift' fun _ _ => Prog.Post.lift' fun _ _ =>
      Prog.Post.bind (decAbs_post _ _ _ _) fun r hr => Prog.Post.lift' fun cs hcs => Prog.Post.lift' fun _ _ => AcBound.set hcs hs (wrap16_small hr)

theorem acCoeffs_bound (v : AcEnv) (last : Nat) : ∀ (k : Nat) {s : AcDecBlk}, AcBound s.coeffs → (decAcCoeffs v last k s).Post fun t => AcBound t.coeffs
  | 0, _, hs => hs
  | k + 1, _, hs => by
    unfold decAcCoeffs
    exact Prog.Post.bind (acCoeff_bound v last (k + 1) hs) fun t ht => acCoeffs_bound v last k ht

theorem acStep_bound (n : Nat) (modes : List Nat) (ms : List Meta) (prs : List AcParam) (flags : List (List Bool)) {s : List AcDec} (p : Nat × Nat × Nat)
    (hs : ∀ d ∈ s, AcBound d.coeffs) : (acStepWP n modes ms prs flags s p).Post fun s' => ∀ d ∈ s', AcBound d.coeffs := by
  have key : (decAcStep n modes ms prs flags s p).Post fun s' => ∀ d ∈ s', AcBound d.coeffs := by
    unfold decAcStep
    refine Prog.Post.lift' fun m _ => Prog.Post.lift' fun pr _ => Prog.Post.lift' fun fl _ => Prog.Post.lift' fun d hd =>
      Prog.Post.lift' fun empty _ => Prog.Post.bind (q := fun d' : AcDec => AcBound d'.coeffs) ?_ fun d' hd' => Prog.Post.lift fun s' hs' => ?_
    · unfold decAcBlock
      refine Prog.Post.then fun r => Prog.Post.lift' fun _ _ => Prog.Post.lift' fun _ _ => ?_
      exact Prog.Post.bind (acCoeffs_bound _ _ _ (hs d (List.mem_of_getElem? hd))) fun t ht => Prog.Post.lift' fun _ _ => ht
    · obtain ⟨_, rfl⟩ := putAt_eq hs'
      intro x hx
      rcases List.mem_or_eq_of_mem_set hx with h | rfl
      · exact hs x h
      · exact hd'
  unfold acStepWP
  split
  · exact WP.Post.ofProg key
  · exact WP.Post.ofProg key

theorem WP.Post.and {α : Type} {q r : α → Prop} : ∀ {p : WP α}, p.Post q → p.Post r → p.Post fun a => q a ∧ r a
  | .ret _, h1, h2 => ⟨h1, h2⟩
  | .fail, _, _ => trivial
  | .ub, _, _ => trivial
  | .need _ _ k, h1, h2 => WP.Post.and (p := k) h1 h2
  | .op _ _, h1, h2 => fun a ha => WP.Post.and (h1 a ha) (h2 a ha)

theorem orders_always {q : Seen → Prop} {e : Seen} (h : q e) : ∀ n, (ordersWP e n).Always q
  | 0 => trivial
  | n + 1 => ⟨h, WP.Always.bind (r := fun _ => True) (fun _ _ => WP.Always.map _ (orders_always h n))
      (WP.Always.ofProg _) (WP.Post.any _)⟩

theorem acWP_fit (n : Nat) (legacy : Bool) (rows : Nat) (ms : List Meta) (quants : List (List Nat)) (coeffs : List (List Int)) (flags : List (List Bool))
    (hc : Planes rows ms coeffs) :
    (WP.framed ⟨0, coeffs⟩ (acWP n legacy rows ms quants coeffs flags)).Always (Seen.Fit rows ms) ∧
      (WP.framed ⟨0, coeffs⟩ (acWP n legacy rows ms quants coeffs flags)).Post (Planes rows ms) := by
  have h0 : Seen.Fit rows ms ⟨0, coeffs⟩ := ⟨.inl rfl, hc⟩
  have loopS : ∀ prs : List AcParam, (∀ pr ∈ prs, CoeffOrder pr.order) →
      (WP.loop (acStepWP n (contextModes legacy) ms prs flags) (acDecInit ms coeffs) (schedule rows ms)).Post (fun s => Planes rows ms (s.map AcDec.coeffs)) ∧
      (WP.loop (acStepWP n (contextModes legacy) ms prs flags) (acDecInit ms coeffs) (schedule rows ms)).Always (Seen.Fit rows ms) := by
    intro prs ho
    refine WP.loop_always (schedule rows ms) (fun s p hp hs => ⟨?_, ?_⟩) (by show Planes _ _ _; rw [acDecInit_coeffs hc.sized.1]; exact hc)
    · refine ((acStep_changed ho flags s p).and (acStep_bound n _ ms prs flags p fun d hd => hs.small _ (List.mem_map_of_mem hd))).mono fun s' h => ?_
      exact ⟨h.1.sized hs.sized, fun q hq => by obtain ⟨d, hd, rfl⟩ := List.mem_map.mp hq; exact h.2 d hd⟩
    · unfold acStepWP
      split
      · exact WP.Always.ofProg _
      · exact ⟨⟨.inr (schedule_row hp), hs⟩, WP.Always.ofProg _⟩
  have lp : ∀ orders : List (List Nat), (∀ o ∈ orders, CoeffOrder o) →
      (WP.ofProg (Prog.lift (acParams orders quants))).Post fun prs => ∀ pr ∈ prs, CoeffOrder pr.order := fun orders ho =>
    WP.Post.ofProg (Prog.Post.lift fun prs h => acParams_orders h ho)
  refine ⟨WP.framed_always h0 ?_, WP.framed_post ?_⟩
  · exact WP.Always.bind (fun orders ho => WP.Always.bind (fun prs hp => WP.Always.map _ (loopS prs hp).2)
      (WP.Always.ofProg _) (lp orders ho)) (orders_always h0 _) (orders_post _ _)
  · exact WP.Post.bind (fun orders ho => WP.Post.bind (fun prs hp => WP.Post.bind (r := Planes rows ms) (f := fun s : List AcDec => .ret (s.map AcDec.coeffs))
      (fun s hs => hs) (loopS prs hp).1) (lp orders ho)) (orders_post _ _)

/-- A step of a section of words. -/
theorem wordBody_always {α : Type} {w : α → Prop} {q : Seen → Prop} {t : WordSt α} {rem : Nat} {bs : List Nat} (hi : wordInv w t rem) (hf : t.prog.Live) (hq : t.prog.Always q) :
    ∀ t' n, (wordBody t rem bs = .more t' n ∨ wordBody t rem bs = .wait t' n) → t'.prog.Always q ∧ t'.prog.Live := by
  obtain ⟨maps, dec, prog⟩ := t
  obtain ⟨hm, hd, _, hst, hw⟩ := hi
  simp only at hm hd hst hw hf hq
  intro t' n h
  cases prog with
  | ret a => simp only [wordBody] at h; rcases h with h | h <;> cases h
  | fail => exact hf.elim
  | ub => exact hf.elim
  | op q k => exact hst.elim
  | need n e k =>
    obtain ⟨_, b, r, _, hk⟩ := hw
    simp only [wordBody] at h
    split at h
    · cases he : k.exec maps dec (bytesWords (bs.take rem)) with
      | none => rw [he] at h; rcases h with h | h <;> cases h
      | some x =>
        obtain ⟨p', d', ws'⟩ := x
        rw [he] at h
        rcases h with h | h
        · cases h
          exact WP.exec_always hm k hk hd he hq.2
        · cases h
    · rcases h with h | h
      · cases h
      · cases h; exact ⟨hq, hf⟩

end Brunsli
