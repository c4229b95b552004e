import Verif.StreamBody
/-!
# What a waiting decoder has made visible

While `DecodeDC` or `DecodeAC` waits for data, the writer of the JPEG may look at the coefficients (c/dec/jpeg_data_writer.cc:1000-1015).  Here it is shown
that the rows of MCUs before `next_mcu_y` have their final coefficients whatever follows, and that the AC section leaves all DC coefficients alone.
-/

namespace Brunsli

/-! ## Results of programs -/

namespace Prog
variable {α β : Type}

/-- Every result of a program satisfies `q`, for answers of the right types. -/
def Post (q : α → Prop) : Prog α → Prop
  | .ret a => q a
  | .fail => True
  | .ub => True
  | .code _ k => ∀ s < 18, (k s).Post q
  | .bits n k => ∀ v < 2 ^ n, (k v).Post q
  | .bit _ k => ∀ b, (k b).Post q

theorem Post.any (p : Prog α) : p.Post fun _ => True := by
  induction p with
  | ret a => trivial
  | fail => trivial
  | ub => trivial
  | code c k ih => exact fun s _ => ih s
  | bits n k ih => exact fun s _ => ih s
  | bit n k ih => exact fun s => ih s

theorem All.post {q : α → Prop} {p : Prog α} (h : p.All q) : p.Post q := by
  induction p with
  | ret a => exact h
  | fail => trivial
  | ub => trivial
  | code c k ih => exact fun s hs => ih s (h s hs)
  | bits n k ih => exact fun s hs => ih s (h s hs)
  | bit n k ih => exact fun s => ih s (h s)

theorem Post.bind {q : α → Prop} {r : β → Prop} {p : Prog α} {f : α → Prog β} (hp : p.Post q) (hf : ∀ a, q a → (f a).Post r) : (p >>= f).Post r := by
  show (p.bind f).Post r
  induction p with
  | ret a => exact hf a hp
  | fail => trivial
  | ub => trivial
  | code c k ih => exact fun s hs => ih s (hp s hs)
  | bits n k ih => exact fun s hs => ih s (hp s hs)
  | bit n k ih => exact fun s => ih s (hp s)

theorem Post.then {r : β → Prop} {p : Prog α} {f : α → Prog β} (hf : ∀ a, (f a).Post r) : (p >>= f).Post r := Post.bind (Post.any p) fun a _ => hf a

theorem Post.lift {q : α → Prop} {o : Option α} (h : ∀ a, o = some a → q a) : (Prog.lift o).Post q := by
  cases o with
  | none => trivial
  | some a => exact h a rfl

theorem Post.lift' {r : β → Prop} {o : Option α} {f : α → Prog β} (hf : ∀ a, o = some a → (f a).Post r) : (Prog.lift o >>= f).Post r :=
  Post.bind (Post.lift (q := fun a => o = some a) fun _ h => h) hf

end Prog

namespace WP
variable {α β : Type}

/-- Every result of a program satisfies `q`, for answers of the right types. -/
def Post (q : α → Prop) : WP α → Prop
  | ret a => q a
  | fail => True
  | ub => True
  | need _ _ k => Post q k
  | op o k => ∀ a, o.post a → Post q (k a)

/-- Wherever the program waits, what can be seen and every later result are in the relation `R`. -/
def Sound (R : Seen → α → Prop) : WP α → Prop
  | ret _ => True
  | fail => True
  | ub => True
  | need _ e k => Post (R e) k ∧ Sound R k
  | op o k => ∀ a, o.post a → Sound R (k a)

theorem Post.mono {q r : α → Prop} (h : ∀ a, q a → r a) : ∀ {p : WP α}, Post q p → Post r p
  | ret _, hp => h _ hp
  | fail, _ => trivial
  | ub, _ => trivial
  | need _ _ k, hp => Post.mono h (p := k) hp
  | op _ _, hp => fun a ha => Post.mono h (hp a ha)

theorem Post.bind {q : α → Prop} {r : β → Prop} {f : α → WP β} (hf : ∀ a, q a → Post r (f a)) : ∀ {p : WP α}, Post q p → Post r (WP.bind p f)
  | ret _, hp => hf _ hp
  | fail, _ => trivial
  | ub, _ => trivial
  | need _ _ k, hp => Post.bind hf (p := k) hp
  | op _ _, hp => fun a ha => Post.bind hf (hp a ha)

theorem Post.any : ∀ p : WP α, Post (fun _ => True) p
  | ret _ => trivial
  | fail => trivial
  | ub => trivial
  | need _ _ k => Post.any k
  | op _ k => fun a _ => Post.any (k a)

theorem Post.ofProg {q : α → Prop} : ∀ {p : Prog α}, p.Post q → Post q (WP.ofProg p)
  | .ret _, h => h
  | .fail, _ => trivial
  | .ub, _ => trivial
  | .code _ _, h => fun s hs => Post.ofProg (h s hs)
  | .bits _ _, h => fun s hs => Post.ofProg (h s hs)
  | .bit _ _, h => fun s _ => Post.ofProg (h s)

theorem Sound.ofProg {R : Seen → α → Prop} : ∀ p : Prog α, Sound R (WP.ofProg p)
  | .ret _ => trivial
  | .fail => trivial
  | .ub => trivial
  | .code _ k => fun s _ => Sound.ofProg (k s)
  | .bits _ k => fun s _ => Sound.ofProg (k s)
  | .bit _ k => fun s _ => Sound.ofProg (k s)

theorem Sound.bind {q : α → Prop} {R : Seen → β → Prop} {f : α → WP β} :
    ∀ {p : WP α}, Sound (fun e a => Post (R e) (f a)) p → Post q p → (∀ a, q a → Sound R (f a)) → Sound R (WP.bind p f)
  | ret _, _, h2, hf => hf _ h2
  | fail, _, _, _ => trivial
  | ub, _, _, _ => trivial
  | need _ _ _, h1, h2, hf => ⟨Post.bind (fun _ h => h) h1.1, Sound.bind h1.2 h2 hf⟩
  | op _ _, h1, h2, hf => fun a ha => Sound.bind (h1 a ha) (h2 a ha) hf

theorem Sound.mono {R S : Seen → α → Prop} (h : ∀ e a, R e a → S e a) : ∀ {p : WP α}, Sound R p → Sound S p
  | ret _, _ => trivial
  | fail, _ => trivial
  | ub, _ => trivial
  | need _ _ _, hp => ⟨hp.1.mono (h _), Sound.mono h hp.2⟩
  | op _ _, hp => fun a ha => Sound.mono h (hp a ha)

/-- What a run leaves of a program has no other results, and is sound. -/
theorem exec_keeps {maps : Nat → Option (List SymInfo)} (hm : Prog.MapsOk maps) {w : α → Prop} (p : WP α) :
    ∀ {b r : Nat} {d : DecSt} {ws : List Nat} {p' : WP α} {d' : DecSt} {ws' : List Nat}, Within w p b r → d.bpos ≤ 16 →
      exec maps p d ws = some (p', d', ws') → (∀ q, Post q p → Post q p') ∧ ∀ R, Sound R p → Sound R p' := by
  induction p with
  | ret a => intro b r d ws p' d' ws' hw hd h; cases h; exact ⟨fun _ h => h, fun _ h => h⟩
  | fail => intro b r d ws p' d' ws' hw hd h; cases h
  | ub => intro b r d ws p' d' ws' hw hd h; cases h
  | need n e k ih => intro b r d ws p' d' ws' hw hd h; cases h; exact ⟨fun _ h => h, fun _ h => h⟩
  | op o k ih =>
    intro b r d ws p' d' ws' hw hd h
    simp only [exec] at h
    split at h
    · cases h
    · rename_i y hq
      obtain ⟨a, d1, ws1⟩ := y
      obtain ⟨pa, _, hd1, _⟩ := WOp.res hm o hw.1 hq hd
      obtain ⟨h1, h2⟩ := ih a (hw.2.2.2 a pa) hd1 h
      exact ⟨fun q hp => h1 q (hp a pa), fun R hp => h2 R (hp a pa)⟩

theorem framed_sound {R : Seen → α → Prop} {e : Seen} {p : WP α} (h1 : Post (R e) p) (h2 : Sound R p) : Sound R (framed e p) := by
  refine ⟨fun _ _ => Post.bind (q := R e) (r := R e) (f := fun a => op .fin fun _ => ret a) (fun a ha _ _ => ha) h1, fun _ _ => ?_⟩
  refine Sound.bind (q := fun _ => True) (f := fun a => op .fin fun _ => ret a) ?_ (Post.any _) fun a _ _ _ => trivial
  exact h2.mono fun _ _ h _ _ => h

end WP

/-! ## Changes of coefficients -/

/-- The planes `b` have the sizes of the planes `a`; where `F` does not hold they have the same coefficients. -/
def Changed (F : Nat → Nat → Prop) (a b : List (List Int)) : Prop :=
  a.length = b.length ∧ ∀ (c : Nat) (p : List Int), a[c]? = some p → ∃ q, b[c]? = some q ∧ p.length = q.length ∧ ∀ i, ¬ F c i → p[i]? = q[i]?

theorem Changed.refl (F : Nat → Nat → Prop) (a : List (List Int)) : Changed F a a := ⟨rfl, fun _ p h => ⟨p, h, rfl, fun _ _ => rfl⟩⟩

theorem Changed.trans {F G H : Nat → Nat → Prop} {a b c : List (List Int)} (h1 : Changed F a b) (h2 : Changed G b c)
    (hf : ∀ k i, F k i → H k i) (hg : ∀ k i, G k i → H k i) : Changed H a c := by
  refine ⟨h1.1.trans h2.1, fun k p hp => ?_⟩
  obtain ⟨q, e1, l1, g1⟩ := h1.2 k p hp
  obtain ⟨r, e2, l2, g2⟩ := h2.2 k q e1
  exact ⟨r, e2, l1.trans l2, fun i hi => (g1 i fun h => hi (hf k i h)).trans (g2 i fun h => hi (hg k i h))⟩

theorem Changed.mono {F G : Nat → Nat → Prop} {a b : List (List Int)} (h : Changed F a b) (hf : ∀ k i, F k i → G k i) : Changed G a b :=
  h.trans (Changed.refl G b) hf fun _ _ h => h

/-- One plane replaced. -/
theorem Changed.set {F : Nat → Prop} {a : List (List Int)} {c : Nat} {p q : List Int} (hp : a[c]? = some p) (hl : p.length = q.length)
    (hq : ∀ i, ¬ F i → p[i]? = q[i]?) : Changed (fun k i => k = c ∧ F i) a (a.set c q) := by
  refine ⟨by simp, fun k r hr => ?_⟩
  by_cases hk : c = k
  · subst hk
    rw [hp] at hr; cases hr
    refine ⟨q, ?_, hl, fun i hi => hq i fun h => hi ⟨rfl, h⟩⟩
    rw [List.getElem?_set_self]
    exact (List.getElem?_eq_some_iff.mp hp).1
  · exact ⟨r, by rw [List.getElem?_set_ne hk]; exact hr, rfl, fun _ _ => rfl⟩

/-- The coefficients of the block at a position: the first one, or the others. -/
def inBlock (ms : List Meta) (ac : Bool) (p : Nat × Nat × Nat) (c i : Nat) : Prop :=
  ∃ m, ms[c]? = some m ∧ c = p.1 ∧ i / 64 = p.2.1 * m.w + p.2.2 ∧ (i % 64 ≠ 0 ↔ ac = true)

/-- The coefficients of the blocks at some positions. -/
def inBlocks (ms : List Meta) (ac : Bool) (l : List (Nat × Nat × Nat)) (c i : Nat) : Prop := ∃ p ∈ l, inBlock ms ac p c i

/-- A loop that changes, at each position, coefficients of the block there. -/
theorem loop_sound {σ : Type} {ms : List Meta} {ac : Bool} {img : σ → List (List Int)} {f : σ → Nat × Nat × Nat → WP σ}
    (hpost : ∀ s p, (f s p).Post fun s' => Changed (inBlock ms ac p) (img s) (img s'))
    (hsound : ∀ (R : Seen → σ → Prop) s p, WP.Post (R ⟨mcuRow ms p, img s⟩) (f s p) → WP.Sound R (f s p)) :
    ∀ (l : List (Nat × Nat × Nat)) (s : σ), (WP.loop f s l).Post (fun t => Changed (inBlocks ms ac l) (img s) (img t)) ∧
      (WP.loop f s l).Sound fun e t => ∃ p r, (p :: r) <:+ l ∧ e.row = mcuRow ms p ∧ Changed (inBlocks ms ac (p :: r)) e.coeffs (img t)
  | [], s => ⟨Changed.refl _ _, trivial⟩
  | p :: l, s => by
    have hp := hpost s p
    have ih := loop_sound hpost hsound l
    have key : (WP.bind (f s p) fun a => WP.loop f a l).Post fun t => Changed (inBlocks ms ac (p :: l)) (img s) (img t) := by
      refine WP.Post.bind (fun a ha => (ih a).1.mono fun t ht => ?_) hp
      exact ha.trans ht (fun c i h => ⟨p, List.mem_cons_self, h⟩) (fun c i h => h.elim fun q hq => ⟨q, List.mem_cons_of_mem _ hq.1, hq.2⟩)
    refine ⟨key, WP.Sound.bind (q := fun a => True) (hsound _ s p ?_) (WP.Post.any _) fun a _ => (ih a).2.mono fun e t ht => ?_⟩
    · refine hp.mono fun a ha => (ih a).1.mono fun t ht => ⟨p, l, List.suffix_refl _, rfl, ?_⟩
      exact ha.trans ht (fun c i h => ⟨p, List.mem_cons_self, h⟩) (fun c i h => h.elim fun q hq => ⟨q, List.mem_cons_of_mem _ hq.1, hq.2⟩)
    · obtain ⟨p', r, h1, h2⟩ := ht
      exact ⟨p', r, h1.trans (List.suffix_cons _ _), h2⟩

/-! ## The order of the blocks -/

theorem mcuPos_mem {ms : List Meta} {r : Nat} : ∀ (rest : List Meta) (c : Nat), ms.drop c = rest → ∀ p ∈ mcuPos r c rest,
    ∃ m, ms[p.1]? = some m ∧ r * m.vs ≤ p.2.1 ∧ p.2.1 < r * m.vs + m.vs ∧ p.2.2 < m.w
  | [], _, _, p, h => by simp [mcuPos] at h
  | m :: rest, c, hd, p, h => by
    rw [mcuPos, List.mem_append] at h
    rcases h with h | h
    · unfold compPos rowPos at h
      simp only [List.mem_flatMap, List.mem_range, List.mem_map] at h
      obtain ⟨iy, h1, x, h2, rfl⟩ := h
      refine ⟨m, ?_, by simp, by simp; omega, h2⟩
      have : (ms.drop c)[0]? = some m := by rw [hd]; rfl
      rw [List.getElem?_drop] at this
      exact this
    · refine mcuPos_mem rest (c + 1) ?_ p h
      rw [← List.tail_drop, hd]; rfl

theorem mcuPos_row {ms : List Meta} {r : Nat} {p : Nat × Nat × Nat} (h : p ∈ mcuPos r 0 ms) : mcuRow ms p = r := by
  obtain ⟨m, h1, h2, h3, h4⟩ := mcuPos_mem ms 0 rfl p h
  unfold mcuRow
  rw [h1]
  dsimp only
  rw [Nat.div_eq_of_lt_le]
  · exact h2
  · rw [Nat.add_mul]; omega

theorem schedule_sorted (rows : Nat) (ms : List Meta) : (schedule rows ms).Pairwise fun p q => mcuRow ms p ≤ mcuRow ms q := by
  unfold schedule
  rw [List.pairwise_flatMap]
  refine ⟨fun r _ => ?_, ?_⟩
  · refine List.Pairwise.imp_of_mem (R := fun _ _ => True) (fun ha hb _ => ?_) (List.pairwise_of_forall fun _ _ => trivial)
    rw [mcuPos_row ha, mcuPos_row hb]
  · refine (List.pairwise_lt_range (n := rows)).imp fun h x hx y hy => ?_
    rw [mcuPos_row hx, mcuPos_row hy]
    omega

theorem schedule_row {rows : Nat} {ms : List Meta} {p : Nat × Nat × Nat} (h : p ∈ schedule rows ms) : mcuRow ms p < rows := by
  unfold schedule at h
  rw [List.mem_flatMap] at h
  obtain ⟨r, h1, h2⟩ := h
  rw [mcuPos_row h2]
  exact List.mem_range.mp h1

/-- What is seen and the final planes: equal in the rows decoded and, in the AC section, in the DC coefficients. -/
structure Settled (rows : Nat) (ms : List Meta) (ac : Bool) (e : Seen) (b : List (List Int)) : Prop where
  row : e.row = 0 ∨ e.row < rows
  len : e.coeffs.length = b.length
  same : ∀ (c : Nat) (m : Meta) (p : List Int), ms[c]? = some m → e.coeffs[c]? = some p → ∃ q, b[c]? = some q ∧ p.length = q.length ∧
    ∀ i, (i / 64 < e.row * m.vs * m.w ∨ (ac = true ∧ i % 64 = 0)) → p[i]? = q[i]?

theorem settled_of {rows : Nat} {ms : List Meta} {ac : Bool} {e : Seen} {b : List (List Int)} {p : Nat × Nat × Nat} {r : List (Nat × Nat × Nat)}
    (hs : (p :: r) <:+ schedule rows ms) (hr : e.row = mcuRow ms p) (h : Changed (inBlocks ms ac (p :: r)) e.coeffs b) : Settled rows ms ac e b := by
  have hsub := hs.subset
  refine ⟨Or.inr (hr ▸ schedule_row (hsub List.mem_cons_self)), h.1, fun c m x hm hx => ?_⟩
  obtain ⟨q, h1, h2, h3⟩ := h.2 c x hx
  refine ⟨q, h1, h2, fun i hi => h3 i ?_⟩
  rintro ⟨p', hp', m', hm', rfl, e1, e2⟩
  rw [hm] at hm'; cases hm'
  rcases hi with hi | ⟨ha, hi⟩
  · have hle : mcuRow ms p ≤ mcuRow ms p' := by
      rcases List.mem_cons.mp hp' with rfl | h'
      · exact Nat.le_refl _
      · exact (List.pairwise_cons.mp ((schedule_sorted rows ms).sublist hs.sublist)).1 p' h'
    have hy : mcuRow ms p' * m.vs ≤ p'.2.1 := by
      unfold mcuRow; rw [hm]; exact Nat.div_mul_le_self _ _
    have : e.row * m.vs ≤ p'.2.1 := by rw [hr]; exact Nat.le_trans (Nat.mul_le_mul_right _ hle) hy
    have := Nat.mul_le_mul_right m.w this
    omega
  · exact e2.mpr ha hi

theorem settled_start {rows : Nat} {ms : List Meta} {ac : Bool} {a b : List (List Int)} {l : List (Nat × Nat × Nat)}
    (h : Changed (inBlocks ms ac l) a b) : Settled rows ms ac ⟨0, a⟩ b := by
  refine ⟨Or.inl rfl, h.1, fun c m x hm hx => ?_⟩
  obtain ⟨q, h1, h2, h3⟩ := h.2 c x hx
  refine ⟨q, h1, h2, fun i hi => h3 i ?_⟩
  rintro ⟨p', hp', m', hm', rfl, e1, e2⟩
  rcases hi with hi | ⟨ha, hi⟩
  · simp only [Nat.zero_mul] at hi; omega
  · exact e2.mpr ha hi

/-! ## The DC section -/

theorem putAt_eq {α : Type} {l l' : List α} {i : Nat} {v : α} (h : putAt l i v = some l') : i < l.length ∧ l' = l.set i v := by
  unfold putAt at h
  split at h
  · rename_i hi; cases h; exact ⟨hi, rfl⟩
  · cases h

theorem dcStep_changed (n : Nat) (ms : List Meta) (s : List DcDec) (p : Nat × Nat × Nat) :
    (dcStepWP n ms s p).Post fun s' => Changed (inBlock ms false p) (s.map DcDec.coeffs) (s'.map DcDec.coeffs) := by
  unfold dcStepWP
  refine WP.Post.ofProg ?_
  unfold decDcStep
  refine Prog.Post.lift' fun m hm => Prog.Post.lift' fun d hd => Prog.Post.then fun r => Prog.Post.lift' fun fl _ => Prog.Post.lift' fun pred _ =>
    Prog.Post.lift' fun _ _ => Prog.Post.lift' fun cs hcs => Prog.Post.lift fun s' hs' => ?_
  obtain ⟨_, rfl⟩ := putAt_eq hs'
  obtain ⟨_, rfl⟩ := putAt_eq hcs
  rw [List.map_set]
  refine (Changed.set (F := fun i => i = (p.2.1 * m.w + p.2.2) * 64) (p := d.coeffs) (by rw [List.getElem?_map, hd]; rfl) (by simp)
    fun i hi => (List.getElem?_set_ne (by omega)).symm).mono ?_
  rintro c i ⟨rfl, rfl⟩
  exact ⟨m, hm, rfl, by omega, by simp⟩

/-- The results of the DC section, and what is seen before. -/
theorem dcWP_sound (n rows : Nat) (ms : List Meta) : (WP.framed ⟨0, (dcDecInit rows ms).map DcDec.coeffs⟩ (dcWP n rows ms)).Sound
      (fun e a => Settled rows ms false e (a.map Prod.fst)) := by
  obtain ⟨h1, h2⟩ := loop_sound (ms := ms) (ac := false) (img := List.map DcDec.coeffs) (f := dcStepWP n ms) (dcStep_changed n ms)
    (fun R s p h => ⟨h, WP.Sound.ofProg _⟩) (schedule rows ms) (dcDecInit rows ms)
  have e : ∀ s : List DcDec, (s.map fun d => (d.coeffs, d.empty)).map Prod.fst = s.map DcDec.coeffs := fun s => by simp
  have hp : (dcWP n rows ms).Post fun a => Settled rows ms false ⟨0, (dcDecInit rows ms).map DcDec.coeffs⟩ (a.map Prod.fst) := by
    refine WP.Post.bind (fun s hs => ?_) h1
    show Settled _ _ _ _ (List.map Prod.fst (s.map fun d => (d.coeffs, d.empty)))
    rw [e]
    exact settled_start hs
  refine WP.framed_sound hp ?_
  refine WP.Sound.bind (q := fun _ => True) (h2.mono fun e' t ht => ?_) (WP.Post.any _) fun _ _ => trivial
  obtain ⟨p, r, k1, k2, k3⟩ := ht
  show Settled _ _ _ _ (List.map Prod.fst (t.map fun d => (d.coeffs, d.empty)))
  rw [e]
  exact settled_of k1 k2 k3

/-! ## The AC section -/

/-- A block keeps its DC coefficient and all other blocks. -/
def AcKept (b : Nat) (p q : List Int) : Prop := p.length = q.length ∧ ∀ i, ¬ (i / 64 = b ∧ i % 64 ≠ 0) → p[i]? = q[i]?

theorem AcKept.trans {b : Nat} {p q r : List Int} (h1 : AcKept b p q) (h2 : AcKept b q r) : AcKept b p r :=
  ⟨h1.1.trans h2.1, fun i hi => (h1.2 i hi).trans (h2.2 i hi)⟩

theorem AcKept.set {b kn : Nat} {p q : List Int} {v : Int} (h : putAt p (b * 64 + kn) v = some q) (h1 : kn < 64) (h2 : kn ≠ 0) : AcKept b p q := by
  obtain ⟨_, rfl⟩ := putAt_eq h
  refine ⟨by simp, fun i hi => (List.getElem?_set_ne ?_).symm⟩
  rintro rfl
  exact hi (by omega)

theorem acCoeff_kept {v : AcEnv} (ho : CoeffOrder v.pr.order) (last k : Nat) (s : AcDecBlk) :
    (decAcCoeff v last (k + 1) s).Post fun t => AcKept (v.y * v.m.w + v.x) s.coeffs t.coeffs := by
  unfold decAcCoeff
  refine Prog.Post.then fun z => Prog.Post.lift' fun kn hkn => ?_
  have h2 : kn ≠ 0 := ho.ne hkn (by omega)
  have h1 : kn < 64 := by
    have := (ho.1.mem_iff).mp (List.mem_of_getElem? hkn)
    simpa using this
  split
  · unfold decAcZero
    refine Prog.Post.lift' fun _ _ => Prog.Post.lift' fun cs hcs => Prog.Post.lift' fun _ _ => ?_
    exact AcKept.set hcs h1 h2
  · unfold decAcNonzero
    refine Prog.Post.lift' fun _ _ => Prog.Post.then fun _ => Prog.Post.lift' fun _ _ => Prog.Post.lift' fun _ _ => Prog.Post.then fun _ =>
      Prog.Post.lift' fun cs hcs => Prog.Post.lift' fun _ _ => ?_
    exact AcKept.set hcs h1 h2

theorem acCoeffs_kept {v : AcEnv} (ho : CoeffOrder v.pr.order) (last : Nat) : ∀ (k : Nat) (s : AcDecBlk),
    (decAcCoeffs v last k s).Post fun t => AcKept (v.y * v.m.w + v.x) s.coeffs t.coeffs
  | 0, s => ⟨rfl, fun _ _ => rfl⟩
  | k + 1, s => by
    unfold decAcCoeffs
    refine Prog.Post.bind (acCoeff_kept ho last k s) fun t ht => ?_
    have := acCoeffs_kept ho last k t
    refine Prog.Post.bind (f := Pure.pure) this (fun u hu => ht.trans hu) |> fun h => ?_
    have e : ∀ p : Prog AcDecBlk, p >>= Pure.pure = p := by
      intro p
      show p.bind _ = p
      induction p with
      | ret a => rfl
      | fail => rfl
      | ub => rfl
      | code c k ih => exact congrArg (Prog.code c) (funext ih)
      | bits c k ih => exact congrArg (Prog.bits c) (funext ih)
      | bit c k ih => exact congrArg (Prog.bit c) (funext ih)
    rwa [e] at h

theorem acBlock_kept {v : AcEnv} (ho : CoeffOrder v.pr.order) (empty : Bool) (d : AcDec) :
    (decAcBlock v empty d).Post fun t => AcKept (v.y * v.m.w + v.x) d.coeffs t.coeffs := by
  unfold decAcBlock
  refine Prog.Post.then fun r => Prog.Post.lift' fun _ _ => Prog.Post.lift' fun _ _ => ?_
  refine Prog.Post.bind (acCoeffs_kept ho _ _ _) fun t ht => Prog.Post.lift' fun _ _ => ht

theorem acStep_changed {n : Nat} {modes : List Nat} {ms : List Meta} {prs : List AcParam} (ho : ∀ pr ∈ prs, CoeffOrder pr.order)
    (flags : List (List Bool)) (s : List AcDec) (p : Nat × Nat × Nat) :
    (acStepWP n modes ms prs flags s p).Post fun s' => Changed (inBlock ms true p) (s.map AcDec.coeffs) (s'.map AcDec.coeffs) := by
  have key : (decAcStep n modes ms prs flags s p).Post fun s' => Changed (inBlock ms true p) (s.map AcDec.coeffs) (s'.map AcDec.coeffs) := by
    unfold decAcStep
    refine Prog.Post.lift' fun m hm => Prog.Post.lift' fun pr hpr => Prog.Post.lift' fun fl _ => Prog.Post.lift' fun d hd =>
      Prog.Post.lift' fun empty _ => Prog.Post.bind (acBlock_kept (ho pr (List.mem_of_getElem? hpr)) _ _) fun d' hd' => Prog.Post.lift fun s' hs' => ?_
    obtain ⟨_, rfl⟩ := putAt_eq hs'
    rw [List.map_set]
    refine (Changed.set (F := fun i => i / 64 = p.2.1 * m.w + p.2.2 ∧ i % 64 ≠ 0) (p := d.coeffs) (by rw [List.getElem?_map, hd]; rfl) hd'.1 hd'.2).mono ?_
    rintro c i ⟨rfl, h1, h2⟩
    exact ⟨m, hm, rfl, h1, by simp [h2]⟩
  unfold acStepWP
  split
  · exact WP.Post.ofProg key
  · exact WP.Post.ofProg key

theorem orders_post (e : Seen) : ∀ n : Nat, (ordersWP e n).Post fun os => ∀ o ∈ os, CoeffOrder o
  | 0 => by intro o ho; cases ho
  | n + 1 => by
    refine WP.Post.bind (q := CoeffOrder) (fun o ho => WP.Post.bind (fun os hos => ?_) (orders_post e n)) (WP.Post.ofProg decodeCoeffOrder_all.post)
    intro o' ho'
    rcases List.mem_cons.mp ho' with rfl | h
    · exact ho
    · exact hos _ h

theorem orders_sound {R : Seen → List (List Nat) → Prop} {e : Seen} : ∀ {n : Nat}, (∀ os, (∀ o ∈ os, CoeffOrder o) → R e os) → (ordersWP e n).Sound R := by
  have key : ∀ (n : Nat) (R : Seen → List (List Nat) → Prop), (∀ os, (∀ o ∈ os, CoeffOrder o) → R e os) → (ordersWP e n).Sound R := by
    intro n
    induction n with
    | zero => intro R _; trivial
    | succ n ih =>
      intro R h
      refine ⟨(orders_post e (n + 1)).mono h, WP.Sound.bind (q := CoeffOrder) (WP.Sound.ofProg _) (WP.Post.ofProg decodeCoeffOrder_all.post) fun o ho => ?_⟩
      refine WP.Sound.bind (q := fun _ => True) (ih _ fun os hos => ?_) (WP.Post.any _) fun _ _ => trivial
      refine h _ fun o' ho' => ?_
      rcases List.mem_cons.mp ho' with rfl | h
      · exact ho
      · exact hos _ h
  exact @fun n h => key n R h

theorem acParams_orders : ∀ {orders quants : List (List Nat)} {prs : List AcParam}, acParams orders quants = some prs → (∀ o ∈ orders, CoeffOrder o) →
    ∀ pr ∈ prs, CoeffOrder pr.order
  | [], [], _, h, _ => by cases h; simp
  | [], _ :: _, _, h, _ => by cases h
  | _ :: _, [], _, h, _ => by cases h
  | o :: os, q :: qs, prs, h, ho => by
    simp only [acParams, Option.bind_eq_bind, Option.bind_eq_some_iff, Option.some.injEq] at h
    obtain ⟨p, h1, r, h2, rfl⟩ := h
    unfold acParam at h1
    simp only [Option.bind_eq_bind, Option.bind_eq_some_iff, Option.some.injEq] at h1
    obtain ⟨_, _, _, _, rfl⟩ := h1
    intro pr hpr
    rcases List.mem_cons.mp hpr with rfl | h
    · exact ho o List.mem_cons_self
    · exact acParams_orders h2 (fun o' h' => ho o' (List.mem_cons_of_mem _ h')) pr h

theorem acDecInit_coeffs : ∀ {ms : List Meta} {cs : List (List Int)}, cs.length = ms.length → (acDecInit ms cs).map AcDec.coeffs = cs
  | [], [], _ => rfl
  | [], _ :: _, h => by simp at h
  | _ :: _, [], h => by simp at h
  | _ :: ms, _ :: cs, h => by
    simp only [acDecInit, List.map_cons]
    rw [acDecInit_coeffs (by simpa using h)]

/-- What is seen in the AC section and its results. -/
theorem acWP_sound (n : Nat) (legacy : Bool) (rows : Nat) (ms : List Meta) (quants : List (List Nat)) (coeffs : List (List Int))
    (flags : List (List Bool)) (hc : coeffs.length = ms.length) :
    (WP.framed ⟨0, coeffs⟩ (acWP n legacy rows ms quants coeffs flags)).Sound (Settled rows ms true) := by
  have loopS : ∀ prs : List AcParam, (∀ pr ∈ prs, CoeffOrder pr.order) →
      (WP.loop (acStepWP n (contextModes legacy) ms prs flags) (acDecInit ms coeffs) (schedule rows ms)).Post (fun t =>
        Changed (inBlocks ms true (schedule rows ms)) coeffs (t.map AcDec.coeffs)) ∧
      (WP.loop (acStepWP n (contextModes legacy) ms prs flags) (acDecInit ms coeffs) (schedule rows ms)).Sound (fun e t =>
        Settled rows ms true e (t.map AcDec.coeffs)) := by
    intro prs ho
    obtain ⟨h1, h2⟩ := loop_sound (ms := ms) (ac := true) (img := List.map AcDec.coeffs) (f := acStepWP n (contextModes legacy) ms prs flags)
      (acStep_changed ho flags) (fun R s p h => by
        unfold acStepWP at h ⊢
        split
        · exact WP.Sound.ofProg _
        · rename_i hne
          rw [if_neg hne] at h
          exact ⟨h, WP.Sound.ofProg _⟩) (schedule rows ms) (acDecInit ms coeffs)
    rw [acDecInit_coeffs hc] at h1
    exact ⟨h1, h2.mono fun e t ht => by obtain ⟨p, r, k1, k2, k3⟩ := ht; exact settled_of k1 k2 k3⟩
  have lp : ∀ orders : List (List Nat), (∀ o ∈ orders, CoeffOrder o) →
      (WP.ofProg (Prog.lift (acParams orders quants))).Post fun prs => ∀ pr ∈ prs, CoeffOrder pr.order := fun orders ho =>
    WP.Post.ofProg (Prog.Post.lift fun prs h => acParams_orders h ho)
  have tailP : ∀ orders : List (List Nat), (∀ o ∈ orders, CoeffOrder o) →
      WP.Post (Settled rows ms true ⟨0, coeffs⟩) (WP.bind (.ofProg (Prog.lift (acParams orders quants))) fun prs =>
        WP.bind (WP.loop (acStepWP n (contextModes legacy) ms prs flags) (acDecInit ms coeffs) (schedule rows ms)) fun s =>
          .ret (s.map AcDec.coeffs)) := fun orders ho =>
    WP.Post.bind (fun prs hp => WP.Post.bind (r := Settled rows ms true ⟨0, coeffs⟩) (f := fun s : List AcDec => .ret (s.map AcDec.coeffs))
      (fun s hs => settled_start hs) (loopS prs hp).1) (lp orders ho)
  have postA : (acWP n legacy rows ms quants coeffs flags).Post (Settled rows ms true ⟨0, coeffs⟩) := WP.Post.bind tailP (orders_post _ _)
  have soundA : (acWP n legacy rows ms quants coeffs flags).Sound (Settled rows ms true) :=
    WP.Sound.bind (orders_sound tailP) (orders_post _ _) fun orders ho =>
      WP.Sound.bind (WP.Sound.ofProg _) (lp orders ho) fun prs hp =>
        WP.Sound.bind (q := fun _ => True) (loopS prs hp).2 (WP.Post.any _) fun _ _ => trivial
  exact WP.framed_sound postA soundA

end Brunsli
