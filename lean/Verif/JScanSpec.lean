import Verif.JScan
/-!
# Scans are written back as read

The JPEG writer, given the coefficients, reset points, zero runs and padding bits that the JPEG reader found in a scan, produces the
bytes that the reader consumed.
-/

namespace Brunsli

/-! ## Blocks -/

/-- What a scan requires of a block: a first scan finds zeros, a refinement scan finds coefficients without the bits to come. -/
def Pre (P : SP) (B : Blk) : Prop := ∀ j, P.ss ≤ j → j ≤ P.se → (P.ah = 0 → B j = 0) ∧ (P.ah ≠ 0 → Hist P.al (B j))

structure SP.Ok (prog : Bool) (P : SP) : Prop where
  band : P.ss ≤ P.se
  se : P.se ≤ 63
  seq : prog = false → P = ⟨0, 63, 0, 0⟩

theorem Joint.flush {allowed : Bool} {e : Int} {s : CS} {C E : List Atom} (h : Joint allowed e s C E) (he : e ≤ 0) :
    Joint allowed e s.flush.2 C (E ++ atomsOf s.flush.1) where
  wf := (CS.flush_wf s).1
  small := by show 0 < _; omega
  cnt := Nat.zero_le _
  idle := fun _ => rfl
  plain := fun _ => ⟨rfl, he⟩
  done := fun _ => by rw [CS.flush_pending, List.append_nil, CS.flush_atoms]; exact h.done he
  run := fun h => by omega

theorem blk_write {prog : Bool} {P : SP} (hP : P.Ok prog) {v : Visit} {last e : Int} {B : Blk} {as : List Atom} {o : BlkOut}
    (h : Eats (readProg P v last e B) as o) (hB : Pre P B) {s : CS} {C E : List Atom} (hj : Joint (decide (P.ss ≠ 0)) e s C E) (hfit : s.Fit)
    (hr : o.reset = true → s.eob = 0) {F : Blk} (hF : SameFirst P.ss P.se P.al F o.blk) (hs : F.Small) :
    ∃ reqs s', encBlock prog P v o.nzr last F s = some (reqs, o.last, s') ∧ Joint (decide (P.ss ≠ 0)) o.eob s' (C ++ as) (E ++ atomsOf reqs) ∧
      ReqsOk reqs ∧ s'.Fit := by
  unfold readProg at h
  unfold encBlock
  by_cases hm : prog = false ∨ (P.ah = 0 ∧ P.al = 0 ∧ P.ss = 0 ∧ P.se = 63)
  · have hp : P.ah = 0 ∧ P.al = 0 ∧ P.ss = 0 ∧ P.se = 63 := by
      rcases hm with hm | hm
      · rw [hP.seq hm]; exact ⟨rfl, rfl, rfl, rfl⟩
      · exact hm
    obtain ⟨p1, p2, p3, p4⟩ := hp
    rw [if_pos hm]
    rw [if_pos p1, p2, p3, p4] at h
    rw [p2, p3, p4] at hF
    have hd : decide (P.ss ≠ 0) = false := by simp [p3]
    rw [hd] at hj ⊢
    obtain ⟨d1, d2, -, d4, d5⟩ := decodeBlock_write_seq h (fun j hj => (hB j (by omega) (by omega)).1 p1) hj (F := F) (by
      intro j hj
      by_cases h0 : j = 0
      · have := hF.1 rfl
        subst h0
        simpa using this
      · obtain ⟨g1, g2⟩ := hF.2 j (by omega) (by omega) hj
        simp only [Nat.pow_zero, Nat.div_one] at g1 g2
        by_cases hz : (F j).natAbs = 0
        · omega
        · have := g2 hz
          omega)
    refine ⟨_, _, ?_, d1, encSeq_ok hs (dcReqs_ok (by omega) (by omega)), hfit⟩
    simp only [d2]
  · rw [if_neg hm]
    by_cases h0 : P.ah = 0
    · rw [if_pos h0]
      rw [if_pos h0] at h
      obtain ⟨d1, d2, -, d4⟩ := decodeBlock_write h (fun j h1 h2 => (hB j h1 h2).1 h0) hj hr hF
      obtain ⟨e1, e2⟩ := encProg_ok (dc := v.dc) (ac := v.ac) (Ss := P.ss) (Se := P.se) (Al := P.al) (nzr := o.nzr) (last := last) hs hfit
        (fun h0 => dcReqs_ok (by have := (d4 h0).2.2.1; omega) (by have := (d4 h0).2.2.2; omega))
      refine ⟨(encProg v.dc v.ac P.ss P.se P.al o.nzr last F s).1, _, ?_, d1, e1, e2⟩
      rw [← d2]
    · rw [if_neg h0]
      rw [if_neg h0] at h
      obtain ⟨⟨p, p1, p2⟩, d2, d3, -⟩ := refineBlock_write h hP.se (fun j h1 h2 => (hB j h1 h2).2 h0) hj hr hF
      obtain ⟨e1, e2⟩ := encRefine_ok hP.se hfit p1
      exact ⟨p.1, p.2, by rw [p1, d2]; rfl, p2, e1, e2⟩

theorem readProg_reset {P : SP} {v : Visit} {last e : Int} {B : Blk} {as : List Atom} {o : BlkOut} (h : Eats (readProg P v last e B) as o) : o.reset = true → e = 0 := by
  unfold readProg at h
  split at h
  · exact decodeBlock_reset h
  · exact refineBlock_reset h

theorem readProg_small {P : SP} {v : Visit} {last e : Int} {B : Blk} : (readProg P v last e B).Small := ite_small decodeBlock_small refineBlock_small

theorem readProg_reads {P : SP} {v : Visit} {last e : Int} {B : Blk} (he : e ≤ 0) (hs : P.ss ≤ P.se) : (readProg P v last e B).Reads1 := by
  unfold readProg
  split
  · exact decodeBlock_reads he hs
  · exact refineBlock_reads he hs

/-! ## What the reader records -/

/-- The reset points and zero runs found between two states. -/
structure Added (st st' : RS) (X : List Nat) (Y : List (Nat × Nat)) : Prop where
  idx : st.idx ≤ st'.idx
  resets : st'.resets = st.resets ++ X
  runs : st'.runs = st.runs ++ Y
  fromX : ∀ x ∈ X, st.idx ≤ x ∧ x < st'.idx
  fromY : ∀ y ∈ Y, st.idx ≤ y.1 ∧ y.1 < st'.idx

theorem Added.refl (st : RS) : Added st st [] [] where
  idx := Nat.le_refl _
  resets := (List.append_nil _).symm
  runs := (List.append_nil _).symm
  fromX := fun _ h => by cases h
  fromY := fun _ h => by cases h

theorem Added.trans {a b c : RS} {X1 X2 : List Nat} {Y1 Y2 : List (Nat × Nat)} (h1 : Added a b X1 Y1) (h2 : Added b c X2 Y2) : Added a c (X1 ++ X2) (Y1 ++ Y2) where
  idx := Nat.le_trans h1.idx h2.idx
  resets := by rw [h2.resets, h1.resets, List.append_assoc]
  runs := by rw [h2.runs, h1.runs, List.append_assoc]
  fromX := by
    intro x hx
    have := h1.idx
    have := h2.idx
    rcases List.mem_append.mp hx with hx | hx
    · have := h1.fromX x hx; omega
    · have := h2.fromX x hx; omega
  fromY := by
    intro x hx
    have := h1.idx
    have := h2.idx
    rcases List.mem_append.mp hx with hx | hx
    · have := h1.fromY x hx; omega
    · have := h2.fromY x hx; omega

theorem after_added (st : RS) (v : Visit) (o : BlkOut) (br : JR) :
    Added st (st.after v o br) (if o.reset then [st.idx] else []) (if 0 < o.nzr then [(st.idx, o.nzr)] else []) where
  idx := by show st.idx ≤ st.idx + 1; omega
  resets := by
    show (if o.reset then st.resets ++ [st.idx] else st.resets) = _
    split <;> simp
  runs := by
    show (if 0 < o.nzr then st.runs ++ [(st.idx, o.nzr)] else st.runs) = _
    split <;> simp
  fromX := by
    intro x hx
    show st.idx ≤ x ∧ x < st.idx + 1
    split at hx
    · rw [List.mem_singleton.mp hx]; omega
    · cases hx
  fromY := by
    intro x hx
    show st.idx ≤ x.1 ∧ x.1 < st.idx + 1
    split at hx
    · rw [List.mem_singleton.mp hx]; simp only; omega
    · cases hx

def Visit.key (v : Visit) : Nat × Nat := (v.comp, v.blk)

theorem readMcu_added {data : List Nat} {lut : HSlot → JMem} {P : SP} (vs : List Visit) : ∀ {st st' : RS}, readMcu data lut P vs st = some st' →
    (∃ X Y, Added st st' X Y) ∧ (∀ c b, (c, b) ∉ vs.map Visit.key → st'.coefs c b = st.coefs c b) ∧ st'.pads = st.pads ∧ st'.toGo = st.toGo ∧ st'.marker = st.marker := by
  induction vs with
  | nil =>
    intro st st' h
    cases h
    exact ⟨⟨_, _, Added.refl _⟩, fun _ _ _ => rfl, rfl, rfl, rfl⟩
  | cons v vs ih =>
    intro st st' h
    rw [readMcu] at h
    cases hb : readBlk data lut P v st with
    | none => rw [hb] at h; cases h
    | some st1 =>
      rw [hb] at h
      unfold readBlk at hb
      obtain ⟨q, -, rfl⟩ := Option.map_eq_some_iff.mp hb
      obtain ⟨⟨X, Y, i1⟩, i2, i3, i4, i5⟩ := ih h
      refine ⟨⟨_, _, (after_added st v q.1 q.2).trans i1⟩, ?_, i3, i4, i5⟩
      intro c b hcb
      rw [List.map_cons, List.mem_cons, not_or] at hcb
      rw [i2 c b hcb.2]
      show (if c = v.comp ∧ b = v.blk then q.1.blk else st.coefs c b) = _
      rw [if_neg]
      rintro ⟨rfl, rfl⟩
      exact hcb.1 rfl

theorem readMcuHead_same {data : List Nat} {ri : Nat} {st st' : RS} (h : readMcuHead data ri st = some st') :
    st'.coefs = st.coefs ∧ st'.idx = st.idx ∧ st'.resets = st.resets ∧ st'.runs = st.runs ∧ ∃ ps, st'.pads = st.pads ++ ps := by
  unfold readMcuHead at h
  split at h
  · obtain ⟨q, hq, rfl⟩ := Option.map_eq_some_iff.mp h
    split at hq
    · unfold readRestart at hq
      split at hq
      · cases hq
      · split at hq
        · cases hq
        · split at hq
          · cases hq
          · split at hq
            · cases hq
            · cases hq
              exact ⟨rfl, rfl, rfl, rfl, _, rfl⟩
    · cases hq
      exact ⟨rfl, rfl, rfl, rfl, [], (List.append_nil _).symm⟩
  · cases h
    exact ⟨rfl, rfl, rfl, rfl, [], (List.append_nil _).symm⟩

theorem readMcus_added {data : List Nat} {lut : HSlot → JMem} {P : SP} {ri : Nat} (ms : List (List Visit)) : ∀ {st st' : RS}, readMcus data lut P ri ms st = some st' →
    (∃ X Y, Added st st' X Y) ∧ (∀ c b, (c, b) ∉ ms.flatten.map Visit.key → st'.coefs c b = st.coefs c b) ∧ ∃ ps, st'.pads = st.pads ++ ps := by
  induction ms with
  | nil =>
    intro st st' h
    cases h
    exact ⟨⟨_, _, Added.refl _⟩, fun _ _ _ => rfl, [], (List.append_nil _).symm⟩
  | cons m ms ih =>
    intro st st' h
    rw [readMcus] at h
    cases hh : readMcuHead data ri st with
    | none => rw [hh] at h; cases h
    | some s1 =>
      rw [hh] at h
      dsimp only at h
      split at h
      · cases h
      · cases hm : readMcu data lut P m s1 with
        | none => rw [hm] at h; cases h
        | some s2 =>
          rw [hm] at h
          obtain ⟨a1, a2, a3, a4, ps1, a5⟩ := readMcuHead_same hh
          obtain ⟨⟨X1, Y1, b1⟩, b2, b3, -, -⟩ := readMcu_added _ hm
          obtain ⟨⟨X2, Y2, c1⟩, c2, ps2, c3⟩ := ih h
          have d := b1.trans c1
          have d' : Added st st' (X1 ++ X2) (Y1 ++ Y2) := by
            constructor
            · rw [← a2]; exact d.idx
            · rw [← a3]; exact d.resets
            · rw [← a4]; exact d.runs
            · rw [← a2]; exact d.fromX
            · rw [← a2]; exact d.fromY
          refine ⟨⟨_, _, d'⟩, ?_, ps1 ++ ps2, by rw [c3, b3, a5, List.append_assoc]⟩
          · intro c b hcb
            rw [List.flatten_cons, List.map_append, List.mem_append, not_or] at hcb
            rw [c2 c b hcb.2, b2 c b hcb.1, a1]

/-! ## Blocks and MCUs in step -/

/-- The reader and the writer within a restart interval that begins at `start`: the reader has consumed `c` bits, which are those of the atoms `C`; the writer has made the calls `E`. -/
structure Inv (data : List Nat) (T : HSlot → CodeTable) (P : SP) (start c : Nat) (C : List Atom) (rs : RS) (ws : WS) (E : List WReq) : Prop where
  rep : rs.br.Rep data start c
  win : window data start 0 c = atomsBits T C
  good : ∀ v t, Atom.sym t v ∈ C → 1 ≤ ((T t).word v).1 ∧ ((T t).word v).1 ≤ 16 ∧ ((T t).word v).2 < 2 ^ ((T t).word v).1
  joint : Joint (decide (P.ss ≠ 0)) rs.eob ws.cs C (atomsOf E)
  fit : ws.cs.Fit
  ok : ReqsOk E
  last : ws.last = rs.last
  idx : ws.idx = rs.idx
  marker : ws.marker = rs.marker

theorem blk_step {data : List Nat} (hd : Bytes data) {lut : HSlot → JMem} {T : HSlot → CodeTable} (hm : Match lut T) {prog : Bool} {P : SP} (hP : P.Ok prog)
    {start c : Nat} {C : List Atom} {rs rs' : RS} {ws : WS} {E : List WReq} (hi : Inv data T P start c C rs ws E) {v : Visit} {F : Coefs}
    (h : readBlk data lut P v rs = some rs') (hB : Pre P (rs.coefs v.comp v.blk)) (hF : SameFirst P.ss P.se P.al (F v.comp v.blk) (rs'.coefs v.comp v.blk))
    (hs : (F v.comp v.blk).Small) {X X' : List Nat} {Y Y' : List (Nat × Nat)} (hX : rs'.resets = rs.resets ++ X) (hY : rs'.runs = rs.runs ++ Y)
    (hwX : ws.resets = X ++ X') (hwY : ws.runs = Y ++ Y') (hX' : ∀ x ∈ X', rs'.idx ≤ x) (hY' : ∀ y ∈ Y', rs'.idx ≤ y.1) :
    ∃ reqs ws' k C', writeBlk prog P F v ws = some (reqs, ws') ∧ Inv data T P start (c + k) C' rs' ws' (E ++ reqs) ∧ (rs.eob ≤ 0 → 1 ≤ k) ∧
      ws'.resets = X' ∧ ws'.runs = Y' ∧ ws'.toGo = ws.toGo := by
  unfold readBlk at h
  obtain ⟨⟨o, br⟩, hrun, rfl⟩ := Option.map_eq_some_iff.mp h
  obtain ⟨as, k, e1, e2, e3, e4, e5, e6⟩ := JProg.run_eats hd hm _ readProg_small hi.rep hrun
  have hres := readProg_reset e1
  have hread := fun he => readProg_reads (P := P) (v := v) (last := rs.last v.comp) (e := rs.eob) (B := rs.coefs v.comp v.blk) he hP.band
  have hF' : SameFirst P.ss P.se P.al (F v.comp v.blk) o.blk := by
    have : (rs.after v o br).coefs v.comp v.blk = o.blk := by
      show (if v.comp = v.comp ∧ v.blk = v.blk then o.blk else _) = _
      rw [if_pos ⟨rfl, rfl⟩]
    rwa [this] at hF
  have ha := after_added rs v o br
  have hX2 : X = if o.reset then [rs.idx] else [] := by
    rw [ha.resets] at hX
    exact (List.append_cancel_left hX).symm
  have hY2 : Y = if 0 < o.nzr then [(rs.idx, o.nzr)] else [] := by
    rw [ha.runs] at hY
    exact (List.append_cancel_left hY).symm
  have hidx : (rs.after v o br).idx = rs.idx + 1 := rfl
  rw [hidx] at hX' hY'
  -- the reset point
  have hreset : ∃ r, takeReset ws = r ∧ r.2.resets = X' ∧ r.2.runs = ws.runs ∧ r.2.last = ws.last ∧ r.2.idx = ws.idx ∧ r.2.marker = ws.marker ∧ r.2.toGo = ws.toGo ∧
      Joint (decide (P.ss ≠ 0)) rs.eob r.2.cs C (atomsOf (E ++ r.1)) ∧ r.2.cs.Fit ∧ ReqsOk r.1 ∧ (o.reset = true → r.2.cs.eob = 0) := by
    refine ⟨_, rfl, ?_⟩
    unfold takeReset
    by_cases hr : o.reset = true
    · rw [if_pos hr] at hX2
      rw [hwX, hX2, hi.idx]
      have he := hres hr
      rw [List.cons_append, List.nil_append, List.head?_cons, if_pos rfl]
      obtain ⟨f1, f2⟩ := hi.fit.flush
      refine ⟨rfl, rfl, rfl, rfl, rfl, rfl, ?_, f2, f1, fun _ => rfl⟩
      rw [atomsOf_append]
      exact hi.joint.flush (by omega)
    · rw [if_neg hr] at hX2
      have hne : ws.resets.head? ≠ some ws.idx := by
        rw [hwX, hX2, List.nil_append, hi.idx]
        intro hh
        have := hX' _ (List.mem_of_mem_head? hh)
        omega
      rw [if_neg hne]
      refine ⟨by rw [hwX, hX2]; rfl, rfl, rfl, rfl, rfl, rfl, ?_, hi.fit, ReqsOk.nil, fun h => absurd h hr⟩
      rw [List.append_nil]
      exact hi.joint
  obtain ⟨r, r0, r1, r2, r3, r4, r5, r6, r7, r8, r9, r10⟩ := hreset
  -- the zero runs
  have hruns : takeRuns r.2 = (o.nzr, Y') := by
    unfold takeRuns
    rw [r2, hwY, hY2, r4, hi.idx]
    by_cases hz : 0 < o.nzr
    · rw [if_pos hz]
      simp
    · rw [if_neg hz]
      cases Y' with
      | nil => simp; omega
      | cons y Y' =>
        have := hY' y List.mem_cons_self
        simp only [List.nil_append]
        rw [if_neg (by omega), show o.nzr = 0 by omega]
  obtain ⟨reqs, s', w1, w2, w3, w4⟩ := blk_write hP e1 hB r7 r8 r10 hF' hs
  refine ⟨r.1 ++ reqs, { r.2 with cs := s', last := fun c => if c = v.comp then o.last else r.2.last c, idx := r.2.idx + 1, runs := Y' }, k, C ++ as, ?_, ?_, ?_, ?_, ?_, ?_⟩
  rotate_left
  · constructor
    · exact e2
    · rw [window_add, hi.win, Nat.zero_add, e3, atomsBits_append]
    · intro u t hu
      rcases List.mem_append.mp hu with hu | hu
      · exact hi.good u t hu
      · exact e6 u t hu
    · rw [← List.append_assoc, atomsOf_append]
      exact w2
    · exact w4
    · exact hi.ok.append (r9.append w3)
    · show (fun c => if c = v.comp then o.last else r.2.last c) = fun c => if c = v.comp then o.last else rs.last c
      rw [r3, hi.last]
    · show r.2.idx + 1 = rs.idx + 1
      rw [r4, hi.idx]
    · show r.2.marker = rs.marker
      rw [r5, hi.marker]
  · intro he
    rcases hread he with hh | hh
    · exact e4 hh
    · exact e5 hh
  · exact r1
  · exact rfl
  · exact r6
  · unfold writeBlk
    rw [r0]
    dsimp only
    rw [hruns, r3, hi.last, w1]
    rfl

/-- What the writer is given for the blocks to come: `pre` are the coefficients before the scan, `post` those after it. -/
structure VisitsOk (P : SP) (F pre post : Coefs) (vs : List Visit) : Prop where
  nodup : (vs.map Visit.key).Nodup
  pre : ∀ v ∈ vs, Pre P (pre v.comp v.blk)
  same : ∀ v ∈ vs, SameFirst P.ss P.se P.al (F v.comp v.blk) (post v.comp v.blk)
  small : ∀ v ∈ vs, (F v.comp v.blk).Small

theorem VisitsOk.left {P : SP} {F pre post : Coefs} {a b : List Visit} (h : VisitsOk P F pre post (a ++ b)) : VisitsOk P F pre post a where
  nodup := by
    have := h.nodup
    rw [List.map_append] at this
    exact (List.nodup_append.mp this).1
  pre := fun v hv => h.pre v (List.mem_append_left _ hv)
  same := fun v hv => h.same v (List.mem_append_left _ hv)
  small := fun v hv => h.small v (List.mem_append_left _ hv)

theorem VisitsOk.disjoint {P : SP} {F pre post : Coefs} {a b : List Visit} (h : VisitsOk P F pre post (a ++ b)) {v w : Visit} (hv : v ∈ a) (hw : w ∈ b) : v.key ≠ w.key := by
  have := h.nodup
  rw [List.map_append] at this
  exact (List.nodup_append.mp this).2.2 _ (List.mem_map_of_mem hv) _ (List.mem_map_of_mem hw)

/-- The first visits do not touch the blocks of the others. -/
theorem VisitsOk.right {P : SP} {F pre pre' post : Coefs} {a b : List Visit} (h : VisitsOk P F pre post (a ++ b))
    (hp : ∀ c b, (c, b) ∉ a.map Visit.key → pre' c b = pre c b) : VisitsOk P F pre' post b where
  nodup := by
    have := h.nodup
    rw [List.map_append] at this
    exact (List.nodup_append.mp this).2.1
  pre := by
    intro v hv
    rw [hp]
    · exact h.pre v (List.mem_append_right _ hv)
    · intro hm
      obtain ⟨w, hw, e⟩ := List.mem_map.mp hm
      exact h.disjoint hw hv e
  same := fun v hv => h.same v (List.mem_append_right _ hv)
  small := fun v hv => h.small v (List.mem_append_right _ hv)

theorem mcu_step {data : List Nat} (hd : Bytes data) {lut : HSlot → JMem} {T : HSlot → CodeTable} (hm : Match lut T) {prog : Bool} {P : SP} (hP : P.Ok prog)
    {start : Nat} {F post : Coefs} (vs : List Visit) : ∀ {c : Nat} {C : List Atom} {rs rs' : RS} {ws : WS} {E : List WReq},
    Inv data T P start c C rs ws E → readMcu data lut P vs rs = some rs' → VisitsOk P F rs.coefs post vs → (∀ v ∈ vs, rs'.coefs v.comp v.blk = post v.comp v.blk) →
    ∀ {X X' : List Nat} {Y Y' : List (Nat × Nat)}, rs'.resets = rs.resets ++ X → rs'.runs = rs.runs ++ Y →
    ws.resets = X ++ X' → ws.runs = Y ++ Y' → (∀ x ∈ X', rs'.idx ≤ x) → (∀ y ∈ Y', rs'.idx ≤ y.1) →
    ∃ reqs ws' k C', writeMcu prog P F vs ws = some (reqs, ws') ∧ Inv data T P start (c + k) C' rs' ws' (E ++ reqs) ∧ (vs ≠ [] → rs.eob ≤ 0 → 1 ≤ k) ∧
      ws'.resets = X' ∧ ws'.runs = Y' ∧ ws'.toGo = ws.toGo := by
  induction vs with
  | nil =>
    intro c C rs rs' ws E hi h _ _ X X' Y Y' hX hY hwX hwY _ _
    cases h
    rw [List.self_eq_append_right.mp hX] at hwX
    rw [List.self_eq_append_right.mp hY] at hwY
    exact ⟨[], ws, 0, C, rfl, by rw [List.append_nil]; exact hi, fun h => absurd rfl h, hwX, hwY, rfl⟩
  | cons v vs ih =>
    intro c C rs rs' ws E hi h hok hpost X X' Y Y' hX hY hwX hwY hX' hY'
    rw [readMcu] at h
    cases hb : readBlk data lut P v rs with
    | none => rw [hb] at h; cases h
    | some rs1 =>
      rw [hb] at h
      replace h : readMcu data lut P vs rs1 = some rs' := h
      obtain ⟨⟨X2, Y2, a2⟩, b2, -⟩ := readMcu_added _ h
      have hb' : readMcu data lut P [v] rs = some rs1 := by rw [readMcu, hb]; rfl
      obtain ⟨⟨X1, Y1, a1⟩, b1, -⟩ := readMcu_added _ hb'
      have a := a1.trans a2
      have eX : X = X1 ++ X2 := by rw [a.resets] at hX; exact (List.append_cancel_left hX).symm
      have eY : Y = Y1 ++ Y2 := by rw [a.runs] at hY; exact (List.append_cancel_left hY).symm
      subst eX eY
      have hok' : VisitsOk P F rs.coefs post ([v] ++ vs) := hok
      have hsame : rs1.coefs v.comp v.blk = post v.comp v.blk := by
        rw [← hpost v List.mem_cons_self, b2]
        intro hmem
        obtain ⟨w, hw, e⟩ := List.mem_map.mp hmem
        exact hok'.disjoint (List.mem_singleton.mpr rfl) hw e.symm
      obtain ⟨reqs1, ws1, k1, C1, s1, s2, s3, s4, s5, s6⟩ := blk_step hd hm hP hi hb (hok.pre v List.mem_cons_self) (F := F)
        (by rw [hsame]; exact hok.same v List.mem_cons_self) (hok.small v List.mem_cons_self) a1.resets a1.runs
        (by rw [hwX, List.append_assoc]) (by rw [hwY, List.append_assoc])
        (fun x hx => by
          have := a2.idx
          rcases List.mem_append.mp hx with hx | hx
          · exact (a2.fromX x hx).1
          · have := hX' x hx; omega)
        (fun x hx => by
          have := a2.idx
          rcases List.mem_append.mp hx with hx | hx
          · exact (a2.fromY x hx).1
          · have := hY' x hx; omega)
      obtain ⟨reqs2, ws2, k2, C2, t1, t2, t3, t4, t5, t6⟩ := ih s2 h (hok'.right b1) (fun w hw => hpost w (List.mem_cons_of_mem _ hw)) a2.resets a2.runs s4 s5 hX' hY'
      refine ⟨reqs1 ++ reqs2, ws2, k1 + k2, C2, ?_, ?_, ?_, t4, t5, by rw [t6, s6]⟩
      · rw [writeMcu, s1]
        simp only [Option.bind_some]
        rw [t1]
        rfl
      · rw [← Nat.add_assoc, ← List.append_assoc]
        exact t2
      · intro _ he
        have := s3 he
        omega

/-! ## Restart intervals -/

theorem actBits_reqs (T : HSlot → CodeTable) (l : List WReq) : actBits (l.map (reqPair T)) = atomsBits T (atomsOf l) := by
  induction l with
  | nil => rfl
  | cons r l ih =>
    have e1 : atomsOf (r :: l) = reqAtoms r ++ atomsOf l := rfl
    rw [List.map_cons, e1, atomsBits_append, ← ih]
    cases r with
    | sym t v =>
      have : atomsBits T (reqAtoms (.sym t v)) = msb ((T t).word v).1 ((T t).word v).2 := by simp [reqAtoms, atomsBits, atomBits]
      rw [this]
      rfl
    | bits n v =>
      have : atomsBits T (reqAtoms (.bits n v)) = msb n v := atomsBits_bits T _
      rw [this]
      rfl

/-- The recorded padding bits `X` are the next of the padding bits; `pads'` remain. -/
def PadsFor (X : List Bool) : Pads → Pads → Prop
  | none, p' => (∀ b ∈ X, b = true) ∧ p' = none
  | some ps, p' => ∃ ps', p' = some ps' ∧ ps = X.map Bool.toNat ++ ps'

theorem PadsFor.split {X Y : List Bool} {p p' : Pads} (h : PadsFor (X ++ Y) p p') : ∃ q, PadsFor X p q ∧ PadsFor Y q p' := by
  cases p with
  | none =>
    obtain ⟨h1, h2⟩ := h
    exact ⟨none, ⟨fun b hb => h1 b (List.mem_append_left _ hb), rfl⟩, fun b hb => h1 b (List.mem_append_right _ hb), h2⟩
  | some ps =>
    obtain ⟨ps', h1, h2⟩ := h
    rw [List.map_append, List.append_assoc] at h2
    exact ⟨some (Y.map Bool.toNat ++ ps'), ⟨_, rfl, h2⟩, ps', h1, rfl⟩

theorem PadsFor.spec {X : List Bool} {p p' : Pads} (h : PadsFor X p p') : PadOk X.length p ∧ padBits X.length p = X ∧ padRest X.length p = p' := by
  cases p with
  | none =>
    obtain ⟨h1, rfl⟩ := h
    refine ⟨trivial, ?_, rfl⟩
    exact (List.eq_replicate_iff.mpr ⟨rfl, h1⟩).symm
  | some ps =>
    obtain ⟨ps', rfl, rfl⟩ := h
    refine ⟨?_, ?_, ?_⟩
    · show X.length ≤ _
      simp
    · show (List.take X.length _).map _ = X
      rw [List.take_left' (by simp), List.map_map]
      have : ((fun x => x != 0) ∘ Bool.toNat) = id := by
        funext b
        cases b <;> rfl
      rw [this, List.map_id]
    · show some (List.drop X.length _) = _
      rw [List.drop_left' (by simp)]

theorem Joint.sym_mem {allowed : Bool} {e : Int} {s : CS} {C E : List Atom} (h : Joint allowed e s C E) {a : Atom} (ha : a ∈ E) : a ∈ C := by
  by_cases he : e ≤ 0
  · rw [h.done he]; exact List.mem_append_left _ ha
  · rw [(h.run (by omega)).2.2, List.append_assoc]; exact List.mem_append_left _ ha

theorem Inv.good_bits {data : List Nat} {T : HSlot → CodeTable} {P : SP} {start c : Nat} {C : List Atom} {rs : RS} {ws : WS} {E : List WReq}
    (h : Inv data T P start c C rs ws E) : GoodBits (E.map (reqPair T)) := by
  intro w hw
  obtain ⟨r, hr, rfl⟩ := List.mem_map.mp hw
  cases r with
  | sym t v =>
    refine h.good v t (h.joint.sym_mem ?_)
    exact List.mem_flatMap.mpr ⟨_, hr, by simp [reqAtoms]⟩
  | bits n v => exact h.ok _ hr

/-- The state after a flush. -/
theorem Inv.flush {data : List Nat} {T : HSlot → CodeTable} {P : SP} {start c : Nat} {C : List Atom} {rs : RS} {ws : WS} {E : List WReq}
    (h : Inv data T P start c C rs ws E) (he : rs.eob ≤ 0) : Inv data T P start c C rs { ws with cs := ws.cs.flush.2 } (E ++ ws.cs.flush.1) ∧ atomsOf (E ++ ws.cs.flush.1) = C := by
  obtain ⟨f1, f2⟩ := h.fit.flush
  have hj := h.joint.flush he
  refine ⟨⟨h.rep, h.win, h.good, by rw [atomsOf_append]; exact hj, f2, h.ok.append f1, h.last, h.idx, h.marker⟩, ?_⟩
  have := hj.done he
  rw [CS.flush_pending, List.append_nil] at this
  rw [atomsOf_append, ← this]

/-- The bytes of an interval. -/
theorem interval_bytes {data : List Nat} (hd : Bytes data) {T : HSlot → CodeTable} {start c : Nat} {C : List Atom} {b : JR} (hr : b.Rep data start c) (hc : 1 ≤ c)
    (hw : window data start 0 c = atomsBits T C) {ps : List Bool} {pos : Nat} (hf : b.finish data = some (ps, pos)) {E : List WReq} (hE : atomsOf E = C) :
    start ≤ pos ∧ (NoMarkFrom data start ∨ ∀ p p', PadsFor ps p p' → PadOk (padLen (actBits (E.map (reqPair T))).length) p ∧
      interval p (E.map (reqPair T)) = slice data start pos ∧ padRest (padLen (actBits (E.map (reqPair T))).length) p = p') := by
  obtain ⟨h1, h2⟩ := JR.finish_spec hd hr hc hf
  refine ⟨h1, ?_⟩
  rcases h2 with ⟨g, g1, g2, g3, g4⟩ | h2
  · right
    intro p p' hp
    obtain ⟨p1, p2, p3⟩ := hp.spec
    have hb : actBits (E.map (reqPair T)) = window data start 0 c := by rw [actBits_reqs, hE, hw]
    have hl : padLen (actBits (E.map (reqPair T))).length = ps.length := by rw [hb, window_length, g4]
    unfold interval
    rw [hl]
    refine ⟨p1, ?_, p3⟩
    rw [p2, hb, ← g3, pack_bytesMsb g1, g2]
  · exact Or.inl h2

theorem NoMarkFrom.mono {data : List Nat} {a b : Nat} (h : NoMarkFrom data a) (hab : a ≤ b) : NoMarkFrom data b := fun q h1 h2 h3 => h q (by omega) h2 h3

/-- What the writer does from a state on, and the bytes that come of it. -/
def Written (data : List Nat) (T : HSlot → CodeTable) (start pos : Nat) (E : List WReq) (Q : List Bool) (r : Option (List WAct × WS)) : Prop :=
  ∃ acts ws l rest, r = some (acts, ws) ∧ (acts ++ ws.cs.flush.1.map WAct.req).map (WAct.toAct T) = scanActs l rest ∧
    GoodBits (E.map (reqPair T) ++ l) ∧ (∀ r ∈ rest, GoodBits r.2) ∧ ∀ p p', PadsFor Q p p' → entropy p (E.map (reqPair T) ++ l) rest = some (slice data start pos, p')

theorem toAct_reqs (T : HSlot → CodeTable) (l : List WReq) : (l.map WAct.req).map (WAct.toAct T) = (l.map (reqPair T)).map fun x => Act.bits x.1 x.2 := by
  rw [List.map_map, List.map_map]
  rfl

theorem scanActs_append (a b : List (Nat × Nat)) (rest : List (Nat × List (Nat × Nat))) :
    scanActs (a ++ b) rest = (a.map fun x => Act.bits x.1 x.2) ++ scanActs b rest := by
  unfold scanActs
  rw [List.map_append, List.append_assoc]

theorem mcus_write {data : List Nat} (hd : Bytes data) {lut : HSlot → JMem} {T : HSlot → CodeTable} (hm : Match lut T) {prog : Bool} {P : SP} (hP : P.Ok prog) {ri : Nat}
    {F post : Coefs} {fin : RS} (hfe : fin.eob ≤ 0) {ps : List Bool} {pos : Nat} (hff : fin.br.finish data = some (ps, pos)) (ms : List (List Visit)) :
    ∀ {start c : Nat} {C : List Atom} {rs : RS} {ws : WS} {E : List WReq}, Inv data T P start c C rs ws E → readMcus data lut P ri ms rs = some fin →
    VisitsOk P F rs.coefs post ms.flatten → (∀ v ∈ ms.flatten, fin.coefs v.comp v.blk = post v.comp v.blk) → (∀ m ∈ ms, m ≠ []) → (0 < ri → ws.toGo = rs.toGo) →
    ∀ {Q : List Bool}, fin.resets = rs.resets ++ ws.resets → fin.runs = rs.runs ++ ws.runs → fin.pads = rs.pads ++ Q →
    (1 ≤ c ∨ (ms ≠ [] ∧ (ri = 0 ∨ rs.toGo ≠ 0) ∧ rs.eob ≤ 0)) →
    start ≤ pos ∧ (NoMarkFrom data pos ∨ Written data T start pos E (Q ++ ps) (writeMcus prog P ri F ms ws)) := by
  induction ms with
  | nil =>
    intro start c C rs ws E hi h _ _ _ _ Q _ _ hQ hc
    cases h
    have hc : 1 ≤ c := by
      rcases hc with hc | hc
      · exact hc
      · exact absurd rfl hc.1
    rw [List.self_eq_append_right.mp hQ]
    obtain ⟨f1, f2⟩ := hi.flush hfe
    obtain ⟨i1, i2⟩ := interval_bytes hd hi.rep hc hi.win hff f2
    refine ⟨i1, ?_⟩
    rcases i2 with i2 | i2
    · exact Or.inl (i2.mono i1)
    · refine Or.inr ⟨[], ws, ws.cs.flush.1.map (reqPair T), [], rfl, ?_, ?_, (fun _ h => by cases h), ?_⟩
      · rw [List.nil_append, toAct_reqs]
        simp [scanActs]
      · rw [← List.map_append]
        exact f1.good_bits
      · intro p p' hp
        obtain ⟨j1, j2, j3⟩ := i2 p p' hp
        rw [← List.map_append, entropy, if_pos j1, j2, j3]
  | cons m ms ih =>
    intro start c C rs ws E hi h hok hpost hne hgo Q hX hY hQ hc
    rw [readMcus] at h
    cases hh : readMcuHead data ri rs with
    | none => rw [hh] at h; cases h
    | some rs1 =>
      rw [hh] at h
      dsimp only at h
      split at h
      · cases h
      · obtain ⟨a1, a2, a3, a4, -⟩ := readMcuHead_same hh
        cases hmcu : readMcu data lut P m rs1 with
        | none => rw [hmcu] at h; cases h
        | some rs2 =>
          rw [hmcu] at h
          replace h : readMcus data lut P ri ms rs2 = some fin := h
          obtain ⟨⟨X1, Y1, b1⟩, b2, b3, b4, b5⟩ := readMcu_added _ hmcu
          obtain ⟨⟨X2, Y2, c1⟩, c2, Q2, c3⟩ := readMcus_added _ h
          have hm1 : m ≠ [] := hne m List.mem_cons_self
          have hok' : VisitsOk P F rs1.coefs post (m ++ ms.flatten) := by rw [a1]; exact hok
          have wX : ws.resets = X1 ++ X2 := by
            rw [c1.resets, b1.resets, a3, List.append_assoc] at hX
            exact (List.append_cancel_left hX).symm
          have wY : ws.runs = Y1 ++ Y2 := by
            rw [c1.runs, b1.runs, a4, List.append_assoc] at hY
            exact (List.append_cancel_left hY).symm
          have hpost1 : ∀ v ∈ m, rs2.coefs v.comp v.blk = post v.comp v.blk := by
            intro v hv
            rw [← hpost v (by rw [List.flatten_cons]; exact List.mem_append_left _ hv), c2]
            intro hmem
            obtain ⟨w, hw, e⟩ := List.mem_map.mp hmem
            exact hok'.disjoint hv hw e.symm
          -- one MCU and the rest
          have body : ∀ {start c : Nat} {C : List Atom} {ws1 : WS} {E : List WReq}, Inv data T P start c C rs1 ws1 E → ws1.resets = ws.resets → ws1.runs = ws.runs →
              (0 < ri → ws1.toGo = rs1.toGo + 1) → (1 ≤ c ∨ rs1.eob ≤ 0) →
              start ≤ pos ∧ (NoMarkFrom data pos ∨ Written data T start pos E (Q2 ++ ps)
                ((writeMcu prog P F m ws1).bind fun p => (writeMcus prog P ri F ms { p.2 with toGo := p.2.toGo - 1 }).map fun q => (p.1.map .req ++ q.1, q.2))) := by
            intro start c C ws1 E hi1 e1 e2 e3 e4
            obtain ⟨reqs, ws2, k, C2, s1, s2, s3, s4, s5, s6⟩ := mcu_step hd hm hP m hi1 hmcu hok'.left hpost1 b1.resets b1.runs (by rw [e1, wX]) (by rw [e2, wY])
              (fun x hx => (c1.fromX x hx).1) (fun x hx => (c1.fromY x hx).1)
            have hi2 : Inv data T P start (c + k) C2 rs2 { ws2 with toGo := ws2.toGo - 1 } (E ++ reqs) :=
              ⟨s2.rep, s2.win, s2.good, s2.joint, s2.fit, s2.ok, s2.last, s2.idx, s2.marker⟩
            obtain ⟨t1, t2⟩ := ih hi2 h (hok'.right b2) (fun v hv => hpost v (by rw [List.flatten_cons]; exact List.mem_append_right _ hv))
              (fun m' hm' => hne m' (List.mem_cons_of_mem _ hm')) (by
                intro hri
                show ws2.toGo - 1 = rs2.toGo
                rw [s6, e3 hri, b4]
                omega) (by rw [c1.resets, s4]) (by rw [c1.runs, s5]) c3 (by
                left
                rcases e4 with e4 | e4
                · omega
                · have := s3 hm1 e4
                  omega)
            refine ⟨t1, ?_⟩
            rcases t2 with t2 | ⟨acts, ws3, l, rest, u1, u2, u3, u4, u5⟩
            · exact Or.inl t2
            · refine Or.inr ⟨reqs.map .req ++ acts, ws3, reqs.map (reqPair T) ++ l, rest, ?_, ?_, ?_, u4, ?_⟩
              · rw [s1]
                simp only [Option.bind_some]
                rw [u1]
                rfl
              · rw [List.append_assoc, List.map_append, u2, toAct_reqs, scanActs_append]
              · rw [← List.append_assoc, ← List.map_append]
                exact u3
              · rw [← List.append_assoc, ← List.map_append]
                exact u5
          rw [writeMcus]
          dsimp only
          unfold readMcuHead at hh
          by_cases hri : 0 < ri
          · rw [if_pos hri] at hh
            obtain ⟨rs0, h0, rfl⟩ := Option.map_eq_some_iff.mp hh
            by_cases hz : rs.toGo = 0
            · -- a restart marker
              rw [if_pos hz] at h0
              unfold readRestart at h0
              cases hfin : rs.br.finish data with
              | none => rw [hfin] at h0; cases h0
              | some q =>
                obtain ⟨ps1, pos1⟩ := q
                rw [hfin] at h0
                dsimp only at h0
                split at h0
                · cases h0
                · rename_i g1
                  split at h0
                  · cases h0
                  · rename_i g2
                    split at h0
                    · cases h0
                    · rename_i g3
                      cases h0
                      push Not at g1 g2 g3
                      have hc : 1 ≤ c := by
                        rcases hc with hc | hc
                        · exact hc
                        · omega
                      obtain ⟨f1, f2⟩ := hi.flush g3
                      obtain ⟨i1, i2⟩ := interval_bytes hd hi.rep hc hi.win hfin f2
                      rcases i2 with i2 | i2
                      · exfalso
                        have := i2 pos1 i1 g1.1 g1.2
                        omega
                      · have hhead : writeMcuHead ri ws = (ws.cs.flush.1.map .req ++ [.restart ws.marker],
                            { ws with cs := ws.cs.flush.2, marker := (ws.marker + 1) % 8, toGo := ri, last := fun _ => 0 }) := by
                          unfold writeMcuHead
                          rw [if_pos ⟨hri, by rw [hgo hri, hz]⟩]
                        rw [hhead]
                        dsimp only
                        have hinv : Inv data T P (pos1 + 2) 0 [] { rs with br := JR.reset data (pos1 + 2), marker := (rs.marker + 1) % 8, toGo := ri - 1, last := fun _ => 0, eob := -1, pads := rs.pads ++ ps1 }
                            { ws with cs := ws.cs.flush.2, marker := (ws.marker + 1) % 8, toGo := ri, last := fun _ => 0 } [] := by
                          constructor
                          · exact JR.reset_rep hd _
                          · exact window_zero _ _ _
                          · intro v t hv; cases hv
                          · constructor
                            · exact (CS.flush_wf _).1
                            · show 0 < _; omega
                            · exact Nat.zero_le _
                            · exact fun _ => rfl
                            · exact fun _ => ⟨rfl, by show (-1 : Int) ≤ 0; omega⟩
                            · intro _; rw [CS.flush_pending]; rfl
                            · intro hc; exact absurd hc (by show ¬ (0 : Int) < -1; omega)
                          · exact f1.fit
                          · exact ReqsOk.nil
                          · rfl
                          · exact hi.idx
                          · show (ws.marker + 1) % 8 = (rs.marker + 1) % 8
                            rw [hi.marker]
                        obtain ⟨t1, t2⟩ := body hinv rfl rfl (by intro _; show ri = ri - 1 + 1; omega) (Or.inr (by show (-1 : Int) ≤ 0; omega))
                        refine ⟨by omega, ?_⟩
                        rcases t2 with t2 | ⟨acts, ws3, l, rest, u1, u2, u3, u4, u5⟩
                        · exact Or.inl t2
                        · right
                          obtain ⟨p, hp1, hp2⟩ := Option.bind_eq_some_iff.mp u1
                          obtain ⟨q, hq1, hq2⟩ := Option.map_eq_some_iff.mp hp2
                          have eQ : Q = ps1 ++ Q2 := by
                            rw [c3, b3] at hQ
                            simp only [List.append_assoc] at hQ
                            exact (List.append_cancel_left hQ).symm
                          refine ⟨ws.cs.flush.1.map .req ++ [.restart ws.marker] ++ acts, ws3, ws.cs.flush.1.map (reqPair T), (ws.marker, l) :: rest, ?_, ?_, ?_, ?_, ?_⟩
                          · rw [hp1]
                            simp only [Option.bind_some]
                            rw [hq1]
                            cases hq2
                            simp only [Option.map_some, List.append_assoc]
                          · rw [List.append_assoc, List.append_assoc, List.map_append, List.map_append, u2, toAct_reqs]
                            simp [scanActs, WAct.toAct]
                          · rw [← List.map_append]
                            exact f1.good_bits
                          · intro r hr
                            rcases List.mem_cons.mp hr with hr | hr
                            · rw [hr]; exact u3
                            · exact u4 r hr
                          · intro p p' hp
                            rw [eQ, List.append_assoc] at hp
                            obtain ⟨pm, hp1, hp2⟩ := hp.split
                            obtain ⟨j1, j2, j3⟩ := i2 p pm hp1
                            have := u5 pm p' hp2
                            rw [List.map_nil, List.nil_append] at this
                            rw [← List.map_append, entropy, if_pos j1, j3, this, j2]
                            simp only [Option.map_some]
                            rw [slice_append (a := start) (b := pos1) (c := pos) i1 (by omega), slice_append (a := pos1) (b := pos1 + 2) (c := pos) (by omega) t1, slice_two, g1.2, g2, hi.marker]
            · rw [if_neg hz] at h0
              cases h0
              have hhead : writeMcuHead ri ws = ([], ws) := by
                unfold writeMcuHead
                rw [if_neg]
                rw [hgo hri]
                exact fun h => hz h.2
              rw [hhead]
              have eQ : Q2 = Q := by
                rw [c3, b3] at hQ
                exact List.append_cancel_left hQ
              rw [← eQ]
              refine body (c := c) (C := C) ⟨hi.rep, hi.win, hi.good, hi.joint, hi.fit, hi.ok, hi.last, hi.idx, hi.marker⟩ rfl rfl (by
                intro _
                show ws.toGo = rs.toGo - 1 + 1
                rw [hgo hri]
                omega) ?_
              rcases hc with hc | hc
              · exact Or.inl hc
              · exact Or.inr hc.2.2
          · rw [if_neg hri] at hh
            cases hh
            have hhead : writeMcuHead ri ws = ([], ws) := by
              unfold writeMcuHead
              rw [if_neg]
              exact fun h => hri h.1
            rw [hhead]
            have eQ : Q2 = Q := by
              rw [c3, b3] at hQ
              exact List.append_cancel_left hQ
            rw [← eQ]
            refine body hi rfl rfl (fun h => absurd h hri) ?_
            rcases hc with hc | hc
            · exact Or.inl hc
            · exact Or.inr hc.2.2

/-- **Scans are written back as read.**  For a scan that the reader accepts, the writer produces the bytes the reader consumed, unless the
rest of the file is without markers. -/
theorem scan_rewrites {data : List Nat} (hd : Bytes data) {lut : HSlot → JMem} {T : HSlot → CodeTable} (hm : Match lut T) {prog : Bool} {P : SP} (hP : P.Ok prog) {ri : Nat}
    {F : Coefs} {mcus : List (List Visit)} {start pos : Nat} {coefs : Coefs} {pads0 : List Bool} {st : RS}
    (h : readScanData data lut P ri mcus start coefs pads0 = some (st, pos)) (hok : VisitsOk P F coefs st.coefs mcus.flatten) (hne : ∀ m ∈ mcus, m ≠ []) (hms : mcus ≠ []) :
    start ≤ pos ∧ pos ≤ data.length ∧ ∃ X, st.pads = pads0 ++ X ∧ (NoMarkFrom data pos ∨
      ∃ as l rest, scanCalls prog P ri F mcus st.resets st.runs = some as ∧ as.map (WAct.toAct T) = scanActs l rest ∧ GoodBits l ∧ (∀ r ∈ rest, GoodBits r.2) ∧
        ∀ p p', PadsFor X p p' → entropy p l rest = some (slice data start pos, p')) := by
  unfold readScanData at h
  cases hr : readMcus data lut P ri mcus (RS.start data ri start coefs pads0) with
  | none => rw [hr] at h; cases h
  | some fin =>
    rw [hr] at h
    dsimp only at h
    split at h
    · cases h
    · rename_i he
      cases hf : fin.br.finish data with
      | none => rw [hf] at h; cases h
      | some q =>
        obtain ⟨ps, pos'⟩ := q
        rw [hf] at h
        dsimp only at h
        split at h
        · cases h
        · rename_i hlen
          cases h
          obtain ⟨⟨X, Y, a1⟩, -, Q, a3⟩ := readMcus_added _ hr
          have hi : Inv data T P start 0 [] (RS.start data ri start coefs pads0) (WS.start ri fin.resets fin.runs) [] := by
            constructor
            · exact JR.reset_rep hd _
            · exact window_zero _ _ _
            · intro v t hv; cases hv
            · constructor
              · exact (show CS.init.Wf from rfl)
              · show 0 < _; omega
              · exact Nat.zero_le _
              · exact fun _ => rfl
              · exact fun _ => ⟨rfl, by show (-1 : Int) ≤ 0; omega⟩
              · intro _; rw [CS.pending_empty rfl rfl]; rfl
              · intro hc; exact absurd hc (by show ¬ (0 : Int) < -1; omega)
            · constructor
              · exact (show CS.init.Wf from rfl)
              · exact Nat.zero_le _
              · intro w hw; cases hw
              · intro hc; exact absurd rfl hc
              · show 0 < _; omega
            · exact ReqsOk.nil
            · rfl
            · rfl
            · rfl
          obtain ⟨t1, t2⟩ := mcus_write hd hm hP (F := F) (post := fin.coefs) (by omega) hf mcus hi hr hok (fun _ _ => rfl) hne (fun _ => rfl) rfl rfl a3 (by
            right
            refine ⟨hms, ?_, by show (-1 : Int) ≤ 0; omega⟩
            show ri = 0 ∨ ri ≠ 0
            omega)
          refine ⟨t1, by omega, Q ++ ps, ?_, ?_⟩
          · show fin.pads ++ ps = _
            rw [a3, List.append_assoc]
            rfl
          · rcases t2 with t2 | ⟨acts, ws3, l, rest, u1, u2, u3, u4, u5⟩
            · exact Or.inl t2
            · refine Or.inr ⟨_, l, rest, ?_, u2, u3, u4, u5⟩
              unfold scanCalls
              show (writeMcus prog P ri F mcus (WS.start ri fin.resets fin.runs)).map _ = _
              rw [u1]
              rfl

/-- The same for the bytes that the writer appends. -/
theorem scan_writes_back {data : List Nat} (hd : Bytes data) {lut : HSlot → JMem} {T : HSlot → CodeTable} (hm : Match lut T) {prog : Bool} {P : SP} (hP : P.Ok prog) {ri : Nat}
    {F : Coefs} {mcus : List (List Visit)} {start pos : Nat} {coefs : Coefs} {pads0 : List Bool} {st : RS}
    (h : readScanData data lut P ri mcus start coefs pads0 = some (st, pos)) (hok : VisitsOk P F coefs st.coefs mcus.flatten) (hne : ∀ m ∈ mcus, m ≠ []) (hms : mcus ≠ []) :
    start ≤ pos ∧ pos ≤ data.length ∧ ∃ X, st.pads = pads0 ++ X ∧ (NoMarkFrom data pos ∨
      ∀ p p', PadsFor X p p' → ∀ queue, ∃ w, writeScanData T prog P ri F mcus st.resets st.runs (BW.init queue) p = .ok (w, p') ∧
        w.finish.flatten = queue.flatten ++ slice data start pos) := by
  obtain ⟨h1, h2, X, h3, h4⟩ := scan_rewrites hd hm hP h hok hne hms
  refine ⟨h1, h2, X, h3, ?_⟩
  rcases h4 with h4 | ⟨as, l, rest, g1, g2, g3, g4, g5⟩
  · exact Or.inl h4
  · right
    intro p p' hp queue
    have hs := scan_writes rest (w := BW.init queue) (pads := p) (ws := l) rfl rfl (by simp [BW.init]) g3 g4
    rw [g5 p p' hp] at hs
    obtain ⟨w', e1, e2, e3, -⟩ := hs
    have e3' : w'.healthy = true := by rw [e3]; rfl
    refine ⟨w', ?_, ?_⟩
    · unfold writeScanData
      rw [g1]
      dsimp only
      rw [g2, e1]
      simp only [Run.bind]
      rw [if_pos e3']
    · rw [BW.finish_flatten, e2]
      simp [BW.out, BW.init]

end Brunsli
