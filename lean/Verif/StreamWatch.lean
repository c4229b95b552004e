import Verif.StreamLeads
import Verif.E2E
/-!
# The views are of the final image

What the writer sees in a stage on the way to the image `f` is, as far as the writer relies on it, the same as in the JPEG data of `f`.
-/

namespace Brunsli

/-! ## Components -/

theorem decComps_bare (h : Header) : ∀ (cs : List (Nat × Nat)) (ids qs : List Nat) (a b : List (List Int)), a.length = b.length →
    (decComps h cs ids qs a).map Component.bare = (decComps h cs ids qs b).map Component.bare
  | [], _, _, _, _, _ => by simp [decComps]
  | _ :: _, [], _, _, _, _ => by simp [decComps]
  | _ :: _, _ :: _, [], _, _, _ => by simp [decComps]
  | _ :: _, _ :: _, _ :: _, [], [], _ => by simp [decComps]
  | _ :: _, _ :: _, _ :: _, [], _ :: _, e => by simp at e
  | _ :: _, _ :: _, _ :: _, _ :: _, [], e => by simp at e
  | c :: cs, i :: ids, q :: qs, x :: a, y :: b, e => by
    simp only [decComps, List.map_cons]
    rw [decComps_bare h cs ids qs a b (by simpa using e)]
    rfl

theorem decComps_get (h : Header) : ∀ (cs : List (Nat × Nat)) (ids qs : List Nat) (a : List (List Int)) (c : Nat) (x : Component), (decComps h cs ids qs a)[c]? = some x →
    cs[c]? = some (x.hSamp, x.vSamp) ∧ a[c]? = some x.coeffs ∧ x.width = h.mcuCols * x.hSamp ∧ x.height = h.mcuRows * x.vSamp
  | [], _, _, _, _, _, e => by simp [decComps] at e
  | _ :: _, [], _, _, _, _, e => by simp [decComps] at e
  | _ :: _, _ :: _, [], _, _, _, e => by simp [decComps] at e
  | _ :: _, _ :: _, _ :: _, [], _, _, e => by simp [decComps] at e
  | c :: cs, i :: ids, q :: qs, x :: a, 0, y, e => by
    simp only [decComps, List.getElem?_cons_zero, Option.some.injEq] at e
    subst e
    exact ⟨rfl, rfl, rfl, rfl⟩
  | c :: cs, i :: ids, q :: qs, x :: a, n + 1, y, e => by
    simp only [decComps, List.getElem?_cons_succ] at e ⊢
    exact decComps_get h cs ids qs a n y e

theorem decComps_length (h : Header) : ∀ (cs : List (Nat × Nat)) (ids qs : List Nat) (a : List (List Int)), (decComps h cs ids qs a).length ≤ cs.length ∧ (decComps h cs ids qs a).length ≤ a.length
  | [], _, _, _ => by simp [decComps]
  | _ :: _, [], _, _ => by simp [decComps]
  | _ :: _, _ :: _, [], _ => by simp [decComps]
  | _ :: _, _ :: _, _ :: _, [] => by simp [decComps]
  | c :: cs, i :: ids, q :: qs, x :: a => by
    have := decComps_length h cs ids qs a
    simp only [decComps, List.length_cons]
    omega

theorem decComps_factors (h : Header) {cs : List (Nat × Nat)} {ids qs : List Nat} {a : List (List Int)} (hl : (decComps h cs ids qs a).length = cs.length) :
    (decComps h cs ids qs a).map (fun x => (x.hSamp, x.vSamp)) = cs := by
  apply List.ext_getElem? 
  intro c
  rw [List.getElem?_map]
  cases e : (decComps h cs ids qs a)[c]? with
  | none =>
    rw [List.getElem?_eq_none_iff, hl] at e
    rw [List.getElem?_eq_none_iff.mpr e]; rfl
  | some x => rw [(decComps_get h cs ids qs a c x e).1]; rfl

/-- The data of an image that was read. -/
structure SectState.Result (f : SectState) (J : JpegData) : Prop where
  final : f.Final
  result : f.result = some J
  all : J.components.length = f.header.comps.length

theorem SectState.Result.dims {f : SectState} {J : JpegData} (h : f.Result J) : J.mcuRows = f.header.mcuRows ∧ J.Whole := by
  obtain ⟨_, hr, hl⟩ := h
  unfold SectState.result at hr
  split at hr
  · rename_i x tabs idx imgs e1 e2 e3
    simp only [Option.some.injEq] at hr
    have hc : J.components = decComps f.header f.header.comps x.ids idx imgs := by rw [← hr]
    have hw : J.width = f.header.width := by rw [← hr]
    have hh : J.height = f.header.height := by rw [← hr]
    rw [hc] at hl
    have hf := decComps_factors f.header hl
    have hv : maxV J.components = maxFactor (f.header.comps.map Prod.snd) := by
      unfold maxV
      rw [hc, ← congrArg (List.map Prod.snd) hf, List.map_map]
      rfl
    have hh' : maxH J.components = maxFactor (f.header.comps.map Prod.fst) := by
      unfold maxH
      rw [hc, ← congrArg (List.map Prod.fst) hf, List.map_map]
      rfl
    have er : J.mcuRows = f.header.mcuRows := by
      unfold JpegData.mcuRows Header.mcuRows
      rw [hv, hh, Nat.mul_comm 8]
    refine ⟨er, fun c x hx => ?_⟩
    rw [hc] at hx
    obtain ⟨_, _, h3, h4⟩ := decComps_get _ _ _ _ _ _ _ hx
    refine ⟨?_, by rw [er, h4]⟩
    rw [h3, hh', hw, Nat.mul_comm 8]
    rfl
  · cases hr

theorem metas_sub {h : Header} {schemes : List Nat} {c : Nat} {m : Meta} (hm : (metas h schemes)[c]? = some m) :
    ∃ p, h.comps[c]? = some p ∧ m.w = h.mcuCols * p.1 ∧ m.vs = p.2 := by
  unfold metas at hm
  rw [metasFrom_get, List.getElem?_map] at hm
  cases e : (h.comps.zip schemes)[c]? with
  | none => rw [e] at hm; cases hm
  | some x =>
    rw [e] at hm
    obtain ⟨h1, _⟩ := List.getElem?_zip_eq_some.mp e
    cases hm
    exact ⟨x.1, h1, rfl, rfl⟩

theorem metas_le (h : Header) (schemes : List Nat) : (metas h schemes).length ≤ h.comps.length := by
  unfold metas
  rw [metasFrom_length, List.length_map, List.length_zip]
  omega

/-- What `a` shows of the first `R` MCU rows of the planes `b`. -/
def Shows (ms : List Meta) (dcOnly : Bool) (R : Nat) (a b : List (List Int)) : Prop := R = 0 ∨
  ∀ (c : Nat) (m : Meta) (p : List Int), ms[c]? = some m → a[c]? = some p → ∃ q, b[c]? = some q ∧ p.length = q.length ∧
    ∀ i, i / 64 < R * m.vs * m.w → (dcOnly = true → i % 64 = 0) → p[i]? = q[i]?

theorem Settled.shows {rows : Nat} {ms : List Meta} {ac : Bool} {e : Seen} {b : List (List Int)} (h : Settled rows ms ac e b) (d : Bool) : Shows ms d e.row e.coeffs b :=
  .inr fun c m p hm hp => by
    obtain ⟨q, h1, h2, h3⟩ := h.same c m p hm hp
    exact ⟨q, h1, h2, fun i hi _ => h3 i (.inl hi)⟩

theorem Settled.showsDc {rows : Nat} {ms : List Meta} {e : Seen} {b : List (List Int)} (h : Settled rows ms true e b) (R : Nat) : Shows ms true R e.coeffs b :=
  .inr fun c m p hm hp => by
    obtain ⟨q, h1, h2, h3⟩ := h.same c m p hm hp
    exact ⟨q, h1, h2, fun i _ hd => h3 i (.inr ⟨rfl, hd rfl⟩)⟩

theorem Shows.trans {ms : List Meta} {d : Bool} {R : Nat} {a b c : List (List Int)} (h1 : Shows ms d R a b) (h2 : Shows ms d R b c) : Shows ms d R a c := by
  rcases h1 with h1 | h1
  · exact .inl h1
  rcases h2 with h2 | h2
  · exact .inl h2
  refine .inr fun k m p hm hp => ?_
  obtain ⟨q, e1, l1, g1⟩ := h1 k m p hm hp
  obtain ⟨r, e2, l2, g2⟩ := h2 k m q hm e1
  exact ⟨r, e2, l1.trans l2, fun i hi hd => (g1 i hi hd).trans (g2 i hi hd)⟩

theorem Settled.self (rows : Nat) (ms : List Meta) (a : List (List Int)) : Settled rows ms true ⟨0, a⟩ a :=
  ⟨.inl rfl, rfl, fun _ _ p _ hp => ⟨p, hp, rfl, fun _ _ => rfl⟩⟩

/-! ## The views -/

theorem natural_zero : naturalOrder.getD 0 0 = 0 := by decide +kernel

/-- The rows that are shown are seen. -/
theorem Shows.rows {f s : SectState} {J : JpegData} (h : f.Result J) {met : List Nat} {e : Seen} {imgs : List (List Int)} (hi : f.ac = some imgs)
    (he : s.header = f.header ∧ s.internals = f.internals ∧ s.quant = f.quant) (hl : e.coeffs.length = imgs.length) {R : Nat} {d : Bool} (hR : R ≤ f.header.mcuRows)
    (hs : Shows f.metas d R e.coeffs imgs) : (s.view met e).HasRows J R d := by
  obtain ⟨⟨dc, imgs', hd, hi', hsz, hset⟩, hr, hall⟩ := h
  rw [hi] at hi'; cases hi'
  rcases hs with rfl | hs
  · intro c x r k _ hr _; simp at hr
  intro c x r k hx hrk hk
  unfold SectState.result at hr
  split at hr
  · rename_i y tabs idx imgs' e1 e2 e3
    rw [hi] at e3; cases e3
    simp only [Option.some.injEq] at hr
    have hc : J.components = decComps f.header f.header.comps y.ids idx imgs := by rw [← hr]
    have hx' := hx
    rw [hc] at hx'
    obtain ⟨g1, g2, g3, g4⟩ := decComps_get _ _ _ _ _ _ _ hx'
    have hv : (s.view met e).jpg.components = decComps f.header f.header.comps y.ids idx e.coeffs := by
      unfold SectState.view SectState.partJpeg
      simp only [he.1, he.2.1, he.2.2, e1, e2, Option.getD_some]
    have hcl : c < J.components.length := (List.getElem?_eq_some_iff.mp hx).1
    have hbare := congrArg (fun l : List Component => l[c]?) (decComps_bare f.header f.header.comps y.ids idx e.coeffs imgs hl)
    simp only [List.getElem?_map, hx', Option.map_some] at hbare
    cases hxv : (decComps f.header f.header.comps y.ids idx e.coeffs)[c]? with
    | none => rw [hxv] at hbare; cases hbare
    | some xv =>
      obtain ⟨v1, v2, v3, v4⟩ := decComps_get _ _ _ _ _ _ _ hxv
      have hcm : c < f.metas.length := by
        have h1 := hset.len
        have h2 := hsz.1
        have h3 := (List.getElem?_eq_some_iff.mp g2).1
        dsimp only at h1
        omega
      have hm : f.metas[c]? = some (f.metas[c]) := List.getElem?_eq_getElem hcm
      generalize f.metas[c] = m at hm
      obtain ⟨q, q1, q2, q3⟩ := hs c m xv.coeffs hm v2
      rw [g2] at q1; cases q1
      have hmw : m.w = x.width ∧ m.vs = x.vSamp := by
        unfold SectState.metas at hm
        split at hm
        · obtain ⟨p, p1, p2, p3⟩ := metas_sub hm
          rw [g1] at p1; cases p1
          exact ⟨by rw [p2, g3], p3⟩
        · simp at hm
      have hlen : x.coeffs.length = m.w * (f.header.mcuRows * m.vs) * 64 := by
        have hcd : c < (dc.map Prod.fst).length := by rw [hsz.1]; exact hcm
        have hp : (dc.map Prod.fst)[c]? = some (dc.map Prod.fst)[c] := List.getElem?_eq_getElem hcd
        obtain ⟨q, w1, w2, _⟩ := hset.same c m _ hm hp
        rw [g2] at w1; cases w1
        rw [← w2]
        exact hsz.2 c m _ hm hp
      have hb : r * x.width + k < R * m.vs * m.w := by
        rw [hmw.1, hmw.2]
        calc r * x.width + k < (r + 1) * x.width := by rw [Nat.add_mul]; omega
          _ ≤ _ := Nat.mul_le_mul_right _ hrk
      refine ⟨?_, fun n hn => ?_⟩
      · rw [hv, hxv]
        show _ ≤ xv.coeffs.length
        rw [q2, hlen]
        have : R * m.vs * m.w ≤ m.w * (f.header.mcuRows * m.vs) := by
          rw [Nat.mul_comm m.w]; exact Nat.mul_le_mul_right _ (Nat.mul_le_mul_right _ hR)
        omega
      · unfold JpegData.coefs
        rw [hv, hxv, hx]
        dsimp only
        split
        · rename_i hn64
          have h64 := (zigzagOf_natural n hn64).2
          have hdiv : (64 * (r * x.width + k) + naturalOrder.getD n 0) / 64 = r * x.width + k := by omega
          have hq := q3 (64 * (r * x.width + k) + naturalOrder.getD n 0) (by rw [hdiv]; exact hb) fun hd => by
            rw [hn hd, natural_zero]
            omega
          generalize 64 * (r * x.width + k) + naturalOrder.getD n 0 = i at hq
          rw [List.getD_eq_getElem?_getD, List.getD_eq_getElem?_getD, hq]
        · rfl
  · cases hr

/-- A view before the end. -/
theorem SectState.view_of {f s : SectState} {J : JpegData} (h : f.Result J) {met : List Nat} {e : Seen} {imgs : List (List Int)} (hi : f.ac = some imgs)
    (he : s.header = f.header ∧ s.internals = f.internals ∧ s.quant = f.quant) (hm : s.metadata = f.metadata) (hl : e.coeffs.length = imgs.length)
    (hrow : e.row = 0 ∨ e.row < f.header.mcuRows) (h7 : 8 ∉ met → Shows f.metas true e.row e.coeffs imgs)
    (h8 : 8 ∈ met → Shows f.metas true f.header.mcuRows e.coeffs imgs ∧ Shows f.metas false e.row e.coeffs imgs) : (s.view met e).Of J := by
  have hd := h.dims.1
  have hle : e.row ≤ f.header.mcuRows := by omega
  refine ⟨?_, nofun, (by rw [hd]; exact hrow), fun _ hh => Shows.rows h hi he hl hle (h7 hh),
    fun hh => (by rw [hd]; exact Shows.rows h hi he hl (Nat.le_refl _) (h8 hh).1), fun hh => Shows.rows h hi he hl hle (h8 hh).2⟩
  have hr := h.result
  unfold SectState.result at hr
  split at hr
  · rename_i y tabs idx imgs' e1 e2 e3
    rw [hi] at e3; cases e3
    simp only [Option.some.injEq] at hr
    rw [← hr]
    unfold SectState.view SectState.partJpeg JpegData.bare
    simp only [he.1, he.2.1, he.2.2, e1, e2, Option.getD_some, hm]
    rw [decComps_bare f.header f.header.comps y.ids idx e.coeffs imgs hl]
  · cases hr

/-- Between sections, with the DC section read. -/
theorem Between.view_of {f s : SectState} {J : JpegData} (h : f.Result J) {m met : List Nat} (hb : Between m s) (h7 : 7 ∈ m) (he : Ext m s f)
    (hm : s.metadata = f.metadata) : (s.view met s.seen).Of J := by
  obtain ⟨dc, imgs, hd, hi, hsz, hset⟩ := h.final
  obtain ⟨h4, h5, h6⟩ := hb.closed.dc h7
  have e : s.seen = ⟨0, dc.map Prod.fst⟩ := by
    unfold SectState.seen
    rw [he.dc h7, hd]
  rw [e]
  exact SectState.view_of h hi ⟨he.header, he.internals h4, he.quant h5⟩ hm hset.len (.inl rfl) (fun _ => .inl rfl) fun _ => ⟨hset.showsDc _, .inl rfl⟩

/-- In all stages before the end. -/
theorem FileSt.view_of {z : Inflater} {f : SectState} {J : JpegData} (h : f.Result J) (hl : f.late = false) {s : FileSt z} (hi : s.Inv) (hf : s.Fwd) (hb : s.Leads f)
    (hs : s.view.canStart = true) : s.view.Of J := by
  have can : ∀ {met : List Nat} {s : SectState} {e : Seen}, (s.view met e).canStart = true → 7 ∈ met ∨ 8 ∈ met := by
    intro met s e h
    simpa [View.canStart, SectState.view] using h
  have mid : ∀ {met : List Nat} {s : SectState}, Between met s → Ext met s f ∧ MetaKnown met s f → (s.view met s.seen).canStart = true → (s.view met s.seen).Of J := by
    intro met s hb he hs
    have h78 := can hs
    have h7 : 7 ∈ met := h78.elim id hb.closed.ac
    exact hb.view_of h h7 he.1 (he.2 hl h78)
  have sub : ∀ {tag : Nat} {m : List Nat} {s : SectState}, tag ≠ 7 → tag ≠ 8 → Between m s → Ext m s f → MetaKnown (tag :: m) s f →
      (s.view (tag :: m) s.seen).canStart = true → (s.view (tag :: m) s.seen).Of J := by
    intro tag m s t7 t8 hb he hm hs
    have h78 := can hs
    have h7 : 7 ∈ m := h78.elim (fun h => (List.mem_cons.mp h).resolve_left (Ne.symm t7)) fun h => hb.closed.ac ((List.mem_cons.mp h).resolve_left (Ne.symm t8))
    exact hb.view_of h h7 he (hm hl h78)
  obtain ⟨dc, imgs, hd, ha, hsz, hset⟩ := h.final
  have himgs : imgs.length = f.header.comps.length := by
    have h1 := hset.len
    have h2 := hsz.1
    dsimp only at h1
    have h3 : f.metas.length ≤ f.header.comps.length := by
      unfold SectState.metas
      split
      · exact metas_le _ _
      · simp
    have h4 := h.all
    have hr := h.result
    unfold SectState.result at hr
    split at hr
    · rename_i y tabs idx imgs' e1 e2 e3
      rw [ha] at e3; cases e3
      simp only [Option.some.injEq] at hr
      have h5 := (decComps_length f.header f.header.comps y.ids idx imgs).2
      rw [← hr] at h4
      dsimp only at h4
      omega
    · cases hr
  cases s with
  | signature => cases hs
  | headTag met => cases hs
  | headSize met => cases hs
  | itemTag size pos met imet vals => cases hs
  | itemSize size pos met imet vals => cases hs
  | itemSkip left size pos met imet vals => cases hs
  | itemValue tag size pos met imet vals => cases hs
  | origTag met => cases hs
  | origSize => cases hs
  | origData left storage => cases hs
  | ended c => cases hs
  | sectTag met s => exact mid hf hb hs
  | sectValue met s => exact mid hf hb hs
  | sectSkip left met s => exact mid hf hb hs
  | sectSize tag met s =>
    obtain ⟨m, rfl, hbt⟩ := hf
    obtain ⟨he, hm, hreq⟩ := hb
    have hn := (List.nodup_cons.mp hi.1.1).1
    by_cases t7 : tag = 7
    · subst t7
      have e5 : 5 ∈ m := (List.mem_cons.mp (hreq 5 (by decide))).resolve_left (by decide)
      have e4 : 4 ∈ m := hbt.closed 5 e5 4 (by decide)
      have n8 : 8 ∉ 7 :: m := fun x => hn (hbt.closed.ac ((List.mem_cons.mp x).resolve_left (by decide)))
      have e : s.seen = ⟨0, List.replicate f.header.comps.length []⟩ := by
        unfold SectState.seen
        rw [hbt.noDc hn, he.header]
      show (s.view (7 :: m) s.seen).Of J
      rw [e]
      exact SectState.view_of h ha ⟨he.header, he.internals e4, he.quant e5⟩ (hm hl (.inl List.mem_cons_self)) (by simp [himgs]) (.inl rfl) (fun _ => .inl rfl)
        fun x => absurd x n8
    · by_cases t8 : tag = 8
      · subst t8
        have e7 : 7 ∈ m := (List.mem_cons.mp (hreq 7 (by decide))).resolve_left (by decide)
        exact hbt.view_of h e7 he (hm hl (.inr List.mem_cons_self))
      · exact sub t7 t8 hbt he hm hs
  | sectBody rem tag t met s =>
    obtain ⟨m, rfl, hbt, hc, hbf⟩ := hf
    obtain ⟨he, hm, hld⟩ := hb
    have he : Ext m s f := he
    have hn := (List.nodup_cons.mp hi.1.1).1
    cases t with
    | metadata t => have e : tag = 3 := hbf; exact sub (by omega) (by omega) hbt he hm hs
    | internals t => have e : tag = 4 := hbf; exact sub (by omega) (by omega) hbt he hm hs
    | quant t => have e : tag = 5 := hbf; exact sub (by omega) (by omega) hbt he hm hs
    | hist t => have e : tag = 6 := hbf; exact sub (by omega) (by omega) hbt he hm hs
    | dc t =>
      obtain ⟨rfl, _, hsd⟩ := hbf
      obtain ⟨a, ha', hq⟩ := hld
      rw [hd] at ha'; cases ha'
      have mem : ∀ x ∈ 7 :: m, x ≠ 7 → x ∈ m := fun x hx h => (List.mem_cons.mp hx).resolve_left h
      obtain ⟨c4, c5, c6⟩ := hc.dc List.mem_cons_self
      have n8 : 8 ∉ 7 :: m := fun x => hn (hbt.closed.ac (mem 8 x (by decide)))
      have hme : s.metas = f.metas ∧ s.header.mcuRows = f.header.mcuRows := by
        unfold SectState.metas
        rw [he.header, he.hist (mem 6 c6 (by decide))]
        exact ⟨rfl, rfl⟩
      rw [hme.1, hme.2] at hsd
      have fin : ∀ e : Seen, Settled f.header.mcuRows f.metas false e (dc.map Prod.fst) → (s.view (7 :: m) e).Of J := fun e hse =>
        SectState.view_of h ha ⟨he.header, he.internals (mem 4 c4 (by decide)), he.quant (mem 5 c5 (by decide))⟩ (hm hl (.inl List.mem_cons_self))
          (hse.len.trans hset.len) hse.row (fun _ => (hse.shows true).trans (hset.showsDc _)) fun x => absurd x n8
      have hst : t.prog.Stops := hi.2.2.2.2.2.1
      show (s.view (7 :: m) (t.prog.seen (List.map Prod.fst))).Of J
      revert hsd hq hst
      cases t.prog with
      | ret a =>
        intro hsd hq _
        have e : a = dc := (hq (fun x => a = x) rfl)
        subst e
        exact fin _ ⟨.inl rfl, rfl, fun _ _ p _ hp => ⟨p, hp, rfl, fun _ _ => rfl⟩⟩
      | fail => intro _ hq _; exact (hq (fun _ => False) trivial).elim
      | ub => intro _ hq _; exact (hq (fun _ => False) trivial).elim
      | need n e k => intro hsd hq _; exact fin e (hq _ hsd.1)
      | op o k => intro _ _ hst; exact hst.elim
    | ac t =>
      obtain ⟨rfl, _, _, _, hsd⟩ := hbf
      obtain ⟨a, ha', hq⟩ := hld
      rw [ha] at ha'; cases ha'
      have mem : ∀ x ∈ 8 :: m, x ≠ 8 → x ∈ m := fun x hx h => (List.mem_cons.mp hx).resolve_left h
      obtain ⟨c4, c5, c6⟩ := hc.dc (hc.ac List.mem_cons_self)
      have hme : s.metas = f.metas ∧ s.header.mcuRows = f.header.mcuRows := by
        unfold SectState.metas
        rw [he.header, he.hist (mem 6 c6 (by decide))]
        exact ⟨rfl, rfl⟩
      rw [hme.1, hme.2] at hsd
      have fin : ∀ e : Seen, Settled f.header.mcuRows f.metas true e imgs → (s.view (8 :: m) e).Of J := fun e hse =>
        SectState.view_of h ha ⟨he.header, he.internals (mem 4 c4 (by decide)), he.quant (mem 5 c5 (by decide))⟩ (hm hl (.inr List.mem_cons_self))
          hse.len hse.row (fun x => absurd List.mem_cons_self x) fun x => ⟨hse.showsDc _, hse.shows false⟩
      have hst : t.prog.Stops := hi.2.2.2.2.2.1
      show (s.view (8 :: m) (t.prog.seen id)).Of J
      revert hsd hq hst
      cases t.prog with
      | ret a =>
        intro hsd hq _
        have e : a = imgs := (hq (fun x => a = x) rfl)
        subst e
        exact fin _ (Settled.self _ _ _)
      | fail => intro _ hq _; exact (hq (fun _ => False) trivial).elim
      | ub => intro _ hq _; exact (hq (fun _ => False) trivial).elim
      | need n e k => intro hsd hq _; exact fin e (hq _ hsd.1)
      | op o k => intro _ _ hst; exact hst.elim

/-- In all states of the parser. -/
theorem fileView_of {z : Inflater} {f : SectState} {J : JpegData} (h : f.Result J) (hl : f.late = false) {s : PSt (FileSt z)} (hi : s.Ok) (hb : s.Leads f)
    (hs : (fileView s).canStart = true) : (fileView s).Of J := by
  cases s with
  | working s => exact FileSt.view_of h hl hi.1 hi.2 hb hs
  | paused s => exact FileSt.view_of h hl hi.1 hi.2 hb hs
  | dead s c => exact hb.elim
  | done s =>
    cases s with
    | ended c =>
      cases c with
      | original o => exact hb.elim
      | image g =>
        have e : g = f := hb
        subst e
        have ev : fileView (z := z) (.done (.ended (.image g))) = ⟨true, [], J, none, 0⟩ := by
          show View.mk true [] (g.result.getD noJpeg) none 0 = _
          rw [h.result]; rfl
        rw [ev]
        exact ⟨rfl, fun _ => rfl, .inl rfl, nofun, nofun, nofun⟩
    | signature => exact FileSt.view_of h hl hi.1 hi.2 hb hs
    | headTag met => exact FileSt.view_of h hl hi.1 hi.2 hb hs
    | headSize met => exact FileSt.view_of h hl hi.1 hi.2 hb hs
    | itemTag size pos met imet vals => exact FileSt.view_of h hl hi.1 hi.2 hb hs
    | itemSize size pos met imet vals => exact FileSt.view_of h hl hi.1 hi.2 hb hs
    | itemSkip left size pos met imet vals => exact FileSt.view_of h hl hi.1 hi.2 hb hs
    | itemValue tag size pos met imet vals => exact FileSt.view_of h hl hi.1 hi.2 hb hs
    | origTag met => exact FileSt.view_of h hl hi.1 hi.2 hb hs
    | origSize => exact FileSt.view_of h hl hi.1 hi.2 hb hs
    | origData left storage => exact FileSt.view_of h hl hi.1 hi.2 hb hs
    | sectTag met s => exact FileSt.view_of h hl hi.1 hi.2 hb hs
    | sectValue met s => exact FileSt.view_of h hl hi.1 hi.2 hb hs
    | sectSkip left met s => exact FileSt.view_of h hl hi.1 hi.2 hb hs
    | sectSize tag met s => exact FileSt.view_of h hl hi.1 hi.2 hb hs
    | sectBody rem tag t met s => exact FileSt.view_of h hl hi.1 hi.2 hb hs

end Brunsli
