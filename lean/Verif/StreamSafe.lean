import Verif.StreamKnown
import Verif.StreamDecode
/-!
# The writer is well defined whatever bytes arrive

What the writer is shown by the parser meets the conditions of `WriterSafe.lean`, for every input and at every time, if the DC coefficients are less than 2^14 in
absolute value and the tag of an AC section is not taken for the section.
-/

namespace Brunsli

/-! ## What the writer is shown -/

theorem decComps_all (h : Header) : ∀ (cs : List (Nat × Nat)) (ids qs : List Nat) (a : List (List Int)), ids.length = cs.length → qs.length = cs.length → a.length = cs.length →
    (decComps h cs ids qs a).length = cs.length
  | [], _, _, _, _, _, _ => by simp [decComps]
  | _ :: _, [], _, _, h, _, _ => by simp at h
  | _ :: _, _ :: _, [], _, _, h, _ => by simp at h
  | _ :: _, _ :: _, _ :: _, [], _, _, h => by simp at h
  | c :: cs, i :: ids, q :: qs, x :: a, h1, h2, h3 => by
    simp only [decComps, List.length_cons] at *
    rw [decComps_all h cs ids qs a (by omega) (by omega) (by omega)]

/-- The coefficients shown are right; `all` says that all have to be there. -/
structure Seen.Right (s : SectState) (all : Prop) (e : Seen) : Prop where
  length : e.coeffs.length = s.header.comps.length
  row : e.row = 0 ∨ (e.row < s.header.mcuRows ∧ Planes s.header.mcuRows s.metas e.coeffs)
  full : all → Planes s.header.mcuRows s.metas e.coeffs
  small : ∀ p ∈ e.coeffs, AcBound p

theorem partJpeg_count {s : SectState} {m : List Nat} (hk : s.Known m) {imgs : List (List Int)} (hl : imgs.length = s.header.comps.length) :
    (s.partJpeg imgs).components.length = s.header.comps.length := by
  refine decComps_all _ _ _ _ _ ?_ ?_ hl
  · cases h : s.internals with
    | none => simp
    | some x => exact (hk.internals x h).ids
  · cases h : s.quant with
    | none => simp
    | some q => exact (hk.quant q h).count

theorem partJpeg_dims {s : SectState} {imgs : List (List Int)} (hl : (s.partJpeg imgs).components.length = s.header.comps.length) :
    (s.partJpeg imgs).mcuRows = s.header.mcuRows ∧ (s.partJpeg imgs).Whole := by
  have hf : (s.partJpeg imgs).components.map (fun x => (x.hSamp, x.vSamp)) = s.header.comps := decComps_factors s.header hl
  have hv : maxV (s.partJpeg imgs).components = maxFactor (s.header.comps.map Prod.snd) := by
    unfold maxV
    rw [← congrArg (List.map Prod.snd) hf, List.map_map]
    rfl
  have hh : maxH (s.partJpeg imgs).components = maxFactor (s.header.comps.map Prod.fst) := by
    unfold maxH
    rw [← congrArg (List.map Prod.fst) hf, List.map_map]
    rfl
  have er : (s.partJpeg imgs).mcuRows = s.header.mcuRows := by
    unfold JpegData.mcuRows Header.mcuRows
    rw [hv, Nat.mul_comm 8]
    rfl
  refine ⟨er, fun c x hx => ?_⟩
  obtain ⟨_, _, h3, h4⟩ := decComps_get _ _ _ _ _ _ _ hx
  refine ⟨?_, by rw [er, h4]⟩
  rw [h3, hh, Nat.mul_comm 8]
  rfl

theorem natural_ac : ∀ k : _root_.Fin 64, 1 ≤ k.val → naturalOrder.getD k.val 0 < 64 ∧ naturalOrder.getD k.val 0 ≠ 0 := by decide +kernel

/-- The block is there. -/
theorem block_in {s : SectState} {m : List Nat} (hk : s.Known m) {imgs : List (List Int)} (hp : Planes s.header.mcuRows s.metas imgs) (hl : imgs.length = s.header.comps.length)
    {c : Nat} {x : Component} (hx : (s.partJpeg imgs).components[c]? = some x) {r k : Nat} (hr : r < s.header.mcuRows * x.vSamp) (hkw : k < x.width) :
    64 * (r * x.width + k) + 64 ≤ x.coeffs.length := by
  obtain ⟨g1, g2, g3, _⟩ := decComps_get _ _ _ _ _ _ _ hx
  have hc : c < s.metas.length := by
    rw [← hp.sized.1]
    exact (List.getElem?_eq_some_iff.mp g2).1
  have hm : s.metas[c]? = some s.metas[c] := List.getElem?_eq_getElem hc
  have hs := hp.sized.2 c _ _ hm g2
  generalize s.metas[c] = me at hm hs
  have hme : me.w = x.width ∧ me.vs = x.vSamp := by
    unfold SectState.metas at hm
    split at hm
    · obtain ⟨p, p1, p2, p3⟩ := metas_sub hm
      rw [g1] at p1; cases p1
      exact ⟨by rw [p2, g3], p3⟩
    · simp at hm
  rw [hs, hme.1, hme.2]
  have : r * x.width + k < x.width * (s.header.mcuRows * x.vSamp) := by
    calc r * x.width + k < (r + 1) * x.width := by rw [Nat.add_mul]; omega
      _ ≤ (s.header.mcuRows * x.vSamp) * x.width := Nat.mul_le_mul_right _ hr
      _ = _ := Nat.mul_comm _ _
  omega

theorem Seen.Right.sane {s : SectState} {m : List Nat} {e : Seen} {v : View} (hk : s.Known m) (he : e.Right s (v.done = true ∨ 8 ∈ v.met)) (hj : v.jpg = s.partJpeg e.coeffs)
    (hr : v.row = e.row) (hdc : ∀ c b, DcFits (v.jpg.coefs c b 0)) : v.Sane := by
  have hcnt := partJpeg_count hk he.length
  obtain ⟨hrows, hw⟩ := partJpeg_dims hcnt
  refine ⟨?_, ?_, fun sc _ _ prog y last hlast x hx => ?_, fun c b => ⟨fun k hk1 => ?_, hdc c b⟩⟩
  · rw [hj]
    show ∀ h ∈ (s.internals.getD _).huffman, h.Sane
    cases h : s.internals with
    | none => exact fun h hh => by cases hh
    | some x => exact (hk.internals x h).huffman
  · rw [hj]
    show ∀ h ∈ (s.internals.getD _).scans, h.Sane
    cases h : s.internals with
    | none => exact fun h hh => by cases hh
    | some x => exact (hk.internals x h).scans
  · rw [hj] at hx ⊢
    have all : last ≤ s.header.mcuRows * vGroup (s.partJpeg e.coeffs) sc → Planes s.header.mcuRows s.metas e.coeffs →
        ∃ c, (s.partJpeg e.coeffs).components[x.comp]? = some c ∧ 64 * x.blk + 64 ≤ c.coeffs.length := by
      intro hle hp
      obtain ⟨cx, r, k, h1, h2, h3, h4⟩ := visit_in hw hle hx
      exact ⟨cx, h1, by rw [h4]; exact block_in hk hp he.length h1 h2 h3⟩
    have cases' : ((v.done = true ∨ 8 ∈ v.met) ∧ last = (writerMcus v.jpg sc).1) ∨ last = v.row * vGroup v.jpg sc := by
      unfold lastRow at hlast
      dsimp only at hlast
      cases hw' : wantAc (scanParams prog sc) with
      | true =>
        rw [hw'] at hlast
        cases hd : v.done with
        | true => rw [hd] at hlast; exact .inl ⟨.inl rfl, by simpa using hlast.symm⟩
        | false =>
          rw [hd] at hlast
          split at hlast
          · cases hlast
          · exact .inr (by simpa using hlast.symm)
      | false =>
        rw [hw'] at hlast
        cases hh : (v.done || v.met.contains 8) with
        | true => rw [hh] at hlast; exact .inl ⟨by simpa using hh, by simpa using hlast.symm⟩
        | false => rw [hh] at hlast; exact .inr (by simpa using hlast.symm)
    rcases cases' with ⟨h8, hl⟩ | hl
    · refine all ?_ (he.full h8)
      rw [hl, hj, ← hrows]
      exact rows_all _ _
    · rw [hl, hr, hj] at hx all
      rcases he.row with h0 | ⟨h1, h2⟩
      · obtain ⟨cx, r, k, g1, g2, g3, g4⟩ := visit_in (R := 0) hw (by rw [h0]) hx
        simp at g2
      · exact all (Nat.mul_le_mul_right _ (by omega)) h2
  · rw [hj]
    unfold JpegData.coefs
    cases hx : (s.partJpeg e.coeffs).components[c]? with
    | none => simp
    | some x =>
      dsimp only
      split
      · rename_i h64
        obtain ⟨_, g2, _⟩ := decComps_get _ _ _ _ _ _ _ hx
        have hb := he.small _ (List.mem_of_getElem? g2)
        have hn := natural_ac ⟨k, h64⟩ hk1
        dsimp only at hn
        rw [List.getD_eq_getElem?_getD]
        cases hg : x.coeffs[64 * b + naturalOrder.getD k 0]? with
        | none => simp
        | some y =>
          have := hb _ y hg (by omega)
          simp only [Option.getD_some]
          omega
      · simp

/-! ## In every stage -/

theorem metas_count {s : SectState} {m : List Nat} (hk : s.Known m) (h6 : s.hist.isSome) : s.metas.length = s.header.comps.length := by
  obtain ⟨r, hr⟩ := Option.isSome_iff_exists.mp h6
  unfold SectState.metas
  rw [hr]
  exact metas_length (hk.hist r hr).count

theorem Planes.right {s : SectState} {m : List Nat} (hk : s.Known m) (h6 : s.hist.isSome) {all : Prop} {imgs : List (List Int)} (hp : Planes s.header.mcuRows s.metas imgs) :
    Seen.Right s all ⟨0, imgs⟩ := ⟨by rw [← metas_count hk h6, ← hp.sized.1], .inl rfl, fun _ => hp, hp.small⟩

theorem Seen.Fit.right {s : SectState} {m : List Nat} (hk : s.Known m) (h6 : s.hist.isSome) {all : Prop} {e : Seen} (he : e.Fit s.header.mcuRows s.metas) : e.Right s all :=
  ⟨by rw [← metas_count hk h6, ← he.planes.sized.1], he.row.imp id fun h => ⟨h, he.planes⟩, fun _ => he.planes, he.planes.small⟩

theorem seen_right {s : SectState} {m : List Nat} (hb : Between m s) (hk : s.Known m) {all : Prop} (h8 : all → 7 ∈ m) : s.seen.Right s all := by
  unfold SectState.seen
  cases hd : s.dc with
  | some dc =>
    have h7 : 7 ∈ m := Decidable.byContradiction fun h => by rw [hb.noDc h] at hd; cases hd
    exact (hk.dc dc hd).1.right hk (hk.has6 (hb.closed.dc h7).2.2)
  | none =>
    refine ⟨by simp, .inl rfl, fun ha => ?_, fun p hp => ?_⟩
    · obtain ⟨dc, h, _⟩ := hb.dc (h8 ha)
      rw [hd] at h; cases h
    · rw [(List.mem_replicate.mp hp).2]
      exact fun i x h => by simp at h

theorem word_right {α : Type} {s : SectState} {m : List Nat} (hk : s.Known m) (h6 : s.hist.isSome) {all : Prop} {img : α → List (List Int)} {t : WordSt α} {rem : Nat}
    (hi : wordInv (fun _ => True) t rem) (hf : t.prog.Live) (ha : t.prog.Always (Seen.Fit s.header.mcuRows s.metas))
    (hp : t.prog.Post fun a => Planes s.header.mcuRows s.metas (img a)) : (t.prog.seen img).Right s all := by
  obtain ⟨maps, dec, prog⟩ := t
  obtain ⟨_, _, _, hst, _⟩ := hi
  simp only at hst hf ha hp ⊢
  cases prog with
  | ret a => exact Planes.right hk h6 hp
  | fail => exact hf.elim
  | ub => exact hf.elim
  | need n e k => exact ha.1.right hk h6
  | op o k => exact hst.elim

/-- What a stage shows. -/
structure Presents {z : Inflater} (s : FileSt z) (v : View) (g : SectState) (m : List Nat) (e : Seen) : Prop where
  known : g.Known m
  right : e.Right g (v.done = true ∨ 8 ∈ v.met)
  jpg : v.jpg = g.partJpeg e.coeffs
  row : v.row = e.row
  freezes : ∀ x, g.internals = some x → s.Frozen g.header x
  frozen : ∀ h x, s.Frozen h x → g.header = h ∧ g.internals = some x

theorem FileSt.view_presents {z : Inflater} {s : FileSt z} (hs : s.Good) (hc : s.view.canStart = true) (h8 : 8 ∈ s.view.met → 7 ∈ s.view.met) :
    ∃ g m e, Presents s s.view g m e := by
  have has : ∀ {m : List Nat} {g : SectState}, g.Known m → ∀ x, g.internals = some x → 4 ∈ m := fun hk x hx =>
    Decidable.byContradiction fun h => by rw [hk.not4 h] at hx; cases hx
  obtain ⟨hi, hf, hk⟩ := hs
  cases s with
  | signature => cases hc
  | headTag met => cases hc
  | headSize met => cases hc
  | itemTag size pos met imet vals => cases hc
  | itemSize size pos met imet vals => cases hc
  | itemSkip left size pos met imet vals => cases hc
  | itemValue tag size pos met imet vals => cases hc
  | origTag met => cases hc
  | origSize => cases hc
  | origData left storage => cases hc
  | ended c => cases hc
  | sectTag met s => exact ⟨s, met, s.seen, hk, seen_right hf hk (fun h => h.elim (fun h => by cases h) h8), rfl, rfl, fun x hx => ⟨has hk x hx, rfl, hx⟩, fun h x hz => hz.2⟩
  | sectValue met s => exact ⟨s, met, s.seen, hk, seen_right hf hk (fun h => h.elim (fun h => by cases h) h8), rfl, rfl, fun x hx => ⟨has hk x hx, rfl, hx⟩, fun h x hz => hz.2⟩
  | sectSkip left met s => exact ⟨s, met, s.seen, hk, seen_right hf hk (fun h => h.elim (fun h => by cases h) h8), rfl, rfl, fun x hx => ⟨has hk x hx, rfl, hx⟩, fun h x hz => hz.2⟩
  | sectSize tag met s =>
    obtain ⟨m, rfl, hb⟩ := hf
    refine ⟨s, m, s.seen, hk, seen_right hb hk fun h => ?_, rfl, rfl, fun x hx => ⟨has hk x hx, rfl, hx⟩, fun h x hz => hz.2⟩
    have h : 8 ∈ tag :: m := h.elim (fun h => by cases h) id
    rcases List.mem_cons.mp (h8 h) with e | h7
    · exact hb.closed.ac ((List.mem_cons.mp h).resolve_left (by omega))
    · exact h7
  | sectBody rem tag t met s =>
    obtain ⟨m, rfl, hb, hcl, hbf⟩ := hf
    obtain ⟨hT, hok, hsi⟩ := hi
    obtain ⟨hk, ht⟩ := hk
    refine ⟨s, m, t.seen s, hk, ?_, rfl, rfl, fun x hx => ⟨has hk x hx, rfl, hx⟩, fun h x hz => hz.2⟩
    have other : tag ≠ 7 → (false = true ∨ 8 ∈ tag :: m) → 7 ∈ m := fun h7 h =>
      (List.mem_cons.mp (hcl.ac (h.elim (fun h => by cases h) id))).resolve_left (Ne.symm h7)
    have h6 : tag = 7 ∨ tag = 8 → s.hist.isSome := fun h => hk.has6 <| by
      have : 7 ∈ tag :: m := by
        rcases h with rfl | rfl
        · exact List.mem_cons_self
        · exact hcl.ac List.mem_cons_self
      exact (List.mem_cons.mp (hcl.dc this).2.2).resolve_left (by omega)
    cases t with
    | metadata t => have e : tag = 3 := hbf; exact seen_right hb hk (other (by omega))
    | internals t => have e : tag = 4 := hbf; exact seen_right hb hk (other (by omega))
    | quant t => have e : tag = 5 := hbf; exact seen_right hb hk (other (by omega))
    | hist t => have e : tag = 6 := hbf; exact seen_right hb hk (other (by omega))
    | dc t => exact word_right hk (h6 (.inl hbf.1)) hsi ht.1 ht.2.1 ht.2.2.1
    | ac t => exact word_right hk (h6 (.inr hbf.1)) hsi ht.1 ht.2.1 ht.2.2.1

theorem Ready.result {s : SectState} (h : s.Ready) : ∃ imgs, s.ac = some imgs ∧ s.result = some (s.partJpeg imgs) := by
  obtain ⟨hk, imgs, ha, _⟩ := h
  obtain ⟨x, hx⟩ := Option.isSome_iff_exists.mp (hk.has4 (by simp))
  obtain ⟨q, hq⟩ := Option.isSome_iff_exists.mp (hk.has5 (by simp))
  refine ⟨imgs, ha, ?_⟩
  unfold SectState.result SectState.partJpeg
  rw [hx, hq, ha]
  rfl

/-- What the parser shows after a call that has not failed. -/
theorem fileView_presents {z : Inflater} {s : PSt (FileSt z)} (hd : ∀ t c, s ≠ .dead t c) (hs : s.core.Good) (hc : (fileView s).canStart = true)
    (h8 : 8 ∈ (fileView s).met → 7 ∈ (fileView s).met) :
    (∃ g m e, Presents s.core (fileView s) g m e) ∨ (fileView s).jpg = { noJpeg with version := 1 } ∧ ∀ h x, ¬ s.core.Frozen h x := by
  cases s with
  | working s => exact .inl (FileSt.view_presents hs hc h8)
  | paused s => exact .inl (FileSt.view_presents hs hc h8)
  | dead s c => exact absurd rfl (hd s c)
  | done s =>
    cases s with
    | ended c =>
      cases c with
      | image g =>
        have hk : g.Ready := hs.known
        obtain ⟨imgs, ha, hr⟩ := Ready.result hk
        obtain ⟨hk, imgs', ha', hp⟩ := hk
        rw [ha] at ha'; cases ha'
        refine .inl ⟨g, [4, 5, 6], ⟨0, imgs⟩, hk, hp.right hk (hk.has6 (by simp)), ?_, rfl, fun x hx => ⟨rfl, hx⟩, fun h x hz => hz⟩
        show g.result.getD noJpeg = _
        rw [hr]; rfl
      | original o => exact .inr ⟨rfl, fun h x hz => hz⟩
    | _ => exact .inl (FileSt.view_presents hs hc h8)

/-! ## The writer -/

/-- What is read of the DC coefficients and of the tags can be relied on. -/
structure View.Calm (v : View) : Prop where
  tags : 8 ∈ v.met → 7 ∈ v.met
  dc : ∀ c b, DcFits (v.jpg.coefs c b 0)

/-- The variables of the writer. -/
structure SerOk {z : Inflater} (s : FileSt z) (st : SStage) (a : WJS) : Prop where
  sound : a.broken = false
  fresh : st = .init → Depths a.base.T ∧ a.scan = none ∧ a.base.scan = 0
  busy : ∀ rest, st = .sections rest → ∃ h x, s.Frozen h x ∧ (∀ J : JpegData, J.scans = x.scans → J.components.length = h.comps.length → a.Ok J (rest.count 0xDA)) ∧
    (a.scan ≠ none → rest.head? = some 0xDA)

theorem WJS.Ok.congr {a : WJS} {J J' : JpegData} {n : Nat} (h : a.Ok J n) (hs : J'.scans = J.scans) (hc : J'.components.length = J.components.length) : a.Ok J' n :=
  ⟨h.sound, h.tables, by rw [hs]; exact h.scans, fun w hw => by rw [hs, hc]; exact h.scan w hw⟩

theorem sections_safe {v : View} (hv : v.Sane) : ∀ (rest : List Nat) (a : WJS), a.Ok v.jpg (rest.count 0xDA) → (a.scan ≠ none → rest.head? = some 0xDA) →
    (prodSections streamApi v rest a).2.1.broken = false ∧ (prodSections streamApi v rest a).1 ≠ .init ∧
      ∀ rest', (prodSections streamApi v rest a).1 = .sections rest' → (prodSections streamApi v rest a).2.1.Ok v.jpg (rest'.count 0xDA) ∧
        ((prodSections streamApi v rest a).2.1.scan ≠ none → rest'.head? = some 0xDA)
  | [], a, ha, _ => ⟨ha.sound, (fun h => by cases h), fun _ h => by cases h⟩
  | m :: rest, a, ha, hs => by
    have hcnt : (m :: rest).count 0xDA = rest.count 0xDA + if m = 0xDA then 1 else 0 := by
      rw [List.count_cons]
      simp only [beq_iff_eq]
    rw [hcnt] at ha
    have hsafe := streamMarker_safe (n := rest.count 0xDA) hv ha fun hm => Decidable.byContradiction fun h => by
      have := hs h
      simp only [List.head?_cons, Option.some.injEq] at this
      exact hm this
    have hmk : streamApi.marker v a m = match streamMarker v a m with
        | .ok (a, cs, fin) => (a, cs, if fin then SStatus.done else .needsInput)
        | .fail => (a, [], .error)
        | .ub => ({ a with broken := true }, [], .error) := rfl
    rw [prodSections, hmk]
    cases hr : streamMarker v a m with
    | ub => rw [hr] at hsafe; exact hsafe.elim
    | fail => exact ⟨ha.sound, (fun h => by cases h), fun _ h => by cases h⟩
    | ok r =>
      rw [hr] at hsafe
      obtain ⟨a', cs, fin⟩ := r
      cases fin with
      | true =>
        obtain ⟨h1, h2⟩ : a'.Ok v.jpg (rest.count 0xDA) ∧ a'.scan = none := hsafe
        exact sections_safe hv rest a' h1 fun h => absurd h2 h
      | false =>
        obtain ⟨h1, h2⟩ : m = 0xDA ∧ a'.Ok v.jpg (rest.count 0xDA + 1) := hsafe
        refine ⟨h2.sound, (fun h => by cases h), fun rest' h => ?_⟩
        cases h
        refine ⟨?_, fun _ => by rw [h1]; rfl⟩
        rw [hcnt, if_pos h1]
        exact h2

/-- A call of the writer. -/
theorem SerOk.call {z : Inflater} {s : PSt (FileSt z)} {st : SStage} {a : WJS} (h : SerOk s.core st a) (hd : ∀ t c, s ≠ .dead t c) (hs : s.core.Good)
    (hst : st ≠ .init → (fileView s).canStart = true) (hcalm : (fileView s).canStart = true → (fileView s).Calm) :
    SerOk s.core (prod streamApi (fileView s) st a).1 (prod streamApi (fileView s) st a).2.1 := by
  have idle : ∀ {st' : SStage}, (st' = .done ∨ st' = .error) → SerOk s.core st' a := fun h' =>
    ⟨h.sound, (fun e => by rcases h' with h' | h' <;> rw [h'] at e <;> cases e), fun _ e => by rcases h' with h' | h' <;> rw [h'] at e <;> cases e⟩
  cases st with
  | error => exact idle (.inr rfl)
  | done => exact idle (.inl rfl)
  | sections rest =>
    obtain ⟨hh, x, hz, hok, hsc⟩ := h.busy rest rfl
    have hc := hst fun e => by cases e
    rcases fileView_presents hd hs hc (hcalm hc).tags with ⟨g, m, e, hp⟩ | ⟨_, hn⟩
    · have hsane := hp.right.sane hp.known hp.jpg hp.row (hcalm hc).dc
      obtain ⟨e1, e2⟩ := hp.frozen hh x hz
      have f1 : (fileView s).jpg.scans = x.scans := by
        rw [hp.jpg]
        show (g.internals.getD _).scans = _
        rw [e2]; rfl
      have f2 : (fileView s).jpg.components.length = hh.comps.length := by
        rw [hp.jpg, ← e1]
        exact partJpeg_count hp.known hp.right.length
      have := sections_safe hsane rest a (hok _ f1 f2) hsc
      refine ⟨this.1, fun e => absurd e this.2.1, fun rest' hr => ⟨hh, x, hz, fun J j1 j2 => ?_, (this.2.2 rest' hr).2⟩⟩
      exact (this.2.2 rest' hr).1.congr (by rw [j1, f1]) (by rw [j2, f2])
    · exact absurd hz (hn hh x)
  | init =>
    unfold prod
    dsimp only
    split
    · exact h
    rename_i hc
    have hc : (fileView s).canStart = true := by simpa [streamApi] using hc
    split
    · split
      · exact idle (.inr rfl)
      · exact idle (.inl rfl)
    rename_i hv
    split
    · exact idle (.inr rfl)
    split
    · exact idle (.inr rfl)
    rename_i hmk
    obtain ⟨t1, t2, t3⟩ := h.fresh rfl
    rcases fileView_presents hd hs hc (hcalm hc).tags with ⟨g, m, e, hp⟩ | ⟨hj, _⟩
    · have hsane := hp.right.sane hp.known hp.jpg hp.row (hcalm hc).dc
      have emk : streamApi.markers (fileView s) = (fileView s).jpg.markerOrder := rfl
      rw [emk] at hmk ⊢
      cases hi : g.internals with
      | none =>
        exfalso
        apply hmk
        rw [hp.jpg]
        show List.isEmpty (g.internals.getD _).markers = true
        rw [hi]; rfl
      | some x =>
        have f0 : (fileView s).jpg.markerOrder = x.markers := by
          rw [hp.jpg]
          show (g.internals.getD _).markers = _
          rw [hi]; rfl
        have f1 : (fileView s).jpg.scans = x.scans := by
          rw [hp.jpg]
          show (g.internals.getD _).scans = _
          rw [hi]; rfl
        have f2 : (fileView s).jpg.components.length = g.header.comps.length := by
          rw [hp.jpg]
          exact partJpeg_count hp.known hp.right.length
        have hok : (streamApi.prepared (fileView s) a).Ok (fileView s).jpg ((fileView s).jpg.markerOrder.count 0xDA) := by
          refine ⟨h.sound, t1, ?_, fun w hw => ?_⟩
          · show a.base.scan + _ = _
            rw [t3, f0, f1, (hp.known.internals x hi).count]
            omega
          · have : a.scan = some w := hw
            rw [t2] at this; cases this
        have := sections_safe hsane (fileView s).jpg.markerOrder _ hok fun hne => absurd t2 hne
        refine ⟨this.1, fun e => absurd e this.2.1, fun rest' hr => ⟨g.header, x, hp.freezes x hi, fun J j1 j2 => ?_, (this.2.2 rest' hr).2⟩⟩
        exact (this.2.2 rest' hr).1.congr (by rw [j1, f1]) (by rw [j2, f2])
    · exfalso
      apply hv
      show (fileView s).jpg.version = 1
      rw [hj]

/-! ## All calls -/

theorem calls_safe {z : Inflater} {fuel : Nat} : ∀ (calls : List (List Nat × Nat)) (d : DecState (FileSt z) WJS) (rs : List (DResult (FileSt z) WJS)), d.parser.core.Good →
    SerOk d.parser.core d.ser.stage d.ser.aux → (d.ser.stage ≠ .init → d.parser.Shown) →
    decodeCalls (fileParser z) (streamApi.via fileView) fuel calls d = some rs →
    (∀ r ∈ rs, (fileView r.state.parser).canStart = true → (fileView r.state.parser).Calm) → ∀ r ∈ rs, r.state.ser.aux.broken = false := by
  intro calls
  induction calls with
  | nil =>
    intro d rs _ _ _ h _ r hr
    rw [decodeCalls] at h
    cases h
    cases hr
  | cons c calls ih =>
    intro d rs hg hser hst h hcalm r hr
    obtain ⟨piece, space⟩ := c
    rw [decodeCalls] at h
    cases hc : decodeCall (fileParser z) (streamApi.via fileView) fuel piece space d with
    | none => rw [hc] at h; cases h
    | some r0 =>
      rw [hc] at h
      dsimp only at h
      cases hrec : decodeCalls (fileParser z) (streamApi.via fileView) fuel calls r0.state with
      | none => rw [hrec] at h; cases h
      | some rs' =>
        rw [hrec] at h
        cases h
        have hcalm0 := hcalm r0 List.mem_cons_self
        have next : r0.state.parser.core.Good ∧ SerOk r0.state.parser.core r0.state.ser.stage r0.state.ser.aux ∧ (r0.state.ser.stage ≠ .init → r0.state.parser.Shown) := by
          unfold decodeCall at hc
          rcases hp : processJpeg (fileParser z) fuel d.parser d.buffer piece with _ | ⟨s', b', rest, st⟩
          · rw [hp] at hc; cases hc
          have hgood := processJpeg_keeps (I := FileSt.Good) fileStep_good hg hp
          have hfroz : ∀ h x, d.parser.core.Frozen h x → s'.core.Frozen h x := fun h x hz =>
            (processJpeg_keeps (I := fun s => s.Good ∧ s.Frozen h x) fileStep_goodFrozen ⟨hg, hz⟩ hp).1.2
          have hshown : d.ser.stage ≠ .init → s'.Shown := fun hne => processJpeg_shown (hst hne) hp
          have hser' : SerOk s'.core d.ser.stage d.ser.aux := ⟨hser.sound, hser.fresh, fun rest hr => by
            obtain ⟨h, x, h1, h2⟩ := hser.busy rest hr
            exact ⟨h, x, hfroz h x h1, h2⟩⟩
          rw [hp] at hc
          cases st with
          | bad c => cases hc; exact ⟨hgood.1, hser', hshown⟩
          | _ =>
            have hd := hgood.2 fun c e => by cases e
            have hcs : s'.Shown ↔ (fileView s').canStart = true := by
              cases s' with
              | dead t c => exact absurd rfl (hd t c)
              | _ => exact Iff.rfl
            cases hc
            dsimp only at hcalm0 ⊢
            have hpr := serialize_prod streamApi (fileView s') space d.ser
            rw [serialize_via, hpr.2.1, hpr.2.2]
            refine ⟨hgood.1, SerOk.call hser' hd hgood.1 (fun hne => hcs.mp (hshown hne)) hcalm0, fun hne => ?_⟩
            by_cases hi : d.ser.stage = .init
            · refine hcs.mpr (Decidable.byContradiction fun hn => hne ?_)
              rw [hi]
              unfold prod
              rw [if_pos (by simpa [streamApi] using hn)]
            · exact hshown hi
        rcases List.mem_cons.mp hr with rfl | hr
        · exact next.2.1.sound
        · exact ih r0.state rs' next.1 next.2.1 next.2.2 hrec (fun q hq => hcalm q (List.mem_cons_of_mem _ hq)) r hr

end Brunsli
