import Verif.GroupTask
import Verif.StreamKnown
import Verif.PropsH
/-!
# The groups decoder on arbitrary input

What the common part may contain, and what the tasks make of the arrays, whatever their parts contain and in whatever order they are run.
-/

namespace Brunsli

open Groups

/-! ## The common part -/

theorem BP.run_post {α : Type} {opt : Bool} {w q : α → Prop} : ∀ (p : BP α) {b : Nat} {bs rest : List Bool} {a : α}, p.Within w b → p.Post q →
    p.run opt bs = some (a, rest) → q a := by
  intro p
  induction p with
  | ret a => intro b bs rest a' _ hp h; cases h; exact hp
  | fail => intro b bs rest a' _ _ h; cases h
  | need n k ih =>
    intro b bs rest a' hw hp h
    simp only [BP.run] at h
    split at h
    · exact ih (b := n) hw.2 hp h
    · cases h
  | prim r k ih =>
    intro b bs rest a' hw hp h
    simp only [BP.run] at h
    split at h
    · cases h
    · rename_i a1 mid hq
      obtain ⟨pa, _⟩ := hw.1.res _ _ _ hq
      exact ih a1 (hw.2.2 a1 pa) (hp a1 pa) h

/-- What is known after the common part. -/
structure SectState.Common (s : SectState) : Prop where
  header : s.header.Ok
  internals : ∀ q, s.quant = some q → s.internals.isSome
  quant : ∀ q, s.quant = some q → QuantSane s.header.comps.length q
  hist : ∀ r, s.hist = some r → r.Sane s.header.comps.length

theorem decBody_common {par : Codec} {s s' : SectState} {tag : Nat} {p : List Nat} (hs : s.Common) (h : decBody par s tag p = some s') : s'.Common := by
  unfold decBody at h
  split at h
  · obtain ⟨m, -, rfl⟩ := Option.map_eq_some_iff.mp h
    exact ⟨hs.header, hs.internals, hs.quant, hs.hist⟩
  split at h
  · obtain ⟨m, -, rfl⟩ := Option.map_eq_some_iff.mp h
    exact ⟨hs.header, fun _ _ => rfl, hs.quant, hs.hist⟩
  split at h
  · cases hx : s.internals with
    | none => rw [hx] at h; cases h
    | some x =>
      rw [hx] at h
      dsimp only at h
      split at h
      · rename_i r hr
        cases h
        refine ⟨hs.header, fun _ _ => ?_, fun q hq => ?_, hs.hist⟩
        · rfl
        · have e : r = q := Option.some.inj hq
          subst e
          rw [← quantBP_run] at hr
          obtain ⟨mid, hm, -⟩ := bitSection_some hr
          exact BP.run_post _ (quantBP_within _ _) (quantBP_post _ _) hm
      · cases h
  split at h
  · split at h
    · rename_i r hr
      cases h
      refine ⟨hs.header, hs.internals, hs.quant, fun q hq => ?_⟩
      have e : r = q := Option.some.inj hq
      subst e
      have hw : wholeOpt (decodeHistogramData s.header.comps.length (bytesBits p)) = some r := by rw [hr]; rfl
      rw [histBP_run] at hw
      obtain ⟨n1, n4⟩ := hs.header.ncomp
      cases hb : bitSection ((histBP s.header.comps.length).run true) (bytesBits p) with
      | none => rw [hb] at hw; cases hw
      | some y =>
        obtain ⟨r', rest⟩ := y
        rw [hb] at hw
        cases rest with
        | cons b l => cases hw
        | nil =>
          have e : r' = r := Option.some.inj hw
          subst e
          obtain ⟨mid, hm, -⟩ := bitSection_some hb
          exact BP.run_post _ (histBP_within n1 n4) (histBP_post n1 n4) hm
    · cases h
  split at h
  · split at h
    · cases h
    · obtain ⟨m, -, rfl⟩ := Option.map_eq_some_iff.mp h
      exact ⟨hs.header, hs.internals, hs.quant, hs.hist⟩
  split at h
  · split at h
    · obtain ⟨m, -, rfl⟩ := Option.map_eq_some_iff.mp h
      exact ⟨hs.header, hs.internals, hs.quant, hs.hist⟩
    · cases h
  · cases h

theorem sectionsSoFar_keeps {σ : Type} {I : σ → Prop} {body : σ → Nat → List Nat → Option σ} (hb : ∀ s tag p s', I s → body s tag p = some s' → I s') :
    ∀ (fuel : Nat) (met : List Nat) (s : σ) (bs : List Nat) (s' : σ), I s → sectionsSoFar body fuel met s bs = some s' → I s' := by
  intro fuel
  induction fuel with
  | zero => intro met s bs s' _ h; cases h
  | succ fuel ih =>
    intro met s bs s' hi h
    rw [sectionsSoFar] at h
    split at h
    · cases h; exact hi
    · cases h
    split at h
    · split at h
      · cases h; exact hi
      · cases h
      split at h
      · split at h
        · cases h; exact hi
        · exact ih _ _ _ _ hi h
      split at h
      · cases h
      split at h
      · cases h
      split at h
      · cases h; exact hi
      split at h
      · cases h
      · rename_i s1 hs1
        split at h
        · cases h
        · exact ih _ _ _ _ (hb _ _ _ _ hi hs1) h
    split at h
    · cases h
    split at h
    · cases h; exact hi
    · cases h
    · exact ih _ _ _ _ hi h

theorem readHeader_ok {met bs rest met' : List Nat} {h : Header} (hr : readHeader met bs = .ok (h, met') rest) : h.version = 1 ∨ h.Ok := by
  obtain ⟨t, m1, h1, h2⟩ := Rd.andThen_ok hr
  by_cases hc : t.1 = 2 ∧ t.2.1 = true
  · rw [if_pos hc] at h2
    obtain ⟨size, m2, h3, h4⟩ := Rd.andThen_ok h2
    obtain ⟨h', m3, h5, h6⟩ := Rd.andThen_ok h4
    cases h6
    obtain ⟨u, m4, h7, h8⟩ := Rd.andThen_ok h5
    rcases headerFinale_ok (ofOption_ok h8).1 with rfl | ⟨hok, _⟩
    · exact Or.inl rfl
    · exact Or.inr hok
  · rw [if_neg hc] at h2; cases h2

/-- Whatever the common part contains. -/
theorem readCommon_common {par : Codec} {bs : List Nat} {s : SectState} (h : readCommon par bs = some s) : s.Common := by
  unfold readCommon at h
  split at h
  swap
  · cases h
  rename_i t rest ht
  obtain ⟨u, mid, -, h2⟩ := Rd.andThen_ok ht
  split at h
  · cases h
  rename_i hv
  refine sectionsSoFar_keeps (fun s tag p s' hs hb => decBody_common hs hb) _ _ _ _ _ ?_ h
  exact ⟨(readHeader_ok h2).resolve_left hv, fun _ hq => (by cases hq), fun _ hq => (by cases hq), fun _ hq => (by cases hq)⟩

/-- The end of the decoder. -/
theorem SectState.Common.result {s : SectState} (hs : s.Common) {q : List (List Nat) × List Nat} (hq : s.quant = some q) (imgs : List (List Int)) :
    ∃ J, { s with ac := some imgs }.result = some J := by
  obtain ⟨x, hx⟩ := Option.isSome_iff_exists.mp (hs.internals q hq)
  obtain ⟨tabs, idx⟩ := q
  unfold SectState.result
  simp only [hx, hq]
  exact ⟨_, rfl⟩

/-! ## Dimensions -/

theorem maxFactor_pos (l : List Nat) : 0 < maxFactor l := by
  have : ∀ (l : List Nat) (a : Nat), a ≤ l.foldl max a := by
    intro l
    induction l with
    | nil => intro a; exact Nat.le_refl _
    | cons y l ih => intro a; rw [List.foldl_cons]; exact Nat.le_trans (Nat.le_max_left a y) (ih _)
  exact this l 1

theorem Header.dims_ok {h : Header} {acDim dcDim : Nat} (ha : acDim ≠ 0) (hd : dcDim ≠ 0) (hm : dcDim % acDim = 0) (h1 : acDim % maxFactor (h.comps.map Prod.fst) = 0)
    (h2 : acDim % maxFactor (h.comps.map Prod.snd) = 0) : h.DimOk acDim ∧ h.DimOk dcDim := by
  refine ⟨⟨by omega, h1, h2, maxFactor_pos _, maxFactor_pos _⟩, ⟨by omega, ?_, ?_, maxFactor_pos _, maxFactor_pos _⟩⟩
  · exact Nat.mod_eq_zero_of_dvd (Nat.dvd_trans (Nat.dvd_of_mod_eq_zero h1) (Nat.dvd_of_mod_eq_zero hm))
  · exact Nat.mod_eq_zero_of_dvd (Nat.dvd_trans (Nat.dvd_of_mod_eq_zero h2) (Nat.dvd_of_mod_eq_zero hm))

/-! ## Arrays -/

/-- 16-bit coefficients. -/
def Short (v : Int) : Prop := -32768 ≤ v ∧ v < 32768

/-- Arrays of coefficients of an image. -/
structure Header.ImgsOk (h : Header) (imgs : List (List Int)) : Prop where
  sized : SizedAll h.comps (fun c => h.mcuCols * c.1 * (h.mcuRows * c.2) * 64) imgs
  short : ∀ img ∈ imgs, ∀ v ∈ img, Short v

/-- Arrays of flags of an image. -/
def Header.FlagsOk (h : Header) (flags : List (List Bool)) : Prop := SizedAll h.comps (fun c => h.mcuCols * c.1 * (h.mcuRows * c.2)) flags

theorem Header.noImgs_ok (h : Header) : h.ImgsOk h.noImgs := by
  refine ⟨h.noImgs_sized, fun img hi v hv => ?_⟩
  unfold Header.noImgs at hi
  obtain ⟨c, -, rfl⟩ := List.mem_map.mp hi
  rw [(List.mem_replicate.mp hv).2]
  unfold Short
  omega

theorem foldl_set_mem {α : Type} (place : Nat → Nat) (v : Nat → α) {x : α} : ∀ (js : List Nat) (l : List α),
    x ∈ js.foldl (fun l j => l.set (place j) (v j)) l → x ∈ l ∨ ∃ j, x = v j := by
  intro js
  induction js with
  | nil => intro l h; exact .inl h
  | cons j js ih =>
    intro l h
    rcases ih _ h with h | h
    · rcases List.mem_or_eq_of_mem_set h with h | h
      · exact .inl h
      · exact .inr ⟨j, h⟩
    · exact .inr h

theorem paste_mem {d : Int} {place : Nat → Nat} {n : Nat} {part l : List Int} {v : Int} (h : v ∈ paste d place n part l) : v ∈ l ∨ v = d ∨ v ∈ part := by
  rcases foldl_set_mem place (fun j => part.getD j d) _ _ h with h | ⟨j, rfl⟩
  · exact .inl h
  · rw [List.getD_eq_getElem?_getD]
    cases e : part[j]? with
    | none => exact .inr (.inl rfl)
    | some w => exact .inr (.inr (List.mem_of_getElem? e))

theorem pasteAll_sized {α κ : Type} {d : α} {cs : List κ} {pl : κ → Nat → Nat} {sz ln : κ → Nat} {parts L : List (List α)} (hp : parts.length = cs.length)
    (hL : SizedAll cs ln L) : SizedAll cs ln (pasteAll d cs pl sz parts L) := by
  refine ⟨?_, fun i c a hc ha => ?_⟩
  · unfold pasteAll
    rw [List.length_zipWith, List.length_zip, hp, hL.length, Nat.min_self, Nat.min_self]
  · obtain ⟨c', p, hc', hp', rfl⟩ := List.getElem?_zipWith_eq_some.mp ha
    rw [hc] at hc'
    cases hc'
    rw [paste_length]
    exact hL.each i c p.2 hc (List.getElem?_zip_eq_some.mp hp').2

theorem Header.pasteImgs_ok {h : Header} {dim t : Nat} {parts imgs : List (List Int)} (hp : parts.length = h.comps.length) (hs : ∀ p ∈ parts, ∀ v ∈ p, Short v)
    (hi : h.ImgsOk imgs) : h.ImgsOk (h.pasteImgs dim t parts imgs) := by
  refine ⟨pasteAll_sized hp hi.sized, fun img hm v hv => ?_⟩
  obtain ⟨i, hm⟩ := List.getElem?_of_mem hm
  obtain ⟨c, ⟨p, l⟩, -, hpl, rfl⟩ := List.getElem?_zipWith_eq_some.mp hm
  obtain ⟨h1, h2⟩ := List.getElem?_zip_eq_some.mp hpl
  rcases paste_mem hv with hv | rfl | hv
  · exact hi.short l (List.mem_of_getElem? h2) v hv
  · unfold Short; omega
  · exact hs p (List.mem_of_getElem? h1) v hv

/-! ## Tasks -/

theorem Header.tileMetas_at {h : Header} {schemes : List Nat} (hsl : schemes.length = h.comps.length) {dim t c : Nat} {m : Meta}
    (hm : (h.tileMetas dim t (metas h schemes))[c]? = some m) :
    ∃ k m0, h.comps[c]? = some k ∧ m0 ∈ metas h schemes ∧ m = { m0 with w := (h.geometry k).cols dim t } ∧ m0.vs = k.2 := by
  obtain ⟨k, m0, h1, h2, h3⟩ := List.getElem?_zipWith_eq_some.mp hm
  refine ⟨k, m0, h1, List.mem_of_getElem? h2, h3.symm, ?_⟩
  obtain ⟨hc, e⟩ := List.getElem?_eq_some_iff.mp h1
  rw [metas_get hsl hc] at h2
  cases h2
  rw [e]

theorem Header.tileMetas_count {h : Header} {schemes : List Nat} (hsl : schemes.length = h.comps.length) {dim t : Nat} :
    (h.tileMetas dim t (metas h schemes)).length = h.comps.length := by
  unfold Header.tileMetas
  rw [List.length_zipWith, metas_length hsl, Nat.min_self]

theorem Header.tile_blocks {h : Header} (hh : h.Ok) {schemes : List Nat} (hsl : schemes.length = h.comps.length) {dim t c : Nat} (hd : h.DimOk dim) (ht : t < h.tasks dim)
    {m : Meta} {k : Nat × Nat} (hm : (h.tileMetas dim t (metas h schemes))[c]? = some m) (hk : h.comps[c]? = some k) :
    m.w * (h.tileRows dim t * m.vs) = (h.geometry k).size dim t := by
  obtain ⟨k', m0, h1, -, rfl, h4⟩ := Header.tileMetas_at hsl hm
  rw [hk] at h1
  cases h1
  show (h.geometry k).cols dim t * (_ * m0.vs) = _
  rw [h4, ← h.tile_lines hh hd ht (List.mem_of_getElem? hk)]
  rfl

/-- A DC task, whatever its words are. -/
theorem dcTask_all {h : Header} {r : HistogramData} (hr : r.Sane h.comps.length) {dim t : Nat} :
    (decodeDC (contextCount (metas h r.schemes)) (h.tileRows dim t) (h.tileMetas dim t (metas h r.schemes))).All fun x =>
      x.length = h.comps.length ∧ ∀ p ∈ x, ∀ v ∈ p.1, Short v := by
  have hd : (h.tileMetas dim t (metas h r.schemes)).length * 9 ≤ contextCount (metas h r.schemes) := by
    have := contextCount_dc (metas h r.schemes)
    rw [metas_length hr.count] at this
    rw [Header.tileMetas_count hr.count]
    exact this
  refine Prog.All.mono (fun x hx => ⟨hx.1.trans (Header.tileMetas_count hr.count), fun p hp v hv => ?_⟩) (decodeDC_all hd)
  obtain ⟨i, hi⟩ := List.getElem?_of_mem hp
  obtain ⟨m, hm⟩ := getOf hx.1 hi
  exact (hx.2 i m p hm hi).1.2 v hv

theorem quants_sane {n : Nat} {tabs : List (List Nat)} {idx : List Nat} (hq : QuantSane n (tabs, idx)) : ∀ q ∈ idx.map fun i => tabs.getD i [], QuantOk q := by
  intro q hm
  obtain ⟨i, hi, rfl⟩ := List.mem_map.mp hm
  have hlt := hq.index i hi
  dsimp only at hlt
  rw [List.getD_eq_getElem?_getD, List.getElem?_eq_getElem hlt]
  exact hq.tables _ (List.getElem_mem _)

/-- An AC task, whatever its words are. -/
theorem acTask_all {h : Header} (hh : h.Ok) {r : HistogramData} (hr : r.Sane h.comps.length) {tabs : List (List Nat)} {idx : List Nat}
    (hq : QuantSane h.comps.length (tabs, idx)) {dim t : Nat} (hd : h.DimOk dim) (ht : t < h.tasks dim) {imgs : List (List Int)} (hi : h.ImgsOk imgs) {flags : List (List Bool)}
    (hf : h.FlagsOk flags) :
    (decodeAC (contextCount (metas h r.schemes)) false (h.tileRows dim t) (h.tileMetas dim t (metas h r.schemes)) (idx.map fun i => tabs.getD i [])
      (h.tileImgs dim t imgs) (h.tileFlags dim t flags)).All fun x => x.length = h.comps.length ∧ ∀ p ∈ x, ∀ v ∈ p, Short v := by
  have hall := decodeAC_all (Nd := contextCount (metas h r.schemes)) (legacy := false) (rows := h.tileRows dim t) (ms := h.tileMetas dim t (metas h r.schemes))
    (quants := idx.map fun i => tabs.getD i []) (coeffs := h.tileImgs dim t imgs) (flags := h.tileFlags dim t flags) (fun m hm => ?_) ?_ (quants_sane hq) ?_ (fun c m co hm hc => ?_) fun c m hm => ?_
  · refine Prog.All.mono (fun x hx => ⟨hx.1.trans (Header.tileMetas_count hr.count), fun p hp v hv => ?_⟩) hall
    obtain ⟨i, hi⟩ := List.getElem?_of_mem hp
    obtain ⟨m, hm⟩ := getOf hx.1 hi
    exact (hx.2 i m p hm hi).2 v hv
  · obtain ⟨c, hc⟩ := List.getElem?_of_mem hm
    obtain ⟨k, m0, -, h2, rfl, -⟩ := Header.tileMetas_at hr.count hc
    obtain ⟨a, b⟩ := (metas_layout hr.count hr.schemes).metaOk m0 h2
    exact ⟨a, b⟩
  · rw [List.length_map, Header.tileMetas_count hr.count]; exact hq.count
  · rw [Header.tileMetas_count hr.count]
    exact cropAll_length hi.sized.length
  · obtain ⟨k, img, hk, himg, rfl⟩ := cropAll_ok hc
    refine ⟨?_, fun v hv => ?_⟩
    · rw [crop_length, h.tile_blocks hh hr.count hd ht hm hk]
    · rcases crop_mem hv with rfl | hv
      · omega
      · exact hi.short img (List.mem_of_getElem? himg) v hv
  · obtain ⟨k, m0, hk, -⟩ := Header.tileMetas_at hr.count hm
    obtain ⟨fl, hfl⟩ := getOf hf.length.symm hk
    refine ⟨_, cropAll_get hk hfl, ?_⟩
    rw [crop_length, h.tile_blocks hh hr.count hd ht hm hk]

theorem HistogramData.Sane.maps {n : Nat} {r : HistogramData} (hr : r.Sane n) : Prog.MapsOk (histMaps r.contextMap r.histograms) :=
  histMaps_ok fun h hh => Nat.le_of_eq (hr.histograms h hh).1

/-- The state during the DC stage. -/
theorem decodeDcTask_ok {h : Header} {r : HistogramData} (hr : r.Sane h.comps.length) {dim : Nat} {parts : List (List Nat)} {st st' : List (List Int) × List (List Bool)} {t : Nat}
    (hi : h.ImgsOk st.1 ∧ h.FlagsOk st.2) (he : decodeDcTask h r dim parts st t = some st') : h.ImgsOk st'.1 ∧ h.FlagsOk st'.2 := by
  unfold decodeDcTask at he
  obtain ⟨p, -, he⟩ := Option.bind_eq_some_iff.mp he
  obtain ⟨x, hx, rfl⟩ := Option.map_eq_some_iff.mp he
  obtain ⟨h1, h2⟩ := decodeWords_all hr.maps (dcTask_all hr) hx
  refine ⟨Header.pasteImgs_ok (by rw [List.length_map]; exact h1) (fun q hq => ?_) hi.1, pasteAll_sized (by rw [List.length_map]; exact h1) hi.2⟩
  obtain ⟨y, hy, rfl⟩ := List.mem_map.mp hq
  exact h2 y hy

theorem readPart_nil (tag : Nat) : readPart tag [] = none := by
  unfold readPart
  have : readTag ((List.range 16).filter (· ≠ tag)) [] = .needMore := rfl
  unfold Rd.andThen
  rw [this]

/-- The state during the AC stage. -/
theorem decodeAcTask_ok {h : Header} (hh : h.Ok) {r : HistogramData} (hr : r.Sane h.comps.length) {tabs : List (List Nat)} {idx : List Nat}
    (hq : QuantSane h.comps.length (tabs, idx)) {dim t : Nat} (hd : h.DimOk dim) {parts : List (List Nat)} (hpl : parts.length = h.tasks dim) {imgs imgs' : List (List Int)}
    (hi : h.ImgsOk imgs) {flags : List (List Bool)} (hf : h.FlagsOk flags)
    (he : decodeAcTask h r (idx.map fun i => tabs.getD i []) dim parts flags imgs t = some imgs') : h.ImgsOk imgs' := by
  unfold decodeAcTask at he
  obtain ⟨p, hp, he⟩ := Option.bind_eq_some_iff.mp he
  have ht : t < h.tasks dim := by
    rw [← hpl]
    apply Decidable.byContradiction
    intro hlt
    rw [List.getD_eq_getElem?_getD, List.getElem?_eq_none (by omega)] at hp
    rw [show (none : Option (List Nat)).getD [] = [] from rfl, readPart_nil] at hp
    cases hp
  obtain ⟨x, hx, rfl⟩ := Option.map_eq_some_iff.mp he
  obtain ⟨h1, h2⟩ := decodeWords_all hr.maps (acTask_all hh hr hq hd ht hi hf) hx
  exact Header.pasteImgs_ok h1 h2 hi

theorem foldlM_keeps {σ : Type} {f : σ → Nat → Option σ} {I : σ → Prop} (hf : ∀ s t s', I s → f s t = some s' → I s') : ∀ (l : List Nat) (s s' : σ), I s →
    l.foldlM f s = some s' → I s' := by
  intro l
  induction l with
  | nil => intro s s' hs h; cases h; exact hs
  | cons t l ih =>
    intro s s' hs h
    rw [List.foldlM_cons] at h
    obtain ⟨s1, h1, h2⟩ := Option.bind_eq_some_iff.mp h
    exact ih s1 s' (hf s t s1 hs h1) h2

/-! ## Schedules -/

/-- Steps that can be swapped may be run in any order. -/
theorem foldlM_swap {σ : Type} {f : σ → Nat → Option σ} {I : σ → Prop} {T : Nat} (hf : ∀ s t s', I s → f s t = some s' → I s')
    (hc : ∀ s t u, I s → t < T → u < T → t ≠ u → ((f s t).bind fun s => f s u) = (f s u).bind fun s => f s t) {l l' : List Nat} (hp : l.Perm l') :
    (∀ t ∈ l, t < T) → ∀ s, I s → l.foldlM f s = l'.foldlM f s := by
  induction hp with
  | nil => intro _ s _; rfl
  | cons t hp ih =>
    intro hl s hs
    rw [List.foldlM_cons, List.foldlM_cons]
    cases h : f s t with
    | none => rfl
    | some s1 => exact ih (fun u hu => hl u (List.mem_cons_of_mem _ hu)) s1 (hf s t s1 hs h)
  | swap t u l =>
    intro hl s hs
    rw [List.foldlM_cons, List.foldlM_cons]
    simp only [List.foldlM_cons]
    by_cases htu : t = u
    · subst htu; rfl
    · have e := hc s u t hs (hl u List.mem_cons_self) (hl t (List.mem_cons_of_mem _ List.mem_cons_self)) (fun e => htu e.symm)
      show ((f s u).bind fun s' => (f s' t).bind fun s'' => l.foldlM f s'') = (f s t).bind fun s' => (f s' u).bind fun s'' => l.foldlM f s''
      rw [← Option.bind_assoc, ← Option.bind_assoc, e]
  | trans h1 h2 ih1 ih2 =>
    intro hl s hs
    rw [ih1 hl s hs, ih2 (fun t ht => hl t (h1.mem_iff.mpr ht)) s hs]

theorem paste_comm {α : Type} {d : α} {len count : Nat} {size : Nat → Nat} {place : Nat → Nat → Nat} (ht : Tiling len count size place) {t u : Nat} (h1 : t < count) (h2 : u < count)
    (hne : t ≠ u) {l p q : List α} (hl : l.length = len) :
    paste d (place t) (size t) p (paste d (place u) (size u) q l) = paste d (place u) (size u) q (paste d (place t) (size t) p l) := by
  apply List.ext_getElem?
  intro i
  by_cases hi : i < len
  · obtain ⟨v, hv, j, hj, rfl⟩ := ht.cover i hi
    have other : ∀ (w : Nat) (p l : List α), w < count → v ≠ w → (paste d (place w) (size w) p l)[place v j]? = l[place v j]? := fun w p l hw hvw =>
      paste_other fun k hk e => hvw (ht.inj w hw k hk v hv j hj e).1.symm
    have at' : ∀ (p l : List α), l.length = len → (paste d (place v) (size v) p l)[place v j]? = some (p.getD j d) := fun p l hl =>
      paste_at (fun k hk e => (ht.inj v hv k hk v hv j hj e).2) hj (by rw [hl]; exact hi)
    by_cases e1 : v = t
    · subst e1
      rw [at' _ _ (by rw [paste_length]; exact hl), other u _ _ h2 hne, at' _ _ hl]
    · by_cases e2 : v = u
      · subst e2
        rw [other t _ _ h1 e1, at' _ _ hl, at' _ _ (by rw [paste_length]; exact hl)]
      · rw [other t _ _ h1 e1, other u _ _ h2 e2, other u _ _ h2 e2, other t _ _ h1 e1]
  · rw [List.getElem?_eq_none (by rw [paste_length, paste_length]; omega), List.getElem?_eq_none (by rw [paste_length, paste_length]; omega)]

theorem crop_paste {α : Type} {d : α} {len count : Nat} {size : Nat → Nat} {place : Nat → Nat → Nat} (ht : Tiling len count size place) {t u : Nat} (h1 : t < count) (h2 : u < count)
    (hne : t ≠ u) {l p : List α} (hl : l.length = len) : crop d (place t) (size t) (paste d (place u) (size u) p l) = crop d (place t) (size t) l := by
  apply List.ext_getElem?
  intro j
  by_cases hj : j < size t
  · have hpl := ht.lt t h1 j hj
    rw [crop_get hj (by rw [paste_length, hl]; exact hpl), crop_get hj (by rw [hl]; exact hpl), paste_other fun k hk e => hne (ht.inj u h2 k hk t h1 j hj e).1.symm]
  · rw [List.getElem?_eq_none (by rw [crop_length]; omega), List.getElem?_eq_none (by rw [crop_length]; omega)]

section
variable {α κ : Type} {cs : List κ} {T : Nat} {ln : κ → Nat} {sz : κ → Nat → Nat} {pl : κ → Nat → Nat → Nat} {L : List (List α)}

theorem pasteAll_get {d : α} {pl : κ → Nat → Nat} {sz : κ → Nat} {p : List (List α)} {i : Nat} {c : κ} {a l : List α} (h1 : cs[i]? = some c) (h2 : p[i]? = some a)
    (h3 : L[i]? = some l) : (pasteAll d cs pl sz p L)[i]? = some (paste d (pl c) (sz c) a l) :=
  List.getElem?_zipWith_eq_some.mpr ⟨c, (a, l), h1, List.getElem?_zip_eq_some.mpr ⟨h2, h3⟩, rfl⟩

theorem pasteAll_comm (d : α) (ht : ∀ c ∈ cs, Tiling (ln c) T (sz c) (pl c)) (hL : SizedAll cs ln L) {t u : Nat} (h1 : t < T) (h2 : u < T) (hne : t ≠ u) {p q : List (List α)}
    (hp : p.length = cs.length) (hq : q.length = cs.length) :
    pasteAll d cs (fun c => pl c t) (fun c => sz c t) p (pasteAll d cs (fun c => pl c u) (fun c => sz c u) q L) =
    pasteAll d cs (fun c => pl c u) (fun c => sz c u) q (pasteAll d cs (fun c => pl c t) (fun c => sz c t) p L) := by
  have s1 := pasteAll_sized (d := d) (pl := fun c => pl c t) (sz := fun c => sz c t) hp hL
  have s2 := pasteAll_sized (d := d) (pl := fun c => pl c u) (sz := fun c => sz c u) hq hL
  have s3 := pasteAll_sized (d := d) (pl := fun c => pl c t) (sz := fun c => sz c t) hp s2
  have s4 := pasteAll_sized (d := d) (pl := fun c => pl c u) (sz := fun c => sz c u) hq s1
  apply List.ext_getElem?
  intro i
  cases hc : cs[i]? with
  | none =>
    have := List.getElem?_eq_none_iff.mp hc
    rw [List.getElem?_eq_none (by rw [s3.length]; omega), List.getElem?_eq_none (by rw [s4.length]; omega)]
  | some c =>
    obtain ⟨l, hl⟩ := getOf hL.length.symm hc
    obtain ⟨a, ha⟩ := getOf hp.symm hc
    obtain ⟨b, hb⟩ := getOf hq.symm hc
    rw [pasteAll_get hc ha (pasteAll_get hc hb hl), pasteAll_get hc hb (pasteAll_get hc ha hl), paste_comm (ht c (List.mem_of_getElem? hc)) h1 h2 hne (hL.each i c l hc hl)]

theorem cropAll_paste (d : α) (ht : ∀ c ∈ cs, Tiling (ln c) T (sz c) (pl c)) (hL : SizedAll cs ln L) {t u : Nat} (h1 : t < T) (h2 : u < T) (hne : t ≠ u) {p : List (List α)}
    (hp : p.length = cs.length) :
    cropAll d cs (fun c => pl c t) (fun c => sz c t) (pasteAll d cs (fun c => pl c u) (fun c => sz c u) p L) = cropAll d cs (fun c => pl c t) (fun c => sz c t) L := by
  have s1 := pasteAll_sized (d := d) (pl := fun c => pl c u) (sz := fun c => sz c u) hp hL
  apply List.ext_getElem?
  intro i
  cases hc : cs[i]? with
  | none =>
    have := List.getElem?_eq_none_iff.mp hc
    rw [List.getElem?_eq_none (by rw [cropAll_length s1.length]; omega), List.getElem?_eq_none (by rw [cropAll_length hL.length]; omega)]
  | some c =>
    obtain ⟨l, hl⟩ := getOf hL.length.symm hc
    obtain ⟨a, ha⟩ := getOf hp.symm hc
    rw [cropAll_get hc (pasteAll_get hc ha hl), cropAll_get hc hl, crop_paste (ht c (List.mem_of_getElem? hc)) h1 h2 hne (hL.each i c l hc hl)]
end

/-- The places of different tasks do not overlap. -/
theorem Header.pasteImgs_comm {h : Header} (hh : h.Ok) {dim : Nat} (hd : h.DimOk dim) {imgs p q : List (List Int)} (hi : h.ImgsOk imgs) {t u : Nat} (ht : t < h.tasks dim) (hu : u < h.tasks dim)
    (hne : t ≠ u) (hp : p.length = h.comps.length) (hq : q.length = h.comps.length) :
    h.pasteImgs dim t p (h.pasteImgs dim u q imgs) = h.pasteImgs dim u q (h.pasteImgs dim t p imgs) :=
  pasteAll_comm (cs := h.comps) (sz := fun c t => (h.geometry c).size dim t * 64) (pl := fun c => (h.geometry c).coefPlace dim) 0 (h.coef_tiling hh hd) hi.sized ht hu hne hp hq

theorem Header.pasteFlags_comm {h : Header} (hh : h.Ok) {dim : Nat} (hd : h.DimOk dim) {flags p q : List (List Bool)} (hf : h.FlagsOk flags) {t u : Nat} (ht : t < h.tasks dim) (hu : u < h.tasks dim)
    (hne : t ≠ u) (hp : p.length = h.comps.length) (hq : q.length = h.comps.length) :
    h.pasteFlags dim t p (h.pasteFlags dim u q flags) = h.pasteFlags dim u q (h.pasteFlags dim t p flags) :=
  pasteAll_comm (cs := h.comps) (sz := fun c t => (h.geometry c).size dim t) (pl := fun c => (h.geometry c).place dim) false (h.flag_tiling hh hd) hf ht hu hne hp hq

theorem Header.tileImgs_paste {h : Header} (hh : h.Ok) {dim : Nat} (hd : h.DimOk dim) {imgs p : List (List Int)} (hi : h.ImgsOk imgs) {t u : Nat} (ht : t < h.tasks dim) (hu : u < h.tasks dim)
    (hne : t ≠ u) (hp : p.length = h.comps.length) : h.tileImgs dim t (h.pasteImgs dim u p imgs) = h.tileImgs dim t imgs :=
  cropAll_paste (cs := h.comps) (sz := fun c t => (h.geometry c).size dim t * 64) (pl := fun c => (h.geometry c).coefPlace dim) 0 (h.coef_tiling hh hd) hi.sized ht hu hne hp

/-- DC tasks can be swapped. -/
theorem decodeDcTask_comm {h : Header} (hh : h.Ok) {r : HistogramData} (hr : r.Sane h.comps.length) {dim : Nat} (hd : h.DimOk dim) {parts : List (List Nat)}
    (st : List (List Int) × List (List Bool)) (t u : Nat) (hi : h.ImgsOk st.1 ∧ h.FlagsOk st.2) (ht : t < h.tasks dim) (hu : u < h.tasks dim) (hne : t ≠ u) :
    ((decodeDcTask h r dim parts st t).bind fun s => decodeDcTask h r dim parts s u) = (decodeDcTask h r dim parts st u).bind fun s => decodeDcTask h r dim parts s t := by
  have key : ∀ t, t < h.tasks dim → (∀ st, decodeDcTask h r dim parts st t = none) ∨ ∃ x : List (List Int × List Bool), x.length = h.comps.length ∧
      ∀ st, decodeDcTask h r dim parts st t = some (h.pasteImgs dim t (x.map Prod.fst) st.1, h.pasteFlags dim t (x.map Prod.snd) st.2) := by
    intro t _
    unfold decodeDcTask
    cases readPart 7 (parts.getD t []) with
    | none => exact .inl fun _ => rfl
    | some p =>
      simp only [Option.bind_some]
      cases hx : decodeWords (histMaps r.contextMap r.histograms) (decodeDC (contextCount (metas h r.schemes)) (h.tileRows dim t) (h.tileMetas dim t (metas h r.schemes))) (bytesWords p) with
      | none => exact .inl fun _ => rfl
      | some x => exact .inr ⟨x, (decodeWords_all hr.maps (dcTask_all hr) hx).1, fun _ => rfl⟩
  rcases key t ht with e1 | ⟨x, lx, e1⟩
  · rw [e1]
    rcases key u hu with e2 | ⟨y, ly, e2⟩
    · rw [e2, Option.bind_none, Option.bind_none]
    · rw [e2, Option.bind_none, Option.bind_some, e1]
  · rw [e1]
    rcases key u hu with e2 | ⟨y, ly, e2⟩
    · rw [e2, Option.bind_some, Option.bind_none, e2]
    · rw [e2, Option.bind_some, Option.bind_some, e1, e2]
      rw [Header.pasteImgs_comm hh hd hi.1 hu ht (fun e => hne e.symm) (by rw [List.length_map]; exact ly) (by rw [List.length_map]; exact lx),
        Header.pasteFlags_comm hh hd hi.2 hu ht (fun e => hne e.symm) (by rw [List.length_map]; exact ly) (by rw [List.length_map]; exact lx)]

/-- AC tasks can be swapped. -/
theorem decodeAcTask_comm {h : Header} (hh : h.Ok) {r : HistogramData} (hr : r.Sane h.comps.length) {tabs : List (List Nat)} {idx : List Nat}
    (hq : QuantSane h.comps.length (tabs, idx)) {dim : Nat} (hd : h.DimOk dim) {parts : List (List Nat)} {flags : List (List Bool)} (hf : h.FlagsOk flags)
    (imgs : List (List Int)) (t u : Nat) (hi : h.ImgsOk imgs) (ht : t < h.tasks dim) (hu : u < h.tasks dim) (hne : t ≠ u) :
    ((decodeAcTask h r (idx.map fun i => tabs.getD i []) dim parts flags imgs t).bind fun s => decodeAcTask h r (idx.map fun i => tabs.getD i []) dim parts flags s u) =
    (decodeAcTask h r (idx.map fun i => tabs.getD i []) dim parts flags imgs u).bind fun s => decodeAcTask h r (idx.map fun i => tabs.getD i []) dim parts flags s t := by
  have key : ∀ t, t < h.tasks dim → (∀ imgs', h.tileImgs dim t imgs' = h.tileImgs dim t imgs → decodeAcTask h r (idx.map fun i => tabs.getD i []) dim parts flags imgs' t = none) ∨
      ∃ x : List (List Int), x.length = h.comps.length ∧ ∀ imgs', h.tileImgs dim t imgs' = h.tileImgs dim t imgs →
        decodeAcTask h r (idx.map fun i => tabs.getD i []) dim parts flags imgs' t = some (h.pasteImgs dim t x imgs') := by
    intro t ht
    unfold decodeAcTask
    cases readPart 8 (parts.getD t []) with
    | none => exact .inl fun _ _ => rfl
    | some p =>
      simp only [Option.bind_some]
      cases hx : decodeWords (histMaps r.contextMap r.histograms) (decodeAC (contextCount (metas h r.schemes)) false (h.tileRows dim t) (h.tileMetas dim t (metas h r.schemes))
          (idx.map fun i => tabs.getD i []) (h.tileImgs dim t imgs) (h.tileFlags dim t flags)) (bytesWords p) with
      | none => exact .inl fun imgs' e => by rw [e, hx]; rfl
      | some x => exact .inr ⟨x, (decodeWords_all hr.maps (acTask_all hh hr hq hd ht hi hf) hx).1, fun imgs' e => by rw [e, hx]; rfl⟩
  have tile : ∀ t u x, t < h.tasks dim → u < h.tasks dim → t ≠ u → x.length = h.comps.length → h.tileImgs dim t (h.pasteImgs dim u x imgs) = h.tileImgs dim t imgs :=
    fun t u x ht hu hne lx => Header.tileImgs_paste hh hd hi ht hu hne lx
  rcases key t ht with e1 | ⟨x, lx, e1⟩
  · rw [e1 _ rfl]
    rcases key u hu with e2 | ⟨y, ly, e2⟩
    · rw [e2 _ rfl, Option.bind_none, Option.bind_none]
    · rw [e2 _ rfl, Option.bind_none, Option.bind_some, e1 _ (tile t u y ht hu hne ly)]
  · rw [e1 _ rfl]
    rcases key u hu with e2 | ⟨y, ly, e2⟩
    · rw [e2 _ rfl, Option.bind_some, Option.bind_none, e2 _ (tile u t x hu ht (fun e => hne e.symm) lx)]
    · rw [e2 _ rfl, Option.bind_some, Option.bind_some, e1 _ (tile t u y ht hu hne ly), e2 _ (tile u t x hu ht (fun e => hne e.symm) lx)]
      rw [Header.pasteImgs_comm hh hd hi hu ht (fun e => hne e.symm) ly lx]

theorem splitSections_count : ∀ (n : Nat) (bs : List Nat) (r : List (List Nat) × List Nat), splitSections n bs = some r → r.1.length = n := by
  intro n
  induction n with
  | zero => intro bs r h; cases h; rfl
  | succ n ih =>
    intro bs r h
    rw [splitSections] at h
    split at h
    · cases h
    · rename_i rest _
      obtain ⟨r', hr', rfl⟩ := Option.map_eq_some_iff.mp h
      simp [ih rest r' hr']

/-- The order of the tasks is of no importance, whatever the input is. -/
theorem decodeGroups_order {par : Codec} {acDim dcDim : Nat} {data : List Nat} {dcOrder dcOrder' acOrder acOrder' : List Nat}
    (hdo : ∀ chunk rest s, splitSections 6 data = some (chunk, rest) → readCommon par chunk.flatten = some s → (∀ t ∈ dcOrder, t < s.header.tasks dcDim) ∧ ∀ t ∈ acOrder, t < s.header.tasks acDim)
    (hdp : dcOrder.Perm dcOrder') (hap : acOrder.Perm acOrder') :
    decodeGroups par acDim dcDim dcOrder acOrder data = decodeGroups par acDim dcDim dcOrder' acOrder' data := by
  unfold decodeGroups
  split
  · rfl
  split
  · rfl
  split
  · rfl
  rename_i ha0
  split
  · rfl
  rename_i hmod
  cases h1 : splitSections 6 data with
  | none => rfl
  | some y =>
  obtain ⟨chunk, rest⟩ := y
  dsimp only
  cases h2 : readCommon par chunk.flatten with
  | none => rfl
  | some s =>
  dsimp only
  have hs := readCommon_common h2
  obtain ⟨hdl, hal⟩ := hdo chunk rest s h1 h2
  cases h3 : s.quant with
  | none => rfl
  | some q =>
  obtain ⟨tabs, idx⟩ := q
  cases h4 : s.hist with
  | none => rfl
  | some r =>
  dsimp only
  have hq := hs.quant _ h3
  have hr := hs.hist _ h4
  split
  · rfl
  rename_i hf1
  split
  · rfl
  rename_i hf2
  split
  · rfl
  rename_i hd0
  obtain ⟨da, dd⟩ := Header.dims_ok (h := s.header) ha0 hd0 (Decidable.not_not.mp hmod) (Decidable.not_not.mp hf1) (Decidable.not_not.mp hf2)
  cases h5 : splitSections (s.header.tasks dcDim) rest with
  | none => rfl
  | some y =>
  obtain ⟨dcParts, rest2⟩ := y
  dsimp only
  cases h6 : splitSections (s.header.tasks acDim) rest2 with
  | none => rfl
  | some y =>
  obtain ⟨acParts, rest3⟩ := y
  dsimp only
  split
  · rfl
  have e1 := foldlM_swap (f := decodeDcTask s.header r dcDim dcParts) (I := fun st => s.header.ImgsOk st.1 ∧ s.header.FlagsOk st.2) (T := s.header.tasks dcDim)
    (fun st t st' hi he => decodeDcTask_ok hr hi he) (fun st t u hi ht hu hne => decodeDcTask_comm hs.header hr dd st t u hi ht hu hne) hdp hdl
    (s.header.noImgs, s.header.noFlags) ⟨s.header.noImgs_ok, s.header.noFlags_sized⟩
  rw [e1]
  cases h7 : dcOrder'.foldlM (decodeDcTask s.header r dcDim dcParts) (s.header.noImgs, s.header.noFlags) with
  | none => rfl
  | some st =>
  obtain ⟨imgs, flags⟩ := st
  dsimp only
  obtain ⟨hi, hf⟩ := foldlM_keeps (I := fun (st : List (List Int) × List (List Bool)) => s.header.ImgsOk st.1 ∧ s.header.FlagsOk st.2) (fun st t st' hi he => decodeDcTask_ok hr hi he) dcOrder' (s.header.noImgs, s.header.noFlags) (imgs, flags)
    ⟨s.header.noImgs_ok, s.header.noFlags_sized⟩ h7
  have e2 := foldlM_swap (f := decodeAcTask s.header r (idx.map fun i => tabs.getD i []) acDim acParts flags) (I := s.header.ImgsOk) (T := s.header.tasks acDim)
    (fun imgs t imgs' hi he => decodeAcTask_ok hs.header hr hq da (splitSections_count _ _ _ h6) hi hf he)
    (fun imgs t u hi ht hu hne => decodeAcTask_comm hs.header hr hq da hf imgs t u hi ht hu hne) hap hal imgs hi
  rw [e2]

/-- The decoder itself is defined if it has tables. -/
theorem decodeGroups_defined {par : Codec} {acDim dcDim : Nat} (ha : acDim ≠ 0) (hd : dcDim ≠ 0) {data dcOrder acOrder : List Nat}
    (ht : ∀ chunk rest s, splitSections 6 data = some (chunk, rest) → readCommon par chunk.flatten = some s → s.quant.isSome ∧ s.hist.isSome) :
    decodeGroups par acDim dcDim dcOrder acOrder data ≠ .ub := by
  intro h
  unfold decodeGroups at h
  split at h
  · cases h
  split at h
  · cases h
  split at h
  · cases h
  cases h1 : splitSections 6 data with
  | none => rw [h1] at h; cases h
  | some y =>
  obtain ⟨chunk, rest⟩ := y
  rw [h1] at h
  dsimp only at h
  cases h2 : readCommon par chunk.flatten with
  | none => rw [h2] at h; cases h
  | some s =>
  rw [h2] at h
  dsimp only at h
  obtain ⟨hq, hr⟩ := ht chunk rest s h1 h2
  obtain ⟨⟨tabs, idx⟩, h3⟩ := Option.isSome_iff_exists.mp hq
  obtain ⟨r, h4⟩ := Option.isSome_iff_exists.mp hr
  rw [h3, h4] at h
  dsimp only at h
  split at h
  · cases h
  split at h
  · cases h
  split at h
  · cases h
  split at h
  · cases h
  split at h
  · cases h
  split at h
  · cases h
  split at h
  · cases h
  · rename_i imgs _
    obtain ⟨J, hJ⟩ := (readCommon_common h2).result h3 imgs
    have e : Run.orUb { s with ac := some imgs }.result = .ok J := by rw [hJ]; rfl
    rw [h3, h4] at *
    rw [h] at e
    cases e

end Brunsli
