import Verif.StreamClean
/-!
# What holds of the data of every file while it is parsed

Whatever bytes arrive: what the sections read so far have left in `State` and `JPEGData` is what the writer relies on.
-/

namespace Brunsli

/-- What the sections `m` have left. -/
structure SectState.Known (m : List Nat) (s : SectState) : Prop where
  internals : ∀ x, s.internals = some x → x.Sane s.header.comps.length
  quant : ∀ q, s.quant = some q → QuantSane s.header.comps.length q
  hist : ∀ r, s.hist = some r → r.Sane s.header.comps.length
  dc : ∀ dc, s.dc = some dc → Planes s.header.mcuRows s.metas (dc.map Prod.fst) ∧ DcRead s.header.mcuRows s.metas dc
  has4 : 4 ∈ m → s.internals.isSome
  has5 : 5 ∈ m → s.quant.isSome
  has6 : 6 ∈ m → s.hist.isSome
  not4 : 4 ∉ m → s.internals = none

/-- In the middle of a section. -/
def BodySt.Known {z : Inflater} (s : SectState) : BodySt z → Prop
  | .metadata _ => True
  | .internals t => internalsSane s.header.comps.length t
  | .quant t => t.2.Post (QuantSane s.header.comps.length)
  | .hist t => t.2.Post (HistogramData.Sane s.header.comps.length) ∧ t.2.Clean
  | .dc t => t.prog.Live ∧ t.prog.Always (Seen.Fit s.header.mcuRows s.metas) ∧ (t.prog.Post fun a => Planes s.header.mcuRows s.metas (a.map Prod.fst)) ∧
      t.prog.Clean t.maps (DcRead s.header.mcuRows s.metas)
  | .ac t => t.prog.Live ∧ t.prog.Always (Seen.Fit s.header.mcuRows s.metas) ∧ t.prog.Post (Planes s.header.mcuRows s.metas) ∧ t.prog.Clean t.maps fun _ => True

/-- At the end. -/
def SectState.Ready (s : SectState) : Prop := s.Known [4, 5, 6] ∧ ∃ imgs, s.ac = some imgs ∧ Planes s.header.mcuRows s.metas imgs

/-- In all stages. -/
def FileSt.Known {z : Inflater} : FileSt z → Prop
  | .sectTag met s => s.Known met
  | .sectValue met s => s.Known met
  | .sectSkip _ met s => s.Known met
  | .sectSize _ met s => s.Known met.tail
  | .sectBody _ _ t met s => s.Known met.tail ∧ t.Known s
  | .ended (.image s) => s.Ready
  | _ => True

theorem SectState.Known.same {m m' : List Nat} {s : SectState} (h : s.Known m) (hm : ∀ k, k < 9 → (k ∈ m' ↔ k ∈ m)) : s.Known m' :=
  ⟨h.internals, h.quant, h.hist, h.dc, fun x => h.has4 ((hm 4 (by decide)).mp x), fun x => h.has5 ((hm 5 (by decide)).mp x), fun x => h.has6 ((hm 6 (by decide)).mp x),
    fun x => h.not4 fun y => x ((hm 4 (by decide)).mpr y)⟩

theorem SectState.Known.other {m : List Nat} {s : SectState} {t : Nat} (h : s.Known m) (ht : 9 < t) : s.Known (t :: m) :=
  h.same fun k hk => ⟨fun h => (List.mem_cons.mp h).resolve_left (by omega), List.mem_cons_of_mem _⟩

theorem sectStart_known {z : Inflater} {s : SectState} {tag rem : Nat} {t : BodySt z} {m : List Nat} (ho : s.Ok) (hk : s.Known m) (h : sectStart z s tag rem = some t) : t.Known s := by
  unfold sectStart at h
  split at h
  · cases h; trivial
  split at h
  · cases h; exact internalsBP_post _ _ _
  split at h
  · cases hi : s.internals with
    | none => rw [hi] at h; cases h
    | some x => rw [hi] at h; cases h; exact quantBP_post _ _
  split at h
  · cases h; exact ⟨histBP_post ho.1.1 ho.1.2, histBP_clean _⟩
  split at h
  · cases hh : s.hist with
    | none => rw [hh] at h; cases h
    | some r =>
      rw [hh] at h; cases h
      have em : s.metas = Brunsli.metas s.header r.schemes := by unfold SectState.metas; rw [hh]
      have := dcWP_fit (contextCount (Brunsli.metas s.header r.schemes)) s.header.mcuRows (Brunsli.metas s.header r.schemes)
      refine ⟨(trivial), ?_, ?_, ?_⟩
      · rw [em]; exact this.1
      · rw [em]; exact this.2
      · rw [em]; exact dcWP_clean (histMaps_some (hk.hist r hh) rfl) (contextCount_dc _)
  split at h
  · split at h
    · rename_i r tabs idx dc hh hq hd
      cases h
      have em : s.metas = Brunsli.metas s.header r.schemes := by unfold SectState.metas; rw [hh]
      obtain ⟨hp, hdr⟩ := hk.dc dc hd
      have hr := hk.hist r hh
      have hqs := hk.quant _ hq
      rw [em] at hp hdr
      have := acWP_fit (contextCount (Brunsli.metas s.header r.schemes)) (legacyModel s.header.version) s.header.mcuRows (Brunsli.metas s.header r.schemes)
        (idx.map fun i => tabs.getD i []) (dc.map Prod.fst) (dc.map Prod.snd) hp
      refine ⟨(trivial), ?_, ?_, acWP_clean (histMaps_some hr rfl) (metas_layout hr.count hr.schemes).metaOk ?_ (fun q hq => ?_) hdr⟩
      · rw [em]; exact this.1
      · rw [em]; exact this.2
      · rw [List.length_map, metas_length hr.count]; exact hqs.count
      · obtain ⟨i, hi, rfl⟩ := List.mem_map.mp hq
        have hlt := hqs.index i hi
        rw [List.getD_eq_getElem?_getD, List.getElem?_eq_getElem hlt]
        exact hqs.tables _ (List.getElem_mem hlt)
    · cases h
  · cases h

/-- A step in the middle of a section. -/
theorem sectBody_known {z : Inflater} {s : SectState} {t : BodySt z} {rem : Nat} {bs : List Nat} (hi : sectInv t rem) (hf : t.Known s) :
    ∀ t' n, (sectBody z s t rem bs = .more t' n ∨ sectBody z s t rem bs = .wait t' n) → t'.Known s := by
  intro t' n h
  cases t with
  | metadata t =>
    simp only [sectBody] at h
    cases hb : metaBody z t rem bs <;> rw [hb] at h <;> rcases h with h | h <;> cases h <;> exact hf
  | internals t =>
    simp only [sectBody] at h
    have hs := (internalsBody_sane (bs := bs) (show internalsInv t rem from hi) hf).1
    cases hb : internalsBody t rem bs <;> rw [hb] at h <;> rcases h with h | h <;> cases h
    · exact hs _ _ (.inl hb)
    · exact hs _ _ (.inr hb)
  | quant t =>
    simp only [sectBody] at h
    have hs := (bitBody_post (opt := false) (bs := bs) (show bitInv (fun _ => True) t rem from hi) hf).1
    cases hb : bitBody false t rem bs <;> rw [hb] at h <;> rcases h with h | h <;> cases h
    · exact hs _ _ (.inl hb)
    · exact hs _ _ (.inr hb)
  | hist t =>
    simp only [sectBody] at h
    have hs := (bitBody_post (opt := true) (bs := bs) (show bitInv (fun d : HistogramData => ∀ h ∈ d.histograms, h.length = 18) t rem from hi) hf.1).1
    have hcl := bitBody_clean (opt := true) (bs := bs) (show bitInv (fun d : HistogramData => ∀ h ∈ d.histograms, h.length = 18) t rem from hi) hf.2
    cases hb : bitBody true t rem bs <;> rw [hb] at h <;> rcases h with h | h <;> cases h
    · exact ⟨hs _ _ (.inl hb), hcl _ _ (.inl hb)⟩
    · exact ⟨hs _ _ (.inr hb), hcl _ _ (.inr hb)⟩
  | dc t =>
    simp only [sectBody] at h
    obtain ⟨h1, h2, h3, h4⟩ := hf
    have hw : wordInv (fun _ => True) t rem := hi
    have hs := (wordBody_steps (bs := bs) hw).1
    have hcl := (wordBody_clean (bs := bs) hw h4).1
    have ha := wordBody_always (bs := bs) hw h1 h2
    cases hb : wordBody t rem bs <;> rw [hb] at h <;> rcases h with h | h <;> cases h
    · exact ⟨(ha _ _ (.inl hb)).2, (ha _ _ (.inl hb)).1, (hs _ _ (.inl hb)).1 _ h3, (hcl _ _ (.inl hb)).1⟩
    · exact ⟨(ha _ _ (.inr hb)).2, (ha _ _ (.inr hb)).1, (hs _ _ (.inr hb)).1 _ h3, (hcl _ _ (.inr hb)).1⟩
  | ac t =>
    simp only [sectBody] at h
    obtain ⟨h1, h2, h3, h4⟩ := hf
    have hw : wordInv (fun _ => True) t rem := hi
    have hs := (wordBody_steps (bs := bs) hw).1
    have hcl := (wordBody_clean (bs := bs) hw h4).1
    have ha := wordBody_always (bs := bs) hw h1 h2
    cases hb : wordBody t rem bs <;> rw [hb] at h <;> rcases h with h | h <;> cases h
    · exact ⟨(ha _ _ (.inl hb)).2, (ha _ _ (.inl hb)).1, (hs _ _ (.inl hb)).1 _ h3, (hcl _ _ (.inl hb)).1⟩
    · exact ⟨(ha _ _ (.inr hb)).2, (ha _ _ (.inr hb)).1, (hs _ _ (.inr hb)).1 _ h3, (hcl _ _ (.inr hb)).1⟩

/-- The end of a section. -/
theorem sectBody_ends {z : Inflater} {s s' : SectState} {t : BodySt z} {tag rem n : Nat} {bs : List Nat} {m : List Nat} (hi : sectInv t rem) (hf : t.Fwd tag s) (hb : Between m s)
    (hn : tag ∉ m) (hk : s.Known m) (ht : t.Known s) (h : sectBody z s t rem bs = .done s' n) :
    if tag = 8 then s'.internals = s.internals ∧ s'.quant = s.quant ∧ s'.hist = s.hist ∧ s'.header = s.header ∧ s'.dc = s.dc ∧ ∃ imgs, s'.ac = some imgs ∧ Planes s.header.mcuRows s.metas imgs
    else s'.Known (tag :: m) := by
  have ne : ∀ k, tag ≠ k → (k ∈ tag :: m ↔ k ∈ m) := fun k h => by
    constructor
    · exact fun x => (List.mem_cons.mp x).resolve_left (Ne.symm h)
    · exact List.mem_cons_of_mem _
  cases t with
  | metadata t =>
    simp only [sectBody] at h
    cases e : metaBody z t rem bs <;> rw [e] at h <;> cases h
    have e : tag = 3 := hf
    rw [if_neg (by omega)]
    exact ⟨hk.internals, hk.quant, hk.hist, hk.dc, fun x => hk.has4 ((ne 4 (by omega)).mp x), fun x => hk.has5 ((ne 5 (by omega)).mp x), fun x => hk.has6 ((ne 6 (by omega)).mp x),
      fun x => hk.not4 fun y => x ((ne 4 (by omega)).mpr y)⟩
  | internals t =>
    simp only [sectBody] at h
    have hs := (internalsBody_sane (bs := bs) (show internalsInv t rem from hi) ht).2
    cases e : internalsBody t rem bs <;> rw [e] at h <;> cases h
    have hx := hs _ _ e
    have e : tag = 4 := hf
    rw [if_neg (by omega)]
    exact ⟨(fun x h => by cases h; exact hx), hk.quant, hk.hist, hk.dc, fun _ => rfl, fun x => hk.has5 ((ne 5 (by omega)).mp x), fun x => hk.has6 ((ne 6 (by omega)).mp x),
      fun x => absurd (by rw [e]; exact List.mem_cons_self) x⟩
  | quant t =>
    simp only [sectBody] at h
    have hs := (bitBody_post (opt := false) (bs := bs) (show bitInv (fun _ => True) t rem from hi) ht).2
    cases e : bitBody false t rem bs <;> rw [e] at h <;> cases h
    have hx := hs _ _ e
    have e : tag = 5 := hf
    rw [if_neg (by omega)]
    exact ⟨hk.internals, (fun x h => by cases h; exact hx), hk.hist, hk.dc, fun x => hk.has4 ((ne 4 (by omega)).mp x), fun _ => rfl, fun x => hk.has6 ((ne 6 (by omega)).mp x),
      fun x => hk.not4 fun y => x ((ne 4 (by omega)).mpr y)⟩
  | hist t =>
    simp only [sectBody] at h
    have hs := (bitBody_post (opt := true) (bs := bs) (show bitInv (fun d : HistogramData => ∀ h ∈ d.histograms, h.length = 18) t rem from hi) ht.1).2
    cases e : bitBody true t rem bs <;> rw [e] at h <;> cases h
    have hx := hs _ _ e
    have e : tag = 6 := hf
    rw [if_neg (by omega)]
    refine ⟨hk.internals, hk.quant, (fun x h => by cases h; exact hx), fun dc hd => ?_, fun x => hk.has4 ((ne 4 (by omega)).mp x), fun x => hk.has5 ((ne 5 (by omega)).mp x),
      fun _ => rfl, fun x => hk.not4 fun y => x ((ne 4 (by omega)).mpr y)⟩
    have h7 : 7 ∉ m := fun h7 => hn (e ▸ (hb.closed.dc h7).2.2)
    exact absurd (hb.noDc h7) (by rw [show s.dc = _ from hd]; exact fun h => by cases h)
  | dc t =>
    simp only [sectBody] at h
    have hs := (wordBody_steps (bs := bs) (show wordInv (fun _ => True) t rem from hi)).2
    cases e : wordBody t rem bs <;> rw [e] at h <;> cases h
    have hx := hs _ _ e
    obtain ⟨_, _, h3, h4⟩ := ht
    rw [hx] at h3 h4
    have e : tag = 7 := hf.1
    rw [if_neg (by omega)]
    exact ⟨hk.internals, hk.quant, hk.hist, (fun dc hd => by cases hd; exact ⟨h3, h4⟩), fun x => hk.has4 ((ne 4 (by omega)).mp x), fun x => hk.has5 ((ne 5 (by omega)).mp x),
      fun x => hk.has6 ((ne 6 (by omega)).mp x), fun x => hk.not4 fun y => x ((ne 4 (by omega)).mpr y)⟩
  | ac t =>
    simp only [sectBody] at h
    have hs := (wordBody_steps (bs := bs) (show wordInv (fun _ => True) t rem from hi)).2
    cases e : wordBody t rem bs <;> rw [e] at h <;> cases h
    have hx := hs _ _ e
    obtain ⟨_, _, h3, _⟩ := ht
    rw [hx] at h3
    rw [if_pos hf.1]
    exact ⟨rfl, rfl, rfl, rfl, rfl, _, rfl, h3⟩

theorem SectState.init_known (h : Header) : (SectState.init h).Known [9, 2, 1] :=
  ⟨(fun _ h => by cases h), (fun _ h => by cases h), (fun _ h => by cases h), (fun _ h => by cases h), (fun h => by simp at h), (fun h => by simp at h), (fun h => by simp at h), fun _ => rfl⟩

theorem afterHeader_known {z : Inflater} {met : List Nat} {h : Header} (hm : met = [2, 1]) : (afterHeader met h : FileSt z).Known := by
  unfold afterHeader
  split
  · trivial
  · subst hm
    exact SectState.init_known h

/-- The invariant is kept. -/
theorem fileStep_known {z : Inflater} {s : FileSt z} (w : List Nat) (hi : s.Inv) (hf : s.Fwd) (hk : s.Known) : (fileStep z s w).1.Known := by
  rcases he : fileStep z s w with ⟨s', n, nx⟩
  show s'.Known
  cases s with
  | signature =>
    simp only [fileStep] at he
    rcases readStep_cases he with rfl | ⟨b, rest, k, _, e, _⟩
    · exact hk
    · cases e; trivial
  | headTag met =>
    simp only [fileStep] at he
    rcases readStep_cases he with rfl | ⟨b, rest, k, _, e, _⟩
    · exact hk
    · split at e <;> cases e; trivial
  | headSize met =>
    simp only [fileStep] at he
    rcases readStep_cases he with rfl | ⟨b, rest, k, _, e, _⟩
    · exact hk
    · cases e; trivial
  | itemTag size pos met imet vals =>
    simp only [fileStep] at he
    split at he
    · split at he
      · cases he; exact hk
      · cases he; exact afterHeader_known hi.1
    · rcases readStep_cases he with rfl | ⟨b, rest, k, _, e, _⟩
      · exact hk
      · cases e; split <;> trivial
  | itemSize size pos met imet vals =>
    simp only [fileStep] at he
    rcases readStep_cases he with rfl | ⟨b, rest, k, _, e, _⟩
    · exact hk
    · cases e; trivial
  | itemSkip left size pos met imet vals =>
    simp only [fileStep] at he
    rcases takeStep_cases he with rfl | rfl <;> trivial
  | itemValue tag size pos met imet vals =>
    simp only [fileStep] at he
    rcases readStep_cases he with rfl | ⟨b, rest, k, _, e, _⟩
    · exact hk
    · cases e; trivial
  | origTag met =>
    simp only [fileStep] at he
    rcases readStep_cases he with rfl | ⟨b, rest, k, _, e, _⟩
    · exact hk
    · split at e <;> cases e; trivial
  | origSize =>
    simp only [fileStep] at he
    rcases readStep_cases he with rfl | ⟨b, rest, k, _, e, _⟩
    · exact hk
    · cases e; trivial
  | origData left storage =>
    simp only [fileStep] at he
    rcases takeStep_cases he with rfl | rfl <;> trivial
  | sectTag met s =>
    simp only [fileStep] at he
    rcases readStep_cases he with rfl | ⟨b, rest, k, hr, e, _⟩
    · exact hk
    · have ht := (readTag_ok hr).2.2.2.2
      split at e
      · cases e
        show s.Known b.2.2.tail
        rw [ht]; exact hk
      · split at e
        · cases e
        · cases e
          show s.Known b.2.2
          rw [ht]
          exact SectState.Known.other hk (by omega)
  | sectValue met s =>
    simp only [fileStep] at he
    rcases readStep_cases he with rfl | ⟨b, rest, k, _, e, _⟩
    · exact hk
    · cases e; exact hk
  | sectSize tag met s =>
    simp only [fileStep] at he
    rcases readStep_cases he with rfl | ⟨b, rest, k, _, e, _⟩
    · exact hk
    · obtain ⟨m, rfl, hb⟩ := hf
      split at e
      · rename_i h9
        cases e
        exact SectState.Known.other hk h9
      · split at e
        · cases e
        · split at e
          · cases e
          · cases hs : sectStart z s tag b with
            | none => rw [hs] at e; cases e
            | some t =>
              rw [hs] at e; cases e
              exact ⟨hk, sectStart_known hi.2 hk hs⟩
  | sectSkip left met s =>
    simp only [fileStep] at he
    rcases takeStep_cases he with rfl | rfl <;> exact hk
  | sectBody rem tag t met s =>
    obtain ⟨m, rfl, hb, hc, hbf⟩ := hf
    obtain ⟨hT, hok, hsi⟩ := hi
    obtain ⟨hk, ht⟩ := hk
    simp only [fileStep] at he
    cases hbo : sectBody z s t rem w with
    | more t' k =>
      rw [hbo] at he; cases he
      exact ⟨hk, sectBody_known hsi ht t' _ (.inl hbo)⟩
    | wait t' k =>
      rw [hbo] at he; cases he
      exact ⟨hk, sectBody_known hsi ht t' _ (.inr hbo)⟩
    | bad => rw [hbo] at he; cases he; exact ⟨hk, ht⟩
    | done s'' k =>
      rw [hbo] at he
      dsimp only at he
      have hend := sectBody_ends hsi hbf hb (List.nodup_cons.mp hT.1).1 hk ht hbo
      split at he
      · split at he
        · rename_i h8
          cases he
          rw [if_pos h8] at hend
          obtain ⟨e1, e2, e3, e4, e5, imgs, e6, e7⟩ := hend
          have em : s''.metas = s.metas := by unfold SectState.metas; rw [e3, e4]
          subst h8
          have h7 : 7 ∈ m := (List.mem_cons.mp (hc.ac List.mem_cons_self)).resolve_left (by omega)
          obtain ⟨m4, m5, m6⟩ := hb.closed.dc h7
          refine ⟨⟨?_, ?_, ?_, ?_, fun _ => ?_, fun _ => ?_, fun _ => ?_, fun h => by simp at h⟩, imgs, e6, ?_⟩
          · rw [e1, e4]; exact hk.internals
          · rw [e2, e4]; exact hk.quant
          · rw [e3, e4]; exact hk.hist
          · rw [e5, e4, em]; exact hk.dc
          · rw [e1]; exact hk.has4 m4
          · rw [e2]; exact hk.has5 m5
          · rw [e3]; exact hk.has6 m6
          · rw [e4, em]; exact e7
        · rename_i h8
          cases he
          rw [if_neg h8] at hend
          exact hend
      · cases he; exact ⟨hk, ht⟩
  | ended c => simp only [fileStep] at he; cases he; exact hk

/-! ## What does not change once the writer has started -/

/-- The header and the internals of the file are these. -/
def FileSt.Frozen {z : Inflater} (h : Header) (x : Internals) : FileSt z → Prop
  | .sectTag met s => 4 ∈ met ∧ s.header = h ∧ s.internals = some x
  | .sectValue met s => 4 ∈ met ∧ s.header = h ∧ s.internals = some x
  | .sectSkip _ met s => 4 ∈ met ∧ s.header = h ∧ s.internals = some x
  | .sectSize _ met s => 4 ∈ met.tail ∧ s.header = h ∧ s.internals = some x
  | .sectBody _ _ _ met s => 4 ∈ met.tail ∧ s.header = h ∧ s.internals = some x
  | .ended (.image s) => s.header = h ∧ s.internals = some x
  | _ => False

theorem Finishes.frozen {z : Inflater} {s s' : SectState} {t : BodySt z} {tag : Nat} {m : List Nat} (h : Finishes s t s') (hf : t.Fwd tag s) (h4 : 4 ∈ m) (hn : tag ∉ m) :
    s'.header = s.header ∧ s'.internals = s.internals := by
  cases h with
  | internals t x => have e : tag = 4 := hf; exact absurd (e ▸ h4) hn
  | _ => exact ⟨rfl, rfl⟩

theorem fileStep_frozen {z : Inflater} {s : FileSt z} {h : Header} {x : Internals} (w : List Nat) (hi : s.Inv) (hf : s.Fwd) (hz : s.Frozen h x) : (fileStep z s w).1.Frozen h x := by
  rcases he : fileStep z s w with ⟨s', n, nx⟩
  show s'.Frozen h x
  cases s with
  | sectTag met s =>
    simp only [fileStep] at he
    rcases readStep_cases he with rfl | ⟨b, rest, k, hr, e, _⟩
    · exact hz
    · have ht := (readTag_ok hr).2.2.2.2
      split at e
      · cases e
        refine ⟨?_, hz.2⟩
        rw [ht]; exact hz.1
      · split at e
        · cases e
        · cases e
          refine ⟨?_, hz.2⟩
          rw [ht]; exact List.mem_cons_of_mem _ hz.1
  | sectValue met s =>
    simp only [fileStep] at he
    rcases readStep_cases he with rfl | ⟨b, rest, k, _, e, _⟩
    · exact hz
    · cases e; exact hz
  | sectSize tag met s =>
    simp only [fileStep] at he
    rcases readStep_cases he with rfl | ⟨b, rest, k, _, e, _⟩
    · exact hz
    · split at e
      · cases e
        exact ⟨List.mem_of_mem_tail hz.1, hz.2⟩
      · split at e
        · cases e
        · split at e
          · cases e
          · cases hs : sectStart z s tag b with
            | none => rw [hs] at e; cases e
            | some t => rw [hs] at e; cases e; exact hz
  | sectSkip left met s =>
    simp only [fileStep] at he
    rcases takeStep_cases he with rfl | rfl <;> exact hz
  | sectBody rem tag t met s =>
    obtain ⟨m, rfl, hb, hc, hbf⟩ := hf
    obtain ⟨hT, hok, hsi⟩ := hi
    simp only [fileStep] at he
    cases hbo : sectBody z s t rem w with
    | more t' k => rw [hbo] at he; cases he; exact hz
    | wait t' k => rw [hbo] at he; cases he; exact hz
    | bad => rw [hbo] at he; cases he; exact hz
    | done s'' k =>
      rw [hbo] at he
      dsimp only at he
      have hfin := (sectBody_finishes hsi hbo).frozen hbf hz.1 (List.nodup_cons.mp hT.1).1
      split at he
      · split at he
        · cases he
          exact ⟨hfin.1.trans hz.2.1, hfin.2.trans hz.2.2⟩
        · cases he
          exact ⟨List.mem_cons_of_mem _ hz.1, hfin.1.trans hz.2.1, hfin.2.trans hz.2.2⟩
      · cases he; exact hz
  | ended c => simp only [fileStep] at he; cases he; exact hz
  | _ => exact hz.elim

/-! ## Whole calls -/

/-- What holds of the parser. -/
structure FileSt.Good {z : Inflater} (s : FileSt z) : Prop where
  inv : s.Inv
  fwd : s.Fwd
  known : s.Known

/-- An invariant of the stages is an invariant of calls; a call that does not fail leaves a parser that is alive. -/
theorem doProcess_keeps {z : Inflater} {I : FileSt z → Prop} (hI : ∀ s w, I s → I (fileStep z s w).1) : ∀ (fuel : Nat) (s s' : PSt (FileSt z)) (w w' : List Nat) (r : PStatus),
    I s.core → doProcess (fileParser z) fuel s w = some (s', w', r) → I s'.core ∧ ((∀ c, r ≠ .bad c) → ∀ t c, s' ≠ .dead t c) := by
  intro fuel
  induction fuel with
  | zero => intro s s' w w' r _ h; simp [doProcess] at h
  | succ fuel ih =>
    intro s s' w w' r hs h
    cases s with
    | working s =>
      rw [doProcess] at h
      have hk := hI s w hs
      rcases he : fileStep z s w with ⟨s1, n, nx⟩
      have he' : (fileParser z).step s w = (s1, n, nx) := he
      rw [he'] at h
      rw [he] at hk
      cases nx with
      | go => exact ih (.working s1) s' _ _ _ hk h
      | finished => exact ih (.done s1) s' _ _ _ hk h
      | wait => cases h; exact ⟨hk, fun _ t c h => by cases h⟩
      | fail c => cases h; exact ⟨hk, fun h => absurd rfl (h c)⟩
    | paused s => rw [doProcess] at h; cases h; exact ⟨hs, fun _ t c h => by cases h⟩
    | done s =>
      rw [doProcess] at h
      split at h <;> cases h
      · exact ⟨hs, fun h => absurd rfl (h _)⟩
      · exact ⟨hs, fun _ t c h => by cases h⟩
    | dead s c => rw [doProcess] at h; cases h; exact ⟨hs, fun h => absurd rfl (h c)⟩

theorem PSt.core_resume {σ : Type} (s : PSt σ) : s.resume.core = s.core := by cases s <;> rfl

theorem processDirect_keeps {z : Inflater} {I : FileSt z → Prop} (hI : ∀ s w, I s → I (fileStep z s w).1) {fuel : Nat} {s s' : PSt (FileSt z)} {ext b e : List Nat} {r : PStatus}
    (hs : I s.core) (h : processDirect (fileParser z) fuel s ext = some (s', b, e, r)) : I s'.core ∧ ((∀ c, r ≠ .bad c) → ∀ t c, s' ≠ .dead t c) := by
  unfold processDirect at h
  rcases hd : doProcess (fileParser z) fuel s ext with _ | ⟨s1, w, st⟩
  · rw [hd] at h; cases h
  · rw [hd] at h
    have := doProcess_keeps hI fuel s s1 ext w st hs hd
    cases st <;> cases h <;> exact this

theorem processJpeg_keeps {z : Inflater} {I : FileSt z → Prop} (hI : ∀ s w, I s → I (fileStep z s w).1) {fuel : Nat} {s s' : PSt (FileSt z)} {b ext b' e : List Nat} {r : PStatus}
    (hs : I s.core) (h : processJpeg (fileParser z) fuel s b ext = some (s', b', e, r)) : I s'.core ∧ ((∀ c, r ≠ .bad c) → ∀ t c, s' ≠ .dead t c) := by
  have key : I s.resume.core := by rw [PSt.core_resume]; exact hs
  unfold processJpeg at h
  split at h
  · cases h; exact ⟨hs, fun h => absurd rfl (h _)⟩
  · split at h
    · exact processDirect_keeps hI key h
    · dsimp only at h
      rcases hd : doProcess (fileParser z) fuel s.resume (b ++ ext.take maxReadAhead) with _ | ⟨s1, w, st⟩
      · rw [hd] at h; cases h
      · rw [hd] at h
        dsimp only at h
        have h1 := doProcess_keeps hI fuel s.resume s1 _ w st key hd
        split at h
        · split at h
          · exact processDirect_keeps hI (by rw [PSt.core_resume]; exact h1.1) h
          · cases h; exact h1
        · split at h
          · cases h; exact ⟨h1.1, fun _ => h1.2 fun c hc => by simp_all⟩
          · cases h; exact h1

theorem fileStep_good {z : Inflater} (s : FileSt z) (w : List Nat) (h : s.Good) : (fileStep z s w).1.Good :=
  ⟨(fileParser_incremental z).keep s w h.inv, fileStep_fwd w h.inv h.fwd, fileStep_known w h.inv h.fwd h.known⟩

theorem fileStep_goodFrozen {z : Inflater} {h : Header} {x : Internals} (s : FileSt z) (w : List Nat) (hs : s.Good ∧ s.Frozen h x) :
    (fileStep z s w).1.Good ∧ (fileStep z s w).1.Frozen h x := ⟨fileStep_good s w hs.1, fileStep_frozen w hs.1.inv hs.1.fwd hs.2⟩

end Brunsli
