import Verif.StreamSeen
import Verif.StreamSem
import Verif.StreamOutSpec
/-!
# What the writer sees of the parser

`SerializeJpeg` (c/dec/jpeg_data_writer.cc:966-1093) looks at `State` and `JPEGData` whatever the parser is doing.  This file gives what there is to be seen in every
stage of the parser of `StreamFile.lean`, and shows that in a valid file in which the metadata precede the DC section it is always part of the final image.
-/

namespace Brunsli

/-! ## The view -/

/-- `JPEGData` as constructed (c/include/brunsli/jpeg_data.h). -/
def noJpeg : JpegData := ⟨0, 0, 0, 0, [], [], [], [], [], [], [], [], [], false, []⟩

/-- `*jpg` while sections are missing; `imgs` are the coefficients.  What has not been read has the value given by the constructors and by `resize`
(c/dec/brunsli_decode.cc:1238-1262, 1430-1467).  While the metadata section is being read, it is seen as before. -/
def SectState.partJpeg (s : SectState) (imgs : List (List Int)) : JpegData :=
  let x := s.internals.getD ⟨[], 0, [], [], [], List.replicate s.header.comps.length 0, [], []⟩
  let q := s.quant.getD (List.replicate x.quant.length (List.replicate 64 0), List.replicate s.header.comps.length 0)
  { width := s.header.width
    height := s.header.height
    version := s.header.version
    restartInterval := x.restartInterval
    appData := s.metadata.app
    comData := s.metadata.com
    quant := (x.quant.zip q.1).map fun (q, t) => ⟨t, q.2.2, q.1, q.2.1⟩
    huffman := x.huffman
    components := decComps s.header s.header.comps x.ids q.2 imgs
    scans := x.scans
    markerOrder := x.markers
    interMarker := x.interMarker
    tailData := s.metadata.tail
    hasZeroPaddingBit := !x.padding.isEmpty
    paddingBits := x.padding.map Bool.toNat }

/-- `next_mcu_y` and the coefficients between the sections: there are none before the DC section is entered (`WarmupMeta`, c/dec/brunsli_decode.cc:2243-2265), and
`next_mcu_y` is 0 again when it has been read (:726-734). -/
def SectState.seen (s : SectState) : Seen :=
  match s.dc with
  | some dc => ⟨0, dc.map Prod.fst⟩
  | none => ⟨0, List.replicate s.header.comps.length []⟩

/-- What is seen when a program waits. -/
def WP.seen {α : Type} (img : α → List (List Int)) : WP α → Seen
  | .need _ e _ => e
  | .ret a => ⟨0, img a⟩
  | _ => ⟨0, []⟩

/-- In the middle of a section. -/
def BodySt.seen {z : Inflater} (s : SectState) : BodySt z → Seen
  | .dc t => t.prog.seen (List.map Prod.fst)
  | .ac t => t.prog.seen id
  | _ => s.seen

/-- Before the end. -/
def SectState.view (s : SectState) (met : List Nat) (e : Seen) : View := ⟨false, met, s.partJpeg e.coeffs, none, e.row⟩

/-- What the writer sees before the end of the file. -/
def FileSt.view {z : Inflater} : FileSt z → View
  | .sectTag met s => s.view met s.seen
  | .sectValue met s => s.view met s.seen
  | .sectSize _ met s => s.view met s.seen
  | .sectSkip _ met s => s.view met s.seen
  | .sectBody _ _ t met s => s.view met (t.seen s)
  | _ => ⟨false, [], noJpeg, none, 0⟩

/-- What the writer sees (c/dec/jpeg_data_writer.cc:1003-1040).  An empty payload of a bypass file is a null pointer (c/dec/brunsli_decode.cc:1996-1998). -/
def fileView {z : Inflater} : PSt (FileSt z) → View
  | .done (.ended (.image s)) => ⟨true, [], s.result.getD noJpeg, none, 0⟩
  | .done (.ended (.original o)) => ⟨true, [], { noJpeg with version := 1 }, if o = [] then none else some o, 0⟩
  | .done s => s.view
  | .working s => s.view
  | .paused s => s.view
  | .dead s _ => s.view

/-! ## What holds in every stage -/

/-- The sections met are met after the ones they need. -/
def Closed (met : List Nat) : Prop := ∀ t ∈ met, ∀ r ∈ requires t, r ∈ met

/-- The planes have the sizes given by the header. -/
def Sized (rows : Nat) (ms : List Meta) (b : List (List Int)) : Prop :=
  b.length = ms.length ∧ ∀ (c : Nat) (m : Meta) (p : List Int), ms[c]? = some m → b[c]? = some p → p.length = m.w * (rows * m.vs) * 64

/-- The components as the coefficient sections use them. -/
def SectState.metas (s : SectState) : List Meta :=
  match s.hist with
  | some r => Brunsli.metas s.header r.schemes
  | none => []

/-- The DC coefficients are there. -/
def SectState.HasDc (s : SectState) : Prop := ∃ dc, s.dc = some dc ∧ Sized s.header.mcuRows s.metas (dc.map Prod.fst)

/-- All coefficients are there; the DC coefficients are those of the DC section. -/
def SectState.Final (s : SectState) : Prop := ∃ dc imgs, s.dc = some dc ∧ s.ac = some imgs ∧ Sized s.header.mcuRows s.metas (dc.map Prod.fst) ∧
  Settled s.header.mcuRows s.metas true ⟨0, dc.map Prod.fst⟩ imgs

/-- `met` are the sections read. -/
structure Between (met : List Nat) (s : SectState) : Prop where
  closed : Closed met
  dc : 7 ∈ met → s.HasDc
  noDc : 7 ∉ met → s.dc = none

/-- In the middle of a section. -/
def BodySt.Fwd {z : Inflater} (tag : Nat) (s : SectState) : BodySt z → Prop
  | .metadata _ => tag = 3
  | .internals _ => tag = 4
  | .quant _ => tag = 5
  | .hist _ => tag = 6
  | .dc t => tag = 7 ∧ t.prog.Post (fun a => Sized s.header.mcuRows s.metas (a.map Prod.fst)) ∧
      t.prog.Sound fun e a => Settled s.header.mcuRows s.metas false e (a.map Prod.fst)
  | .ac t => tag = 8 ∧ ∃ dc, s.dc = some dc ∧ t.prog.Post (Settled s.header.mcuRows s.metas true ⟨0, dc.map Prod.fst⟩) ∧
      t.prog.Sound (Settled s.header.mcuRows s.metas true)

/-- In all stages. -/
def FileSt.Fwd {z : Inflater} : FileSt z → Prop
  | .sectTag met s => Between met s
  | .sectValue met s => Between met s
  | .sectSkip _ met s => Between met s
  | .sectSize tag met s => ∃ m, met = tag :: m ∧ Between m s
  | .sectBody _ tag t met s => ∃ m, met = tag :: m ∧ Between m s ∧ Closed met ∧ t.Fwd tag s
  | .ended (.image s) => s.Final
  | _ => True

theorem requires_le {t r : Nat} (h : r ∈ requires t) : r ≤ 9 ∧ r ≠ t ∧ t ≤ 9 := by
  unfold requires at h
  split at h
  · simp only [List.mem_singleton] at h; omega
  split at h
  · simp only [List.mem_cons, List.not_mem_nil, or_false] at h; omega
  split at h
  · simp only [List.mem_singleton] at h; omega
  · cases h

theorem Closed.other {met : List Nat} {t : Nat} (h : Closed met) (ht : 9 < t) : Closed (t :: met) := by
  intro u hu r hr
  rcases List.mem_cons.mp hu with rfl | hu
  · have := requires_le hr; omega
  · exact List.mem_cons_of_mem _ (h u hu r hr)

theorem Closed.cons {met : List Nat} {t : Nat} (h : Closed met) (ht : ∀ r ∈ requires t, r ∈ t :: met) : Closed (t :: met) := by
  intro u hu r hr
  rcases List.mem_cons.mp hu with rfl | hu
  · exact ht r hr
  · exact List.mem_cons_of_mem _ (h u hu r hr)

theorem Between.other {met : List Nat} {t : Nat} {s : SectState} (h : Between met s) (ht : 9 < t) : Between (t :: met) s :=
  ⟨h.closed.other ht, fun h7 => h.dc ((List.mem_cons.mp h7).resolve_left (by omega)), fun h7 => h.noDc fun x => h7 (List.mem_cons_of_mem _ x)⟩

theorem Closed.dc {met : List Nat} (h : Closed met) (h7 : 7 ∈ met) : 4 ∈ met ∧ 5 ∈ met ∧ 6 ∈ met :=
  have h5 := h 7 h7 5 (by decide)
  have h6 := h 7 h7 6 (by decide)
  ⟨h 5 h5 4 (by decide), h5, h6⟩

theorem Closed.ac {met : List Nat} (h : Closed met) (h8 : 8 ∈ met) : 7 ∈ met := h 8 h8 7 (by decide)

theorem dcWP_sized (n rows : Nat) (ms : List Meta) (e : Seen) : (WP.framed e (dcWP n rows ms)).Post fun a => Sized rows ms (a.map Prod.fst) := by
  have h1 := (loop_sound (ms := ms) (ac := false) (img := List.map DcDec.coeffs) (f := dcStepWP n ms) (dcStep_changed n ms)
    (fun R s p h => ⟨h, WP.Sound.ofProg _⟩) (schedule rows ms) (dcDecInit rows ms)).1
  refine fun _ _ => WP.Post.bind (q := fun a : List (List Int × List Bool) => Sized rows ms (a.map Prod.fst)) (f := fun a => .op .fin fun _ => .ret a) (fun a ha _ _ => ha) ?_
  refine WP.Post.bind (fun s hs => ?_) h1
  show Sized rows ms (List.map Prod.fst (s.map fun d => (d.coeffs, d.empty)))
  have e : (s.map fun d => (d.coeffs, d.empty)).map Prod.fst = s.map DcDec.coeffs := by simp
  rw [e]
  refine ⟨by rw [← hs.1]; simp [dcDecInit], fun c m p hm hp => ?_⟩
  obtain ⟨q, h2, h3, _⟩ := hs.2 c (List.replicate (m.w * (rows * m.vs) * 64) 0) (by
    unfold dcDecInit
    rw [List.map_map, List.getElem?_map, hm]; rfl)
  rw [hp] at h2; cases h2
  rw [← h3]; simp

/-! ## The steps keep it -/

theorem sectStart_fwd {z : Inflater} {s : SectState} {tag rem : Nat} {t : BodySt z} {m : List Nat} (hb : Between m s) (hr : ∀ r ∈ requires tag, r ∈ tag :: m)
    (h : sectStart z s tag rem = some t) : t.Fwd tag s := by
  unfold sectStart at h
  split at h
  · rename_i e; cases h; exact e
  split at h
  · rename_i e; cases h; exact e
  split at h
  · rename_i e
    cases hi : s.internals with
    | none => rw [hi] at h; cases h
    | some x => rw [hi] at h; cases h; exact e
  split at h
  · rename_i e; cases h; exact e
  split at h
  · rename_i e
    cases hh : s.hist with
    | none => rw [hh] at h; cases h
    | some r =>
      rw [hh] at h; cases h
      have em : s.metas = Brunsli.metas s.header r.schemes := by unfold SectState.metas; rw [hh]
      refine ⟨e, ?_, ?_⟩
      · rw [em]; exact dcWP_sized _ _ _ _
      · rw [em]; exact dcWP_sound _ _ _
  split at h
  · rename_i e
    split at h
    · rename_i r tabs idx dc hh hq hd
      cases h
      have em : s.metas = Brunsli.metas s.header r.schemes := by unfold SectState.metas; rw [hh]
      have h7 : 7 ∈ m := (List.mem_cons.mp (hr 7 (by rw [e]; decide))).resolve_left (by omega)
      obtain ⟨dc', hd', hs⟩ := hb.dc h7
      rw [hd] at hd'; cases hd'
      have hsd := acWP_sound (contextCount (Brunsli.metas s.header r.schemes)) (legacyModel s.header.version) s.header.mcuRows (Brunsli.metas s.header r.schemes)
        (idx.map fun i => tabs.getD i []) (dc.map Prod.fst) (dc.map Prod.snd) (by rw [← em]; exact hs.1)
      refine ⟨e, dc, hd, ?_, ?_⟩
      · rw [em]; exact hsd.1
      · rw [em]; exact hsd
    · cases h
  · cases h

/-- A step of a section of words. -/
theorem wordBody_steps {α : Type} {w : α → Prop} {t : WordSt α} {rem : Nat} {bs : List Nat} (hi : wordInv w t rem) :
    (∀ t' n, (wordBody t rem bs = .more t' n ∨ wordBody t rem bs = .wait t' n) →
      (∀ q, t.prog.Post q → t'.prog.Post q) ∧ ∀ R, t.prog.Sound R → t'.prog.Sound R) ∧
    ∀ a n, wordBody t rem bs = .done a n → t.prog = .ret a := by
  obtain ⟨maps, dec, prog⟩ := t
  obtain ⟨hm, hd, _, hst, hw⟩ := hi
  simp only at hm hd hst hw
  cases prog with
  | ret a =>
    refine ⟨fun t' n h => ?_, fun a' n h => ?_⟩
    · simp only [wordBody] at h; rcases h with h | h <;> cases h
    · simp only [wordBody, BOut.done.injEq] at h; rw [h.1]
  | fail =>
    refine ⟨fun t' n h => ?_, fun a' n h => ?_⟩
    · simp only [wordBody] at h; rcases h with h | h <;> cases h
    · simp only [wordBody] at h; cases h
  | ub =>
    refine ⟨fun t' n h => ?_, fun a' n h => ?_⟩
    · simp only [wordBody] at h; rcases h with h | h <;> cases h
    · simp only [wordBody] at h; cases h
  | op q k => exact hst.elim
  | need n e k =>
    obtain ⟨_, b, r, _, hk⟩ := hw
    refine ⟨fun t' n' h => ?_, fun a' n' h => ?_⟩
    · simp only [wordBody] at h
      split at h
      · cases he : k.exec maps dec (bytesWords (bs.take rem)) with
        | none => rw [he] at h; rcases h with h | h <;> cases h
        | some x =>
          obtain ⟨p', d', ws'⟩ := x
          rw [he] at h
          rcases h with h | h
          · cases h
            obtain ⟨k1, k2⟩ := WP.exec_keeps hm k hk hd he
            exact ⟨fun q hq => k1 q hq, fun R hR => k2 R hR.2⟩
          · cases h
      · rcases h with h | h
        · cases h
        · cases h; exact ⟨fun _ h => h, fun _ h => h⟩
    · simp only [wordBody] at h
      split at h
      · split at h <;> cases h
      · cases h

/-- A step in the middle of a section. -/
theorem sectBody_fwd {z : Inflater} {s : SectState} {tag : Nat} {t : BodySt z} {rem : Nat} {bs : List Nat} (hi : sectInv t rem) (hf : t.Fwd tag s) :
    ∀ t' n, (sectBody z s t rem bs = .more t' n ∨ sectBody z s t rem bs = .wait t' n) → t'.Fwd tag s := by
  intro t' n h
  cases t with
  | metadata t =>
    simp only [sectBody] at h
    cases hb : metaBody z t rem bs <;> rw [hb] at h <;> rcases h with h | h <;> cases h <;> exact hf
  | internals t =>
    simp only [sectBody] at h
    cases hb : internalsBody t rem bs <;> rw [hb] at h <;> rcases h with h | h <;> cases h <;> exact hf
  | quant t =>
    simp only [sectBody] at h
    cases hb : bitBody false t rem bs <;> rw [hb] at h <;> rcases h with h | h <;> cases h <;> exact hf
  | hist t =>
    simp only [sectBody] at h
    cases hb : bitBody true t rem bs <;> rw [hb] at h <;> rcases h with h | h <;> cases h <;> exact hf
  | dc t =>
    simp only [sectBody] at h
    obtain ⟨h1, h2, h3⟩ := hf
    have hs := (wordBody_steps (bs := bs) (show wordInv (fun _ => True) t rem from hi)).1
    cases hb : wordBody t rem bs <;> rw [hb] at h <;> rcases h with h | h <;> cases h
    · exact ⟨h1, (hs _ _ (.inl hb)).1 _ h2, (hs _ _ (.inl hb)).2 _ h3⟩
    · exact ⟨h1, (hs _ _ (.inr hb)).1 _ h2, (hs _ _ (.inr hb)).2 _ h3⟩
  | ac t =>
    simp only [sectBody] at h
    obtain ⟨h1, dc, h0, h2, h3⟩ := hf
    have hs := (wordBody_steps (bs := bs) (show wordInv (fun _ => True) t rem from hi)).1
    cases hb : wordBody t rem bs <;> rw [hb] at h <;> rcases h with h | h <;> cases h
    · exact ⟨h1, dc, h0, (hs _ _ (.inl hb)).1 _ h2, (hs _ _ (.inl hb)).2 _ h3⟩
    · exact ⟨h1, dc, h0, (hs _ _ (.inr hb)).1 _ h2, (hs _ _ (.inr hb)).2 _ h3⟩

/-- What the end of a section changes. -/
inductive Finishes {z : Inflater} (s : SectState) : BodySt z → SectState → Prop where
  | metadata (t m) : Finishes s (.metadata t) { s with metadata := m, late := s.dc.isSome }
  | internals (t x) : Finishes s (.internals t) { s with internals := some x }
  | quant (t q) : Finishes s (.quant t) { s with quant := some q }
  | hist (t r) : Finishes s (.hist t) { s with hist := some r }
  | dc (t a) (h : t.prog = .ret a) : Finishes s (.dc t) { s with dc := some a }
  | ac (t a) (h : t.prog = .ret a) : Finishes s (.ac t) { s with ac := some a }

theorem sectBody_finishes {z : Inflater} {s s' : SectState} {t : BodySt z} {rem n : Nat} {bs : List Nat} (hi : sectInv t rem)
    (h : sectBody z s t rem bs = .done s' n) : Finishes s t s' := by
  cases t with
  | metadata t =>
    simp only [sectBody] at h
    cases hb : metaBody z t rem bs <;> rw [hb] at h <;> cases h
    exact .metadata t _
  | internals t =>
    simp only [sectBody] at h
    cases hb : internalsBody t rem bs <;> rw [hb] at h <;> cases h
    exact .internals t _
  | quant t =>
    simp only [sectBody] at h
    cases hb : bitBody false t rem bs <;> rw [hb] at h <;> cases h
    exact .quant t _
  | hist t =>
    simp only [sectBody] at h
    cases hb : bitBody true t rem bs <;> rw [hb] at h <;> cases h
    exact .hist t _
  | dc t =>
    simp only [sectBody] at h
    have hs := (wordBody_steps (bs := bs) (show wordInv (fun _ => True) t rem from hi)).2
    cases hb : wordBody t rem bs <;> rw [hb] at h <;> cases h
    exact .dc t _ (hs _ _ hb)
  | ac t =>
    simp only [sectBody] at h
    have hs := (wordBody_steps (bs := bs) (show wordInv (fun _ => True) t rem from hi)).2
    cases hb : wordBody t rem bs <;> rw [hb] at h <;> cases h
    exact .ac t _ (hs _ _ hb)

theorem Finishes.between {z : Inflater} {s s' : SectState} {t : BodySt z} {tag : Nat} {m : List Nat} (h : Finishes s t s') (hf : t.Fwd tag s) (hb : Between m s)
    (hc : Closed (tag :: m)) (hn : tag ∉ m) (h8 : tag ≠ 8) : Between (tag :: m) s' := by
  have mem7 : tag ≠ 7 → 7 ∈ tag :: m → 7 ∈ m := fun h h7 => (List.mem_cons.mp h7).resolve_left fun e => h e.symm
  have nmem7 : 7 ∉ tag :: m → 7 ∉ m := fun h x => h (List.mem_cons_of_mem _ x)
  refine ⟨hc, ?_, ?_⟩
  · intro h7
    cases h with
    | metadata t x => have e : tag = 3 := hf; exact hb.dc (mem7 (by omega) h7)
    | internals t x => have e : tag = 4 := hf; exact hb.dc (mem7 (by omega) h7)
    | quant t x => have e : tag = 5 := hf; exact hb.dc (mem7 (by omega) h7)
    | hist t x =>
      have e : tag = 6 := hf
      have := (hb.closed.dc (mem7 (by omega) h7)).2.2
      exact absurd (e ▸ this) hn
    | dc t a ha =>
      obtain ⟨_, h2, _⟩ := hf
      rw [ha] at h2
      exact ⟨a, rfl, h2⟩
    | ac t a ha => exact absurd hf.1 h8
  · intro h7
    cases h with
    | metadata t x => exact hb.noDc (nmem7 h7)
    | internals t x => exact hb.noDc (nmem7 h7)
    | quant t x => exact hb.noDc (nmem7 h7)
    | hist t x => exact hb.noDc (nmem7 h7)
    | dc t a ha => exact absurd (by rw [hf.1]; exact List.mem_cons_self) h7
    | ac t a ha => exact absurd hf.1 h8

theorem afterHeader_fwd {z : Inflater} {met : List Nat} {h : Header} (hm : met = [2, 1]) : (afterHeader met h : FileSt z).Fwd := by
  unfold afterHeader
  split
  · trivial
  · subst hm
    refine ⟨?_, fun h => by simp at h, fun _ => rfl⟩
    intro t ht r hr
    simp only [List.mem_cons, List.not_mem_nil, or_false] at ht
    rcases ht with rfl | rfl | rfl <;> simp [requires] at hr

theorem readStep_cases {z : Inflater} {β : Type} {s s' : FileSt z} {p : Rd β} {f : β → Nat → Option (FileSt z)} {w : List Nat} {n : Nat} {nx : PNext}
    (h : readStep s p f w = (s', n, nx)) : s' = s ∨ ∃ b rest k, p w = .ok b rest ∧ f b k = some s' ∧ nx = .go := by
  unfold readStep at h
  split at h
  · rename_i b rest e
    split at h
    · rename_i s1 e2
      cases h; exact .inr ⟨b, rest, _, e, e2, rfl⟩
    · cases h; exact .inl rfl
  · cases h; exact .inl rfl
  · cases h; exact .inl rfl

theorem takeStep_cases {z : Inflater} {k : Nat} {next s' : FileSt z} {wait : Nat → FileSt z} {w : List Nat} {n : Nat} {nx : PNext}
    (h : takeStep k next wait w = (s', n, nx)) : s' = next ∨ s' = wait w.length := by
  unfold takeStep at h
  split at h <;> cases h
  · exact .inl rfl
  · exact .inr rfl

/-- The invariant is kept. -/
theorem fileStep_fwd {z : Inflater} {s : FileSt z} (w : List Nat) (hi : s.Inv) (hf : s.Fwd) : (fileStep z s w).1.Fwd := by
  rcases he : fileStep z s w with ⟨s', n, nx⟩
  show s'.Fwd
  cases s with
  | signature =>
    simp only [fileStep] at he
    rcases readStep_cases he with rfl | ⟨b, rest, k, _, e, _⟩
    · exact hf
    · cases e; trivial
  | headTag met =>
    simp only [fileStep] at he
    rcases readStep_cases he with rfl | ⟨b, rest, k, _, e, _⟩
    · exact hf
    · split at e <;> cases e; trivial
  | headSize met =>
    simp only [fileStep] at he
    rcases readStep_cases he with rfl | ⟨b, rest, k, _, e, _⟩
    · exact hf
    · cases e; trivial
  | itemTag size pos met imet vals =>
    simp only [fileStep] at he
    split at he
    · split at he
      · cases he; exact hf
      · cases he; exact afterHeader_fwd hi.1
    · rcases readStep_cases he with rfl | ⟨b, rest, k, _, e, _⟩
      · exact hf
      · cases e; split <;> trivial
  | itemSize size pos met imet vals =>
    simp only [fileStep] at he
    rcases readStep_cases he with rfl | ⟨b, rest, k, _, e, _⟩
    · exact hf
    · cases e; trivial
  | itemSkip left size pos met imet vals =>
    simp only [fileStep] at he
    rcases takeStep_cases he with rfl | rfl <;> trivial
  | itemValue tag size pos met imet vals =>
    simp only [fileStep] at he
    rcases readStep_cases he with rfl | ⟨b, rest, k, _, e, _⟩
    · exact hf
    · cases e; trivial
  | origTag met =>
    simp only [fileStep] at he
    rcases readStep_cases he with rfl | ⟨b, rest, k, _, e, _⟩
    · exact hf
    · split at e <;> cases e; trivial
  | origSize =>
    simp only [fileStep] at he
    rcases readStep_cases he with rfl | ⟨b, rest, k, _, e, _⟩
    · exact hf
    · cases e; trivial
  | origData left storage =>
    simp only [fileStep] at he
    rcases takeStep_cases he with rfl | rfl <;> trivial
  | sectTag met s =>
    simp only [fileStep] at he
    rcases readStep_cases he with rfl | ⟨b, rest, k, hr, e, _⟩
    · exact hf
    · have ht := (readTag_ok hr).2.2.2.2
      split at e
      · cases e; exact ⟨met, ht, hf⟩
      · split at e
        · cases e
        · cases e
          show Between b.2.2 s
          rw [ht]
          exact Between.other hf (by omega)
  | sectValue met s =>
    simp only [fileStep] at he
    rcases readStep_cases he with rfl | ⟨b, rest, k, _, e, _⟩
    · exact hf
    · cases e; exact hf
  | sectSize tag met s =>
    simp only [fileStep] at he
    rcases readStep_cases he with rfl | ⟨b, rest, k, _, e, _⟩
    · exact hf
    · obtain ⟨m, rfl, hb⟩ := hf
      split at e
      · rename_i h9
        cases e
        exact hb.other h9
      · split at e
        · cases e
        · rename_i hreq
          have hreq : ∀ r ∈ requires tag, r ∈ tag :: m := fun r hr => Decidable.byContradiction fun hn =>
            hreq (List.any_eq_true.mpr ⟨r, hr, decide_eq_true hn⟩)
          split at e
          · cases e
          · cases hs : sectStart z s tag b with
            | none => rw [hs] at e; cases e
            | some t =>
              rw [hs] at e; cases e
              exact ⟨m, rfl, hb, hb.closed.cons hreq, sectStart_fwd hb hreq hs⟩
  | sectSkip left met s =>
    simp only [fileStep] at he
    rcases takeStep_cases he with rfl | rfl <;> exact hf
  | sectBody rem tag t met s =>
    obtain ⟨m, rfl, hb, hc, hbf⟩ := hf
    obtain ⟨hT, hok, hsi⟩ := hi
    simp only [fileStep] at he
    cases hbo : sectBody z s t rem w with
    | more t' k =>
      rw [hbo] at he; cases he
      exact ⟨m, rfl, hb, hc, sectBody_fwd hsi hbf t' _ (.inl hbo)⟩
    | wait t' k =>
      rw [hbo] at he; cases he
      exact ⟨m, rfl, hb, hc, sectBody_fwd hsi hbf t' _ (.inr hbo)⟩
    | bad => rw [hbo] at he; cases he; exact ⟨m, rfl, hb, hc, hbf⟩
    | done s'' k =>
      rw [hbo] at he
      dsimp only at he
      split at he
      · have hfin := sectBody_finishes hsi hbo
        split at he
        · rename_i h8
          cases he
          show s''.Final
          subst h8
          cases hfin with
          | metadata t x => cases hbf
          | internals t x => cases hbf
          | quant t x => cases hbf
          | hist t x => cases hbf
          | dc t a ha => cases hbf.1
          | ac t a ha =>
            obtain ⟨_, dc, h0, h2, h3⟩ := hbf
            obtain ⟨dc', h0', hs⟩ := hb.dc ((List.mem_cons.mp (hc.ac List.mem_cons_self)).resolve_left (by omega))
            rw [h0] at h0'; cases h0'
            rw [ha] at h2
            exact ⟨dc, a, h0, rfl, hs, h2⟩
        · rename_i h8
          cases he
          exact hfin.between hbf hb hc (List.nodup_cons.mp hT.1).1 h8
      · cases he; exact ⟨m, rfl, hb, hc, hbf⟩
  | ended c => simp only [fileStep] at he; cases he; exact hf

end Brunsli
