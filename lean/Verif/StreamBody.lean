import Verif.StreamMeta
import Verif.StreamCoef
import Verif.StreamHist
import Verif.StreamInter
import Verif.Serialize
import Verif.PropsE
/-!
# The sections of an image, read while they arrive

`ProcessSection` (c/dec/brunsli_decode.cc:2096-2196) calls one function per section; each keeps its state in `InternalState`.  This file puts
the readers of the sections together.
-/

namespace Brunsli

/-- The same step with states and results renamed. -/
def BOut.map {τ α σ β : Type} (f : τ → σ) (g : α → β) : BOut τ α → BOut σ β
  | more t n => more (f t) n
  | done a n => done (g a) n
  | wait t n => wait (f t) n
  | bad => bad

theorem Fits.map {τ α σ β : Type} {A : Body τ α} {B : Body σ β} {f : τ → σ} {g : α → β} {ia : τ → Nat → Prop} {ib : σ → Nat → Prop}
    {pa : α → Prop} {pb : β → Prop} (hB : ∀ t rem w, B (f t) rem w = (A t rem w).map f g) (hi : ∀ t rem, ia t rem → ib (f t) rem)
    (hp : ∀ a, pa a → pb (g a)) {t : τ} {rem : Nat} {w : List Nat} (h : Fits A ia pa t rem w (A t rem w)) :
    Fits B ib pb (f t) rem w (B (f t) rem w) := by
  rw [hB]
  cases e : A t rem w with
  | more t' n =>
    rw [e] at h
    obtain ⟨h1, h2, h3, h4⟩ := h
    exact ⟨h1, h2, hi _ _ h3, fun x => by rw [hB, h4 x]; rfl⟩
  | done a n =>
    rw [e] at h
    obtain ⟨h1, h2, h3, h4⟩ := h
    exact ⟨h1, h2, hp _ h3, fun x => by rw [hB, h4 x]; rfl⟩
  | wait t' n =>
    rw [e] at h
    obtain ⟨h1, h2, h3, h4, h5⟩ := h
    refine ⟨h1, h2, hi _ _ h3, h4, fun x => ?_⟩
    rw [hB, hB, h5 x]
    cases A t' (rem - n) (w.drop n ++ x) <;> rfl
  | bad =>
    rw [e] at h
    exact fun x => by rw [hB, h x]; rfl

theorem Verdict.map {τ α σ β : Type} {A : Body τ α} {B : Body σ β} {f : τ → σ} {g : α → β}
    (hB : ∀ t rem w, B (f t) rem w = (A t rem w).map f g) {t : τ} {rem : Nat} {w : List Nat} {r : Option (α × List Nat)}
    (v : Verdict A t rem w r) : Verdict B (f t) rem w (r.map fun x => (g x.1, x.2)) := by
  induction v with
  | @done t rem w a n h => exact .done (by rw [hB, h]; rfl)
  | @bad t rem w h => exact .bad (by rw [hB, h]; rfl)
  | @wait t t' rem n w h => exact .wait (t' := f t') (n := n) (by rw [hB, h]; rfl)
  | @more t t' rem n w r h v ih => exact .more (t' := f t') (n := n) (by rw [hB, h]; rfl) ih

/-- The state of the section being read: the members `metadata`, `internals`, `quant`, `histogram`, `dc`, `ac` of `InternalState`
(c/dec/state_internal.h). -/
inductive BodySt (z : Inflater) where
  | metadata (t : MetaSt z.σ)
  | internals (t : (List Bool × BP Internals) ⊕ InterSt)
  | quant (t : List Bool × BP (List (List Nat) × List Nat))
  | hist (t : List Bool × BP HistogramData)
  | dc (t : WordSt (List (List Int × List Bool)))
  | ac (t : WordSt (List (List Int)))

/-- `ProcessSection` in the middle of a section (c/dec/brunsli_decode.cc:2111-2184). -/
def sectBody (z : Inflater) (s : SectState) : Body (BodySt z) SectState
  | .metadata t, rem, w => (metaBody z t rem w).map .metadata fun m => { s with metadata := m, late := s.dc.isSome }
  | .internals t, rem, w => (internalsBody t rem w).map .internals fun x => { s with internals := some x }
  | .quant t, rem, w => (bitBody false t rem w).map .quant fun q => { s with quant := some q }
  | .hist t, rem, w => (bitBody true t rem w).map .hist fun r => { s with hist := some r }
  | .dc t, rem, w => (wordBody t rem w).map .dc fun x => { s with dc := some x }
  | .ac t, rem, w => (wordBody t rem w).map .ac fun x => { s with ac := some x }

/-- What is read from the rest of a section. -/
def sectSem (z : Inflater) (s : SectState) : BodySt z → List Nat → Option (SectState × List Nat)
  | .metadata t, p => (metaSem z t p).map fun m => ({ s with metadata := m.1, late := s.dc.isSome }, m.2)
  | .internals t, p => (internalsSem t p).map fun x => ({ s with internals := some x.1 }, x.2)
  | .quant t, p => (bitSem false t p).map fun q => ({ s with quant := some q.1 }, q.2)
  | .hist t, p => (bitSem true t p).map fun r => ({ s with hist := some r.1 }, r.2)
  | .dc t, p => (wordSem t p).map fun x => ({ s with dc := some x.1 }, x.2)
  | .ac t, p => (wordSem t p).map fun x => ({ s with ac := some x.1 }, x.2)

/-- One to four components, and every histogram has its 18 entries. -/
def SectState.Ok (s : SectState) : Prop :=
  (1 ≤ s.header.comps.length ∧ s.header.comps.length ≤ 4) ∧ ∀ r, s.hist = some r → ∀ h ∈ r.histograms, h.length = 18

/-- The conditions on the state of the section being read. -/
def sectInv {z : Inflater} : BodySt z → Nat → Prop
  | .metadata t, rem => metaInv t rem
  | .internals t, rem => internalsInv t rem
  | .quant t, rem => bitInv (fun _ => True) t rem
  | .hist t, rem => bitInv (fun d : HistogramData => ∀ h ∈ d.histograms, h.length = 18) t rem
  | .dc t, rem => wordInv (fun _ => True) t rem
  | .ac t, rem => wordInv (fun _ => True) t rem

theorem sectBody_resumes (z : Inflater) {s : SectState} (hs : s.Ok) : Resumes (sectBody z s) (sectSem z s) sectInv SectState.Ok where
  fits t rem w hi := by
    cases t with
    | metadata t =>
      exact Fits.map (B := sectBody z s) (f := .metadata) (ib := sectInv) (fun _ _ _ => rfl) (fun _ _ h => h) (fun _ _ => hs)
        ((metaBody_resumes z).fits t rem w hi)
    | internals t =>
      exact Fits.map (B := sectBody z s) (f := .internals) (ib := sectInv) (fun _ _ _ => rfl) (fun _ _ h => h) (fun _ _ => hs)
        (internalsBody_resumes.fits t rem w hi)
    | quant t =>
      exact Fits.map (B := sectBody z s) (f := .quant) (ib := sectInv) (fun _ _ _ => rfl) (fun _ _ h => h) (fun _ _ => hs)
        ((bitBody_resumes false _).fits t rem w hi)
    | hist t =>
      refine Fits.map (B := sectBody z s) (f := .hist) (ib := sectInv) (fun _ _ _ => rfl) (fun _ _ h => h) (fun r hr => ⟨hs.1, fun r' e => ?_⟩)
        ((bitBody_resumes true _).fits t rem w hi)
      cases e
      exact hr
    | dc t =>
      exact Fits.map (B := sectBody z s) (f := .dc) (ib := sectInv) (fun _ _ _ => rfl) (fun _ _ h => h) (fun _ _ => hs)
        ((wordBody_resumes _).fits t rem w hi)
    | ac t =>
      exact Fits.map (B := sectBody z s) (f := .ac) (ib := sectInv) (fun _ _ _ => rfl) (fun _ _ h => h) (fun _ _ => hs)
        ((wordBody_resumes _).fits t rem w hi)
  total t rem w hi hr := by
    cases t with
    | metadata t =>
      exact Verdict.map (B := sectBody z s) (f := .metadata) (g := fun x => { s with metadata := x, late := s.dc.isSome }) (fun _ _ _ => rfl) ((metaBody_resumes z).total t rem w hi hr)
    | internals t =>
      exact Verdict.map (B := sectBody z s) (f := .internals) (g := fun x => { s with internals := some x }) (fun _ _ _ => rfl) (internalsBody_resumes.total t rem w hi hr)
    | quant t =>
      exact Verdict.map (B := sectBody z s) (f := .quant) (g := fun x => { s with quant := some x }) (fun _ _ _ => rfl) ((bitBody_resumes false _).total t rem w hi hr)
    | hist t =>
      exact Verdict.map (B := sectBody z s) (f := .hist) (g := fun x => { s with hist := some x }) (fun _ _ _ => rfl) ((bitBody_resumes true _).total t rem w hi hr)
    | dc t =>
      exact Verdict.map (B := sectBody z s) (f := .dc) (g := fun x => { s with dc := some x }) (fun _ _ _ => rfl) ((wordBody_resumes _).total t rem w hi hr)
    | ac t =>
      exact Verdict.map (B := sectBody z s) (f := .ac) (g := fun x => { s with ac := some x }) (fun _ _ _ => rfl) ((wordBody_resumes _).total t rem w hi hr)

/-- The state at the beginning of a section of `rem` bytes (c/dec/brunsli_decode.cc:2111-2184: the initial values in state_internal.h and the
first stage of each reader). -/
def sectStart (z : Inflater) (s : SectState) (tag rem : Nat) : Option (BodySt z) :=
  if tag = 3 then some (.metadata .init)
  else if tag = 4 then
    some (.internals (internalsStart rem (paddingBitsLimit s.header.width s.header.height s.header.comps.length) s.header.comps.length))
  else if tag = 5 then s.internals.map fun x => .quant ([], quantBP (x.quant.map fun q => q.2.2) s.header.comps.length)
  else if tag = 6 then some (.hist ([], histBP s.header.comps.length))
  else if tag = 7 then
    s.hist.map fun r => .dc (wordStart (histMaps r.contextMap r.histograms)
      ⟨0, (dcDecInit s.header.mcuRows (metas s.header r.schemes)).map DcDec.coeffs⟩
      (dcWP (contextCount (metas s.header r.schemes)) s.header.mcuRows (metas s.header r.schemes)))
  else if tag = 8 then
    match s.hist, s.quant, s.dc with
    | some r, some (tabs, idx), some dc => some (.ac (wordStart (histMaps r.contextMap r.histograms) ⟨0, dc.map Prod.fst⟩
        (acWP (contextCount (metas s.header r.schemes)) (legacyModel s.header.version) s.header.mcuRows (metas s.header r.schemes)
          (idx.map fun i => tabs.getD i []) (dc.map Prod.fst) (dc.map Prod.snd))))
    | _, _, _ => none
  else none

theorem sectStart_inv {z : Inflater} {s : SectState} (hs : s.Ok) {tag rem : Nat} (hw : wordSection tag → rem % 2 = 0) {t : BodySt z}
    (h : sectStart z s tag rem = some t) : sectInv t rem := by
  unfold sectStart at h
  split at h
  · cases h; trivial
  split at h
  · cases h; exact internalsStart_inv _ _ _
  split at h
  · cases hi : s.internals with
    | none => rw [hi] at h; cases h
    | some x =>
      rw [hi] at h; cases h
      exact ⟨by simp, by unfold quantBP; trivial, quantBP_within _ _⟩
  split at h
  · cases h; exact ⟨by simp, by unfold histBP; trivial, histBP_within hs.1.1 hs.1.2⟩
  split at h
  · rename_i h7
    cases hh : s.hist with
    | none => rw [hh] at h; cases h
    | some r =>
      rw [hh] at h; cases h
      exact wordStart_inv (histMaps_ok fun x hx => Nat.le_of_eq (hs.2 r hh x hx)) (dcWP_within _ _ _) (hw (by simp [wordSection, h7]))
  split at h
  · rename_i h8
    split at h
    · rename_i r tabs idx dc hh hq hd
      cases h
      exact wordStart_inv (histMaps_ok fun x hx => Nat.le_of_eq (hs.2 r hh x hx)) (acWP_within _ _ _ _ _ _ _) (hw (by simp [wordSection, h8]))
    · cases h
  · cases h

/-- A section that can be entered is read as in one piece. -/
theorem sectStart_sem {z : Inflater} {par : Codec} (hz : ∀ p, (par.decompress p).map List.flatten = z.whole p) {s : SectState} (hs : s.Ok) {tag : Nat}
    {payload : List Nat} (hw : wordSection tag → payload.length % 2 = 0) {t : BodySt z} (h : sectStart z s tag payload.length = some t) :
    atEnd (sectSem z s t payload) = decBody par s tag payload := by
  have mapEnd : ∀ {α : Type} (o : Option (α × List Nat)) (g : α → SectState),
      atEnd (o.map fun x => (g x.1, x.2)) = (atEnd o).map g := by
    intro α o g
    match o with
    | none => rfl
    | some (a, []) => rfl
    | some (a, _ :: _) => rfl
  obtain ⟨hdr, int, md, qt, hist, dc, ac, late⟩ := s
  unfold sectStart at h
  unfold decBody
  split at h
  · rename_i h3
    rw [if_pos h3]; cases h
    refine (mapEnd (metaSem z .init payload) fun m => ⟨hdr, int, m, qt, hist, dc, ac, dc.isSome⟩).trans ?_
    rw [meta_sem z hz]
  rename_i h3
  rw [if_neg h3]
  split at h
  · rename_i h4
    rw [if_pos h4]; cases h
    refine (mapEnd (internalsSem (internalsStart payload.length (paddingBitsLimit hdr.width hdr.height hdr.comps.length) hdr.comps.length) payload)
      fun x => ⟨hdr, some x, md, qt, hist, dc, ac, late⟩).trans ?_
    rw [internalsStart_sem]
  rename_i h4
  rw [if_neg h4]
  split at h
  · rename_i h5
    rw [if_pos h5]
    cases int with
    | none => cases h
    | some x =>
      cases h
      refine (mapEnd (bitSem false ([], quantBP (x.quant.map fun q => q.2.2) hdr.comps.length) payload)
        fun q => ⟨hdr, some x, md, some q, hist, dc, ac, late⟩).trans ?_
      rw [quant_sem]
      dsimp only
      cases decodeQuantData (x.quant.map fun q => q.2.2) hdr.comps.length (bytesBits payload) with
      | none => rfl
      | some r =>
        match r with
        | (q, []) => rfl
        | (q, _ :: _) => rfl
  rename_i h5
  rw [if_neg h5]
  split at h
  · rename_i h6
    rw [if_pos h6]; cases h
    refine (mapEnd (bitSem true ([], histBP hdr.comps.length) payload) fun q => ⟨hdr, int, md, qt, some q, dc, ac, late⟩).trans ?_
    rw [hist_sem hs.1.1 hs.1.2]
    dsimp only
    cases decodeHistogramData hdr.comps.length (bytesBits payload) with
    | none => rfl
    | some r =>
      match r with
      | (some q, []) => rfl
      | (some q, _ :: _) => rfl
      | (none, []) => rfl
      | (none, _ :: _) => rfl
  rename_i h6
  rw [if_neg h6]
  split at h
  · rename_i h7
    rw [if_pos h7]
    cases hist with
    | none => cases h
    | some r =>
      cases h
      refine (mapEnd (wordSem (wordStart (histMaps r.contextMap r.histograms)
        ⟨0, (dcDecInit hdr.mcuRows (metas hdr r.schemes)).map DcDec.coeffs⟩
        (dcWP (contextCount (metas hdr r.schemes)) hdr.mcuRows (metas hdr r.schemes))) payload) fun x => ⟨hdr, int, md, qt, some r, some x, ac, late⟩).trans ?_
      rw [wordStart_sem (histMaps_ok fun x hx => Nat.le_of_eq (hs.2 r rfl x hx)) (dcWP_within _ _ _) (dcWP_run _ _ _ _)
        (hw (by simp [wordSection, h7]))]
  rename_i h7
  rw [if_neg h7]
  split at h
  · rename_i h8
    rw [if_pos h8]
    split at h
    · rename_i r tabs idx dc' hh hq hd
      simp only at hh hq hd
      subst hh hq hd
      cases h
      refine (mapEnd (wordSem (wordStart (histMaps r.contextMap r.histograms) ⟨0, dc'.map Prod.fst⟩
        (acWP (contextCount (metas hdr r.schemes)) (legacyModel hdr.version) hdr.mcuRows (metas hdr r.schemes)
          (idx.map fun i => tabs.getD i []) (dc'.map Prod.fst) (dc'.map Prod.snd))) payload)
        fun x => ⟨hdr, int, md, some (tabs, idx), some r, some dc', some x, late⟩).trans ?_
      rw [wordStart_sem (histMaps_ok fun x hx => Nat.le_of_eq (hs.2 r rfl x hx)) (acWP_within _ _ _ _ _ _ _) (acWP_run _ _ _ _ _ _ _ _)
        (hw (by simp [wordSection, h8]))]
    · cases h
  · cases h

/-- A section that cannot be entered is rejected in one piece as well. -/
theorem sectStart_none {z : Inflater} {par : Codec} {s : SectState} {tag rem : Nat} {payload : List Nat} (h : sectStart z s tag rem = none) :
    decBody par s tag payload = none := by
  unfold sectStart at h
  unfold decBody
  split at h
  · cases h
  rename_i h3
  rw [if_neg h3]
  split at h
  · cases h
  rename_i h4
  rw [if_neg h4]
  split at h
  · rename_i h5
    rw [if_pos h5]
    cases hi : s.internals with
    | none => rfl
    | some x => rw [hi] at h; cases h
  rename_i h5
  rw [if_neg h5]
  split at h
  · cases h
  rename_i h6
  rw [if_neg h6]
  split at h
  · rename_i h7
    rw [if_pos h7]
    cases hi : s.hist with
    | none => rfl
    | some x => rw [hi] at h; cases h
  rename_i h7
  rw [if_neg h7]
  split at h
  · rename_i h8
    rw [if_pos h8]
    split at h
    · cases h
    · rename_i hne
      cases hh : s.hist with
      | none => rfl
      | some r =>
        cases hq : s.quant with
        | none => rfl
        | some q =>
          cases hd : s.dc with
          | none => rfl
          | some dc => exact (hne r q.1 q.2 dc hh hq hd).elim
  · rename_i h8
    rw [if_neg h8]

end Brunsli
