import Verif.StreamView
/-!
# What is seen before the end is part of the image

If the parser gets from a stage to the end of a valid file, with the image `f`, then what it has read by then is in `f`.  This is shown backwards, from the end
of the file, and gives that every view of the writer is a view of the final image, if the metadata do not follow the DC section.
-/

namespace Brunsli

/-- The sections `met` are the same in `s` and `f`. -/
structure Ext (met : List Nat) (s f : SectState) : Prop where
  header : s.header = f.header
  internals : 4 ∈ met → s.internals = f.internals
  quant : 5 ∈ met → s.quant = f.quant
  hist : 6 ∈ met → s.hist = f.hist
  dc : 7 ∈ met → s.dc = f.dc
  metadata : 3 ∈ met → s.metadata = f.metadata ∧ s.late = f.late

/-- No metadata come after the tag of the DC section. -/
def MetaKnown (met : List Nat) (s f : SectState) : Prop := f.late = false → (7 ∈ met ∨ 8 ∈ met) → s.metadata = f.metadata

theorem Ext.mono {m met : List Nat} {s f : SectState} (h : Ext met s f) (hs : ∀ t ∈ m, t ∈ met) : Ext m s f :=
  ⟨h.header, fun x => h.internals (hs _ x), fun x => h.quant (hs _ x), fun x => h.hist (hs _ x), fun x => h.dc (hs _ x), fun x => h.metadata (hs _ x)⟩

theorem MetaKnown.mono {m met : List Nat} {s f : SectState} (h : MetaKnown met s f) (hs : ∀ t ∈ m, t ∈ met) : MetaKnown m s f :=
  fun hl hm => h hl (hm.imp (hs _) (hs _))

/-- The result of the coefficient section being read is that of `f`. -/
def BodySt.Leads {z : Inflater} (f : SectState) : BodySt z → Prop
  | .dc t => ∃ a, f.dc = some a ∧ ∀ q, t.prog.Post q → q a
  | .ac t => ∃ a, f.ac = some a ∧ ∀ q, t.prog.Post q → q a
  | _ => True

/-- What holds before the image `f` is reached. -/
def FileSt.Leads {z : Inflater} (f : SectState) : FileSt z → Prop
  | .sectTag met s => Ext met s f ∧ MetaKnown met s f
  | .sectValue met s => Ext met s f ∧ MetaKnown met s f
  | .sectSkip _ met s => Ext met s f ∧ MetaKnown met s f
  | .sectSize tag met s => Ext met.tail s f ∧ MetaKnown met s f ∧ ∀ r ∈ requires tag, r ∈ met
  | .sectBody _ _ t met s => Ext met.tail s f ∧ MetaKnown met s f ∧ t.Leads f
  | .ended (.image g) => g = f
  | .ended (.original _) => False
  | _ => True

theorem sectBody_leads {z : Inflater} {s f : SectState} {t t' : BodySt z} {rem n : Nat} {bs : List Nat} (hi : sectInv t rem)
    (h : sectBody z s t rem bs = .more t' n ∨ sectBody z s t rem bs = .wait t' n) (hl : t'.Leads f) : t.Leads f := by
  cases t with
  | metadata t => trivial
  | internals t => trivial
  | quant t => trivial
  | hist t => trivial
  | dc t =>
    simp only [sectBody] at h
    have hs := (wordBody_steps (bs := bs) (show wordInv (fun _ => True) t rem from hi)).1
    cases hb : wordBody t rem bs <;> rw [hb] at h <;> rcases h with h | h <;> cases h
    · obtain ⟨a, h1, h2⟩ := hl
      exact ⟨a, h1, fun q hq => h2 q ((hs _ _ (.inl hb)).1 q hq)⟩
    · obtain ⟨a, h1, h2⟩ := hl
      exact ⟨a, h1, fun q hq => h2 q ((hs _ _ (.inr hb)).1 q hq)⟩
  | ac t =>
    simp only [sectBody] at h
    have hs := (wordBody_steps (bs := bs) (show wordInv (fun _ => True) t rem from hi)).1
    cases hb : wordBody t rem bs <;> rw [hb] at h <;> rcases h with h | h <;> cases h
    · obtain ⟨a, h1, h2⟩ := hl
      exact ⟨a, h1, fun q hq => h2 q ((hs _ _ (.inl hb)).1 q hq)⟩
    · obtain ⟨a, h1, h2⟩ := hl
      exact ⟨a, h1, fun q hq => h2 q ((hs _ _ (.inr hb)).1 q hq)⟩

/-- The end of a section. -/
theorem Finishes.leads {z : Inflater} {s s' f : SectState} {t : BodySt z} {tag : Nat} {m : List Nat} (h : Finishes s t s') (hf : t.Fwd tag s) (hb : Between m s)
    (hn : tag ∉ m) (h8 : tag ≠ 8) (he : Ext (tag :: m) s' f) (hm : MetaKnown (tag :: m) s' f) : Ext m s f ∧ MetaKnown (tag :: m) s f ∧ t.Leads f := by
  have sub : ∀ t ∈ m, t ∈ tag :: m := fun _ h => List.mem_cons_of_mem _ h
  have he' := he.mono sub
  have out : ∀ k, tag = k → k ∉ m := fun k e h => hn (e ▸ h)
  cases h with
  | metadata t x =>
    have e : tag = 3 := hf
    refine ⟨⟨he'.header, he'.internals, he'.quant, he'.hist, he'.dc, fun h => absurd h (out 3 e)⟩, fun hl h78 => ?_, trivial⟩
    have h7 : 7 ∈ m := by
      rcases h78 with h | h
      · exact (List.mem_cons.mp h).resolve_left (by omega)
      · exact hb.closed.ac ((List.mem_cons.mp h).resolve_left (by omega))
    obtain ⟨dc, hd, _⟩ := hb.dc h7
    have := (he.metadata (by rw [e]; exact List.mem_cons_self)).2
    rw [hl] at this
    have this : s.dc.isSome = false := this
    rw [hd] at this
    cases this
  | internals t x =>
    have e : tag = 4 := hf
    exact ⟨⟨he'.header, fun h => absurd h (out 4 e), he'.quant, he'.hist, he'.dc, he'.metadata⟩, hm, trivial⟩
  | quant t x =>
    have e : tag = 5 := hf
    exact ⟨⟨he'.header, he'.internals, fun h => absurd h (out 5 e), he'.hist, he'.dc, he'.metadata⟩, hm, trivial⟩
  | hist t x =>
    have e : tag = 6 := hf
    exact ⟨⟨he'.header, he'.internals, he'.quant, fun h => absurd h (out 6 e), he'.dc, he'.metadata⟩, hm, trivial⟩
  | dc t a ha =>
    have e : tag = 7 := hf.1
    refine ⟨⟨he'.header, he'.internals, he'.quant, he'.hist, fun h => absurd h (out 7 e), he'.metadata⟩, hm, a, ?_, fun q hq => ?_⟩
    · exact (he.dc (by rw [e]; exact List.mem_cons_self)).symm
    · rw [ha] at hq; exact hq
  | ac t a ha => exact absurd hf.1 h8

/-- A step back. -/
theorem fileStep_leads {z : Inflater} {s s' : FileSt z} {w : List Nat} {n : Nat} {nx : PNext} {f : SectState} (hi : s.Inv) (hf : s.Fwd)
    (he : fileStep z s w = (s', n, nx)) (hnx : ∀ c, nx ≠ .fail c) (hl : s'.Leads f) : s.Leads f := by
  cases s with
  | signature => trivial
  | headTag met => trivial
  | headSize met => trivial
  | itemTag size pos met imet vals => trivial
  | itemSize size pos met imet vals => trivial
  | itemSkip left size pos met imet vals => trivial
  | itemValue tag size pos met imet vals => trivial
  | origTag met => trivial
  | origSize => trivial
  | origData left storage => trivial
  | sectTag met s =>
    simp only [fileStep] at he
    rcases readStep_cases he with rfl | ⟨b, rest, k, hr, e, _⟩
    · exact hl
    · have ht := (readTag_ok hr).2.2.2.2
      have sub : ∀ t ∈ met, t ∈ b.2.2 := fun t h => by rw [ht]; exact List.mem_cons_of_mem _ h
      split at e
      · cases e
        obtain ⟨h1, h2, _⟩ := hl
        rw [ht] at h1
        exact ⟨h1, h2.mono sub⟩
      · split at e
        · cases e
        · cases e
          exact ⟨hl.1.mono sub, hl.2.mono sub⟩
  | sectValue met s =>
    simp only [fileStep] at he
    rcases readStep_cases he with rfl | ⟨b, rest, k, _, e, _⟩
    · exact hl
    · cases e; exact hl
  | sectSize tag met s =>
    simp only [fileStep] at he
    rcases readStep_cases he with rfl | ⟨b, rest, k, _, e, _⟩
    · exact hl
    · obtain ⟨m, rfl, hb⟩ := hf
      split at e
      · rename_i h9
        cases e
        refine ⟨hl.1.mono fun _ h => List.mem_cons_of_mem _ h, hl.2, fun r hr => ?_⟩
        have := requires_le hr
        omega
      · split at e
        · cases e
        · rename_i hreq
          have hreq : ∀ r ∈ requires tag, r ∈ tag :: m := fun r hr => Decidable.byContradiction fun hn =>
            hreq (List.any_eq_true.mpr ⟨r, hr, decide_eq_true hn⟩)
          split at e
          · cases e
          · cases hs : sectStart z s tag b with
            | none => rw [hs] at e; cases e
            | some t =>
              rw [hs] at e; cases e
              exact ⟨hl.1, hl.2.1, hreq⟩
  | sectSkip left met s =>
    simp only [fileStep] at he
    rcases takeStep_cases he with rfl | rfl <;> exact hl
  | sectBody rem tag t met s =>
    obtain ⟨m, rfl, hb, hc, hbf⟩ := hf
    obtain ⟨hT, hok, hsi⟩ := hi
    have hn := (List.nodup_cons.mp hT.1).1
    simp only [fileStep] at he
    cases hbo : sectBody z s t rem w with
    | more t' k =>
      rw [hbo] at he; cases he
      exact ⟨hl.1, hl.2.1, sectBody_leads hsi (.inl hbo) hl.2.2⟩
    | wait t' k =>
      rw [hbo] at he; cases he
      exact ⟨hl.1, hl.2.1, sectBody_leads hsi (.inr hbo) hl.2.2⟩
    | bad => rw [hbo] at he; cases he; exact absurd rfl (hnx _)
    | done s'' k =>
      rw [hbo] at he
      dsimp only at he
      split at he
      · have hfin := sectBody_finishes hsi hbo
        split at he
        · rename_i h8
          cases he
          have hl : s'' = f := hl
          subst hl h8
          cases hfin with
          | metadata t x => cases hbf
          | internals t x => cases hbf
          | quant t x => cases hbf
          | hist t x => cases hbf
          | dc t a ha => cases hbf.1
          | ac t a ha =>
            refine ⟨⟨rfl, fun _ => rfl, fun _ => rfl, fun _ => rfl, fun _ => rfl, fun _ => ⟨rfl, rfl⟩⟩, fun _ _ => rfl, a, rfl, fun q hq => ?_⟩
            rw [ha] at hq
            exact hq
        · rename_i h8
          cases he
          exact hfin.leads hbf hb hn h8 hl.1 hl.2
      · cases he; exact absurd rfl (hnx _)
  | ended c =>
    simp only [fileStep] at he
    cases he
    exact hl

/-! ## Whole runs -/

/-- The invariants, and what holds before the image `f`. -/
def PSt.Leads {z : Inflater} (f : SectState) : PSt (FileSt z) → Prop
  | .working s => s.Leads f
  | .paused s => s.Leads f
  | .done s => s.Leads f
  | .dead _ _ => False

def FileSt.Ok {z : Inflater} (s : FileSt z) : Prop := s.Inv ∧ s.Fwd

def PSt.Ok {z : Inflater} : PSt (FileSt z) → Prop
  | .working s => s.Ok
  | .paused s => s.Ok
  | .done s => s.Ok
  | .dead _ _ => True

theorem PSt.Ok.resume {z : Inflater} {s : PSt (FileSt z)} (h : s.Ok) : s.resume.Ok := by cases s <;> exact h

theorem PSt.Leads.resume {z : Inflater} {f : SectState} {s : PSt (FileSt z)} (h : s.resume.Leads f) : s.Leads f := by cases s <;> exact h

theorem doProcess_leads {z : Inflater} {f : SectState} : ∀ (fuel : Nat) (s s' : PSt (FileSt z)) (w w' : List Nat) (r : PStatus), s.Ok →
    doProcess (fileParser z) fuel s w = some (s', w', r) → s'.Ok ∧ (s'.Leads f → s.Leads f) := by
  intro fuel
  induction fuel with
  | zero => intro s s' w w' r _ h; simp [doProcess] at h
  | succ fuel ih =>
    intro s s' w w' r hs h
    cases s with
    | working s =>
      rw [doProcess] at h
      have hk : (fileStep z s w).1.Ok := ⟨(fileParser_incremental z).keep s w hs.1, fileStep_fwd w hs.1 hs.2⟩
      rcases he : fileStep z s w with ⟨s1, n, nx⟩
      have he' : (fileParser z).step s w = (s1, n, nx) := he
      rw [he'] at h
      rw [he] at hk
      cases nx with
      | go =>
        obtain ⟨h1, h2⟩ := ih (.working s1) s' _ _ _ hk h
        exact ⟨h1, fun hl => fileStep_leads hs.1 hs.2 he (fun _ => nofun) (h2 hl)⟩
      | finished =>
        obtain ⟨h1, h2⟩ := ih (.done s1) s' _ _ _ hk h
        exact ⟨h1, fun hl => fileStep_leads hs.1 hs.2 he (fun _ => nofun) (h2 hl)⟩
      | wait =>
        cases h
        exact ⟨hk, fun hl => fileStep_leads hs.1 hs.2 he (fun _ => nofun) hl⟩
      | fail c => cases h; exact ⟨trivial, fun hl => hl.elim⟩
    | paused s => rw [doProcess] at h; cases h; exact ⟨hs, fun h => h⟩
    | done s =>
      rw [doProcess] at h
      split at h <;> cases h
      · exact ⟨trivial, fun hl => hl.elim⟩
      · exact ⟨hs, fun h => h⟩
    | dead s c => rw [doProcess] at h; cases h; exact ⟨trivial, fun h => h⟩

theorem processDirect_leads {z : Inflater} {f : SectState} {fuel : Nat} {s s' : PSt (FileSt z)} {ext b e : List Nat} {r : PStatus} (hs : s.Ok)
    (h : processDirect (fileParser z) fuel s ext = some (s', b, e, r)) : s'.Ok ∧ (s'.Leads f → s.Leads f) := by
  unfold processDirect at h
  rcases hd : doProcess (fileParser z) fuel s ext with _ | ⟨s1, w, st⟩
  · rw [hd] at h; cases h
  · rw [hd] at h
    have := doProcess_leads (f := f) fuel s s1 ext w st hs hd
    cases st <;> cases h <;> exact this

theorem processJpeg_leads {z : Inflater} {f : SectState} {fuel : Nat} {s s' : PSt (FileSt z)} {b ext b' e : List Nat} {r : PStatus} (hs : s.Ok)
    (h : processJpeg (fileParser z) fuel s b ext = some (s', b', e, r)) : s'.Ok ∧ (s'.Leads f → s.Leads f) := by
  have key : s.resume.Ok := hs.resume
  unfold processJpeg at h
  split at h
  · cases h; exact ⟨trivial, fun h => h⟩
  · split at h
    · have := processDirect_leads (f := f) key h
      exact ⟨this.1, fun hl => (this.2 hl).resume⟩
    · dsimp only at h
      rcases hd : doProcess (fileParser z) fuel s.resume (b ++ ext.take maxReadAhead) with _ | ⟨s1, w, st⟩
      · rw [hd] at h; cases h
      · rw [hd] at h
        dsimp only at h
        have h1 := doProcess_leads (f := f) fuel s.resume s1 _ w st key hd
        split at h
        · split at h
          · have h2 := processDirect_leads (f := f) h1.1.resume h
            exact ⟨h2.1, fun hl => (h1.2 (h2.2 hl).resume).resume⟩
          · cases h; exact ⟨h1.1, fun hl => (h1.2 hl).resume⟩
        · split at h <;> cases h <;> exact ⟨h1.1, fun hl => (h1.2 hl).resume⟩

end Brunsli
