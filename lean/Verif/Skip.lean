import Verif.Estimate
/-!
# A decoder that is told to skip sections

`State::skip_tags` (c/dec/state.h:75) names kinds of sections that `ProcessSection` passes over (c/dec/brunsli_decode.cc:2104-2117).  A section that is
passed over counts as met: `HasSection` asks for its tag, not for its contents.
-/

namespace Brunsli

/-- A section finds that what it reads was passed over.  `WarmupMeta` reads the tables that the internals announce, an empty vector without them
(c/dec/brunsli_decode.cc:2242-2271, line 2261); the pointers to context map and codes are not set without the histograms (c/dec/state.h:83-84); tables of
zeros, which is what they are without the section of their values, are divisors for the contexts of AC data (c/common/context.cc:17-30).  With DC data passed
over the AC data are decoded with zeros, which is counted here, too; and the section counts as undefined from its start on. -/
def SectState.lacks (s : SectState) (tag : Nat) : Bool :=
  (tag = 7 ∨ tag = 8) ∧ (s.internals = none ∨ s.hist = none) ∨ tag = 8 ∧ (s.quant = none ∨ s.dc = none)

/-- `ParseSection`, `ProcessSection` (c/dec/brunsli_decode.cc:2046-2196) and the end of `DoProcessJpeg` (:2294-2301), with `skip_tags` = `K`.  The value `none`
is undefined behaviour.  The data may end behind a section once AC data were met (:2057). -/
def readSkip (par : Codec) (K : Nat → Bool) : (fuel : Nat) → (met : List Nat) → SectState → Rd (Option SectState)
  | 0, met, s => fun bs => if bs = [] ∧ 8 ∈ met then .ok (some s) [] else .invalid
  | fuel + 1, met, s => fun bs =>
    if bs = [] ∧ 8 ∈ met then .ok (some s) []
    else Rd.andThen (readTag met) (fun t =>
      if t.2.1 then
        Rd.andThen decodeBase128 fun v =>
          if 9 < t.1 ∨ K t.1 then Rd.andThen (Rd.bytes v) fun _ => readSkip par K fuel t.2.2 s
          else if (requires t.1).any (fun r => r ∉ met) then Rd.fail
          else if wordSection t.1 ∧ v % 2 ≠ 0 then Rd.fail
          else if s.lacks t.1 then fun _ => .ok none []
          else Rd.andThen (Rd.bytes v) fun payload =>
            Rd.andThen (Rd.ofOption (decBody par s t.1 payload)) fun s =>
              if t.1 = 8 then fun bs => if bs = [] then .ok (some s) [] else .invalid else readSkip par K fuel t.2.2 s
      else if t.1 ≤ 9 then Rd.fail
      else Rd.andThen decodeBase128 fun _ => readSkip par K fuel t.2.2 s) bs

/-- `BrunsliDecodeJpeg` (c/dec/brunsli_decode.cc:2459-2468) with `skip_tags` = `K`; `.ok none []` is undefined behaviour.  Signature, header and the original
JPEG file of a bypassed one are never skipped (:2269-2283). -/
def decodeSkip (par : Codec) (K : Nat → Bool) (bs : List Nat) : Res (Option (Content SectState)) :=
  Rd.andThen readSignature (fun _ =>
    Rd.andThen (readHeader [1]) fun t =>
      if t.1.version = 1 then Rd.andThen (readOriginal t.2) fun d bs => if bs = [] then .ok (some (.original d)) [] else .invalid
      else Rd.andThen (readSkip par K 16 (9 :: t.2) (SectState.init t.1)) fun s => Rd.ret (s.map .image)) bs

/-- What is left when the contents of the sections `K` are left out. -/
def SectState.without (s : SectState) (K : Nat → Bool) : SectState where
  header := s.header
  internals := if K 4 then none else s.internals
  metadata := if K 3 then MetaState.init else s.metadata
  quant := if K 5 then none else s.quant
  hist := if K 6 then none else s.hist
  dc := if K 7 then none else s.dc
  ac := if K 8 then none else s.ac
  late := if K 3 || K 7 then false else s.late

/-- Coefficients are skipped with what they need. -/
structure SkipClosed (K : Nat → Bool) : Prop where
  internals : K 4 = true → K 7 = true
  hist : K 6 = true → K 7 = true
  quant : K 5 = true → K 8 = true
  dc : K 7 = true → K 8 = true

/-! ## Nothing is lacking -/

/-- What was met and not skipped is there. -/
structure SkipInv (K : Nat → Bool) (met : List Nat) (s : SectState) : Prop where
  internals : 4 ∈ met → K 4 = false → s.internals ≠ none
  hist : 6 ∈ met → K 6 = false → s.hist ≠ none ∧ 4 ∈ met
  quant : 5 ∈ met → K 5 = false → s.quant ≠ none
  dc : 7 ∈ met → K 7 = false → s.dc ≠ none ∧ 6 ∈ met ∧ 5 ∈ met
  ac : 8 ∈ met → K 8 = true

theorem SkipInv.start (K : Nat → Bool) (h : Header) : SkipInv K [9, 2, 1] (SectState.init h) := by
  constructor <;> intro h <;> simp at h

theorem SkipInv.skip {K : Nat → Bool} {met : List Nat} {s : SectState} {tag : Nat} (hi : SkipInv K met s) (h : 9 < tag ∨ K tag = true) : SkipInv K (tag :: met) s := by
  have key : ∀ n, n ≤ 8 → K n = false → n ∈ tag :: met → n ∈ met := by
    intro n h8 hk hm
    rcases List.mem_cons.mp hm with rfl | hm
    · rcases h with h | h
      · omega
      · rw [h] at hk; cases hk
    · exact hm
  refine ⟨fun a b => hi.internals (key 4 (by omega) b a) b, fun a b => ?_, fun a b => hi.quant (key 5 (by omega) b a) b, fun a b => ?_, fun a => ?_⟩
  · have := hi.hist (key 6 (by omega) b a) b
    exact ⟨this.1, List.mem_cons_of_mem _ this.2⟩
  · have := hi.dc (key 7 (by omega) b a) b
    exact ⟨this.1, List.mem_cons_of_mem _ this.2.1, List.mem_cons_of_mem _ this.2.2⟩
  · cases hk : K 8 with
    | true => rfl
    | false => exact (hi.ac (key 8 (by omega) hk a)).symm.trans hk |>.symm

/-- What a section adds. -/
theorem decBody_adds {par : Codec} {s s' : SectState} {tag : Nat} {p : List Nat} (h : decBody par s tag p = some s') :
    (3 ≤ tag ∧ tag ≤ 8) ∧ (s.internals ≠ none → s'.internals ≠ none) ∧ (s.quant ≠ none → s'.quant ≠ none) ∧ (s.hist ≠ none → s'.hist ≠ none) ∧ (s.dc ≠ none → s'.dc ≠ none) ∧
      (tag = 4 → s'.internals ≠ none) ∧ (tag = 5 → s'.quant ≠ none) ∧ (tag = 6 → s'.hist ≠ none) ∧ (tag = 7 → s'.dc ≠ none) := by
  unfold decBody at h
  by_cases t3 : tag = 3
  · rw [if_pos t3] at h
    obtain ⟨m, -, rfl⟩ := Option.map_eq_some_iff.mp h
    exact ⟨by omega, id, id, id, id, by omega, by omega, by omega, by omega⟩
  rw [if_neg t3] at h
  by_cases t4 : tag = 4
  · rw [if_pos t4] at h
    obtain ⟨m, -, rfl⟩ := Option.map_eq_some_iff.mp h
    exact ⟨by omega, fun _ => nofun, id, id, id, fun _ => nofun, by omega, by omega, by omega⟩
  rw [if_neg t4] at h
  by_cases t5 : tag = 5
  · rw [if_pos t5] at h
    split at h
    · cases h
    · split at h
      · cases h
        exact ⟨by omega, id, fun _ => nofun, id, id, by omega, fun _ => nofun, by omega, by omega⟩
      · cases h
  rw [if_neg t5] at h
  by_cases t6 : tag = 6
  · rw [if_pos t6] at h
    split at h
    · cases h
      exact ⟨by omega, id, id, fun _ => nofun, id, by omega, by omega, fun _ => nofun, by omega⟩
    · cases h
  rw [if_neg t6] at h
  by_cases t7 : tag = 7
  · rw [if_pos t7] at h
    split at h
    · cases h
    · obtain ⟨m, -, rfl⟩ := Option.map_eq_some_iff.mp h
      exact ⟨by omega, id, id, id, fun _ => nofun, by omega, by omega, by omega, fun _ => nofun⟩
  rw [if_neg t7] at h
  by_cases t8 : tag = 8
  · rw [if_pos t8] at h
    split at h
    · obtain ⟨m, -, rfl⟩ := Option.map_eq_some_iff.mp h
      exact ⟨by omega, id, id, id, id, by omega, by omega, by omega, by omega⟩
    · cases h
  rw [if_neg t8] at h
  cases h

theorem SkipInv.step {K : Nat → Bool} {met : List Nat} {par : Codec} {s s' : SectState} {tag : Nat} {p : List Nat} (hi : SkipInv K met s)
    (h : decBody par s tag p = some s') (hreq : ¬ ((requires tag).any fun r => r ∉ met) = true) (h8 : tag ≠ 8) : SkipInv K (tag :: met) s' := by
  obtain ⟨a0, a1, a2, a3, a4, a5, a6, a7, a8⟩ := decBody_adds h
  have hr : ∀ r ∈ requires tag, r ∈ met := by
    intro r hr
    by_contra hn
    exact hreq (List.any_eq_true.mpr ⟨r, hr, by simpa using hn⟩)
  refine ⟨fun a b => ?_, fun a b => ?_, fun a b => ?_, fun a b => ?_, fun a => ?_⟩
  · rcases List.mem_cons.mp a with e | a
    · exact a5 e.symm
    · exact a1 (hi.internals a b)
  · rcases List.mem_cons.mp a with e | a
    · subst e
      exact ⟨a7 rfl, List.mem_cons_of_mem _ (hr 4 (by decide))⟩
    · exact ⟨a3 (hi.hist a b).1, List.mem_cons_of_mem _ (hi.hist a b).2⟩
  · rcases List.mem_cons.mp a with e | a
    · exact a6 e.symm
    · exact a2 (hi.quant a b)
  · rcases List.mem_cons.mp a with e | a
    · subst e
      exact ⟨a8 rfl, List.mem_cons_of_mem _ (hr 6 (by decide)), List.mem_cons_of_mem _ (hr 5 (by decide))⟩
    · exact ⟨a4 (hi.dc a b).1, List.mem_cons_of_mem _ (hi.dc a b).2.1, List.mem_cons_of_mem _ (hi.dc a b).2.2⟩
  · rcases List.mem_cons.mp a with e | a
    · exact absurd e.symm h8
    · exact hi.ac a

theorem SkipInv.lacks {K : Nat → Bool} (hK : SkipClosed K) {met : List Nat} {s : SectState} {tag : Nat} (hi : SkipInv K met s) (hk : K tag = false)
    (hreq : ¬ ((requires tag).any fun r => r ∉ met) = true) : s.lacks tag = false := by
  have hr : ∀ r ∈ requires tag, r ∈ met := by
    intro r hr
    by_contra hn
    exact hreq (List.any_eq_true.mpr ⟨r, hr, by simpa using hn⟩)
  have off : ∀ {m n : Nat}, (K m = true → K n = true) → K n = false → K m = false := by
    intro m n h hn
    cases hm : K m with
    | false => rfl
    | true => rw [h hm] at hn; cases hn
  unfold SectState.lacks
  rw [decide_eq_false_iff_not]
  rintro (⟨h7 | h8, h⟩ | ⟨h8, h⟩)
  · subst h7
    have k6 := off hK.hist hk
    have k4 := off hK.internals hk
    have := hi.hist (hr 6 (by decide)) k6
    rcases h with h | h
    · exact hi.internals this.2 k4 h
    · exact this.1 h
  · subst h8
    have k7 := off hK.dc hk
    have k6 := off hK.hist k7
    have k4 := off hK.internals k7
    have := hi.hist (hi.dc (hr 7 (by decide)) k7).2.1 k6
    rcases h with h | h
    · exact hi.internals this.2 k4 h
    · exact this.1 h
  · subst h8
    have k7 := off hK.dc hk
    have k5 := off hK.quant hk
    have := hi.dc (hr 7 (by decide)) k7
    rcases h with h | h
    · exact hi.quant this.2.2 k5 h
    · exact this.1 h

theorem readSkip_defined {par : Codec} {K : Nat → Bool} (hK : SkipClosed K) (fuel : Nat) : ∀ {met : List Nat} {s : SectState} {bs rest : List Nat}, SkipInv K met s →
    readSkip par K fuel met s bs ≠ .ok none rest := by
  induction fuel with
  | zero =>
    intro met s bs rest _ h
    rw [readSkip] at h
    beta_reduce at h
    split at h <;> cases h
  | succ fuel ih =>
    intro met s bs rest hi h
    rw [readSkip] at h
    beta_reduce at h
    by_cases h0 : bs = [] ∧ 8 ∈ met
    · rw [if_pos h0] at h; cases h
    rw [if_neg h0] at h
    obtain ⟨t, b1, h1, h⟩ := Rd.andThen_ok h
    obtain ⟨-, -, -, -, hm⟩ := readTag_ok h1
    rw [hm] at h
    by_cases hsec : t.2.1 = true
    · rw [if_pos hsec] at h
      obtain ⟨v, b2, h2, h⟩ := Rd.andThen_ok h
      by_cases hk : 9 < t.1 ∨ K t.1 = true
      · rw [if_pos hk] at h
        obtain ⟨_, b3, h3, h⟩ := Rd.andThen_ok h
        exact ih (hi.skip hk) h
      rw [if_neg hk] at h
      by_cases hreq : ((requires t.1).any fun r => r ∉ met) = true
      · rw [if_pos hreq] at h; cases h
      rw [if_neg hreq] at h
      by_cases hw : wordSection t.1 = true ∧ v % 2 ≠ 0
      · rw [if_pos hw] at h; cases h
      rw [if_neg hw, if_neg (by rw [hi.lacks hK (by simpa using fun h => hk (.inr h)) hreq]; decide)] at h
      obtain ⟨payload, b3, h3, h⟩ := Rd.andThen_ok h
      obtain ⟨s1, b4, h4, h⟩ := Rd.andThen_ok h
      obtain ⟨h5, rfl⟩ := ofOption_ok h4
      by_cases h8 : t.1 = 8
      · rw [if_pos h8] at h
        split at h <;> cases h
      · rw [if_neg h8] at h
        exact ih (hi.step h5 hreq h8) h
    · rw [if_neg hsec] at h
      by_cases h9 : t.1 ≤ 9
      · rw [if_pos h9] at h; cases h
      · rw [if_neg h9] at h
        obtain ⟨v, b2, h2, h⟩ := Rd.andThen_ok h
        exact ih (hi.skip (.inl (by omega))) h

/-! ## What is left is as in the whole -/

theorem decBody_without {par : Codec} {K : Nat → Bool} (hK : SkipClosed K) (h45 : K 4 = true → K 5 = true) {s s' : SectState} {tag : Nat} {p : List Nat}
    (h : decBody par s tag p = some s') :
    if K tag then s'.without K = s.without K else decBody par (s.without K) tag p = some (s'.without K) := by
  have off : ∀ {m n : Nat}, (K m = true → K n = true) → K n = false → K m = false := by
    intro m n h hn
    cases hm : K m with
    | false => rfl
    | true => rw [h hm] at hn; cases hn
  obtain ⟨hd, int, md, qu, hi, dc, ac, lt⟩ := s
  unfold decBody at h
  by_cases t3 : tag = 3
  · rw [if_pos t3] at h
    obtain ⟨m, hm, rfl⟩ := Option.map_eq_some_iff.mp h
    subst t3
    cases hk : K 3 with
    | true => simp [SectState.without, hk]
    | false =>
      rw [if_neg (by decide)]
      unfold decBody
      rw [if_pos rfl, hm]
      cases k7 : K 7 <;> simp [SectState.without, hk, k7]
  rw [if_neg t3] at h
  by_cases t4 : tag = 4
  · rw [if_pos t4] at h
    obtain ⟨m, hm, rfl⟩ := Option.map_eq_some_iff.mp h
    subst t4
    cases hk : K 4 with
    | true => simp [SectState.without, hk]
    | false =>
      rw [if_neg (by decide)]
      unfold decBody
      rw [if_neg t3, if_pos rfl]
      dsimp only [SectState.without] at hm ⊢
      rw [hm]
      simp [hk]
  rw [if_neg t4] at h
  by_cases t5 : tag = 5
  · rw [if_pos t5] at h
    subst t5
    split at h
    · cases h
    · rename_i x hx
      split at h
      · rename_i r hr
        cases h
        cases hk : K 5 with
        | true => simp [SectState.without, hk]
        | false =>
          have k4 := off h45 hk
          dsimp only at hx hr
          rw [if_neg (by decide)]
          unfold decBody
          rw [if_neg t3, if_neg t4, if_pos rfl]
          simp [SectState.without, hk, k4, hx, hr]
      · cases h
  rw [if_neg t5] at h
  by_cases t6 : tag = 6
  · rw [if_pos t6] at h
    subst t6
    split at h
    · rename_i r hr
      cases h
      cases hk : K 6 with
      | true => simp [SectState.without, hk]
      | false =>
        dsimp only at hr
        rw [if_neg (by decide)]
        unfold decBody
        rw [if_neg t3, if_neg t4, if_neg t5, if_pos rfl]
        simp [SectState.without, hk, hr]
    · cases h
  rw [if_neg t6] at h
  by_cases t7 : tag = 7
  · rw [if_pos t7] at h
    subst t7
    split at h
    · cases h
    · rename_i r hr
      obtain ⟨m, hm, rfl⟩ := Option.map_eq_some_iff.mp h
      cases hk : K 7 with
      | true => simp [SectState.without, hk]
      | false =>
        have k6 := off hK.hist hk
        dsimp only at hr hm
        rw [if_neg (by decide)]
        unfold decBody
        rw [if_neg t3, if_neg t4, if_neg t5, if_neg t6, if_pos rfl]
        simp [SectState.without, hk, k6, hr, hm]
  rw [if_neg t7] at h
  by_cases t8 : tag = 8
  · rw [if_pos t8] at h
    subst t8
    split at h
    · rename_i r tabs idx dcs hr hq hdc
      obtain ⟨m, hm, rfl⟩ := Option.map_eq_some_iff.mp h
      cases hk : K 8 with
      | true => simp [SectState.without, hk]
      | false =>
        have k7 := off hK.dc hk
        have k6 := off hK.hist k7
        have k5 := off hK.quant hk
        dsimp only at hr hq hdc hm
        rw [if_neg (by decide)]
        unfold decBody
        rw [if_neg t3, if_neg t4, if_neg t5, if_neg t6, if_neg t7, if_pos rfl]
        subst hr hq hdc
        simp only [SectState.without, hk, k7, k6, k5, Bool.false_eq_true, if_false, hm, Option.map_some]
    · cases h
  rw [if_neg t8] at h
  cases h

theorem readSkip_of_read {par : Codec} {K : Nat → Bool} (hK : SkipClosed K) (h45 : K 4 = true → K 5 = true) (fuel : Nat) :
    ∀ {met : List Nat} {s s' : SectState} {bs : List Nat}, SkipInv K met (s.without K) → readSections (decBody par) fuel met s bs = .ok s' [] →
      readSkip par K fuel met (s.without K) bs = .ok (some (s'.without K)) [] := by
  induction fuel with
  | zero => intro met s s' bs _ h; cases h
  | succ fuel ih =>
    intro met s s' bs hi h
    rw [readSections] at h
    obtain ⟨t, b1, h1, h⟩ := Rd.andThen_ok h
    obtain ⟨hne, hmem⟩ := readTag_step h1
    obtain ⟨-, -, -, -, hm⟩ := readTag_ok h1
    rw [readSkip]
    beta_reduce
    rw [if_neg (fun h => hne h.1), andThen_eq h1]
    rw [hm] at h hmem ⊢
    by_cases hsec : t.2.1 = true
    · rw [if_pos hsec] at h ⊢
      obtain ⟨v, b2, h2, h⟩ := Rd.andThen_ok h
      rw [andThen_eq h2]
      by_cases h9 : 9 < t.1
      · rw [if_pos h9] at h
        obtain ⟨_, b3, h3, h⟩ := Rd.andThen_ok h
        rw [if_pos (.inl h9), andThen_eq h3]
        exact ih (hi.skip (.inl h9)) h
      rw [if_neg h9] at h
      by_cases hreq : ((requires t.1).any fun r => r ∉ met) = true
      · rw [if_pos hreq] at h; cases h
      rw [if_neg hreq] at h
      by_cases hw : wordSection t.1 = true ∧ v % 2 ≠ 0
      · rw [if_pos hw] at h; cases h
      rw [if_neg hw] at h
      obtain ⟨payload, b3, h3, h⟩ := Rd.andThen_ok h
      obtain ⟨s1, b4, h4, h⟩ := Rd.andThen_ok h
      obtain ⟨h5, rfl⟩ := ofOption_ok h4
      have hb := decBody_without hK h45 h5
      cases hk : K t.1 with
      | true =>
        rw [if_pos hk] at hb
        rw [if_pos (.inr rfl), andThen_eq h3]
        by_cases h8 : t.1 = 8
        · rw [if_pos h8] at h
          cases h
          rw [← hb]
          cases fuel <;> (rw [readSkip]; beta_reduce; rw [if_pos ⟨rfl, by rw [← h8]; exact hmem⟩])
        · rw [if_neg h8] at h
          rw [← hb]
          exact ih (by rw [hb]; exact hi.skip (.inr hk)) h
      | false =>
        rw [if_neg (by rw [hk]; decide)] at hb
        rw [if_neg (by simp [h9]), if_neg hreq, if_neg hw, if_neg (by rw [hi.lacks hK hk hreq]; decide), andThen_eq h3, hb]
        show (if t.1 = 8 then fun bs => if bs = [] then Res.ok (some (s1.without K)) [] else .invalid else readSkip par K fuel (t.1 :: met) (s1.without K) : Rd (Option SectState)) b3 = _
        by_cases h8 : t.1 = 8
        · rw [if_pos h8] at h ⊢
          cases h
          rfl
        · rw [if_neg h8] at h ⊢
          exact ih (hi.step hb hreq h8) h
    · rw [if_neg hsec] at h ⊢
      by_cases h9 : t.1 ≤ 9
      · rw [if_pos h9] at h; cases h
      · rw [if_neg h9] at h ⊢
        obtain ⟨v, b2, h2, h⟩ := Rd.andThen_ok h
        rw [andThen_eq h2]
        exact ih (hi.skip (.inl (by omega))) h

/-! ## Nothing is skipped -/

/-- The end of a file. -/
def resAtEnd {α : Type} : Res α → Res (Option α)
  | .ok a rest => if rest = [] then .ok (some a) [] else .invalid
  | .needMore => .needMore
  | .invalid => .invalid

theorem resAtEnd_andThen {α β : Type} {p : Rd α} {f : α → Rd β} {g : α → Rd (Option β)} {bs : List Nat} (h : ∀ a mid, p bs = .ok a mid → g a mid = resAtEnd (f a mid)) :
    Rd.andThen p g bs = resAtEnd (Rd.andThen p f bs) := by
  unfold Rd.andThen
  cases hp : p bs with
  | ok a mid => exact h a mid hp
  | needMore => rfl
  | invalid => rfl

theorem noSkip_closed : SkipClosed fun _ => false := by constructor <;> intro h <;> cases h

theorem readSkip_nothing {par : Codec} (fuel : Nat) : ∀ {met : List Nat} {s : SectState} {bs : List Nat}, SkipInv (fun _ => false) met s →
    readSkip par (fun _ => false) fuel met s bs = resAtEnd (readSections (decBody par) fuel met s bs) := by
  induction fuel with
  | zero =>
    intro met s bs hi
    rw [readSkip]
    beta_reduce
    rw [if_neg (fun h => absurd (hi.ac h.2) (by decide))]
    rfl
  | succ fuel ih =>
    intro met s bs hi
    rw [readSkip, readSections]
    beta_reduce
    rw [if_neg (fun h => absurd (hi.ac h.2) (by decide))]
    refine resAtEnd_andThen fun t b1 h1 => ?_
    obtain ⟨-, -, -, -, hm⟩ := readTag_ok h1
    rw [hm]
    by_cases hsec : t.2.1 = true
    · rw [if_pos hsec, if_pos hsec]
      refine resAtEnd_andThen fun v b2 h2 => ?_
      by_cases h9 : 9 < t.1
      · rw [if_pos h9, if_pos (.inl h9)]
        exact resAtEnd_andThen fun _ _ _ => ih (hi.skip (.inl h9))
      rw [if_neg h9, if_neg (by simp [h9])]
      by_cases hreq : ((requires t.1).any fun r => r ∉ met) = true
      · rw [if_pos hreq, if_pos hreq]; rfl
      rw [if_neg hreq, if_neg hreq]
      by_cases hw : wordSection t.1 = true ∧ v % 2 ≠ 0
      · rw [if_pos hw, if_pos hw]; rfl
      rw [if_neg hw, if_neg hw, if_neg (by rw [hi.lacks noSkip_closed rfl hreq]; decide)]
      refine resAtEnd_andThen fun p b3 h3 => ?_
      refine resAtEnd_andThen fun s1 b4 h4 => ?_
      obtain ⟨h5, rfl⟩ := ofOption_ok h4
      by_cases h8 : t.1 = 8
      · rw [if_pos h8, if_pos h8]; rfl
      · rw [if_neg h8, if_neg h8]
        exact ih (hi.step h5 hreq h8)
    · rw [if_neg hsec, if_neg hsec]
      by_cases h9 : t.1 ≤ 9
      · rw [if_pos h9, if_pos h9]; rfl
      · rw [if_neg h9, if_neg h9]
        exact resAtEnd_andThen fun _ _ _ => ih (hi.skip (.inl (by omega)))

/-! ## What is skipped does not matter -/

/-- Two items that are the same but for the contents of a section that is skipped. -/
def sameBut (K : Nat → Bool) (i j : Item) : Prop :=
  i.Wf ∧ j.Wf ∧ i.tag = j.tag ∧ i.isSec = j.isSec ∧ (¬ (i.isSec = true ∧ K i.tag = true) → i = j)

theorem flatMap_bytes_nil {l l' : List Item} {K : Nat → Bool} (h : List.Forall₂ (sameBut K) l l') (tail : List Nat) :
    l.flatMap Item.bytes ++ tail = [] ↔ l'.flatMap Item.bytes ++ tail = [] := by
  cases h with
  | nil => exact Iff.rfl
  | cons _ _ => simp [Item.bytes]

theorem readSkip_ignored {par : Codec} {K : Nat → Bool} (fuel : Nat) : ∀ {met : List Nat} {s : SectState} {l l' : List Item}, List.Forall₂ (sameBut K) l l' → ∀ tail,
    readSkip par K fuel met s (l.flatMap Item.bytes ++ tail) = readSkip par K fuel met s (l'.flatMap Item.bytes ++ tail) := by
  induction fuel with
  | zero =>
    intro met s l l' h tail
    rw [readSkip]
    beta_reduce
    simp only [flatMap_bytes_nil h tail]
  | succ fuel ih =>
    intro met s l l' h tail
    cases h with
    | nil => rfl
    | @cons i j l l' hij hl =>
      obtain ⟨⟨w1, w2, v, hv, wp⟩, ⟨-, -, v', hv', wp'⟩, e1, e2, e3⟩ := hij
      rw [readSkip]
      beta_reduce
      rw [if_neg (by simp [Item.bytes]), if_neg (by simp [Item.bytes])]
      rw [List.flatMap_cons, List.flatMap_cons, List.append_assoc, List.append_assoc]
      rw [show i.bytes = (i.tag * 8 + if i.isSec then 2 else 0) :: (i.len ++ i.payload) from rfl,
        show j.bytes = (j.tag * 8 + if j.isSec then 2 else 0) :: (j.len ++ j.payload) from rfl]
      rw [List.cons_append, List.cons_append, List.append_assoc, List.append_assoc, ← e1, ← e2]
      by_cases hm : i.tag ∈ met
      · have bad : ∀ x, readTag met ((i.tag * 8 + if i.isSec = true then 2 else 0) :: x) = .invalid := by
          intro x
          unfold readTag
          have : (i.tag * 8 + if i.isSec = true then 2 else 0) / 8 = i.tag := by split <;> omega
          simp only [this, hm, if_true]
          split
          · rfl
          · simp
        unfold Rd.andThen
        rw [bad, bad]
      cases hs : i.isSec with
      | true =>
        have good : ∀ x, readTag met ((i.tag * 8 + if i.isSec = true then 2 else 0) :: x) = .ok (i.tag, true, i.tag :: met) x := by
          intro x
          rw [hs]
          exact readTag_section w1 w2 hm
        rw [hs] at good wp
        rw [andThen_eq (good _), andThen_eq (good _)]
        dsimp only
        rw [if_pos rfl, andThen_eq (base128_append hv), andThen_eq (base128_append hv')]
        rw [← e2, hs] at wp'
        rw [if_pos rfl] at wp wp'
        subst wp wp'
        by_cases hk : 9 < i.tag ∨ K i.tag = true
        · rw [if_pos hk, if_pos hk, andThen_eq bytes_append, andThen_eq bytes_append]
          exact ih hl tail
        · have := e3 (by rintro ⟨-, h⟩; exact hk (.inr h))
          subst this
          rw [if_neg hk]
          split
          · rfl
          · split
            · rfl
            · split
              · rfl
              · rw [andThen_eq bytes_append, andThen_eq bytes_append]
                cases decBody par s i.tag i.payload with
                | none => rfl
                | some s1 =>
                  rw [andThen_eq (p := Rd.ofOption (some s1)) rfl, andThen_eq (p := Rd.ofOption (some s1)) rfl]
                  by_cases h8 : i.tag = 8
                  · rw [if_pos h8]
                    simp only [flatMap_bytes_nil hl tail]
                  · rw [if_neg h8]
                    exact ih hl tail
      | false =>
        have good : ∀ x, readTag met ((i.tag * 8 + if i.isSec = true then 2 else 0) :: x) = .ok (i.tag, false, i.tag :: met) x := by
          intro x
          rw [hs]
          exact readTag_value w1 w2 hm
        rw [hs] at good
        have := e3 (by rintro ⟨h, -⟩; rw [hs] at h; cases h)
        subst this
        rw [andThen_eq (good _), andThen_eq (good _)]
        dsimp only
        rw [if_neg Bool.false_ne_true]
        by_cases h9 : i.tag ≤ 9
        · rw [if_pos h9]; rfl
        · rw [if_neg h9, andThen_eq (base128_append hv), andThen_eq (base128_append hv)]
          rw [hs, if_neg (by decide)] at wp
          rw [wp.1]
          exact ih hl tail

end Brunsli
