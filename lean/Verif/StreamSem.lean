import Verif.StreamFile
/-!
# The stages read what the file holds

The parser of `StreamFile.lean`, shown a whole file, arrives at what `decodeFile` (`Container.lean`) reads from it, and it always comes to an end.
-/

namespace Brunsli

open Rd

/-- The course of a parser with these bytes in view: it arrives at `Stage::DONE` (state, unread bytes), or stops before. -/
inductive Ends {σ : Type} (P : Parser σ) : σ → List Nat → Option (σ × List Nat) → Prop where
  | fin {s s' : σ} {w : List Nat} {n : Nat} (h : P.step s w = (s', n, .finished)) : Ends P s w (some (s', w.drop n))
  | wait {s s' : σ} {w : List Nat} {n : Nat} (h : P.step s w = (s', n, .wait)) : Ends P s w none
  | fail {s s' : σ} {w : List Nat} {n c : Nat} (h : P.step s w = (s', n, .fail c)) : Ends P s w none
  | go {s s' : σ} {w : List Nat} {n : Nat} {o : Option (σ × List Nat)} (h : P.step s w = (s', n, .go)) (e : Ends P s' (w.drop n) o) : Ends P s w o

/-- What `DoProcessJpeg` returns then. -/
def Returns {σ : Type} (q : PSt σ × List Nat × PStatus) : Option (σ × List Nat) → Prop
  | some (t, []) => q = (.done t, [], .ok)
  | some (t, b :: rest) => q = (.dead t invalidBrn, b :: rest, .bad invalidBrn)
  | none => q.2.2 ≠ .ok

theorem Ends.run {σ : Type} {P : Parser σ} {s : σ} {w : List Nat} {o : Option (σ × List Nat)} (h : Ends P s w o) :
    ∃ fuel q, doProcess P fuel (.working s) w = some q ∧ Returns q o := by
  induction h with
  | @fin s s' w n h =>
    refine ⟨2, ?_⟩
    simp only [doProcess, h]
    cases w.drop n with
    | nil => exact ⟨_, rfl, rfl⟩
    | cons b r => exact ⟨_, rfl, rfl⟩
  | wait h => exact ⟨1, _, by simp only [doProcess, h]; rfl, by simp [Returns]⟩
  | fail h => exact ⟨1, _, by simp only [doProcess, h]; rfl, by simp [Returns]⟩
  | go h e ih =>
    obtain ⟨fuel, q, h1, h2⟩ := ih
    exact ⟨fuel + 1, q, by simp only [doProcess, h]; exact h1, h2⟩

/-- What the stages should come to. -/
def Res.ends (z : Inflater) : Res (Content SectState) → Option (FileSt z × List Nat)
  | .ok c rest => some (.ended c, rest)
  | .needMore => none
  | .invalid => none

theorem readEnds {z : Inflater} {β : Type} {s : FileSt z} {p : Rd β} {f : β → Nat → Option (FileSt z)} {w : List Nat} {o : Option (FileSt z × List Nat)}
    (hstep : fileStep z s w = readStep s p f w) (hp : Mono p) (hok : ∀ b rest s', p w = .ok b rest → f b (w.length - rest.length) = some s' → Ends (fileParser z) s' rest o)
    (hnone : ∀ b rest, p w = .ok b rest → f b (w.length - rest.length) = none → o = none) (hmore : p w = .needMore → o = none) (hbad : p w = .invalid → o = none) :
    Ends (fileParser z) s w o := by
  unfold readStep at hstep
  cases h : p w with
  | ok b rest =>
    rw [h] at hstep
    dsimp only at hstep
    cases h2 : f b (w.length - rest.length) with
    | none => rw [h2] at hstep; rw [hnone b rest h h2]; exact .fail hstep
    | some s' =>
      rw [h2] at hstep
      obtain ⟨u, hu⟩ := hp.suffix h
      refine .go (n := w.length - rest.length) hstep ?_
      have hd : w.drop (w.length - rest.length) = rest := suffix_drop hu
      rw [hd]
      exact hok b rest s' h h2
  | needMore => rw [h] at hstep; rw [hmore h]; exact .wait hstep
  | invalid => rw [h] at hstep; rw [hbad h]; exact .fail hstep

/-! ## Bodies -/

theorem body_short {z : Inflater} {s : SectState} (hs : s.Ok) {tag : Nat} {met : List Nat} {t : BodySt z} {rem : Nat} {v : List Nat}
    {r : Option (SectState × List Nat)} (hv : Verdict (sectBody z s) t rem v r) : ∀ w x, v = w ++ x → w.length < rem → sectInv t rem →
    Ends (fileParser z) (.sectBody rem tag t met s) w none := by
  have hB := sectBody_resumes z hs
  induction hv with
  | @done t rem v a n h =>
    intro w x e hl hi
    have hf := hB.fits t rem w hi
    cases h1 : Brunsli.sectBody z s t rem w with
    | more t' m => rw [h1] at hf; rw [e, hf.2.2.2 x] at h; cases h
    | done a m =>
      rw [h1] at hf
      refine .fail (n := 0) (c := invalidBrn) (s' := .sectBody rem tag t met s) ?_
      simp only [fileParser, fileStep, h1]
      rw [if_neg (by have := hf.1; omega)]
    | wait t' m => exact .wait (n := m) (s' := .sectBody (rem - m) tag t' met s) (by simp only [fileParser, fileStep, h1])
    | bad => exact .fail (n := 0) (c := invalidBrn) (s' := .sectBody rem tag t met s) (by simp only [fileParser, fileStep, h1])
  | @bad t rem v h =>
    intro w x e hl hi
    have hf := hB.fits t rem w hi
    cases h1 : Brunsli.sectBody z s t rem w with
    | more t' m => rw [h1] at hf; rw [e, hf.2.2.2 x] at h; cases h
    | done a m => rw [h1] at hf; rw [e, hf.2.2.2 x] at h; cases h
    | wait t' m => exact .wait (n := m) (s' := .sectBody (rem - m) tag t' met s) (by simp only [fileParser, fileStep, h1])
    | bad => exact .fail (n := 0) (c := invalidBrn) (s' := .sectBody rem tag t met s) (by simp only [fileParser, fileStep, h1])
  | @wait t t1 rem k v h =>
    intro w x e hl hi
    have hf := hB.fits t rem w hi
    cases h1 : Brunsli.sectBody z s t rem w with
    | more t' m => rw [h1] at hf; rw [e, hf.2.2.2 x] at h; cases h
    | done a m => rw [h1] at hf; rw [e, hf.2.2.2 x] at h; cases h
    | wait t' m => exact .wait (n := m) (s' := .sectBody (rem - m) tag t' met s) (by simp only [fileParser, fileStep, h1])
    | bad => exact .fail (n := 0) (c := invalidBrn) (s' := .sectBody rem tag t met s) (by simp only [fileParser, fileStep, h1])
  | @more t t1 rem k v r h hv ih =>
    intro w x e hl hi
    have hf := hB.fits t rem w hi
    cases h1 : Brunsli.sectBody z s t rem w with
    | more t' m =>
      rw [h1] at hf
      obtain ⟨f1, f2, f3, f4⟩ := hf
      rw [e, f4 x] at h
      cases h
      refine .go (n := k) (s' := .sectBody (rem - k) tag t1 met s) (by simp only [fileParser, fileStep, h1]) ?_
      refine ih (w.drop k) x ?_ ?_ f3
      · rw [e, List.drop_append_of_le_length f1]
      · rw [List.length_drop]; omega
    | done a m => rw [h1] at hf; rw [e, hf.2.2.2 x] at h; cases h
    | wait t' m => exact .wait (n := m) (s' := .sectBody (rem - m) tag t' met s) (by simp only [fileParser, fileStep, h1])
    | bad => exact .fail (n := 0) (c := invalidBrn) (s' := .sectBody rem tag t met s) (by simp only [fileParser, fileStep, h1])

theorem body_whole {z : Inflater} {s : SectState} (hs : s.Ok) {tag : Nat} {met : List Nat} {t : BodySt z} {rem : Nat} {w : List Nat}
    {r : Option (SectState × List Nat)} (hv : Verdict (sectBody z s) t rem w r) : rem ≤ w.length → sectInv t rem → ∀ o,
    (atEnd r = none → o = none) →
    (∀ s', atEnd r = some s' → s'.Ok → Ends (fileParser z) (if tag = 8 then .ended (.image s') else .sectTag met s') (w.drop rem) o) →
    Ends (fileParser z) (.sectBody rem tag t met s) w o := by
  have hB := sectBody_resumes z hs
  induction hv with
  | @done t rem w a n h =>
    intro hl hi o hn hk
    have hf := hB.fits t rem w hi
    rw [h] at hf
    obtain ⟨f1, f2, f3, _⟩ := hf
    have hlen : ((w.take rem).drop n).length = rem - n := by rw [List.length_drop, List.length_take]; omega
    by_cases hr : n = rem
    · have hnil : (w.take rem).drop n = [] := List.eq_nil_of_length_eq_zero (by rw [hlen]; omega)
      rw [hnil] at hk
      have := hk a rfl f3
      subst hr
      exact .go (n := n) (by simp only [fileParser, fileStep, h]; rw [if_pos trivial]) this
    · cases hd : (w.take rem).drop n with
      | nil => rw [hd] at hlen; simp at hlen; omega
      | cons b l =>
        rw [hd] at hn
        rw [hn rfl]
        refine .fail (n := 0) (c := invalidBrn) (s' := .sectBody rem tag t met s) ?_
        simp only [fileParser, fileStep, h]
        rw [if_neg hr]
  | @bad t rem w h =>
    intro hl hi o hn hk
    rw [hn rfl]
    exact .fail (n := 0) (c := invalidBrn) (s' := .sectBody rem tag t met s) (by simp only [fileParser, fileStep, h])
  | @wait t t' rem n w h =>
    intro hl hi o hn hk
    rw [hn rfl]
    exact .wait (n := n) (s' := .sectBody (rem - n) tag t' met s) (by simp only [fileParser, fileStep, h])
  | @more t t' rem n w r h hv ih =>
    intro hl hi o hn hk
    have hf := hB.fits t rem w hi
    rw [h] at hf
    obtain ⟨f1, f2, f3, _⟩ := hf
    refine .go (n := n) (s' := .sectBody (rem - n) tag t' met s) (by simp only [fileParser, fileStep, h]) ?_
    refine ih (by rw [List.length_drop]; omega) f3 o hn fun s' h1 h2 => ?_
    rw [List.drop_drop, show n + (rem - n) = rem by omega]
    exact hk s' h1 h2

/-- A section. -/
theorem body_ends {z : Inflater} {s : SectState} (hs : s.Ok) {tag : Nat} {met : List Nat} {t : BodySt z} {rem : Nat} (hi : sectInv t rem) {w : List Nat}
    {o : Option (FileSt z × List Nat)} (hshort : w.length < rem → o = none) (hnone : rem ≤ w.length → atEnd (sectSem z s t (w.take rem)) = none → o = none)
    (hsome : ∀ s', rem ≤ w.length → atEnd (sectSem z s t (w.take rem)) = some s' → s'.Ok →
      Ends (fileParser z) (if tag = 8 then .ended (.image s') else .sectTag met s') (w.drop rem) o) :
    Ends (fileParser z) (.sectBody rem tag t met s) w o := by
  have hB := sectBody_resumes z hs
  by_cases hl : w.length < rem
  · rw [hshort hl]
    exact body_short hs (hB.total t rem (w ++ List.replicate rem 0) hi (by rw [List.length_append, List.length_replicate]; omega)) w _ rfl hl hi
  · have hl : rem ≤ w.length := by omega
    exact body_whole hs (hB.total t rem w hi hl) hl hi o (hnone hl) (fun s' => hsome s' hl)

theorem skip_ends {z : Inflater} {s next : FileSt z} {n : Nat} {wait : Nat → FileSt z} {w : List Nat} {o : Option (FileSt z × List Nat)}
    (hstep : fileStep z s w = takeStep n next wait w) (hshort : w.length < n → o = none)
    (hok : n ≤ w.length → Ends (fileParser z) next (w.drop n) o) : Ends (fileParser z) s w o := by
  unfold takeStep at hstep
  by_cases h : n ≤ w.length
  · rw [if_pos h] at hstep
    exact .go hstep (hok h)
  · rw [if_neg h] at hstep
    rw [hshort (by omega)]
    exact .wait hstep

theorem ended_ends {z : Inflater} (c : Content SectState) (w : List Nat) : Ends (fileParser z) (.ended c) w (some (.ended c, w)) :=
  .fin (n := 0) rfl

/-- The sections that are left. -/
def restImage (par : Codec) (fuel : Nat) (met : List Nat) (s : SectState) : Rd (Content SectState) :=
  andThen (readSections (decBody par) fuel met s) fun s => ret (.image s)

theorem andThen_more {α β : Type} {p : Rd α} {f : α → Rd β} {w : List Nat} (h : p w = .needMore) : andThen p f w = .needMore := by
  unfold andThen; rw [h]

theorem andThen_bad {α β : Type} {p : Rd α} {f : α → Rd β} {w : List Nat} (h : p w = .invalid) : andThen p f w = .invalid := by
  unfold andThen; rw [h]

theorem andThen_nest {α β γ : Type} {p : Rd α} {f : α → Rd β} {g : β → Rd γ} {w r : List Nat} {a : α} (h : p w = .ok a r) :
    andThen (andThen p f) g w = andThen (f a) g r := by
  simp only [andThen, h]

theorem requires_self {tag : Nat} {met : List Nat} : (requires tag).any (fun r => r ∉ tag :: met) = (requires tag).any (fun r => r ∉ met) := by
  unfold requires
  split
  · rename_i h; rcases h with rfl | rfl <;> simp
  split
  · rename_i h; subst h; simp
  split
  · rename_i h; subst h; simp
  · rfl

theorem sections_ends {z : Inflater} {par : Codec} (hz : ∀ p, (par.decompress p).map List.flatten = z.whole p) : ∀ (fuel : Nat) (met : List Nat) (s : SectState)
    (w : List Nat), Tags met → s.Ok → 16 ≤ met.length + fuel → Ends (fileParser z) (.sectTag met s) w ((restImage par fuel met s w).ends z)
  | 0, met, s, w, hm, hs, hf => by
    have := hm.length
    omega
  | fuel + 1, met, s, w, hm, hs, hf => by
    refine readEnds (by simp only [fileStep]; rfl) (Mono.readTag met) (fun t r s' ht h => ?_) (fun t r ht h => ?_) (fun ht => ?_) (fun ht => ?_)
    · have hm' := hm.cons ht
      obtain ⟨_, h1, h15, hnew, hmet⟩ := readTag_ok ht
      have hf' : 16 ≤ t.2.2.length + fuel := by rw [hmet, List.length_cons]; omega
      have e0 : restImage par (fuel + 1) met s w = andThen (if t.2.1 then
          andThen decodeBase128 fun v =>
            if 9 < t.1 then andThen (bytes v) fun _ => readSections (decBody par) fuel t.2.2 s
            else if (requires t.1).any (fun r => r ∉ met) then fail
            else if wordSection t.1 ∧ v % 2 ≠ 0 then fail
            else andThen (bytes v) fun payload =>
              andThen (ofOption (decBody par s t.1 payload)) fun s =>
                if t.1 = 8 then ret s else readSections (decBody par) fuel t.2.2 s
        else if t.1 ≤ 9 then fail
        else andThen decodeBase128 fun _ => readSections (decBody par) fuel t.2.2 s) (fun s => ret (.image s)) r := by
        unfold restImage
        conv => lhs; unfold andThen
        rw [readSections, andThen_eq ht]
        rfl
      rw [e0]
      by_cases hsec : t.2.1 = true
      · rw [if_pos hsec] at h
        cases h
        simp only [hsec, if_true]
        refine readEnds (by simp only [fileStep]; rfl) Mono.decodeBase128 (fun v r2 s' hv h => ?_) (fun v r2 hv h => ?_) (fun hv => ?_) (fun hv => ?_)
        · have e1 : ∀ (f : Nat → Rd SectState), andThen (andThen decodeBase128 f) (fun s => ret (.image s)) r = andThen (f v) (fun s => ret (Content.image s)) r2 :=
            fun f => andThen_nest hv
          rw [e1]
          by_cases h9 : 9 < t.1
          · rw [if_pos h9] at h ⊢
            cases h
            refine skip_ends (by simp only [fileStep]; rfl) (fun hl => ?_) (fun hl => ?_)
            · rw [andThen_more (andThen_more (by unfold bytes; rw [if_pos hl]))]; rfl
            · have : restImage par fuel t.2.2 s (r2.drop v) = andThen (andThen (bytes v) fun _ => readSections (decBody par) fuel t.2.2 s) (fun s => ret (Content.image s)) r2 := by
                rw [andThen_nest (a := r2.take v) (r := r2.drop v) (by unfold bytes; rw [if_neg (by omega)])]
                rfl
              rw [← this]
              exact sections_ends hz fuel _ s _ hm' hs hf'
          · rw [if_neg h9] at h ⊢
            have hreq : (requires t.1).any (fun r => r ∉ t.2.2) = (requires t.1).any (fun r => r ∉ met) := by rw [hmet, requires_self]
            rw [hreq] at h
            by_cases hq : (requires t.1).any (fun r => r ∉ met) = true
            · rw [if_pos hq] at h; cases h
            rw [if_neg hq] at h ⊢
            by_cases hw : wordSection t.1 ∧ v % 2 ≠ 0
            · rw [if_pos hw] at h; cases h
            rw [if_neg hw] at h ⊢
            have hw' : wordSection t.1 → v % 2 = 0 := fun e => by
              rcases Nat.mod_two_eq_zero_or_one v with x | x
              · exact x
              · exact absurd ⟨e, by omega⟩ hw
            cases hst : sectStart z s t.1 v with
            | none => rw [hst] at h; cases h
            | some b =>
              rw [hst] at h
              cases h
              have e2 : ∀ hl : v ≤ r2.length, andThen (andThen (bytes v) fun payload => andThen (ofOption (decBody par s t.1 payload)) fun s =>
                  if t.1 = 8 then ret s else readSections (decBody par) fuel t.2.2 s) (fun s => ret (Content.image s)) r2 =
                  match decBody par s t.1 (r2.take v) with
                  | none => .invalid
                  | some s' => if t.1 = 8 then .ok (.image s') (r2.drop v) else restImage par fuel t.2.2 s' (r2.drop v) := fun hl => by
                rw [andThen_nest (a := r2.take v) (r := r2.drop v) (by unfold bytes; rw [if_neg (by omega)])]
                cases decBody par s t.1 (r2.take v) with
                | none => rfl
                | some s' =>
                  dsimp only
                  by_cases h8 : t.1 = 8
                  · simp only [h8, if_true]; rfl
                  · simp only [h8, if_false]; rfl
              have e3 : ∀ hl : v ≤ r2.length, atEnd (sectSem z s b (r2.take v)) = decBody par s t.1 (r2.take v) := fun hl => by
                have hlen : (r2.take v).length = v := by rw [List.length_take]; omega
                exact sectStart_sem hz hs (by rw [hlen]; exact hw') (by rw [hlen]; exact hst)
              refine body_ends hs (sectStart_inv hs hw' hst) (fun hl => ?_) (fun hl hnone => ?_) (fun s' hl hsome hs' => ?_)
              · rw [andThen_more (andThen_more (by unfold bytes; rw [if_pos hl]))]; rfl
              · rw [e3 hl] at hnone
                rw [e2 hl, hnone]
                rfl
              · rw [e3 hl] at hsome
                rw [e2 hl, hsome]
                dsimp only
                by_cases h8 : t.1 = 8
                · rw [if_pos h8, if_pos h8]
                  exact ended_ends _ _
                · rw [if_neg h8, if_neg h8]
                  exact sections_ends hz fuel _ s' _ hm' hs' hf'
        · have e1 : ∀ (f : Nat → Rd SectState), andThen (andThen decodeBase128 f) (fun s => ret (.image s)) r = andThen (f v) (fun s => ret (Content.image s)) r2 :=
            fun f => andThen_nest hv
          rw [e1]
          by_cases h9 : 9 < t.1
          · rw [if_pos h9] at h; cases h
          rw [if_neg h9] at h ⊢
          have hreq : (requires t.1).any (fun r => r ∉ t.2.2) = (requires t.1).any (fun r => r ∉ met) := by rw [hmet, requires_self]
          rw [hreq] at h
          by_cases hq : (requires t.1).any (fun r => r ∉ met) = true
          · rw [if_pos hq]; rfl
          rw [if_neg hq] at h ⊢
          by_cases hw : wordSection t.1 ∧ v % 2 ≠ 0
          · rw [if_pos hw]; rfl
          rw [if_neg hw] at h ⊢
          cases hst : sectStart z s t.1 v with
          | some b => rw [hst] at h; cases h
          | none =>
            by_cases hl : r2.length < v
            · rw [andThen_more (andThen_more (by unfold bytes; rw [if_pos hl]))]; rfl
            · have : andThen (bytes v) (fun payload => andThen (ofOption (decBody par s t.1 payload)) fun s =>
                  if t.1 = 8 then ret s else readSections (decBody par) fuel t.2.2 s) r2 = .invalid := by
                rw [andThen_eq (a := r2.take v) (mid := r2.drop v) (by unfold bytes; rw [if_neg hl]), sectStart_none hst]
                rfl
              rw [andThen_bad this]
              rfl
        · rw [andThen_more (andThen_more hv)]; rfl
        · rw [andThen_bad (andThen_bad hv)]; rfl
      · rw [if_neg hsec] at h
        rw [if_neg hsec]
        by_cases h9 : t.1 ≤ 9
        · rw [if_pos h9] at h; cases h
        rw [if_neg h9] at h ⊢
        cases h
        refine readEnds (by simp only [fileStep]; rfl) Mono.decodeBase128 (fun v r2 s' hv h => ?_) (fun v r2 hv h => ?_) (fun hv => ?_) (fun hv => ?_)
        · cases h
          have : restImage par fuel t.2.2 s r2 = andThen (andThen decodeBase128 fun _ => readSections (decBody par) fuel t.2.2 s) (fun s => ret (Content.image s)) r := by
            rw [andThen_nest hv, restImage]
          rw [← this]
          exact sections_ends hz fuel _ s _ hm' hs hf'
        · cases h
        · rw [andThen_more (andThen_more hv)]; rfl
        · rw [andThen_bad (andThen_bad hv)]; rfl
    · have e0 : readSections (decBody par) (fuel + 1) met s w = .invalid := by
        rw [readSections, andThen_eq ht]
        by_cases hsec : t.2.1 = true
        · rw [if_pos hsec] at h; cases h
        · rw [if_neg hsec] at h ⊢
          by_cases h9 : t.1 ≤ 9
          · rw [if_pos h9]; rfl
          · rw [if_neg h9] at h; cases h
      rw [restImage, andThen_bad e0]
      rfl
    · rw [restImage, andThen_more (by rw [readSections, andThen_more ht])]; rfl
    · rw [restImage, andThen_bad (by rw [readSections, andThen_bad ht])]; rfl

/-! ## The header and the original -/

/-- What follows the header. -/
def afterRd (par : Codec) (met : List Nat) (h : Header) : Rd (Content SectState) :=
  if h.version = 1 then andThen (readOriginal met) fun d => ret (.original d) else restImage par 16 (9 :: met) (SectState.init h)

theorem original_ends {z : Inflater} (met w : List Nat) :
    Ends (fileParser z) (.origTag met) w ((andThen (readOriginal met) (fun d => ret (.original d)) w).ends z) := by
  unfold readOriginal
  refine readEnds (by simp only [fileStep]; rfl) (Mono.readTag met) (fun t r s' ht h => ?_) (fun t r ht h => ?_) (fun ht => ?_) (fun ht => ?_)
  · rw [andThen_nest ht]
    by_cases h9 : t.1 = 9 ∧ t.2.1 = true
    · rw [if_pos h9] at h ⊢
      cases h
      refine readEnds (by simp only [fileStep]; rfl) Mono.decodeBase128 (fun v r2 s' hv h => ?_) (fun v r2 hv h => ?_) (fun hv => ?_) (fun hv => ?_)
      · cases h
        rw [andThen_nest hv]
        refine skip_ends (by simp only [fileStep]; rfl) (fun hl => ?_) (fun hl => ?_)
        · rw [andThen_more (by unfold bytes; rw [if_pos hl])]; rfl
        · rw [andThen_eq (a := r2.take v) (mid := r2.drop v) (by unfold bytes; rw [if_neg (by omega)])]
          exact ended_ends _ _
      · cases h
      · rw [andThen_more (andThen_more hv)]; rfl
      · rw [andThen_bad (andThen_bad hv)]; rfl
    · rw [if_neg h9] at h; cases h
  · rw [andThen_nest ht]
    by_cases h9 : t.1 = 9 ∧ t.2.1 = true
    · rw [if_pos h9] at h; cases h
    · rw [if_neg h9]; rfl
  · rw [andThen_more (andThen_more ht)]; rfl
  · rw [andThen_bad (andThen_bad ht)]; rfl

theorem after_ends {z : Inflater} {par : Codec} (hz : ∀ p, (par.decompress p).map List.flatten = z.whole p) {imet vals : List Nat} {h : Header}
    (hf : headerFinale imet vals = some h) (w : List Nat) :
    Ends (fileParser z) (afterHeader [2, 1] h) w ((afterRd par [2, 1] h w).ends z) := by
  have hi := afterHeader_inv (z := z) rfl hf
  unfold afterHeader at hi ⊢
  unfold afterRd
  by_cases hv : h.version = 1
  · rw [if_pos hv, if_pos hv]
    exact original_ends _ _
  · rw [if_neg hv] at hi
    rw [if_neg hv, if_neg hv]
    exact sections_ends hz 16 _ _ w hi.1 hi.2 (by simp)

/-- The items that are left, and the rest of the file. -/
def restItems (par : Codec) (size fuel pos : Nat) (imet vals : List Nat) : Rd (Content SectState) :=
  andThen (headerItems size fuel pos imet vals) fun t => andThen (ofOption (headerFinale t.1 t.2)) (afterRd par [2, 1])

theorem Mono.lengths {α : Type} {p : Rd α} (hp : Mono p) {w r : List Nat} {a : α} (h : p w = .ok a r) : r.length ≤ w.length := by
  obtain ⟨u, hu⟩ := hp.suffix h
  rw [hu, List.length_append]
  omega

theorem items_ends {z : Inflater} {par : Codec} (hz : ∀ p, (par.decompress p).map List.flatten = z.whole p) (size : Nat) : ∀ (fuel pos : Nat)
    (imet vals w : List Nat), Tags imet → 16 ≤ imet.length + fuel →
    Ends (fileParser z) (.itemTag size pos [2, 1] imet vals) w ((restItems par size fuel pos imet vals w).ends z)
  | 0, pos, imet, vals, w, hm, hf => by
    have := hm.length
    omega
  | fuel + 1, pos, imet, vals, w, hm, hf => by
    by_cases hp : pos = size
    · have e : restItems par size (fuel + 1) pos imet vals w = andThen (ofOption (headerFinale imet vals)) (afterRd par [2, 1]) w := by
        rw [restItems, headerItems, if_pos hp]
        rfl
      rw [e]
      cases hh : headerFinale imet vals with
      | none =>
        refine .fail (n := 0) (c := invalidBrn) (s' := .itemTag size pos [2, 1] imet vals) ?_
        simp only [fileParser, fileStep]
        rw [if_pos hp, hh]
      | some h =>
        refine .go (n := 0) (s' := afterHeader [2, 1] h) ?_ (after_ends hz hh w)
        simp only [fileParser, fileStep]
        rw [if_pos hp, hh]
    · have e : restItems par size (fuel + 1) pos imet vals w = andThen (andThen (counted (headerItem imet)) fun t =>
          headerItems size fuel (pos + t.2) t.1.2.1 (match t.1.2.2 with | some v => vals.set t.1.1 v | none => vals))
          (fun t => andThen (ofOption (headerFinale t.1 t.2)) (afterRd par [2, 1])) w := by
        rw [restItems, headerItems, if_neg hp]
        rfl
      rw [e]
      refine readEnds (p := readTag imet) (by simp only [fileStep]; rw [if_neg hp]) (Mono.readTag imet) (fun t r s' ht h => ?_) (fun t r ht h => ?_) (fun ht => ?_) (fun ht => ?_)
      · cases h
        have hm' := hm.cons ht
        obtain ⟨_, h1, h15, hnew, hmet⟩ := readTag_ok ht
        have hf' : 16 ≤ t.2.2.length + fuel := by rw [hmet, List.length_cons]; omega
        have l1 := Mono.lengths (Mono.readTag imet) ht
        by_cases hsec : t.2.1 = true
        · rw [if_pos hsec]
          refine readEnds (by simp only [fileStep]; rfl) Mono.decodeBase128 (fun v r2 s' hv h => ?_) (fun v r2 hv h => ?_) (fun hv => ?_) (fun hv => ?_)
          · cases h
            have l2 := Mono.lengths Mono.decodeBase128 hv
            have hi : headerItem imet w = andThen (bytes v) (fun _ => ret (t.1, t.2.2, (none : Option Nat))) r2 := by
              unfold headerItem
              rw [andThen_eq ht, andThen_eq hv, if_pos hsec]
            refine skip_ends (by simp only [fileStep]; rfl) (fun hl => ?_) (fun hl => ?_)
            · have : headerItem imet w = .needMore := by rw [hi, andThen_more (by unfold bytes; rw [if_pos hl])]
              rw [andThen_more (andThen_more (by unfold counted; rw [this]))]
              rfl
            · have : headerItem imet w = .ok (t.1, t.2.2, none) (r2.drop v) := by
                rw [hi, andThen_eq (a := r2.take v) (mid := r2.drop v) (by unfold bytes; rw [if_neg (by omega)])]
                rfl
              rw [andThen_nest (a := ((t.1, t.2.2, none), w.length - (r2.drop v).length)) (r := r2.drop v) (by unfold counted; rw [this])]
              have hpos : pos + (w.length - r.length) + (r.length - r2.length) + v = pos + (w.length - (r2.drop v).length) := by
                rw [List.length_drop]; omega
              rw [hpos]
              exact items_ends hz size fuel _ _ vals _ hm' hf'
          · cases h
          · have : headerItem imet w = .needMore := by unfold headerItem; rw [andThen_eq ht, andThen_more hv]
            rw [andThen_more (andThen_more (by unfold counted; rw [this]))]
            rfl
          · have : headerItem imet w = .invalid := by unfold headerItem; rw [andThen_eq ht, andThen_bad hv]
            rw [andThen_bad (andThen_bad (by unfold counted; rw [this]))]
            rfl
        · rw [if_neg hsec]
          refine readEnds (by simp only [fileStep]; rfl) Mono.decodeBase128 (fun v r2 s' hv h => ?_) (fun v r2 hv h => ?_) (fun hv => ?_) (fun hv => ?_)
          · cases h
            have l2 := Mono.lengths Mono.decodeBase128 hv
            have hi : headerItem imet w = .ok (t.1, t.2.2, some v) r2 := by
              unfold headerItem
              rw [andThen_eq ht, andThen_eq hv, if_neg hsec]
              rfl
            rw [andThen_nest (a := ((t.1, t.2.2, some v), w.length - r2.length)) (r := r2) (by unfold counted; rw [hi])]
            rw [show pos + (w.length - r.length) + (r.length - r2.length) = pos + (w.length - r2.length) by omega]
            exact items_ends hz size fuel _ _ _ _ hm' hf'
          · cases h
          · have : headerItem imet w = .needMore := by unfold headerItem; rw [andThen_eq ht, andThen_more hv]
            rw [andThen_more (andThen_more (by unfold counted; rw [this]))]
            rfl
          · have : headerItem imet w = .invalid := by unfold headerItem; rw [andThen_eq ht, andThen_bad hv]
            rw [andThen_bad (andThen_bad (by unfold counted; rw [this]))]
            rfl
      · cases h
      · have : headerItem imet w = .needMore := by unfold headerItem; rw [andThen_more ht]
        rw [andThen_more (andThen_more (by unfold counted; rw [this]))]
        rfl
      · have : headerItem imet w = .invalid := by unfold headerItem; rw [andThen_bad ht]
        rw [andThen_bad (andThen_bad (by unfold counted; rw [this]))]
        rfl

/-- What `decodeFile` reads. -/
def wholeFile (par : Codec) : Rd (Content SectState) := readFile (fun h => some (SectState.init h)) (decBody par)

theorem wholeFile_eq (par : Codec) (w : List Nat) : wholeFile par w = andThen readSignature (fun _ => andThen (readTag [1]) fun t =>
    if t.1 = 2 ∧ t.2.1 then andThen decodeBase128 fun size => andThen (headerItems size 16 0 [] (List.replicate 16 0)) fun u =>
      andThen (ofOption (headerFinale u.1 u.2)) (afterRd par t.2.2) else fail) w := by
  unfold wholeFile readFile readHeader readHeaderBody
  cases hs : readSignature w with
  | needMore => rw [andThen_more hs, andThen_more hs]
  | invalid => rw [andThen_bad hs, andThen_bad hs]
  | ok a r =>
    rw [andThen_eq hs, andThen_eq hs]
    cases ht : readTag [1] r with
    | needMore => rw [andThen_more (andThen_more ht), andThen_more ht]
    | invalid => rw [andThen_bad (andThen_bad ht), andThen_bad ht]
    | ok t r2 =>
      rw [andThen_nest ht, andThen_eq ht]
      by_cases h2 : t.1 = 2 ∧ t.2.1 = true
      · rw [if_pos h2, if_pos h2]
        cases hv : decodeBase128 r2 with
        | needMore => rw [andThen_more (andThen_more hv), andThen_more hv]
        | invalid => rw [andThen_bad (andThen_bad hv), andThen_bad hv]
        | ok size r3 =>
          rw [andThen_nest hv, andThen_eq hv]
          cases hi : headerItems size 16 0 [] (List.replicate 16 0) r3 with
          | needMore => rw [andThen_more (andThen_more (andThen_more hi)), andThen_more hi]
          | invalid => rw [andThen_bad (andThen_bad (andThen_bad hi)), andThen_bad hi]
          | ok u r4 =>
            rw [andThen_eq hi]
            cases hf : headerFinale u.1 u.2 with
            | none => simp only [andThen, hi, ofOption, hf, fail]
            | some h =>
              simp only [andThen, hi, ofOption, hf, afterRd, restImage, ret]
              by_cases h1 : h.version = 1
              · rw [if_pos h1, if_pos h1]
              · rw [if_neg h1, if_neg h1]
                rfl
      · rw [if_neg h2, if_neg h2]
        rfl

/-- The parser of a file, with all its bytes in view. -/
theorem file_ends {z : Inflater} {par : Codec} (hz : ∀ p, (par.decompress p).map List.flatten = z.whole p) (w : List Nat) :
    Ends (fileParser z) .signature w ((wholeFile par w).ends z) := by
  rw [wholeFile_eq]
  refine readEnds (by simp only [fileStep]; rfl) readSignature_mono (fun _ r s' hs h => ?_) (fun _ r hs h => ?_) (fun hs => ?_) (fun hs => ?_)
  · cases h
    rw [andThen_eq hs]
    refine readEnds (by simp only [fileStep]; rfl) (Mono.readTag [1]) (fun t r2 s' ht h => ?_) (fun t r2 ht h => ?_) (fun ht => ?_) (fun ht => ?_)
    · rw [andThen_eq ht]
      by_cases h2 : t.1 = 2 ∧ t.2.1 = true
      · rw [if_pos h2] at h ⊢
        cases h
        obtain ⟨_, _, _, _, hmet⟩ := readTag_ok ht
        rw [h2.1] at hmet
        rw [hmet]
        refine readEnds (by simp only [fileStep]; rfl) Mono.decodeBase128 (fun v r3 s' hv h => ?_) (fun v r3 hv h => ?_) (fun hv => ?_) (fun hv => ?_)
        · cases h
          rw [andThen_eq hv]
          exact items_ends hz v 16 0 [] _ r3 ⟨List.nodup_nil, fun _ h => by cases h⟩ (by simp)
        · cases h
        · rw [andThen_more hv]; rfl
        · rw [andThen_bad hv]; rfl
      · rw [if_neg h2] at h; cases h
    · rw [andThen_eq ht]
      by_cases h2 : t.1 = 2 ∧ t.2.1 = true
      · rw [if_pos h2] at h; cases h
      · rw [if_neg h2]; rfl
    · rw [andThen_more ht]; rfl
    · rw [andThen_bad ht]; rfl
  · cases h
  · rw [andThen_more hs]; rfl
  · rw [andThen_bad hs]; rfl

end Brunsli
