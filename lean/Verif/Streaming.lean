import Verif.Output

/-!
# Streaming input

`DoProcessJpeg`, the read-ahead buffer of `ProcessJpeg` (c/dec/brunsli_decode.cc:2271-2454) and `BrunsliDecoder::Decode` (lines 2509-2565).  What a
stage of the parser does with the bytes it sees is a parameter (`Parser.step`); `Parser.Incremental` states what the buffer relies on.

Simplification: `Stage::ERROR` with the result `BRUNSLI_NOT_ENOUGH_DATA` and the saved stage is one state `.paused`.
-/

namespace Brunsli

/-- `BrunsliStatus` (c/include/brunsli/status.h): success, more input needed, an error with its code. -/
inductive PStatus where
  | ok | needMore | bad (code : Nat)
deriving DecidableEq, Repr

/-- `BRUNSLI_INVALID_BRN` -/
def invalidBrn : Nat := 5

/-- What a stage function returns: another working stage, `Stage::DONE`, or `Fail` with a status. -/
inductive PNext where
  | go | finished | wait | fail (code : Nat)
deriving DecidableEq, Repr

/-- The stages of the parser: state, unread bytes in view ↦ new state (including the stage to go on with), bytes read, outcome. -/
structure Parser (σ : Type) where
  step : σ → List Nat → σ × Nat × PNext

/-- `state->stage`, `s.result` and `s.last_stage`. -/
inductive PSt (σ : Type) where
  /-- A working stage. -/
  | working (s : σ)
  /-- `Stage::ERROR` after `BRUNSLI_NOT_ENOUGH_DATA`. -/
  | paused (s : σ)
  /-- `Stage::DONE` -/
  | done (s : σ)
  /-- `Stage::ERROR` after any other status. -/
  | dead (s : σ) (code : Nat)
deriving DecidableEq

/-- `DoProcessJpeg` (c/dec/brunsli_decode.cc:2271-2315) in at most `fuel` rounds, `none` if these do not suffice.  `w` are the unread bytes in
view (`data + pos` up to `len`). -/
def doProcess {σ : Type} (P : Parser σ) : Nat → PSt σ → List Nat → Option (PSt σ × List Nat × PStatus)
  | 0, _, _ => none
  | fuel + 1, .working s, w =>
    match P.step s w with
    | (s', n, .go) => doProcess P fuel (.working s') (w.drop n)
    | (s', n, .finished) => doProcess P fuel (.done s') (w.drop n)
    | (s', n, .wait) => some (.paused s', w.drop n, .needMore)
    | (s', n, .fail code) => some (.dead s' code, w.drop n, .bad code)
  | _ + 1, .done s, w => if w ≠ [] then some (.dead s invalidBrn, w, .bad invalidBrn) else some (.done s, w, .ok)
  | _ + 1, .paused s, w => some (.paused s, w, .needMore)
  | _ + 1, .dead s code, w => some (.dead s code, w, .bad code)

/-- `kBufferMaxReadAhead` (c/dec/brunsli_decode.cc:2327). -/
def maxReadAhead : Nat := 600

/-- Continue parsing (c/dec/brunsli_decode.cc:2426-2432). -/
def PSt.resume {σ : Type} : PSt σ → PSt σ
  | .paused s => .working s
  | s => s

/-- Parsing straight from the caller's bytes (`LoadInput` lines 2334-2340, `UnloadInput` lines 2367-2379): state, buffer, unread input, status. -/
def processDirect {σ : Type} (P : Parser σ) (fuel : Nat) (s : PSt σ) (ext : List Nat) : Option (PSt σ × List Nat × List Nat × PStatus) :=
  match doProcess P fuel s ext with
  | none => none
  | some (s', w, .needMore) => some (s', w, [], .needMore)
  | some (s', w, r) => some (s', [], w, r)

/-- `ProcessJpeg` (c/dec/brunsli_decode.cc:2417-2454): state, buffered bytes, the caller's unread bytes. -/
def processJpeg {σ : Type} (P : Parser σ) (fuel : Nat) (s : PSt σ) (b ext : List Nat) : Option (PSt σ × List Nat × List Nat × PStatus) :=
  match s with
  | .dead s code => some (.dead s code, b, ext, .bad code)
  | _ =>
    if b = [] then processDirect P fuel s.resume ext
    else
      let borrowed := ext.take maxReadAhead
      match doProcess P fuel s.resume (b ++ borrowed) with
      | none => none
      | some (s', w, r) =>
        let pos := (b ++ borrowed).length - w.length
        if b.length ≤ pos then
          let ext' := ext.drop (pos - b.length)
          if r = .needMore then processDirect P fuel s'.resume ext' else some (s', [], ext', r)
        else if r = .needMore then some (s', b.drop pos ++ borrowed, ext.drop borrowed.length, .needMore)
        else some (s', b.drop pos, ext, r)

/-- What the buffer relies on, for the states satisfying `inv`. -/
structure Parser.Incremental {σ : Type} (P : Parser σ) (inv : σ → Prop) : Prop where
  keep : ∀ s w, inv s → inv (P.step s w).1
  /-- Not more is read than is in view. -/
  reads : ∀ s w, inv s → (P.step s w).2.1 ≤ w.length
  /-- A stage that waits has fewer than 600 bytes unread in view. -/
  waits : ∀ s w s' n, inv s → P.step s w = (s', n, .wait) → w.length - n < maxReadAhead
  /-- Going on after a wait is the same as having had all bytes in view at once; in case of an error only the code has to be the same. -/
  resumes : ∀ s w s' n x, inv s → P.step s w = (s', n, .wait) →
    (∃ c, (P.step s (w ++ x)).2.2 = .fail c ∧ (P.step s' (w.drop n ++ x)).2.2 = .fail c) ∨
    P.step s (w ++ x) = ((P.step s' (w.drop n ++ x)).1, n + (P.step s' (w.drop n ++ x)).2.1, (P.step s' (w.drop n ++ x)).2.2)
  /-- A stage that does not wait is not affected by bytes further on. -/
  stable : ∀ s w s' n nx x, inv s → P.step s w = (s', n, nx) → nx ≠ .wait → P.step s (w ++ x) = (s', n, nx)

/-- The same outcome: the same state, unread bytes and status, or the same error. -/
def Same {σ : Type} (r q : PSt σ × List Nat × PStatus) : Prop := r = q ∨ ∃ c, r.2.2 = .bad c ∧ q.2.2 = .bad c

/-- The states a stage function is called with satisfy `inv`. -/
def PSt.Inv {σ : Type} (inv : σ → Prop) : PSt σ → Prop
  | .working s => inv s
  | .paused s => inv s
  | .done _ => True
  | .dead _ _ => True

variable {σ : Type} {P : Parser σ} {inv : σ → Prop}

theorem PSt.Inv.resume {s : PSt σ} (h : s.Inv inv) : s.resume.Inv inv := by
  cases s <;> exact h

theorem doProcess_succ (fuel : Nat) (s : PSt σ) (w : List Nat) (r : PSt σ × List Nat × PStatus) (h : doProcess P fuel s w = some r) :
    doProcess P (fuel + 1) s w = some r := by
  induction fuel generalizing s w with
  | zero => simp [doProcess] at h
  | succ fuel ih =>
    cases s with
    | working s =>
      rw [doProcess] at h ⊢
      rcases hs : P.step s w with ⟨s', n, nx⟩
      rw [hs] at h
      cases nx with
      | go => exact ih _ _ h
      | finished => exact ih _ _ h
      | wait => exact h
      | fail c => exact h
    | paused s => rw [doProcess] at h ⊢; exact h
    | done s => rw [doProcess] at h ⊢; exact h
    | dead s c => rw [doProcess] at h ⊢; exact h

theorem doProcess_mono {fuel fuel' : Nat} (hle : fuel ≤ fuel') {s : PSt σ} {w : List Nat} {r : PSt σ × List Nat × PStatus}
    (h : doProcess P fuel s w = some r) : doProcess P fuel' s w = some r := by
  obtain ⟨k, rfl⟩ := Nat.exists_eq_add_of_le hle
  clear hle
  induction k with
  | zero => exact h
  | succ k ih => exact doProcess_succ _ _ _ _ ih

theorem doProcess_det {f1 f2 : Nat} {s : PSt σ} {w : List Nat} {r1 r2 : PSt σ × List Nat × PStatus}
    (h1 : doProcess P f1 s w = some r1) (h2 : doProcess P f2 s w = some r2) : r1 = r2 := by
  have a := doProcess_mono (Nat.le_max_left f1 f2) h1
  have b := doProcess_mono (Nat.le_max_right f1 f2) h2
  rw [a] at b
  exact Option.some.inj b

/-- Facts about a run. -/
theorem doProcess_facts (hP : P.Incremental inv) (fuel : Nat) (s : PSt σ) (w : List Nat) (hs : s.resume.Inv inv)
    {s' : PSt σ} {w' : List Nat} {r : PStatus} (h : doProcess P fuel s.resume w = some (s', w', r)) :
    s'.Inv inv ∧ (∃ k, k ≤ w.length ∧ w' = w.drop k) ∧ (r = .needMore → w'.length < maxReadAhead ∧ ∃ t, s' = .paused t) ∧
      (r = .ok → w' = [] ∧ ∃ t, s' = .done t) ∧ (∀ c, r = .bad c → ∃ t, s' = .dead t c) := by
  generalize hq : s.resume = q at hs h
  have hq' : ∀ t, q ≠ .paused t := by
    intro t; rw [← hq]; cases s <;> simp [PSt.resume]
  clear hq
  induction fuel generalizing q w with
  | zero => simp [doProcess] at h
  | succ fuel ih =>
    cases q with
    | working t =>
      have hstep := hP.reads t w hs
      have hkeep := hP.keep t w hs
      rw [doProcess] at h
      rcases he : P.step t w with ⟨t', n, nx⟩
      rw [he] at h hstep hkeep
      dsimp only at hstep hkeep
      cases nx with
      | go =>
        obtain ⟨h1, ⟨k, hk, hk'⟩, h2⟩ := ih (w.drop n) (.working t') hkeep h (fun _ => (by simp))
        refine ⟨h1, ⟨n + k, ?_, by rw [hk', List.drop_drop]⟩, h2⟩
        rw [List.length_drop] at hk; omega
      | finished =>
        obtain ⟨h1, ⟨k, hk, hk'⟩, h2⟩ := ih (w.drop n) (.done t') trivial h (fun _ => (by simp))
        refine ⟨h1, ⟨n + k, ?_, by rw [hk', List.drop_drop]⟩, h2⟩
        rw [List.length_drop] at hk; omega
      | wait =>
        simp only [Option.some.injEq, Prod.mk.injEq] at h
        obtain ⟨rfl, rfl, rfl⟩ := h
        refine ⟨hkeep, ⟨n, hstep, rfl⟩, fun _ => ⟨?_, t', rfl⟩, fun h => (by cases h), fun c h => (by cases h)⟩
        rw [List.length_drop]
        exact hP.waits t w t' n hs he
      | fail c =>
        simp only [Option.some.injEq, Prod.mk.injEq] at h
        obtain ⟨rfl, rfl, rfl⟩ := h
        exact ⟨trivial, ⟨n, hstep, rfl⟩, fun h => (by cases h), fun h => (by cases h), fun d h => (by cases h; exact ⟨t', rfl⟩)⟩
    | paused t => exact absurd rfl (hq' t)
    | done t =>
      rw [doProcess] at h
      split at h
      · simp only [Option.some.injEq, Prod.mk.injEq] at h
        obtain ⟨rfl, rfl, rfl⟩ := h
        exact ⟨trivial, ⟨0, by omega, rfl⟩, fun h => (by cases h), fun h => (by cases h), fun d h => (by cases h; exact ⟨t, rfl⟩)⟩
      · rename_i hw
        simp only [Option.some.injEq, Prod.mk.injEq] at h
        obtain ⟨rfl, rfl, rfl⟩ := h
        exact ⟨trivial, ⟨0, by omega, rfl⟩, fun h => (by cases h), fun _ => ⟨Classical.not_not.mp hw, t, rfl⟩, fun d h => (by cases h)⟩
    | dead t c =>
      rw [doProcess] at h
      simp only [Option.some.injEq, Prod.mk.injEq] at h
      obtain ⟨rfl, rfl, rfl⟩ := h
      exact ⟨trivial, ⟨0, by omega, rfl⟩, fun h => (by cases h), fun h => (by cases h), fun d h => (by cases h; exact ⟨t, rfl⟩)⟩

/-- Waiting and going on is the same as having had all bytes in view at once. -/
theorem doProcess_resume (hP : P.Incremental inv) (fuel fuel' : Nat) (s : PSt σ) (w x : List Nat) (hs : s.Inv inv) (hn : ∀ t, s ≠ .paused t)
    {s' : PSt σ} {w' : List Nat} {r : PSt σ × List Nat × PStatus} (h : doProcess P fuel s w = some (s', w', .needMore))
    (h' : doProcess P fuel' s'.resume (w' ++ x) = some r) : ∃ f q, doProcess P f s (w ++ x) = some q ∧ Same r q := by
  induction fuel generalizing s w with
  | zero => simp [doProcess] at h
  | succ fuel ih =>
    cases s with
    | working t =>
      have hkeep := hP.keep t w hs
      have hreads := hP.reads t w hs
      rw [doProcess] at h
      rcases he : P.step t w with ⟨t', n, nx⟩
      rw [he] at h hkeep hreads
      dsimp only at hkeep hreads
      cases nx with
      | go =>
        obtain ⟨f, q, hf, hq⟩ := ih (.working t') (w.drop n) hkeep (fun _ => (by simp)) h
        refine ⟨f + 1, q, ?_, hq⟩
        rw [doProcess, hP.stable t w t' n .go x hs he (by simp)]
        dsimp only
        rw [List.drop_append_of_le_length hreads]
        exact hf
      | finished =>
        obtain ⟨f, q, hf, hq⟩ := ih (.done t') (w.drop n) trivial (fun _ => (by simp)) h
        refine ⟨f + 1, q, ?_, hq⟩
        rw [doProcess, hP.stable t w t' n .finished x hs he (by simp)]
        dsimp only
        rw [List.drop_append_of_le_length hreads]
        exact hf
      | wait =>
        simp only [Option.some.injEq, Prod.mk.injEq] at h
        obtain ⟨rfl, rfl, _⟩ := h
        have hr := hP.resumes t w t' n x hs he
        simp only [PSt.resume] at h'
        cases fuel' with
        | zero => simp [doProcess] at h'
        | succ fuel' =>
          rcases hr with ⟨c, h1, h2⟩ | hr
          · rw [doProcess] at h'
            rcases he1 : P.step t (w ++ x) with ⟨t1, n1, nx1⟩
            rcases he2 : P.step t' (w.drop n ++ x) with ⟨t2, n2, nx2⟩
            rw [he1] at h1
            rw [he2] at h2 h'
            dsimp only at h1 h2
            subst h1 h2
            dsimp only at h'
            cases h'
            exact ⟨1, (.dead t1 c, (w ++ x).drop n1, .bad c), by rw [doProcess, he1], Or.inr ⟨c, rfl, rfl⟩⟩
          refine ⟨fuel' + 1, r, ?_, Or.inl rfl⟩
          rw [doProcess] at h' ⊢
          have hread' := hP.reads t' (w.drop n ++ x) hkeep
          rcases he' : P.step t' (w.drop n ++ x) with ⟨t2, n2, nx2⟩
          rw [he'] at hr h' hread'
          rw [hr]
          have hd : (w ++ x).drop (n + n2) = (w.drop n ++ x).drop n2 := by
            rw [← List.drop_drop, List.drop_append_of_le_length hreads]
          cases nx2 <;> simp only [hd] <;> exact h'
      | fail c => simp at h
    | paused t => exact absurd rfl (hn t)
    | done t =>
      rw [doProcess] at h
      split at h <;> simp at h
    | dead t c => simp [doProcess] at h

/-- An error is not affected by bytes further on. -/
theorem doProcess_bad (hP : P.Incremental inv) (fuel : Nat) (s : PSt σ) (w x : List Nat) (hs : s.Inv inv)
    {s' : PSt σ} {w' : List Nat} {c : Nat} (h : doProcess P fuel s w = some (s', w', .bad c)) :
    doProcess P fuel s (w ++ x) = some (s', w' ++ x, .bad c) := by
  induction fuel generalizing s w with
  | zero => simp [doProcess] at h
  | succ fuel ih =>
    cases s with
    | working t =>
      have hkeep := hP.keep t w hs
      have hreads := hP.reads t w hs
      rw [doProcess] at h
      rcases he : P.step t w with ⟨t', n, nx⟩
      rw [he] at h hkeep hreads
      dsimp only at hkeep hreads
      cases nx with
      | go =>
        rw [doProcess, hP.stable t w t' n .go x hs he (by simp)]
        dsimp only
        rw [List.drop_append_of_le_length hreads]
        exact ih _ _ hkeep h
      | finished =>
        rw [doProcess, hP.stable t w t' n .finished x hs he (by simp)]
        dsimp only
        rw [List.drop_append_of_le_length hreads]
        exact ih (.done t') _ trivial h
      | wait => simp at h
      | fail c' =>
        rw [doProcess, hP.stable t w t' n (.fail c') x hs he (by simp)]
        dsimp only
        rw [List.drop_append_of_le_length hreads]
        simp only [Option.some.injEq, Prod.mk.injEq] at h ⊢
        obtain ⟨rfl, rfl, h3⟩ := h
        exact ⟨rfl, rfl, h3⟩
    | paused t => simp [doProcess] at h
    | done t =>
      rw [doProcess] at h ⊢
      split at h
      · rename_i hw
        rw [if_pos (by simp [hw])]
        simp only [Option.some.injEq, Prod.mk.injEq] at h ⊢
        obtain ⟨rfl, rfl, h3⟩ := h
        exact ⟨rfl, rfl, h3⟩
      · simp at h
    | dead t c' =>
      rw [doProcess] at h ⊢
      simp only [Option.some.injEq, Prod.mk.injEq] at h ⊢
      obtain ⟨rfl, rfl, h3⟩ := h
      exact ⟨rfl, rfl, h3⟩

/-- Success with bytes further on is an error. -/
theorem doProcess_ok (hP : P.Incremental inv) (fuel : Nat) (s : PSt σ) (w x : List Nat) (hs : s.Inv inv) (hx : x ≠ [])
    {s' : PSt σ} {w' : List Nat} (h : doProcess P fuel s w = some (s', w', .ok)) :
    ∃ t, s' = .done t ∧ doProcess P fuel s (w ++ x) = some (.dead t invalidBrn, x, .bad invalidBrn) := by
  induction fuel generalizing s w with
  | zero => simp [doProcess] at h
  | succ fuel ih =>
    cases s with
    | working t =>
      have hkeep := hP.keep t w hs
      have hreads := hP.reads t w hs
      rw [doProcess] at h
      rcases he : P.step t w with ⟨t', n, nx⟩
      rw [he] at h hkeep hreads
      dsimp only at hkeep hreads
      cases nx with
      | go =>
        obtain ⟨u, hu, h2⟩ := ih (.working t') _ hkeep h
        refine ⟨u, hu, ?_⟩
        rw [doProcess, hP.stable t w t' n .go x hs he (by simp)]
        dsimp only
        rw [List.drop_append_of_le_length hreads]
        exact h2
      | finished =>
        obtain ⟨u, hu, h2⟩ := ih (.done t') _ trivial h
        refine ⟨u, hu, ?_⟩
        rw [doProcess, hP.stable t w t' n .finished x hs he (by simp)]
        dsimp only
        rw [List.drop_append_of_le_length hreads]
        exact h2
      | wait => simp at h
      | fail c' => simp at h
    | paused t => simp [doProcess] at h
    | done t =>
      rw [doProcess] at h ⊢
      split at h
      · simp at h
      · rename_i hw
        have hw : w = [] := Classical.not_not.mp hw
        subst hw
        simp only [Option.some.injEq, Prod.mk.injEq] at h
        obtain ⟨rfl, _, _⟩ := h
        exact ⟨t, rfl, by rw [if_pos (by simpa using hx)]; rfl⟩
    | dead t c' => simp [doProcess] at h

/-! ## The buffer -/

/-- The state after a call that asked for more: the bytes given so far, parsed at once, leave the buffered ones unread. -/
structure Synced (P : Parser σ) (s0 : σ) (given : List Nat) (s : PSt σ) (b : List Nat) : Prop where
  buffer : b.length < maxReadAhead
  run : (given = [] ∧ s = .working s0 ∧ b = []) ∨ ∃ f t, s = .paused t ∧ doProcess P f (.working s0) given = some (s, b, .needMore)

/-- How one call compares with parsing all bytes at once: it does the same, unless it stops at the end of the file before unread bytes. -/
def Agrees (P : Parser σ) (s0 : σ) (all : List Nat) (s' : PSt σ) (b' ext' : List Nat) (r : PStatus) : Prop :=
  (∃ f q, doProcess P f (.working s0) all = some q ∧ Same (s', b' ++ ext', r) q ∧ (r = .needMore → ext' = []) ∧ (r = .ok → ext' = [])) ∨
  (r = .ok ∧ b' = [] ∧ ext' ≠ [] ∧ ∃ t f, s' = .done t ∧ doProcess P f (.working s0) all = some (.dead t invalidBrn, ext', .bad invalidBrn))

theorem sync_run (hP : P.Incremental inv) {s0 : σ} (h0 : inv s0) {given : List Nat} {s : PSt σ} {b x : List Nat} (hs : Synced P s0 given s b)
    {fuel : Nat} {r : PSt σ × List Nat × PStatus} (h : doProcess P fuel s.resume (b ++ x) = some r) :
    ∃ f q, doProcess P f (.working s0) (given ++ x) = some q ∧ Same r q := by
  rcases hs.run with ⟨rfl, rfl, rfl⟩ | ⟨f, t, rfl, hf⟩
  · exact ⟨fuel, r, h, Or.inl rfl⟩
  · exact doProcess_resume hP f fuel (.working s0) given x h0 (fun _ => (by simp)) hf h

theorem sync_inv (hP : P.Incremental inv) {s0 : σ} (h0 : inv s0) {given : List Nat} {s : PSt σ} {b : List Nat} (hs : Synced P s0 given s b) :
    s.resume.Inv inv := by
  rcases hs.run with ⟨rfl, rfl, rfl⟩ | ⟨f, t, rfl, hf⟩
  · exact h0
  · exact (doProcess_facts hP f (.working s0) given h0 hf).1

theorem resume_inv {s : PSt σ} (h : s.resume.Inv inv) : s.resume.resume.Inv inv := by
  cases s <;> exact h

theorem resume_ne (s : PSt σ) (t : σ) : s.resume ≠ .paused t := by
  cases s <;> simp [PSt.resume]

theorem resume_resume (s : PSt σ) : s.resume.resume = s.resume := by
  cases s <;> rfl

/-- Parsing straight from the caller's bytes does the same as parsing all at once. -/
theorem direct_agrees (hP : P.Incremental inv) {s0 : σ} {given ext : List Nat} {s : PSt σ} (hi : s.resume.Inv inv)
    (hrun : ∀ (fuel : Nat) (r : PSt σ × List Nat × PStatus), doProcess P fuel s.resume ext = some r →
      ∃ f q, doProcess P f (.working s0) given = some q ∧ Same r q)
    {fuel : Nat} {s' : PSt σ} {b' ext' : List Nat} {r : PStatus} (h : processDirect P fuel s.resume ext = some (s', b', ext', r)) :
    Agrees P s0 given s' b' ext' r ∧ b'.length < maxReadAhead ∧ (r = .needMore → ∃ t, s' = .paused t) := by
  rw [processDirect] at h
  rcases hd : doProcess P fuel s.resume ext with _ | ⟨t, w, rr⟩
  · rw [hd] at h; simp at h
  rw [hd] at h
  obtain ⟨f, q, hf, hq⟩ := hrun _ _ hd
  obtain ⟨f1, f2, f3, f4, f5⟩ := doProcess_facts hP fuel s ext hi hd
  cases rr with
  | needMore =>
    simp only [Option.some.injEq, Prod.mk.injEq] at h
    obtain ⟨rfl, rfl, rfl, rfl⟩ := h
    exact ⟨Or.inl ⟨f, q, hf, (by simpa using hq), fun _ => rfl, fun h => (by cases h)⟩, (f3 rfl).1, fun _ => (f3 rfl).2⟩
  | ok =>
    simp only [Option.some.injEq, Prod.mk.injEq] at h
    obtain ⟨rfl, rfl, rfl, rfl⟩ := h
    exact ⟨Or.inl ⟨f, q, hf, (by simpa using hq), fun h => (by cases h), fun _ => (f4 rfl).1⟩, by simp [maxReadAhead], fun h => (by cases h)⟩
  | bad c =>
    simp only [Option.some.injEq, Prod.mk.injEq] at h
    obtain ⟨rfl, rfl, rfl, rfl⟩ := h
    exact ⟨Or.inl ⟨f, q, hf, (by simpa using hq), fun h => (by cases h), fun h => (by cases h)⟩, by simp [maxReadAhead], fun h => (by cases h)⟩

/-- **One call of `ProcessJpeg`** after any number of calls that asked for more input. -/
theorem processJpeg_agrees (hP : P.Incremental inv) {s0 : σ} (h0 : inv s0) {given ext : List Nat} {s : PSt σ} {b : List Nat}
    (hs : Synced P s0 given s b) {fuel : Nat} {s' : PSt σ} {b' ext' : List Nat} {r : PStatus}
    (h : processJpeg P fuel s b ext = some (s', b', ext', r)) :
    Agrees P s0 (given ++ ext) s' b' ext' r ∧ b'.length < maxReadAhead ∧ (r = .needMore → ∃ t, s' = .paused t) := by
  have hi := sync_inv hP h0 hs
  have hnd : ∀ t c, s ≠ .dead t c := by
    rcases hs.run with ⟨_, rfl, _⟩ | ⟨_, _, rfl, _⟩ <;> intro t c <;> simp
  have hunf : processJpeg P fuel s b ext = (if b = [] then processDirect P fuel s.resume ext
    else
      match doProcess P fuel s.resume (b ++ ext.take maxReadAhead) with
      | none => none
      | some (s', w, r) =>
        if b.length ≤ (b ++ ext.take maxReadAhead).length - w.length then
          if r = .needMore then processDirect P fuel s'.resume (ext.drop ((b ++ ext.take maxReadAhead).length - w.length - b.length))
          else some (s', [], ext.drop ((b ++ ext.take maxReadAhead).length - w.length - b.length), r)
        else if r = .needMore then some (s', b.drop ((b ++ ext.take maxReadAhead).length - w.length) ++ ext.take maxReadAhead,
          ext.drop (ext.take maxReadAhead).length, .needMore)
        else some (s', b.drop ((b ++ ext.take maxReadAhead).length - w.length), ext, r)) := by
    cases s with
    | dead t c => exact absurd rfl (hnd t c)
    | _ => rfl
  rw [hunf] at h
  by_cases hb : b = []
  · rw [if_pos hb] at h
    subst hb
    exact direct_agrees hP hi (fun fuel r hr => sync_run hP h0 hs (by simpa using hr)) h
  rw [if_neg hb] at h
  rcases hd : doProcess P fuel s.resume (b ++ ext.take maxReadAhead) with _ | ⟨t, w, rr⟩
  · rw [hd] at h; simp at h
  rw [hd] at h
  dsimp only at h
  obtain ⟨f, q, hf, hq⟩ := sync_run hP h0 hs hd
  obtain ⟨f1, ⟨k, hk, hkw⟩, f3, f4, f5⟩ := doProcess_facts hP fuel s _ hi hd
  have hpos : (b ++ ext.take maxReadAhead).length - w.length = k := by
    rw [hkw, List.length_drop]; omega
  rw [hpos] at h
  have hsplit : ext.take maxReadAhead ++ ext.drop maxReadAhead = ext := List.take_append_drop _ _
  have hall : given ++ ext = (given ++ ext.take maxReadAhead) ++ ext.drop maxReadAhead := by rw [List.append_assoc, hsplit]
  by_cases hdep : b.length ≤ k
  · rw [if_pos hdep] at h
    have hk2 : k - b.length ≤ (ext.take maxReadAhead).length := by
      rw [List.length_append] at hk; omega
    have hw2 : w = (ext.take maxReadAhead).drop (k - b.length) := by
      rw [hkw, List.drop_append, List.drop_of_length_le hdep, List.nil_append]
    have hext : ext.drop (k - b.length) = w ++ ext.drop maxReadAhead := by
      conv => lhs; rw [← hsplit]
      rw [List.drop_append_of_le_length hk2, hw2]
    rw [hext] at h
    by_cases hr : rr = .needMore
    · rw [if_pos hr] at h
      subst hr
      have hq := hq.resolve_right (fun ⟨c, e, _⟩ => by cases e)
      subst hq
      refine direct_agrees hP f1.resume (fun fuel r hr => ?_) h
      rw [hall]
      exact doProcess_resume hP f fuel (.working s0) _ _ h0 (fun _ => (by simp)) hf hr
    · rw [if_neg hr] at h
      simp only [Option.some.injEq, Prod.mk.injEq] at h
      obtain ⟨rfl, rfl, rfl, rfl⟩ := h
      refine ⟨?_, by simp [maxReadAhead], fun h => absurd h hr⟩
      cases rr with
      | needMore => exact absurd rfl hr
      | bad c =>
        obtain ⟨q1, q2, q3⟩ := q
        have hq3 : q3 = .bad c := by
          rcases hq with e | ⟨c', e1, e2⟩
          · cases e; rfl
          · cases e1; exact e2
        subst hq3
        exact Or.inl ⟨f, _, by rw [hall]; exact doProcess_bad hP f (.working s0) _ _ h0 hf, Or.inr ⟨c, rfl, rfl⟩, fun h => (by cases h), fun h => (by cases h)⟩
      | ok =>
        obtain ⟨rfl, u, hu⟩ := f4 rfl
        have hq := hq.resolve_right (fun ⟨c, e, _⟩ => by cases e)
        subst hq
        by_cases hx : ext.drop maxReadAhead = []
        · refine Or.inl ⟨f, _, by rw [hall, hx, List.append_nil, hf], ?_, fun h => (by cases h), fun _ => by simp [hx]⟩
          rw [hx]; exact Or.inl rfl
        · obtain ⟨v, hv, h2⟩ := doProcess_ok hP f (.working s0) _ (ext.drop maxReadAhead) h0 hx hf
          exact Or.inr ⟨rfl, rfl, by simpa using hx, v, f, hv, by rw [hall]; simpa using h2⟩
  · rw [if_neg hdep] at h
    have hw2 : w = b.drop k ++ ext.take maxReadAhead := by
      rw [hkw, List.drop_append_of_le_length (by omega)]
    by_cases hr : rr = .needMore
    · rw [if_pos hr] at h
      subst hr
      simp only [Option.some.injEq, Prod.mk.injEq] at h
      obtain ⟨rfl, rfl, rfl, rfl⟩ := h
      obtain ⟨hlt, hpa⟩ := f3 rfl
      have hshort : ext.length < maxReadAhead := by
        rw [hw2, List.length_append, List.length_take] at hlt; omega
      have ht : ext.take maxReadAhead = ext := List.take_of_length_le (by omega)
      rw [ht] at hw2 hf ⊢
      have hq := hq.resolve_right (fun ⟨c, e, _⟩ => by cases e)
      subst hq
      refine ⟨Or.inl ⟨f, _, hf, Or.inl ?_, fun _ => (by simp), fun h => (by cases h)⟩, by rw [← hw2]; exact hlt, fun _ => hpa⟩
      rw [← hw2]; simp
    · rw [if_neg hr] at h
      simp only [Option.some.injEq, Prod.mk.injEq] at h
      obtain ⟨rfl, rfl, rfl, rfl⟩ := h
      have hbl := hs.buffer
      refine ⟨?_, by rw [List.length_drop]; omega, fun h => absurd h hr⟩
      cases rr with
      | needMore => exact absurd rfl hr
      | bad c =>
        obtain ⟨q1, q2, q3⟩ := q
        have hq3 : q3 = .bad c := by
          rcases hq with e | ⟨c', e1, e2⟩
          · cases e; rfl
          · cases e1; exact e2
        subst hq3
        exact Or.inl ⟨f, _, by rw [hall]; exact doProcess_bad hP f (.working s0) _ _ h0 hf, Or.inr ⟨c, rfl, rfl⟩, fun h => (by cases h), fun h => (by cases h)⟩
      | ok =>
        obtain ⟨hw0, _⟩ := f4 rfl
        have hb1 : 0 < (b.drop k).length := by rw [List.length_drop]; omega
        have := congrArg List.length hw2
        rw [hw0, List.length_append] at this
        simp at this
        simp at hb1
        omega

/-- Calls one after the other, as long as more input is asked for: the last state, buffer, unread bytes and status. -/
def feed (P : Parser σ) (fuel : Nat) : PSt σ → List Nat → List (List Nat) → Option (PSt σ × List Nat × List Nat × PStatus)
  | s, b, [] => some (s, b, [], .needMore)
  | s, b, c :: cs =>
    match processJpeg P fuel s b c with
    | none => none
    | some (s', b', ext', .needMore) => if ext' = [] then feed P fuel s' b' cs else none
    | some (s', b', ext', .ok) => some (s', b', ext' ++ cs.flatten, .ok)
    | some (s', b', ext', .bad c) => some (s', b', ext' ++ cs.flatten, .bad c)

theorem doProcess_prefix (hP : P.Incremental inv) (fuel : Nat) (s : PSt σ) (w x : List Nat) (hs : s.Inv inv) {r : PSt σ × List Nat × PStatus}
    (h : doProcess P fuel s (w ++ x) = some r) : ∃ r', doProcess P fuel s w = some r' := by
  induction fuel generalizing s w with
  | zero => simp [doProcess] at h
  | succ fuel ih =>
    cases s with
    | working t =>
      have hkeep := hP.keep t w hs
      have hreads := hP.reads t w hs
      rw [doProcess] at h ⊢
      rcases he : P.step t w with ⟨t', n, nx⟩
      rw [he] at hkeep hreads
      dsimp only at hkeep hreads
      cases nx with
      | go =>
        rw [hP.stable t w t' n .go x hs he (by simp)] at h
        dsimp only at h ⊢
        rw [List.drop_append_of_le_length hreads] at h
        exact ih (.working t') _ hkeep h
      | finished =>
        rw [hP.stable t w t' n .finished x hs he (by simp)] at h
        dsimp only at h ⊢
        rw [List.drop_append_of_le_length hreads] at h
        exact ih (.done t') _ trivial h
      | wait => exact ⟨_, rfl⟩
      | fail c => exact ⟨_, rfl⟩
    | paused t => exact ⟨_, rfl⟩
    | done t =>
      rw [doProcess]
      split <;> exact ⟨_, rfl⟩
    | dead t c => exact ⟨_, rfl⟩

theorem doProcess_rest (hP : P.Incremental inv) (fuel : Nat) (s : PSt σ) (w x : List Nat) (hs : s.Inv inv) (hn : ∀ t, s ≠ .paused t)
    {s' : PSt σ} {w' : List Nat} {r : PSt σ × List Nat × PStatus} (h : doProcess P fuel s w = some (s', w', .needMore))
    (h' : doProcess P fuel s (w ++ x) = some r) : ∃ r', doProcess P fuel s'.resume (w' ++ x) = some r' := by
  induction fuel generalizing s w with
  | zero => simp [doProcess] at h
  | succ fuel ih =>
    cases s with
    | working t =>
      have hkeep := hP.keep t w hs
      have hreads := hP.reads t w hs
      rw [doProcess] at h h'
      rcases he : P.step t w with ⟨t', n, nx⟩
      rw [he] at hkeep hreads h
      dsimp only at hkeep hreads
      cases nx with
      | go =>
        rw [hP.stable t w t' n .go x hs he (by simp)] at h'
        dsimp only at h h'
        rw [List.drop_append_of_le_length hreads] at h'
        obtain ⟨r', hr'⟩ := ih (.working t') _ hkeep (fun _ => (by simp)) h h'
        exact ⟨r', doProcess_succ _ _ _ _ hr'⟩
      | finished =>
        rw [hP.stable t w t' n .finished x hs he (by simp)] at h'
        dsimp only at h h'
        rw [List.drop_append_of_le_length hreads] at h'
        obtain ⟨r', hr'⟩ := ih (.done t') _ trivial (fun _ => (by simp)) h h'
        exact ⟨r', doProcess_succ _ _ _ _ hr'⟩
      | wait =>
        simp only [Option.some.injEq, Prod.mk.injEq] at h
        obtain ⟨rfl, rfl, _⟩ := h
        simp only [PSt.resume]
        rw [doProcess]
        rcases hP.resumes t w t' n x hs he with ⟨c, _, h2⟩ | hr
        · rcases he' : P.step t' (w.drop n ++ x) with ⟨t2, n2, nx2⟩
          rw [he'] at h2
          dsimp only at h2
          subst h2
          exact ⟨_, rfl⟩
        rw [hr] at h'
        rcases he' : P.step t' (w.drop n ++ x) with ⟨t2, n2, nx2⟩
        rw [he'] at h'
        have hd : (w ++ x).drop (n + n2) = (w.drop n ++ x).drop n2 := by
          rw [← List.drop_drop, List.drop_append_of_le_length hreads]
        cases nx2 <;> simp only [hd] at h' <;> exact ⟨_, h'⟩
      | fail c => simp at h
    | paused t => exact absurd rfl (hn t)
    | done t =>
      rw [doProcess] at h
      split at h <;> simp at h
    | dead t c => simp [doProcess] at h

/-- A call returns if parsing all bytes at once does. -/
theorem processJpeg_total (hP : P.Incremental inv) {ext : List Nat} {s : PSt σ} {b : List Nat} (hi : s.resume.Inv inv) {fuel : Nat}
    {r : PSt σ × List Nat × PStatus} (h : doProcess P fuel s.resume (b ++ ext) = some r) : ∃ r', processJpeg P fuel s b ext = some r' := by
  have hdirect : ∀ (q : PSt σ) (e : List Nat) (r : PSt σ × List Nat × PStatus), doProcess P fuel q e = some r → ∃ r', processDirect P fuel q e = some r' := by
    intro q e r hr
    rw [processDirect, hr]
    rcases r with ⟨a, b, c⟩
    cases c <;> exact ⟨_, rfl⟩
  cases s with
  | dead t c => exact ⟨_, rfl⟩
  | _ =>
    all_goals
      rw [processJpeg.eq_2 _ _ _ _ _ (by intro s c h; cases h)]
      by_cases hb : b = []
      · rw [if_pos hb]
        subst hb
        exact hdirect _ _ _ h
      rw [if_neg hb]
      have hsplit : ext.take maxReadAhead ++ ext.drop maxReadAhead = ext := List.take_append_drop _ _
      rw [← hsplit, ← List.append_assoc] at h
      obtain ⟨⟨s', w, rr⟩, hd⟩ := doProcess_prefix hP fuel _ _ _ hi h
      dsimp only
      rw [hd]
      dsimp only
      obtain ⟨f1, ⟨k, hk, hkw⟩, _⟩ := doProcess_facts hP fuel _ _ (resume_inv hi) (by rw [resume_resume]; exact hd)
      have hpos : (b ++ ext.take maxReadAhead).length - w.length = k := by
        rw [hkw, List.length_drop]; omega
      rw [hpos]
      by_cases hdep : b.length ≤ k
      · rw [if_pos hdep]
        by_cases hr : rr = .needMore
        · rw [if_pos hr]
          subst hr
          have hk2 : k - b.length ≤ (ext.take maxReadAhead).length := by
            rw [List.length_append] at hk; omega
          have hw2 : w = (ext.take maxReadAhead).drop (k - b.length) := by
            rw [hkw, List.drop_append, List.drop_of_length_le hdep, List.nil_append]
          have hext : ext.drop (k - b.length) = w ++ ext.drop maxReadAhead := by
            conv => lhs; rw [← hsplit]
            rw [List.drop_append_of_le_length hk2, hw2]
          rw [hext]
          obtain ⟨r', hr'⟩ := doProcess_rest hP fuel _ _ _ hi (resume_ne _) hd h
          exact hdirect _ _ _ hr'
        · rw [if_neg hr]; exact ⟨_, rfl⟩
      · rw [if_neg hdep]
        by_cases hr : rr = .needMore
        · rw [if_pos hr]; exact ⟨_, rfl⟩
        · rw [if_neg hr]; exact ⟨_, rfl⟩

/-! ## The decoder -/

/-- `BrunsliDecoder::Status` -/
inductive DStatus where
  | needsInput | needsOutput | done | error
deriving DecidableEq, Repr

/-- `BrunsliDecoder`: parser, buffer and serialiser. -/
structure DecState (σ τ : Type) where
  parser : PSt σ
  buffer : List Nat
  ser : SState τ

/-- The variables of the parser, for the serialiser to look at. -/
def PSt.core {σ : Type} : PSt σ → σ
  | .working s => s
  | .paused s => s
  | .done s => s
  | .dead s _ => s

/-- Result of `BrunsliDecoder::Decode`. -/
structure DResult (σ τ : Type) where
  status : DStatus
  unread : List Nat
  out : List Nat
  left : Nat
  state : DecState σ τ

/-- `BrunsliDecoder::Decode` (c/dec/brunsli_decode.cc:2509-2565).  The serialiser sees the parser and whether it has finished. -/
def decodeCall {σ τ : Type} (P : Parser σ) (api : SerApi (PSt σ) τ) (fuel : Nat) (input : List Nat) (space : Nat) (d : DecState σ τ) :
    Option (DResult σ τ) :=
  match processJpeg P fuel d.parser d.buffer input with
  | none => none
  | some (ps, b, rest, .bad _) => some ⟨.error, rest, [], space, ⟨ps, b, d.ser⟩⟩
  | some (ps, b, rest, _) =>
    let r := serialize api ps space d.ser
    let status := match r.status with
      | .done => DStatus.done
      | .needsInput => .needsInput
      | .needsOutput => .needsOutput
      | .error => .error
    some ⟨status, rest, r.out, r.left, ⟨ps, b, r.state⟩⟩

end Brunsli
