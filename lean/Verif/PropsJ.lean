import Verif.Streaming

/-!
# C25, C26, C27, C34, C40: the streaming interface and the C API
-/

namespace Brunsli

/-! ## C25 -/

/-- Calls of the serialiser one after the other, each with what the parser has made available and with a space: everything delivered, the last
status and the state. -/
def deliver {V σ : Type} (api : SerApi V σ) : List (V × Nat) → SState σ → SStatus → List Nat × SStatus × SState σ
  | [], s, st => ([], st, s)
  | (v, a) :: cs, s, _ =>
    let r := serialize api v a s
    let t := deliver api cs r.state r.status
    (r.out ++ t.1, t.2)

/-- Everything produced along the calls. -/
def producedAll {V σ : Type} (api : SerApi V σ) : List V → SStage → σ → List Nat
  | [], _, _ => []
  | v :: vs, st, aux =>
    let r := prod api v st aux
    r.2.2.flatten ++ producedAll api vs r.1 r.2.1

theorem deliver_prod {V σ : Type} (api : SerApi V σ) (cs : List (V × Nat)) (s : SState σ) (st : SStatus) :
    (deliver api cs s st).1 ++ (deliver api cs s st).2.2.queue.flatten = s.queue.flatten ++ producedAll api (cs.map Prod.fst) s.stage s.aux := by
  induction cs generalizing s st with
  | nil => simp [deliver, producedAll]
  | cons c cs ih =>
    obtain ⟨v, a⟩ := c
    obtain ⟨h1, h2, h3⟩ := serialize_prod api v a s
    have h4 := ih (serialize api v a s).state (serialize api v a s).status
    simp only [deliver, producedAll, List.map_cons]
    rw [List.append_assoc, h4, ← List.append_assoc, h1, h2, h3, List.append_assoc]

theorem deliver_status {V σ : Type} (api : SerApi V σ) (cs : List (V × Nat)) (s : SState σ) (st : SStatus) (hst : st = statusOf s.stage s.queue) :
    (deliver api cs s st).2.1 = statusOf (deliver api cs s st).2.2.stage (deliver api cs s st).2.2.queue := by
  induction cs generalizing s st with
  | nil => exact hst
  | cons c cs ih =>
    obtain ⟨v, a⟩ := c
    exact ih _ _ (serialize_status api v a s)

/-- **C25**: there is one byte string, fixed by what the parser made available at each call, such that, whatever the spaces, the bytes delivered so
far are the first ones of it, and all of it when completion is reported. -/
theorem C25_delivery {V σ : Type} (api : SerApi V σ) (aux : σ) : ∃ whole : List V → List Nat, ∀ calls : List (V × Nat),
    (deliver api calls (.init aux) .needsInput).1 <+: whole (calls.map Prod.fst) ∧
    ((deliver api calls (.init aux) .needsInput).2.1 = .done → (deliver api calls (.init aux) .needsInput).1 = whole (calls.map Prod.fst)) := by
  refine ⟨fun vs => producedAll api vs .init aux, fun calls => ?_⟩
  have h := deliver_prod api calls (.init aux) .needsInput
  simp only [SState.init, List.flatten_nil, List.nil_append] at h
  refine ⟨⟨_, h⟩, fun hd => ?_⟩
  have hs := deliver_status api calls (.init aux) .needsInput rfl
  rw [hd] at hs
  have hq : (deliver api calls (.init aux) .needsInput).2.2.queue = [] := by
    revert hs
    generalize (deliver api calls (.init aux) .needsInput).2.2.stage = g
    generalize (deliver api calls (.init aux) .needsInput).2.2.queue = q
    intro hs
    cases g <;> simp only [statusOf] at hs
    · cases hs
    · cases hs
    · cases q with
      | nil => rfl
      | cons a b => simp at hs
    · cases hs
  simp only [SState.init] at hq
  rw [hq] at h
  simpa [SState.init] using h

/-- **C25**: a call never delivers more than the space it was given, and reports the space left. -/
theorem C25_space {V σ : Type} (api : SerApi V σ) (v : V) (a : Nat) (s : SState σ) :
    (serialize api v a s).out.length + (serialize api v a s).left = a := serialize_left api v a s

/-- Progress: once all is produced, each call with space delivers a byte or reports completion. -/
theorem serialize_done_progress {V σ : Type} (api : SerApi V σ) (v : V) (a : Nat) (s : SState σ) (ha : 0 < a) (hs : s.stage = .done) :
    (serialize api v a s).status = .done ∨ ((serialize api v a s).status = .needsOutput ∧ (serialize api v a s).state.stage = .done ∧
      (serialize api v a s).state.queue.flatten.length + a ≤ s.queue.flatten.length) := by
  obtain ⟨h1, h2, h3⟩ := serialize_prod api v a s
  have hst := serialize_status api v a s
  have hl := serialize_left api v a s
  rw [hs] at h1 h2 h3
  have e : (prod api v .done s.aux).1 = .done := rfl
  have e2 : (prod api v .done s.aux).2.2 = [] := rfl
  rw [e] at h2
  rw [e2] at h1
  rw [h2] at hst
  by_cases hq : (serialize api v a s).state.queue = []
  · rw [hq] at hst; exact Or.inl hst
  · right
    refine ⟨?_, h2, ?_⟩
    · rw [hst]
      cases hh : (serialize api v a s).state.queue with
      | nil => exact absurd hh hq
      | cons x y => rfl
    · have hz : (serialize api v a s).left = 0 := by
        apply Classical.byContradiction
        intro h
        exact hq (serialize_full api v a s (fun h => (by rw [hs] at h; cases h)) h (by rw [h2]; simp))
      have := congrArg List.length h1
      simp only [List.length_append, List.flatten_nil, List.append_nil] at this
      omega

theorem writeJpegLoop_done {V σ : Type} (api : SerApi V σ) (v : V) (sink : Sink) (size : Nat) (hsize : 0 < size) (hsink : ∀ h b, sink h b = b.length) :
    ∀ (fuel : Nat) (s : SState σ) (hist : List (List Nat)), s.stage = .done → s.queue.flatten.length < fuel →
      ∃ hist', writeJpegLoop api v sink size fuel s hist = (some true, hist') ∧ hist'.flatten = hist.flatten ++ s.queue.flatten := by
  intro fuel
  induction fuel with
  | zero => intro s hist _ h; omega
  | succ fuel ih =>
    intro s hist hs hf
    have hw : ∀ buf, (sinkWrite sink hist buf).1 = true ∧ (sinkWrite sink hist buf).2.flatten = hist.flatten ++ buf := by
      intro buf
      rw [sinkWrite]
      split
      · rename_i h0
        rw [List.length_eq_zero_iff] at h0
        subst h0
        simp
      · simp [hsink]
    obtain ⟨w1, w2⟩ := hw (serialize api v size s).out
    obtain ⟨p1, p2, p3⟩ := serialize_prod api v size s
    rw [hs] at p1 p2
    have e2 : (prod api v .done s.aux).2.2 = [] := rfl
    rw [e2, List.flatten_nil, List.append_nil] at p1
    rcases serialize_done_progress api v size s hsize hs with h | ⟨h, hst, hlen⟩
    · refine ⟨(sinkWrite sink hist (serialize api v size s).out).2, ?_, ?_⟩
      · rw [writeJpegLoop]
        dsimp only
        rw [if_neg (by rw [h]; simp), w1]
        simp only [Bool.not_true, Bool.false_eq_true, ↓reduceIte, h]
      · rw [w2]
        have hq : (serialize api v size s).state.queue = [] := by
          have := serialize_status api v size s
          rw [h, p2] at this
          cases hh : (serialize api v size s).state.queue with
          | nil => rfl
          | cons x y => rw [hh] at this; simp [statusOf, prod] at this
        rw [hq] at p1
        rw [← p1]; simp
    · obtain ⟨hist', hh, hf'⟩ := ih (serialize api v size s).state (sinkWrite sink hist (serialize api v size s).out).2 hst (by omega)
      refine ⟨hist', ?_, ?_⟩
      · rw [writeJpegLoop]
        dsimp only
        rw [if_neg (by rw [h]; simp), w1]
        simp only [Bool.not_true, Bool.false_eq_true, ↓reduceIte, h]
        exact hh
      · rw [hf', w2, List.append_assoc, p1]

/-- **C25 (completion)**: when everything can be serialised, the one-shot writer hands over exactly the whole file, in buffers of any size, to
a callback that accepts what it is given, and reports success. -/
theorem C25_writer_completes {V σ : Type} (api : SerApi V σ) (v : V) (aux : σ) (size : Nat) (hsize : 0 < size)
    (hdone : (prod api v .init aux).1 = .done) (sink : Sink) (hsink : ∀ h b, sink h b = b.length) :
    ∃ fuel hist, writeJpegLoop api v sink size fuel (.init aux) [] = (some true, hist) ∧ hist.flatten = (prod api v .init aux).2.2.flatten := by
  obtain ⟨p1, p2, p3⟩ := serialize_prod api v size (.init aux : SState σ)
  have hst := serialize_status api v size (.init aux : SState σ)
  have e : (SState.init aux : SState σ).stage = .init := rfl
  have e2 : (SState.init aux : SState σ).aux = aux := rfl
  have e3 : (SState.init aux : SState σ).queue = [] := rfl
  rw [e, e2] at p1 p2
  rw [e3, List.flatten_nil, List.nil_append] at p1
  rw [hdone] at p2
  rw [p2] at hst
  have hw : ∀ buf, (sinkWrite sink [] buf).1 = true ∧ (sinkWrite sink [] buf).2.flatten = buf := by
    intro buf
    rw [sinkWrite]
    split
    · rename_i h0
      rw [List.length_eq_zero_iff] at h0
      subst h0
      simp
    · simp [hsink]
  obtain ⟨w1, w2⟩ := hw (serialize api v size (.init aux : SState σ)).out
  obtain ⟨hist, h1, h2⟩ := writeJpegLoop_done api v sink size hsize hsink ((serialize api v size (.init aux : SState σ)).state.queue.flatten.length + 1)
    (serialize api v size (.init aux : SState σ)).state (sinkWrite sink [] (serialize api v size (.init aux : SState σ)).out).2 p2 (by omega)
  by_cases hq : (serialize api v size (.init aux : SState σ)).state.queue = []
  · have hs : (serialize api v size (.init aux : SState σ)).status = .done := by rw [hst, hq]; rfl
    refine ⟨1, (sinkWrite sink [] (serialize api v size (.init aux : SState σ)).out).2, ?_, ?_⟩
    · rw [writeJpegLoop]
      dsimp only
      rw [if_neg (by rw [hs]; simp), w1]
      simp only [Bool.not_true, Bool.false_eq_true, ↓reduceIte, hs]
    · rw [w2, ← p1, hq]; simp
  · have hs : (serialize api v size (.init aux : SState σ)).status = .needsOutput := by
      rw [hst]
      cases hh : (serialize api v size (.init aux : SState σ)).state.queue with
      | nil => exact absurd hh hq
      | cons x y => rfl
    refine ⟨(serialize api v size (.init aux : SState σ)).state.queue.flatten.length + 1 + 1, hist, ?_, ?_⟩
    · rw [writeJpegLoop]
      dsimp only
      rw [if_neg (by rw [hs]; simp), w1]
      simp only [Bool.not_true, Bool.false_eq_true, ↓reduceIte, hs, reduceCtorEq]
      exact h1
    · rw [h2, w2, p1]

/-- A serialiser of one marker: three bytes at a time out of a file of seven. -/
def sampleApi : SerApi Unit Unit where
  canStart _ := true
  version _ := 0
  original _ := none
  markers _ := [0xE0, 0xD9]
  prepared _ s := s
  marker _ s m := (s, if m = 0xE0 then [[0xFF, 0xE0], [], [9]] else [[0xFF, 0xD9]], .done)

example : (deliver sampleApi [((), 3), ((), 0), ((), 1), ((), 7)] (.init ()) .needsInput).1 = [0xFF, 0xD8, 0xFF, 0xE0, 9, 0xFF, 0xD9] ∧
    (deliver sampleApi [((), 3), ((), 0), ((), 1), ((), 7)] (.init ()) .needsInput).2.1 = .done ∧
    (deliver sampleApi [((), 3)] (.init ()) .needsInput).2.1 = .needsOutput ∧
    (prod sampleApi () .init ()).1 = .done := by decide

/-! ## C40 -/

/-- **C40 outside of the bypass**: more space is asked for only when all of the space given is used. -/
theorem C40_space_used_partial {V σ : Type} (api : SerApi V σ) (v : V) (a : Nat) (s : SState σ) (hb : s.stage = .init → api.version v ≠ 1)
    (h : (serialize api v a s).status = .needsOutput) : (serialize api v a s).left = 0 := by
  have hst := serialize_status api v a s
  rw [h] at hst
  apply Classical.byContradiction
  intro hl
  have he : (serialize api v a s).state.stage ≠ .error := by
    intro e; rw [e] at hst; simp [statusOf] at hst
  have hq := serialize_full api v a s hb hl he
  rw [hq] at hst
  cases hg : (serialize api v a s).state.stage <;> rw [hg] at hst <;> simp [statusOf] at hst

/-- **C40 is false of the bypass**: whatever the space, the first call delivers nothing and asks for more space (and by then the input has been
reported as read, although the queued chunk may point into it). -/
theorem C40_bypass_false {V σ : Type} (api : SerApi V σ) (v : V) (aux : σ) (a : Nat) (o : List Nat) (h1 : api.canStart v = true)
    (h2 : api.version v = 1) (h3 : api.original v = some o) :
    (serialize api v a (.init aux)).status = .needsOutput ∧ (serialize api v a (.init aux)).out = [] ∧ (serialize api v a (.init aux)).left = a := by
  have hp : pushOutput a [] = ([], a, []) := by cases a <;> rfl
  simp [serialize, SState.init, h1, h2, h3, hp]

/-! ## C34 -/

/-- The callback accepted everything it was handed. -/
def AllAccepted (sink : Sink) (hist : List (List Nat)) : Prop := ∀ i (h : i < hist.length), sink (hist.take i) hist[i] = hist[i].length

theorem sinkWrite_accepted {sink : Sink} {hist : List (List Nat)} {buf : List Nat} (ha : AllAccepted sink hist)
    (h : (sinkWrite sink hist buf).1 = true) : AllAccepted sink (sinkWrite sink hist buf).2 ∧ (sinkWrite sink hist buf).2.flatten = hist.flatten ++ buf := by
  rw [sinkWrite] at h ⊢
  split at h
  · rename_i h0
    rw [if_pos h0]
    rw [List.length_eq_zero_iff] at h0
    subst h0
    exact ⟨ha, by simp⟩
  · rename_i h0
    rw [if_neg h0]
    refine ⟨fun i hi => ?_, by simp⟩
    simp only [List.length_append, List.length_singleton] at hi
    by_cases e : i < hist.length
    · simp only [List.getElem_append_left e]
      rw [List.take_append_of_le_length (by omega)]
      exact ha i e
    · have e : i = hist.length := by omega
      subst e
      simp only [List.getElem_concat_length]
      rw [List.take_append_of_le_length (Nat.le_refl _), List.take_of_length_le (Nat.le_refl _)]
      simpa using h

theorem writeJpegLoop_true {V σ : Type} (api : SerApi V σ) (v : V) (sink : Sink) (size : Nat) :
    ∀ (fuel : Nat) (s : SState σ) (hist hist' : List (List Nat)), AllAccepted sink hist →
      writeJpegLoop api v sink size fuel s hist = (some true, hist') →
      AllAccepted sink hist' ∧ ∃ vs, hist'.flatten = hist.flatten ++ (s.queue.flatten ++ producedAll api (List.replicate vs v) s.stage s.aux) := by
  intro fuel
  induction fuel with
  | zero => intro s hist hist' _ h; simp [writeJpegLoop] at h
  | succ fuel ih =>
    intro s hist hist' ha h
    rw [writeJpegLoop] at h
    dsimp only at h
    split at h
    · simp at h
    rename_i hne
    cases hw : (sinkWrite sink hist (serialize api v size s).out).1 with
    | false => rw [hw] at h; simp at h
    | true =>
      rw [hw] at h
      obtain ⟨a1, a2⟩ := sinkWrite_accepted ha hw
      obtain ⟨p1, p2, p3⟩ := serialize_prod api v size s
      have hst := serialize_status api v size s
      simp only [Bool.not_true, Bool.false_eq_true, ↓reduceIte] at h
      by_cases hd : (serialize api v size s).status = .done
      · rw [if_pos hd] at h
        simp only [Prod.mk.injEq, true_and] at h
        subst h
        refine ⟨a1, 1, ?_⟩
        rw [a2]
        have hq : (serialize api v size s).state.queue = [] := by
          rw [hd] at hst
          cases hg : (serialize api v size s).state.stage <;> rw [hg] at hst <;> simp only [statusOf] at hst
          · cases hst
          · cases hst
          · cases hh : (serialize api v size s).state.queue with
            | nil => rfl
            | cons x y => rw [hh] at hst; simp at hst
          · cases hst
        rw [hq] at p1
        simp only [List.replicate_succ, List.replicate_zero, producedAll, List.append_nil]
        rw [← p1]; simp
      · rw [if_neg hd] at h
        obtain ⟨b1, k, b2⟩ := ih _ _ _ a1 h
        refine ⟨b1, k + 1, ?_⟩
        rw [b2, a2, List.append_assoc]
        simp only [List.replicate_succ, producedAll]
        rw [← p2, ← p3, ← List.append_assoc (serialize api v size s).out, p1]
        simp only [List.append_assoc]

theorem prodSections_final {V σ : Type} (api : SerApi V σ) (v : V) (st : SStage) (aux : σ) (k : Nat) (h : (prod api v st aux).1 = .done) :
    producedAll api (List.replicate (k + 1) v) st aux = (prod api v st aux).2.2.flatten := by
  have hz : ∀ k aux, producedAll api (List.replicate k v) .done aux = [] := by
    intro k
    induction k with
    | zero => intro _; rfl
    | succ k ih => intro aux; simp [List.replicate_succ, producedAll, prod, ih]
  simp only [List.replicate_succ, producedAll]
  rw [h, hz, List.append_nil]

/-- **C34 (decoder)**: if `DecodeBrunsli` reports success then the callback accepted, at every call, all the bytes it was given; so a callback
that accepts fewer makes it report failure. -/
theorem C34_decoder {V σ : Type} (api : SerApi V σ) (parse : List Nat → Option V) (aux : σ) (sink : Sink) (fuel : Nat) (input : List Nat)
    (hist : List (List Nat)) (h : decodeBrunsli api parse aux sink fuel input = (some true, hist)) : AllAccepted sink hist := by
  rw [decodeBrunsli] at h
  split at h
  · simp at h
  · exact (writeJpegLoop_true api _ sink 16384 fuel _ [] hist (fun i hi => (by simp at hi)) h).1

/-- **C34 (decoder)**: a refusal at any call is reported. -/
theorem C34_decoder_refusal {V σ : Type} (api : SerApi V σ) (parse : List Nat → Option V) (aux : σ) (sink : Sink) (fuel : Nat) (input : List Nat)
    (i : Nat) (hi : i < (decodeBrunsli api parse aux sink fuel input).2.length)
    (hr : sink ((decodeBrunsli api parse aux sink fuel input).2.take i) (decodeBrunsli api parse aux sink fuel input).2[i] ≠
      (decodeBrunsli api parse aux sink fuel input).2[i].length) : (decodeBrunsli api parse aux sink fuel input).1 ≠ some true := by
  intro h
  exact hr (C34_decoder api parse aux sink fuel input _ (Prod.ext h rfl) i hi)

/-- **C34 is false of the encoder**: for every payload of at least two bytes there is a callback that accepts fewer bytes than it was given while
`EncodeBrunsli` reports success. -/
theorem C34_encoder_false (encode : List Nat → Option (List Nat)) (input out : List Nat) (h : encode input = some out) (hl : 2 ≤ out.length) :
    ∃ sink : Sink, (encodeBrunsli encode sink input).1 = true ∧ (encodeBrunsli encode sink input).2 = [out] ∧ sink [] out < out.length :=
  ⟨fun _ _ => 1, by simp [encodeBrunsli, h], by simp [encodeBrunsli, h], by show 1 < _; omega⟩

/-- **C34 (encoder, part that holds)**: a callback that accepts nothing is reported. -/
theorem C34_encoder_partial (encode : List Nat → Option (List Nat)) (sink : Sink) (input : List Nat) (h : ∀ b, sink [] b = 0) :
    (encodeBrunsli encode sink input).1 = false := by
  rw [encodeBrunsli]
  split
  · rfl
  · simp [h]

example : decodeBrunsli sampleApi (fun _ => some ()) () (fun _ b => b.length) 5 [1] = (some true, [[0xFF, 0xD8, 0xFF, 0xE0, 9, 0xFF, 0xD9]]) ∧
    (decodeBrunsli sampleApi (fun _ => some ()) () (fun _ _ => 6) 5 [1]).1 = some false := by decide +kernel

/-! ## C26 -/

/-- Something has failed for good. -/
def DecState.Broken {σ τ : Type} (d : DecState σ τ) : Prop := (∃ t c, d.parser = .dead t c) ∨ d.ser.stage = .error

/-- Calls of the decoder one after the other. -/
def decodeCalls {σ τ : Type} (P : Parser σ) (api : SerApi (PSt σ) τ) (fuel : Nat) : List (List Nat × Nat) → DecState σ τ → Option (List (DResult σ τ))
  | [], _ => some []
  | (i, a) :: cs, d =>
    match decodeCall P api fuel i a d with
    | none => none
    | some r => (decodeCalls P api fuel cs r.state).map (r :: ·)

theorem processJpeg_bad {σ : Type} {P : Parser σ} {fuel : Nat} {s s' : PSt σ} {b b' e e' : List Nat} {c : Nat}
    (h : processJpeg P fuel s b e = some (s', b', e', .bad c)) : ∃ t, s' = .dead t c := by
  have hd : ∀ (fuel : Nat) (q s' : PSt σ) (w w' : List Nat) (c : Nat), doProcess P fuel q w = some (s', w', .bad c) → ∃ t, s' = .dead t c := by
    intro fuel
    induction fuel with
    | zero => intro q s' w w' c h; simp [doProcess] at h
    | succ fuel ih =>
      intro q s' w w' c h
      cases q with
      | working t =>
        rw [doProcess] at h
        rcases he : P.step t w with ⟨t', n, nx⟩
        rw [he] at h
        cases nx with
        | go => exact ih _ _ _ _ _ h
        | finished => exact ih _ _ _ _ _ h
        | wait => simp at h
        | fail c' =>
          simp only [Option.some.injEq, Prod.mk.injEq, PStatus.bad.injEq] at h
          exact ⟨t', by rw [← h.1, h.2.2]⟩
      | paused t => simp [doProcess] at h
      | done t =>
        rw [doProcess] at h
        split at h
        · simp only [Option.some.injEq, Prod.mk.injEq, PStatus.bad.injEq] at h
          exact ⟨t, by rw [← h.1, h.2.2]⟩
        · simp at h
      | dead t c' =>
        simp only [doProcess, Option.some.injEq, Prod.mk.injEq, PStatus.bad.injEq] at h
        exact ⟨t, by rw [← h.1, h.2.2]⟩
  have hdir : ∀ (q s' : PSt σ) (e b' e' : List Nat) (c : Nat), processDirect P fuel q e = some (s', b', e', .bad c) → ∃ t, s' = .dead t c := by
    intro q s' e b' e' c h
    rw [processDirect] at h
    rcases hh : doProcess P fuel q e with _ | ⟨t, w, rr⟩
    · rw [hh] at h; simp at h
    rw [hh] at h
    cases rr with
    | needMore => simp at h
    | ok => simp at h
    | bad c' =>
      simp only [Option.some.injEq, Prod.mk.injEq, PStatus.bad.injEq] at h
      obtain ⟨rfl, _, _, rfl⟩ := h
      exact hd _ _ _ _ _ _ hh
  have main : ∀ q : PSt σ, (if b = [] then processDirect P fuel q e
    else
      match doProcess P fuel q (b ++ e.take maxReadAhead) with
      | none => none
      | some (s', w, r) =>
        if b.length ≤ (b ++ e.take maxReadAhead).length - w.length then
          if r = .needMore then processDirect P fuel s'.resume (e.drop ((b ++ e.take maxReadAhead).length - w.length - b.length))
          else some (s', [], e.drop ((b ++ e.take maxReadAhead).length - w.length - b.length), r)
        else if r = .needMore then some (s', b.drop ((b ++ e.take maxReadAhead).length - w.length) ++ e.take maxReadAhead,
          e.drop (e.take maxReadAhead).length, .needMore)
        else some (s', b.drop ((b ++ e.take maxReadAhead).length - w.length), e, r)) = some (s', b', e', .bad c) → ∃ t, s' = .dead t c := by
    intro q h
    split at h
    · exact hdir _ _ _ _ _ _ h
    · rcases hh : doProcess P fuel q (b ++ e.take maxReadAhead) with _ | ⟨t, w, rr⟩
      · rw [hh] at h; simp at h
      rw [hh] at h
      dsimp only at h
      split at h
      · split at h
        · exact hdir _ _ _ _ _ _ h
        · simp only [Option.some.injEq, Prod.mk.injEq] at h
          obtain ⟨rfl, _, _, rfl⟩ := h
          exact hd _ _ _ _ _ _ hh
      · split at h
        · simp at h
        · simp only [Option.some.injEq, Prod.mk.injEq] at h
          obtain ⟨rfl, _, _, rfl⟩ := h
          exact hd _ _ _ _ _ _ hh
  cases s with
  | dead t c' =>
    simp only [processJpeg, Option.some.injEq, Prod.mk.injEq, PStatus.bad.injEq] at h
    exact ⟨t, by rw [← h.1, h.2.2.2]⟩
  | working t => exact main _ h
  | paused t => exact main _ h
  | done t => exact main _ h

theorem decodeCall_error {σ τ : Type} {P : Parser σ} {api : SerApi (PSt σ) τ} {fuel : Nat} {i : List Nat} {a : Nat} {d : DecState σ τ}
    {r : DResult σ τ} (h : decodeCall P api fuel i a d = some r) (he : r.status = .error) : r.state.Broken := by
  rw [decodeCall] at h
  rcases hp : processJpeg P fuel d.parser d.buffer i with _ | ⟨ps, b, rest, st⟩
  · rw [hp] at h; simp at h
  rw [hp] at h
  have hser : ∀ st : PStatus, some (⟨(match (serialize api ps a d.ser).status with
      | .done => DStatus.done
      | .needsInput => .needsInput
      | .needsOutput => .needsOutput
      | .error => .error), rest, (serialize api ps a d.ser).out, (serialize api ps a d.ser).left, ⟨ps, b, (serialize api ps a d.ser).state⟩⟩ :
      DResult σ τ) = some r → r.state.Broken := by
    intro _ h
    simp only [Option.some.injEq] at h
    subst h
    right
    have hst := serialize_status api ps a d.ser
    dsimp only at he
    show (serialize api ps a d.ser).state.stage = .error
    cases hs : (serialize api ps a d.ser).status <;> rw [hs] at he hst
    · cases he
    · cases he
    · cases he
    · cases hg : (serialize api ps a d.ser).state.stage <;> rw [hg] at hst
      · simp [statusOf] at hst
      · simp [statusOf] at hst
      · simp only [statusOf] at hst
        split at hst <;> simp at hst
  cases st with
  | bad c =>
    simp only [Option.some.injEq] at h
    subst h
    obtain ⟨t, ht⟩ := processJpeg_bad hp
    exact Or.inl ⟨t, c, ht⟩
  | ok => exact hser .ok h
  | needMore => exact hser .needMore h

theorem decodeCall_broken {σ τ : Type} {P : Parser σ} {api : SerApi (PSt σ) τ} {fuel : Nat} {i : List Nat} {a : Nat} {d : DecState σ τ}
    (hb : d.Broken) {r : DResult σ τ} (h : decodeCall P api fuel i a d = some r) :
    r.status = .error ∧ r.out = [] ∧ r.left = a ∧ r.state.Broken := by
  have hstat : r.status = .error → r.state.Broken := decodeCall_error h
  suffices hh : r.status = .error ∧ r.out = [] ∧ r.left = a from ⟨hh.1, hh.2.1, hh.2.2, hstat hh.1⟩
  rw [decodeCall] at h
  rcases hp : processJpeg P fuel d.parser d.buffer i with _ | ⟨ps, b, rest, st⟩
  · rw [hp] at h; simp at h
  rw [hp] at h
  rcases hb with ⟨t, c, hb⟩ | hb
  · rw [hb] at hp
    simp only [processJpeg, Option.some.injEq, Prod.mk.injEq] at hp
    obtain ⟨rfl, rfl, rfl, rfl⟩ := hp
    simp only [Option.some.injEq] at h
    subst h
    exact ⟨rfl, rfl, rfl⟩
  · have hs : serialize api ps a d.ser = ⟨.error, [], a, d.ser⟩ := by
      rw [serialize, hb]
    cases st with
    | bad c =>
      simp only [Option.some.injEq] at h
      subst h
      exact ⟨rfl, rfl, rfl⟩
    | ok =>
      dsimp only at h
      rw [hs] at h
      simp only [Option.some.injEq] at h
      subst h
      exact ⟨rfl, rfl, rfl⟩
    | needMore =>
      dsimp only at h
      rw [hs] at h
      simp only [Option.some.injEq] at h
      subst h
      exact ⟨rfl, rfl, rfl⟩

/-- **C26**: after a call that reported an error every further call, whatever its input and space, reports an error and delivers nothing. -/
theorem C26_errors_are_permanent {σ τ : Type} (P : Parser σ) (api : SerApi (PSt σ) τ) (fuel : Nat) (i : List Nat) (a : Nat) (d : DecState σ τ)
    (r : DResult σ τ) (h : decodeCall P api fuel i a d = some r) (he : r.status = .error) (later : List (List Nat × Nat)) (rs : List (DResult σ τ))
    (hl : decodeCalls P api fuel later r.state = some rs) : ∀ q ∈ rs, q.status = .error ∧ q.out = [] := by
  have hb := decodeCall_error h he
  clear h he
  generalize r.state = d' at hb hl
  induction later generalizing d' rs with
  | nil =>
    simp only [decodeCalls, Option.some.injEq] at hl
    subst hl
    intro q hq; cases hq
  | cons c later ih =>
    obtain ⟨i', a'⟩ := c
    rw [decodeCalls] at hl
    rcases hc : decodeCall P api fuel i' a' d' with _ | q
    · rw [hc] at hl; simp at hl
    rw [hc] at hl
    obtain ⟨h1, h2, _, h4⟩ := decodeCall_broken hb hc
    dsimp only at hl
    rcases hr : decodeCalls P api fuel later q.state with _ | qs
    · rw [hr] at hl; simp at hl
    rw [hr] at hl
    simp only [Option.map_some, Option.some.injEq] at hl
    subst hl
    intro x hx
    rcases List.mem_cons.mp hx with rfl | hx
    · exact ⟨h1, h2⟩
    · exact ih qs q.state h4 hr x hx

/-- **C26**: the parser keeps reporting the same error, and reads nothing. -/
theorem C26_same_error {σ : Type} (P : Parser σ) (fuel : Nat) (s s' : PSt σ) (b b' e e' : List Nat) (c : Nat)
    (h : processJpeg P fuel s b e = some (s', b', e', .bad c)) (fuel2 : Nat) (e2 : List Nat) :
    processJpeg P fuel2 s' b' e2 = some (s', b', e2, .bad c) := by
  obtain ⟨t, rfl⟩ := processJpeg_bad h
  rfl

/-! ## C27 -/

/-- **C27**: feeding a parser in any pieces gives the state and the status that parsing all bytes at once gives, or the same error; completion with
bytes left unread corresponds to the error for trailing bytes. -/
theorem C27_chunking_partial {σ : Type} (P : Parser σ) (inv : σ → Prop) (hP : P.Incremental inv) (s0 : σ) (h0 : inv s0) (fuel : Nat)
    (chunks : List (List Nat)) (s' : PSt σ) (b' rest : List Nat) (r : PStatus) (h : feed P fuel (.working s0) [] chunks = some (s', b', rest, r))
    (hne : chunks.flatten ≠ []) :
    (r = .ok ∧ rest ≠ [] ∧ ∃ f t, s' = .done t ∧ doProcess P f (.working s0) chunks.flatten = some (.dead t invalidBrn, rest, .bad invalidBrn)) ∨
    ∃ f q, doProcess P f (.working s0) chunks.flatten = some q ∧ Same (s', b' ++ rest, r) q := by
  have key : ∀ (chunks : List (List Nat)) (given : List Nat) (s : PSt σ) (b : List Nat), Synced P s0 given s b → given ++ chunks.flatten ≠ [] →
      feed P fuel s b chunks = some (s', b', rest, r) →
      (r = .ok ∧ rest ≠ [] ∧ ∃ f t, s' = .done t ∧ doProcess P f (.working s0) (given ++ chunks.flatten) = some (.dead t invalidBrn, rest, .bad invalidBrn)) ∨
      ∃ f q, doProcess P f (.working s0) (given ++ chunks.flatten) = some q ∧ Same (s', b' ++ rest, r) q := by
    intro chunks
    induction chunks with
    | nil =>
      intro given s b hs hn h
      simp only [feed, Option.some.injEq, Prod.mk.injEq] at h
      obtain ⟨rfl, rfl, rfl, rfl⟩ := h
      right
      rcases hs.run with ⟨rfl, _, _⟩ | ⟨f, t, _, hf⟩
      · simp at hn
      · exact ⟨f, _, by simpa using hf, Or.inl (by simp)⟩
    | cons c cs ih =>
      intro given s b hs hn h
      rw [feed] at h
      rcases hp : processJpeg P fuel s b c with _ | ⟨s1, b1, e1, r1⟩
      · rw [hp] at h; simp at h
      rw [hp] at h
      obtain ⟨ha, hb, hpa⟩ := processJpeg_agrees hP h0 hs hp
      have hassoc : given ++ (c :: cs).flatten = (given ++ c) ++ cs.flatten := by simp
      cases r1 with
      | needMore =>
        dsimp only at h
        split at h
        · rename_i he
          subst he
          rcases ha with ⟨f, q, hf, hq, _, _⟩ | ⟨hx, _⟩
          · have hq := hq.resolve_right (fun ⟨c, e, _⟩ => by cases e)
            subst hq
            obtain ⟨t, ht⟩ := hpa rfl
            have hsy : Synced P s0 (given ++ c) s1 b1 := ⟨hb, Or.inr ⟨f, t, ht, by simpa using hf⟩⟩
            rw [hassoc]
            exact ih _ _ _ hsy (by rw [← hassoc]; exact hn) h
          · cases hx
        · simp at h
      | ok =>
        simp only [Option.some.injEq, Prod.mk.injEq] at h
        obtain ⟨rfl, rfl, rfl, rfl⟩ := h
        rw [hassoc]
        rcases ha with ⟨f, q, hf, hq, _, hz⟩ | ⟨_, hb1, he1, t, f, ht, hf⟩
        · have hz := hz rfl
          have hq := hq.resolve_right (fun ⟨c, e, _⟩ => by cases e)
          subst hz hq
          obtain ⟨hw, _⟩ := (doProcess_facts hP f (.working s0) _ h0 hf).2.2.2.1 rfl
          simp only [List.append_nil] at hw
          subst hw
          by_cases hx : cs.flatten = []
          · right
            exact ⟨f, _, by rw [hx, List.append_nil, hf], Or.inl (by simp [hx])⟩
          · left
            obtain ⟨t, ht, h2⟩ := doProcess_ok hP f (.working s0) _ cs.flatten h0 hx hf
            exact ⟨rfl, by simpa using hx, f, t, ht, by simpa using h2⟩
        · left
          refine ⟨rfl, by simp [he1], f, t, ht, ?_⟩
          exact doProcess_bad hP f (.working s0) _ cs.flatten h0 hf
      | bad cd =>
        simp only [Option.some.injEq, Prod.mk.injEq] at h
        obtain ⟨rfl, rfl, rfl, rfl⟩ := h
        rw [hassoc]
        rcases ha with ⟨f, ⟨q1, q2, q3⟩, hf, hq, _, _⟩ | ⟨hx, _⟩
        · right
          have hq3 : q3 = .bad cd := by
            rcases hq with e | ⟨c', e1, e2⟩
            · cases e; rfl
            · cases e1; exact e2
          subst hq3
          exact ⟨f, _, doProcess_bad hP f (.working s0) _ cs.flatten h0 hf, Or.inr ⟨cd, rfl, rfl⟩⟩
        · cases hx
  have hs0 : Synced P s0 [] (.working s0) [] := ⟨by decide, Or.inl ⟨rfl, rfl, rfl⟩⟩
  simpa using key chunks [] (.working s0) [] hs0 (by simpa using hne) h

/-- If a parser comes to an end with all bytes in view, it comes to an end in whatever pieces they come. -/
theorem feed_total {σ : Type} (P : Parser σ) (inv : σ → Prop) (hP : P.Incremental inv) (s0 : σ) (h0 : inv s0) (fuel : Nat) (chunks : List (List Nat))
    (h : ∃ r, doProcess P fuel (.working s0) chunks.flatten = some r) : ∃ r', feed P fuel (.working s0) [] chunks = some r' := by
  have total : ∀ (chunks : List (List Nat)) (given : List Nat) (s : PSt σ) (b : List Nat), Synced P s0 given s b →
      (∃ r, doProcess P fuel (s.resume) (b ++ chunks.flatten) = some r) → ∃ r', feed P fuel s b chunks = some r' := by
    intro chunks
    induction chunks with
    | nil => intro given s b _ _; exact ⟨_, rfl⟩
    | cons c cs ih =>
      intro given s b hs ⟨r, hr⟩
      have hi := sync_inv hP h0 hs
      rw [List.flatten_cons, ← List.append_assoc] at hr
      obtain ⟨r1, hr1⟩ := doProcess_prefix hP fuel _ _ _ hi hr
      obtain ⟨⟨s1, b1, e1, st1⟩, hp⟩ := processJpeg_total hP hi hr1
      obtain ⟨ha, hb, hpa⟩ := processJpeg_agrees hP h0 hs hp
      rw [feed, hp]
      cases st1 with
      | needMore =>
        dsimp only
        rcases ha with ⟨f, q, hf, hq, hz, _⟩ | ⟨hx, _⟩
        · have hz := hz rfl
          have hq := hq.resolve_right (fun ⟨c, e, _⟩ => by cases e)
          subst hz hq
          rw [if_pos rfl]
          obtain ⟨t, ht⟩ := hpa rfl
          rw [List.append_nil] at hf
          have hsy : Synced P s0 (given ++ c) s1 b1 := ⟨hb, Or.inr ⟨f, t, ht, hf⟩⟩
          refine ih _ _ _ hsy ?_
          -- the run over the first bytes stops in the same place
          obtain ⟨f2, q2, hf2, hq2⟩ := sync_run hP h0 hs hr1
          have e := doProcess_det hf2 hf
          subst e
          have hq2 := hq2.resolve_right (fun ⟨c, _, e⟩ => by cases e)
          subst hq2
          exact doProcess_rest hP fuel _ _ _ hi (resume_ne _) hr1 hr
        · cases hx
      | ok => exact ⟨_, rfl⟩
      | bad c => exact ⟨_, rfl⟩
  have hs0 : Synced P s0 [] (.working s0) [] := ⟨by decide, Or.inl ⟨rfl, rfl, rfl⟩⟩
  exact total chunks [] (.working s0) [] hs0 (by simpa [PSt.resume] using h)

/-- **C27 for files that decode**: whatever the pieces, feeding them ends in success and in the same state; in particular no call gives up or
blocks. -/
theorem C27_valid_file_partial {σ : Type} (P : Parser σ) (inv : σ → Prop) (hP : P.Incremental inv) (s0 : σ) (h0 : inv s0) (fuel : Nat)
    (chunks : List (List Nat)) (t : σ) (hne : chunks.flatten ≠ [])
    (h : doProcess P fuel (.working s0) chunks.flatten = some (.done t, [], .ok)) :
    feed P fuel (.working s0) [] chunks = some (.done t, [], [], .ok) := by
  obtain ⟨⟨s', b', rest, r⟩, hf⟩ := feed_total P inv hP s0 h0 fuel chunks ⟨_, h⟩
  rcases C27_chunking_partial P inv hP s0 h0 fuel chunks s' b' rest r hf hne with ⟨_, _, f, u, _, h2⟩ | ⟨f, q, h2, hq⟩
  · have := doProcess_det h h2
    simp at this
  · have hd := doProcess_det h h2
    subst hd
    have this := hq.resolve_right (fun ⟨c, _, e⟩ => by cases e)
    simp only [Prod.mk.injEq] at this
    obtain ⟨rfl, hb, rfl⟩ := this
    have hb' : b' = [] ∧ rest = [] := by simpa using hb.symm
    rw [hf, hb'.1, hb'.2]

/-- A parser of two-byte records: a record is read when both bytes are in view, the record `(0, 0)` ends the file, and the first byte of a record
must be below 128. -/
def pairParser : Parser (List (Nat × Nat)) where
  step s w :=
    match w with
    | a :: b :: _ => if a ≥ 128 then (s, 2, .fail 7) else if a = 0 ∧ b = 0 then (s, 2, .finished) else (s ++ [(a, b)], 2, .go)
    | _ => (s, 0, .wait)

theorem pairParser_incremental : pairParser.Incremental (fun _ => True) where
  keep _ _ _ := trivial
  reads s w _ := by
    rcases w with _ | ⟨a, _ | ⟨b, w⟩⟩
    · simp [pairParser]
    · simp [pairParser]
    · simp only [pairParser]
      repeat' split
      all_goals simp
  waits s w s' n _ h := by
    rcases w with _ | ⟨a, _ | ⟨b, w⟩⟩
    · simp [maxReadAhead]
    · simp [maxReadAhead]; omega
    · simp only [pairParser] at h
      repeat' split at h
      all_goals simp at h
  resumes s w s' n x _ h := by
    rcases w with _ | ⟨a, _ | ⟨b, w⟩⟩
    · simp only [pairParser, Prod.mk.injEq] at h
      obtain ⟨rfl, rfl, _⟩ := h
      right; simp
    · simp only [pairParser, Prod.mk.injEq] at h
      obtain ⟨rfl, rfl, _⟩ := h
      right; simp
    · simp only [pairParser] at h
      repeat' split at h
      all_goals simp at h
  stable s w s' n nx x _ h hn := by
    rcases w with _ | ⟨a, _ | ⟨b, w⟩⟩
    · simp only [pairParser, Prod.mk.injEq] at h
      exact absurd h.2.2.symm hn
    · simp only [pairParser, Prod.mk.injEq] at h
      exact absurd h.2.2.symm hn
    · exact h

example : feed pairParser 9 (.working []) [] [[1, 2, 3], [4], [5, 6, 0, 0]] = some (.done [(1, 2), (3, 4), (5, 6)], [], [], .ok) := by rfl

/-- A parser of a two-byte length and that many bytes, which are skipped as they come. -/
def skipParser : Parser (Option Nat) where
  step s w :=
    match s, w with
    | none, a :: b :: _ => (some (256 * a + b), 2, .go)
    | none, _ => (none, 0, .wait)
    | some n, w => if n ≤ w.length then (some 0, n, .finished) else (some (n - w.length), w.length, .wait)

theorem skipParser_incremental : skipParser.Incremental (fun _ => True) where
  keep _ _ _ := trivial
  reads s w _ := by
    rcases s with _ | m
    · rcases w with _ | ⟨a, _ | ⟨b, w⟩⟩ <;> simp [skipParser]
    · simp only [skipParser]
      split <;> simp_all
  waits s w s' n _ h := by
    rcases s with _ | m
    · rcases w with _ | ⟨a, _ | ⟨b, w⟩⟩
      · simp [maxReadAhead]
      · simp [maxReadAhead]; omega
      · simp [skipParser] at h
    · simp only [skipParser] at h
      split at h
      · simp at h
      · simp only [Prod.mk.injEq] at h
        simp only [maxReadAhead]
        omega
  resumes s w s' n x _ h := by
    rcases s with _ | m
    · rcases w with _ | ⟨a, _ | ⟨b, w⟩⟩
      · simp only [skipParser, Prod.mk.injEq] at h
        obtain ⟨rfl, rfl, _⟩ := h
        right; simp
      · simp only [skipParser, Prod.mk.injEq] at h
        obtain ⟨rfl, rfl, _⟩ := h
        right; simp
      · simp [skipParser] at h
    · simp only [skipParser] at h
      split at h
      · simp at h
      · rename_i hm
        simp only [Prod.mk.injEq] at h
        obtain ⟨rfl, rfl, _⟩ := h
        right
        simp only [skipParser, List.length_append, List.drop_length, List.nil_append]
        by_cases e : m ≤ w.length + x.length
        · rw [if_pos e, if_pos (by omega)]
          simp only [Prod.mk.injEq, true_and, and_true]
          omega
        · rw [if_neg e, if_neg (by omega)]
          simp only [Prod.mk.injEq, and_true]
          exact congrArg some (by omega)
  stable s w s' n nx x _ h hn := by
    rcases s with _ | m
    · rcases w with _ | ⟨a, _ | ⟨b, w⟩⟩
      · simp only [skipParser, Prod.mk.injEq] at h
        exact absurd h.2.2.symm hn
      · simp only [skipParser, Prod.mk.injEq] at h
        exact absurd h.2.2.symm hn
      · exact h
    · simp only [skipParser] at h ⊢
      split at h
      · rw [if_pos (by rw [List.length_append]; omega)]
        exact h
      · simp only [Prod.mk.injEq] at h
        exact absurd h.2.2.symm hn

/-- A file of 601 bytes, followed by one more. -/
def trailing : List Nat := [2, 87] ++ List.replicate 599 7 ++ [9]

/-- **C27 is false for files with trailing bytes**: a file of 601 bytes followed by one more byte is rejected when parsed at once, but accepted,
with that byte unread, when its first byte comes in a piece of its own: the parser is then shown just 601 bytes, and the check for bytes after the
end is not made again. -/
theorem C27_trailing_bytes_accepted :
    doProcess skipParser 9 (.working none) trailing = some (.dead (some 0) invalidBrn, [9], .bad invalidBrn) ∧
    feed skipParser 9 (.working none) [] [trailing.take 1, trailing.drop 1] = some (.done (some 0), [], [9], .ok) := by
  constructor <;> decide +kernel

end Brunsli
