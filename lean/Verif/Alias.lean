import Verif.StreamDecode
/-!
# Where the bytes of an original file are kept

A file that holds the original bytes (c/dec/brunsli_decode.cc:1981-2045) is not copied if all of its bytes are in view at once: `original_jpg` then points into what
the parser reads, which is the caller's input or the read-ahead buffer (lines 2330-2379).  Otherwise the bytes are collected in a buffer of the decoder.
The output queue keeps the pointer (c/dec/jpeg_data_writer.cc:1018-1030, c/dec/output_chunk.h).  Here the decoder is run with a record of where the pointer points to.
-/

namespace Brunsli

/-- Memory: the input of a call (counted from 0), the read-ahead buffer, the buffer for collected bytes. -/
inductive Place where
  | input (call : Nat)
  | buffer
  | collected
deriving DecidableEq, Repr

/-- `READ_CONTENTS` (c/dec/brunsli_decode.cc:2009-2035): what `original_jpg` is set to, if it is, when `p` is what is read from.  Empty contents leave it null (:1994-1997). -/
def refStep {z : Inflater} (p : Place) (w : List Nat) : FileSt z → Option Place
  | .origData left storage => if left = 0 ∨ w.length < left then none else some (if storage = [] then p else .collected)
  | _ => none

/-- What `DoProcessJpeg` (c/dec/brunsli_decode.cc:2271-2315) sets `original_jpg` to, if it does. -/
def refProcess {z : Inflater} (p : Place) : Nat → PSt (FileSt z) → List Nat → Option Place
  | fuel + 1, .working s, w =>
    match fileStep z s w with
    | (s', n, .go) => (refStep p w s).or (refProcess p fuel (.working s') (w.drop n))
    | _ => none
  | _, _, _ => none

/-- The same of `ProcessJpeg` (c/dec/brunsli_decode.cc:2424-2454), see `processJpeg`. -/
def refLive {z : Inflater} (call fuel : Nat) (s : PSt (FileSt z)) (b ext : List Nat) : Option Place :=
  if b = [] then refProcess (.input call) fuel s.resume ext
  else
    let borrowed := ext.take maxReadAhead
    (refProcess .buffer fuel s.resume (b ++ borrowed)).or <|
      match doProcess (fileParser z) fuel s.resume (b ++ borrowed) with
      | some (s', w, .needMore) =>
        let pos := (b ++ borrowed).length - w.length
        if b.length ≤ pos then refProcess (.input call) fuel s'.resume (ext.drop (pos - b.length)) else none
      | _ => none

/-- The same after an error (c/dec/brunsli_decode.cc:2417-2423). -/
def refCall {z : Inflater} (call fuel : Nat) (s : PSt (FileSt z)) (b ext : List Nat) : Option Place :=
  match s with
  | .dead _ _ => none
  | _ => refLive call fuel s b ext

/-- Calls of `BrunsliDecoder::Decode` (c/dec/brunsli_decode.cc:2509-2565), with what `original_jpg` is after each. -/
def refCalls {z : Inflater} (fuel : Nat) : Nat → List (List Nat × Nat) → DecState (FileSt z) WJS → Option Place → Option (List (DResult (FileSt z) WJS × Option Place))
  | _, [], _, _ => some []
  | i, (piece, space) :: cs, d, ref =>
    match decodeCall (fileParser z) (streamApi.via fileView) fuel piece space d with
    | none => none
    | some r =>
      let ref' := ref.or (refCall i fuel d.parser d.buffer piece)
      (refCalls fuel (i + 1) cs r.state ref').map ((r, ref') :: ·)

/-- The decoder with the record. -/
def Decoder.runRef (z : Inflater) (fuel : Nat) (T : HSlot → CodeTable) (calls : List (List Nat × Nat)) : Option (List (DResult (FileSt z) WJS × Option Place)) :=
  refCalls fuel 0 calls (Decoder.start z T) none

/-- The record does not change the decoder. -/
theorem refCalls_run {z : Inflater} {fuel : Nat} : ∀ (calls : List (List Nat × Nat)) (i : Nat) (d : DecState (FileSt z) WJS) (ref : Option Place),
    (refCalls fuel i calls d ref).map (·.map Prod.fst) = decodeCalls (fileParser z) (streamApi.via fileView) fuel calls d
  | [], _, _, _ => by rw [refCalls, decodeCalls]; rfl
  | (piece, space) :: cs, i, d, ref => by
    rw [refCalls, decodeCalls]
    cases hc : decodeCall (fileParser z) (streamApi.via fileView) fuel piece space d with
    | none => rfl
    | some r =>
      dsimp only
      rw [← refCalls_run cs (i + 1) r.state (ref.or (refCall i fuel d.parser d.buffer piece))]
      cases refCalls fuel (i + 1) cs r.state (ref.or (refCall i fuel d.parser d.buffer piece)) <;> rfl

theorem Decoder.runRef_run (z : Inflater) (fuel : Nat) (T : HSlot → CodeTable) (calls : List (List Nat × Nat)) :
    (Decoder.runRef z fuel T calls).map (·.map Prod.fst) = Decoder.run z fuel T calls := refCalls_run _ _ _ _

/-! ## When the pointer is set -/

/-- The contents are complete, and those of a call that brought at most `n` bytes are no longer than that. -/
def Held {z : Inflater} (n : Nat) (p q : Place) (s : FileSt z) : Prop := ∃ o, s = .ended (.original o) ∧ o ≠ [] ∧ (q = p → o.length ≤ n)

theorem fileStep_ended {z : Inflater} (c : Content SectState) (w : List Nat) : fileStep z (.ended c) w = (.ended c, 0, .finished) := by
  simp only [fileStep]

theorem refStep_held {z : Inflater} {p q : Place} {w : List Nat} {s s' : FileSt z} {n : Nat} {nx : PNext} (hp : p ≠ .collected) (h : refStep p w s = some q)
    (he : fileStep z s w = (s', n, nx)) : Held w.length p q s' := by
  cases s with
  | origData left storage =>
    simp only [refStep] at h
    split at h
    · cases h
    · rename_i hl
      simp only [fileStep, takeStep] at he
      rw [if_pos (by omega)] at he
      cases he
      refine ⟨_, rfl, ?_, ?_⟩
      · intro e
        have := congrArg List.length e
        simp only [List.length_append, List.length_take, List.length_nil] at this
        omega
      · intro e
        cases h
        by_cases hst : storage = []
        · subst hst
          simp
        · rw [if_neg hst] at e
          exact absurd e.symm hp
  | _ => simp [refStep] at h

theorem doProcess_ended {z : Inflater} {c : Content SectState} : ∀ (fuel : Nat) (s s' : PSt (FileSt z)) (w w' : List Nat) (r : PStatus), s.core = .ended c →
    doProcess (fileParser z) fuel s w = some (s', w', r) → s'.core = .ended c := by
  intro fuel
  induction fuel with
  | zero => intro s s' w w' r _ h; simp [doProcess] at h
  | succ fuel ih =>
    intro s s' w w' r hs h
    cases s with
    | working s =>
      have hs : s = .ended c := hs
      subst hs
      rw [doProcess] at h
      have he' : (fileParser z).step (.ended c) w = (.ended c, 0, .finished) := fileStep_ended c w
      rw [he'] at h
      exact ih (.done (.ended c)) s' _ _ _ rfl h
    | paused s => rw [doProcess] at h; cases h; exact hs
    | done s =>
      rw [doProcess] at h
      split at h <;> cases h <;> exact hs
    | dead s c => rw [doProcess] at h; cases h; exact hs

theorem Held.mono {z : Inflater} {n m : Nat} {p q : Place} {s : FileSt z} (h : Held n p q s) (hn : n ≤ m) : Held m p q s := by
  obtain ⟨o, h1, h2, h3⟩ := h
  exact ⟨o, h1, h2, fun e => (h3 e).trans hn⟩

theorem Held.later {z : Inflater} {n : Nat} {p q : Place} {s : FileSt z} {t : PSt (FileSt z)} (h : Held n p q s)
    (hk : ∀ c, s = .ended c → t.core = .ended c) : Held n p q t.core := by
  obtain ⟨o, h1, h2⟩ := h
  exact ⟨o, hk _ h1, h2⟩

theorem refProcess_held {z : Inflater} {p q : Place} (hp : p ≠ .collected) : ∀ (fuel : Nat) (s s' : PSt (FileSt z)) (w w' : List Nat) (r : PStatus),
    refProcess p fuel s w = some q → doProcess (fileParser z) fuel s w = some (s', w', r) → Held w.length p q s'.core := by
  intro fuel
  induction fuel with
  | zero => intro s s' w w' r _ h; simp [doProcess] at h
  | succ fuel ih =>
    intro s s' w w' r hr h
    cases s with
    | working s =>
      rw [refProcess] at hr
      rw [doProcess] at h
      rcases he : fileStep z s w with ⟨s1, n, nx⟩
      have he' : (fileParser z).step s w = (s1, n, nx) := he
      rw [he'] at h
      rw [he] at hr
      cases nx with
      | go =>
        dsimp only at hr h
        cases hst : refStep p w s with
        | none =>
          rw [hst] at hr
          exact (ih (.working s1) s' _ _ _ hr h).mono (by simp)
        | some q' =>
          rw [hst] at hr
          cases hr
          exact (refStep_held hp hst he).later fun c hc => doProcess_ended fuel (.working s1) s' _ _ _ hc h
      | finished => cases hr
      | wait => cases hr
      | fail c => cases hr
    | paused s => simp [refProcess] at hr
    | done s => simp [refProcess] at hr
    | dead s c => simp [refProcess] at hr

theorem PSt.resume_core {σ : Type} (s : PSt σ) : s.resume.core = s.core := by cases s <;> rfl

theorem processDirect_doProcess {z : Inflater} {fuel : Nat} {s s' : PSt (FileSt z)} {ext b e : List Nat} {r : PStatus}
    (h : processDirect (fileParser z) fuel s ext = some (s', b, e, r)) : ∃ w st, doProcess (fileParser z) fuel s ext = some (s', w, st) := by
  unfold processDirect at h
  rcases hd : doProcess (fileParser z) fuel s ext with _ | ⟨s1, w, st⟩
  · rw [hd] at h; cases h
  · rw [hd] at h
    cases st <;> cases h <;> exact ⟨_, _, rfl⟩

theorem processJpeg_ended {z : Inflater} {c : Content SectState} {fuel : Nat} {s s' : PSt (FileSt z)} {b ext b' e : List Nat} {r : PStatus} (hs : s.core = .ended c)
    (h : processJpeg (fileParser z) fuel s b ext = some (s', b', e, r)) : s'.core = .ended c := by
  have hs' : s.resume.core = .ended c := by rw [PSt.resume_core]; exact hs
  unfold processJpeg at h
  split at h
  · cases h; exact hs
  · split at h
    · obtain ⟨w, st, hd⟩ := processDirect_doProcess h
      exact doProcess_ended fuel _ _ _ _ _ hs' hd
    · dsimp only at h
      rcases hd : doProcess (fileParser z) fuel s.resume (b ++ ext.take maxReadAhead) with _ | ⟨s1, w, st⟩
      · rw [hd] at h; cases h
      · rw [hd] at h
        dsimp only at h
        have h1 := doProcess_ended fuel s.resume s1 _ w st hs' hd
        split at h
        · split at h
          · obtain ⟨w, st, hd⟩ := processDirect_doProcess h
            exact doProcess_ended fuel _ _ _ _ _ (by rw [PSt.resume_core]; exact h1) hd
          · cases h; exact h1
        · split at h <;> cases h <;> exact h1

/-- A call that sets the pointer has all contents; if it points into the input, they are no longer than that. -/
theorem refCall_held {z : Inflater} {q : Place} {call fuel : Nat} {s s' : PSt (FileSt z)} {b ext b' e : List Nat} {r : PStatus}
    (hr : refCall call fuel s b ext = some q) (h : processJpeg (fileParser z) fuel s b ext = some (s', b', e, r)) :
    Held ext.length (.input call) q s'.core ∧ ∀ k, q = .input k → k = call := by
  have place : ∀ (p q : Place) (fuel : Nat) (s : PSt (FileSt z)) (w : List Nat), refProcess p fuel s w = some q → q = p ∨ q = .collected := by
    intro p q fuel
    induction fuel with
    | zero => intro s w h; cases s <;> simp [refProcess] at h
    | succ fuel ih =>
      intro s w h
      cases s with
      | working s =>
        rw [refProcess] at h
        rcases he : fileStep z s w with ⟨s1, n, nx⟩
        rw [he] at h
        cases nx with
        | go =>
          dsimp only at h
          cases hst : refStep p w s with
          | none => rw [hst] at h; exact ih _ _ h
          | some q' =>
            rw [hst] at h
            cases h
            cases s <;> simp [refStep] at hst
            rw [← hst.2]
            split
            · exact .inl rfl
            · exact .inr rfl
        | finished => cases h
        | wait => cases h
        | fail c => cases h
      | paused s => simp [refProcess] at h
      | done s => simp [refProcess] at h
      | dead s c => simp [refProcess] at h
  have idx : ∀ (fuel : Nat) (s : PSt (FileSt z)) (w : List Nat), refProcess (.input call) fuel s w = some q → ∀ k, q = .input k → k = call := by
    intro fuel s w h k hk
    rcases place _ _ _ _ _ h with rfl | rfl
    · exact (Place.input.injEq _ _ ▸ hk).symm
    · cases hk
  unfold processJpeg at h
  split at h
  · simp [refCall] at hr
  · have hr' : refLive call fuel s b ext = some q := by
      unfold refCall at hr
      split at hr
      · cases hr
      · exact hr
    clear hr
    unfold refLive at hr'
    split at h
    · rename_i hb
      rw [if_pos hb] at hr'
      obtain ⟨w, st, hd⟩ := processDirect_doProcess h
      exact ⟨refProcess_held (fun h => by cases h) fuel _ _ _ _ _ hr' hd, idx _ _ _ hr'⟩
    · rename_i hb
      rw [if_neg hb] at hr'
      dsimp only at h hr'
      rcases hd : doProcess (fileParser z) fuel s.resume (b ++ ext.take maxReadAhead) with _ | ⟨s1, w, st⟩
      · rw [hd] at h; cases h
      · rw [hd] at h hr'
        dsimp only at h
        cases hbuf : refProcess (z := z) .buffer fuel s.resume (b ++ ext.take maxReadAhead) with
        | some q' =>
          rw [hbuf] at hr'
          cases hr'
          have hheld := refProcess_held (fun h => by cases h) fuel _ _ _ _ _ hbuf hd
          have hq : q = .buffer ∨ q = .collected := place _ _ _ _ _ hbuf
          have hne : ∀ k, q ≠ .input k := by rintro k rfl; rcases hq with h | h <;> cases h
          have hend : ∀ c, s1.core = .ended c → s'.core = .ended c := by
            intro c hc
            split at h
            · split at h
              · obtain ⟨w2, st2, hd2⟩ := processDirect_doProcess h
                exact doProcess_ended fuel _ _ _ _ _ (by rw [PSt.resume_core]; exact hc) hd2
              · cases h; exact hc
            · split at h <;> cases h <;> exact hc
          obtain ⟨o, h1, h2, _⟩ := hheld
          exact ⟨⟨o, hend _ h1, h2, fun e => absurd e (hne call)⟩, fun k e => absurd e (hne k)⟩
        | none =>
          rw [hbuf] at hr'
          cases st with
          | needMore =>
            dsimp only [Option.none_or] at hr'
            split at hr'
            · rename_i hpos
              rw [if_pos hpos, if_pos rfl] at h
              obtain ⟨w2, st2, hd2⟩ := processDirect_doProcess h
              refine ⟨(refProcess_held (fun h => by cases h) fuel _ _ _ _ _ hr' hd2).mono (by simp), idx _ _ _ hr'⟩
            · cases hr'
          | ok => cases hr'
          | bad c => cases hr'

/-- **The pointer**: whenever it points into the input of a call, that input was at least as long as the contents; and they are then complete. -/
theorem refCalls_place {z : Inflater} {fuel : Nat} (all : List (List Nat × Nat)) : ∀ (calls : List (List Nat × Nat)) (i : Nat) (d : DecState (FileSt z) WJS)
    (ref : Option Place) (rs : List (DResult (FileSt z) WJS × Option Place)), all.drop i = calls → refCalls fuel i calls d ref = some rs →
    (∀ q, ref = some q → ∃ o, d.parser.core = .ended (.original o) ∧ o ≠ [] ∧ ∀ k, q = .input k → ∃ c, all[k]? = some c ∧ o.length ≤ c.1.length) →
    ∀ r ∈ rs, ∀ q, r.2 = some q → ∃ o, r.1.state.parser.core = .ended (.original o) ∧ o ≠ [] ∧ ∀ k, q = .input k → ∃ c, all[k]? = some c ∧ o.length ≤ c.1.length := by
  intro calls
  induction calls with
  | nil =>
    intro i d ref rs _ h _ r hr
    rw [refCalls] at h
    cases h
    simp at hr
  | cons c cs ih =>
    intro i d ref rs hall h hinv r hr
    obtain ⟨piece, space⟩ := c
    rw [refCalls] at h
    cases hc : decodeCall (fileParser z) (streamApi.via fileView) fuel piece space d with
    | none => rw [hc] at h; cases h
    | some r0 =>
      rw [hc] at h
      dsimp only at h
      cases hrec : refCalls fuel (i + 1) cs r0.state (ref.or (refCall i fuel d.parser d.buffer piece)) with
      | none => rw [hrec] at h; cases h
      | some rs' =>
        rw [hrec] at h
        cases h
        have hget : all[i]? = some (piece, space) := by
          have := congrArg (·[0]?) hall
          simpa using this
        have hproc : ∃ s' b' e st, processJpeg (fileParser z) fuel d.parser d.buffer piece = some (s', b', e, st) ∧ r0.state.parser = s' := by
          unfold decodeCall at hc
          rcases hp : processJpeg (fileParser z) fuel d.parser d.buffer piece with _ | ⟨s', b', e, st⟩
          · rw [hp] at hc; cases hc
          · rw [hp] at hc
            refine ⟨s', b', e, st, rfl, ?_⟩
            cases st <;> cases hc <;> rfl
        obtain ⟨s', b', e, st, hp, hs'⟩ := hproc
        have key : ∀ q, ref.or (refCall i fuel d.parser d.buffer piece) = some q → ∃ o, r0.state.parser.core = .ended (.original o) ∧ o ≠ [] ∧
            ∀ k, q = .input k → ∃ c, all[k]? = some c ∧ o.length ≤ c.1.length := by
          intro q hq
          rw [hs']
          cases href : ref with
          | some q' =>
            rw [href] at hq
            cases hq
            obtain ⟨o, h1, h2, h3⟩ := hinv q href
            exact ⟨o, processJpeg_ended h1 hp, h2, h3⟩
          | none =>
            rw [href] at hq
            obtain ⟨⟨o, h1, h2, h3⟩, h4⟩ := refCall_held hq hp
            refine ⟨o, h1, h2, fun k hk => ?_⟩
            have := h4 k hk
            subst this
            exact ⟨_, hget, h3 hk⟩
        rcases List.mem_cons.mp hr with rfl | hr
        · exact key
        · refine ih (i + 1) r0.state _ rs' ?_ hrec key r hr
          have := congrArg List.tail hall
          simpa using this

/-! ## A file in one piece -/

/-- Nothing has been collected, and the file is not at its end. -/
def FileSt.Clean {z : Inflater} : FileSt z → Prop
  | .origData _ storage => storage = []
  | .ended c => ∃ f, c = .image f
  | _ => True

theorem fileStep_clean {z : Inflater} {s s' : FileSt z} {w : List Nat} {n : Nat} (hs : s.Clean) (he : fileStep z s w = (s', n, .go)) (p : Place) :
    s'.Clean ∨ ∃ o, s' = .ended (.original o) ∧ (o ≠ [] → refStep p w s = some p) := by
  cases s with
  | origData left storage =>
    have hs : storage = [] := hs
    subst hs
    right
    simp only [fileStep, takeStep] at he
    split at he
    · rename_i hl
      cases he
      refine ⟨_, rfl, fun ho => ?_⟩
      have : n ≠ 0 := by rintro rfl; simp at ho
      simp only [refStep]
      rw [if_neg (by omega)]
      rfl
    · cases he
  | ended c => simp [fileStep] at he
  | signature =>
    left
    simp only [fileStep] at he
    rcases readStep_cases he with rfl | ⟨b, rest, k, hr, e, _⟩
    · exact hs
    · cases e; trivial
  | headTag met =>
    left
    simp only [fileStep] at he
    rcases readStep_cases he with rfl | ⟨b, rest, k, hr, e, _⟩
    · exact hs
    · split at e <;> cases e
      trivial
  | headSize met =>
    left
    simp only [fileStep] at he
    rcases readStep_cases he with rfl | ⟨b, rest, k, hr, e, _⟩
    · exact hs
    · cases e; trivial
  | itemTag size pos met imet vals =>
    left
    simp only [fileStep] at he
    split at he
    · split at he
      · cases he
      · cases he
        unfold afterHeader
        split <;> trivial
    · rcases readStep_cases he with rfl | ⟨b, rest, k, hr, e, _⟩
      · exact hs
      · cases e
        split <;> trivial
  | itemSize size pos met imet vals =>
    left
    simp only [fileStep] at he
    rcases readStep_cases he with rfl | ⟨b, rest, k, hr, e, _⟩
    · exact hs
    · cases e; trivial
  | itemSkip left size pos met imet vals =>
    left
    simp only [fileStep] at he
    rcases takeStep_cases he with rfl | rfl <;> trivial
  | itemValue tag size pos met imet vals =>
    left
    simp only [fileStep] at he
    rcases readStep_cases he with rfl | ⟨b, rest, k, hr, e, _⟩
    · exact hs
    · cases e; trivial
  | origTag met =>
    left
    simp only [fileStep] at he
    rcases readStep_cases he with rfl | ⟨b, rest, k, hr, e, _⟩
    · exact hs
    · split at e <;> cases e
      trivial
  | origSize =>
    left
    simp only [fileStep] at he
    rcases readStep_cases he with rfl | ⟨b, rest, k, hr, e, _⟩
    · exact hs
    · cases e; rfl
  | sectTag met s =>
    left
    simp only [fileStep] at he
    rcases readStep_cases he with rfl | ⟨b, rest, k, hr, e, _⟩
    · exact hs
    · split at e
      · cases e; trivial
      · split at e <;> cases e
        trivial
  | sectValue met s =>
    left
    simp only [fileStep] at he
    rcases readStep_cases he with rfl | ⟨b, rest, k, hr, e, _⟩
    · exact hs
    · cases e; trivial
  | sectSize tag met s =>
    left
    simp only [fileStep] at he
    rcases readStep_cases he with rfl | ⟨b, rest, k, hr, e, _⟩
    · exact hs
    · split at e
      · cases e; trivial
      · split at e
        · cases e
        · split at e
          · cases e
          · cases hss : sectStart z s tag b with
            | none => rw [hss] at e; cases e
            | some t => rw [hss] at e; cases e; trivial
  | sectSkip left met s =>
    left
    simp only [fileStep] at he
    rcases takeStep_cases he with rfl | rfl <;> trivial
  | sectBody rem tag t met s =>
    left
    simp only [fileStep] at he
    cases hbo : sectBody z s t rem w with
    | more t' k => rw [hbo] at he; cases he; trivial
    | wait t' k => rw [hbo] at he; cases he
    | bad => rw [hbo] at he; cases he
    | done s'' k =>
      rw [hbo] at he
      dsimp only at he
      split at he
      · split at he
        · cases he; exact ⟨_, rfl⟩
        · cases he; trivial
      · cases he

theorem readStep_nx {z : Inflater} {β : Type} {s s' : FileSt z} {p : Rd β} {f : β → Nat → Option (FileSt z)} {w : List Nat} {n : Nat} {nx : PNext}
    (h : readStep s p f w = (s', n, nx)) : nx = .go ∨ nx = .wait ∨ ∃ c, nx = .fail c := by
  unfold readStep at h
  split at h
  · split at h <;> cases h
    · exact .inl rfl
    · exact .inr (.inr ⟨_, rfl⟩)
  · cases h; exact .inr (.inl rfl)
  · cases h; exact .inr (.inr ⟨_, rfl⟩)

theorem refProcess_whole {z : Inflater} {p : Place} {o : List Nat} (ho : o ≠ []) : ∀ (fuel : Nat) (s : FileSt z) (w w' : List Nat), s.Clean →
    doProcess (fileParser z) fuel (.working s) w = some (.done (.ended (.original o)), w', .ok) → refProcess p fuel (.working s) w = some p := by
  intro fuel
  induction fuel with
  | zero => intro s w w' _ h; simp [doProcess] at h
  | succ fuel ih =>
    intro s w w' hs h
    rw [doProcess] at h
    rw [refProcess]
    rcases he : fileStep z s w with ⟨s1, n, nx⟩
    have he' : (fileParser z).step s w = (s1, n, nx) := he
    rw [he'] at h
    cases nx with
    | go =>
      dsimp only at h ⊢
      rcases fileStep_clean hs he p with hc | ⟨o', rfl, hr⟩
      · rw [ih s1 _ _ hc h]
        cases hst : refStep p w s with
        | none => rfl
        | some q =>
          obtain ⟨x, hx, _⟩ : ∃ x, s1 = .ended (.original x) ∧ True := by
            cases s with
            | origData left storage =>
              simp only [fileStep, takeStep] at he
              split at he
              · cases he; exact ⟨_, rfl, trivial⟩
              · cases he
            | _ => simp [refStep] at hst
          rw [hx] at hc
          obtain ⟨f, hf⟩ := hc
          cases hf
      · have := doProcess_ended fuel (.working (.ended (.original o'))) _ _ _ _ rfl h
        have : o = o' := by
          have e : (FileSt.ended (.original o) : FileSt z) = .ended (.original o') := this
          cases e
          rfl
        subst this
        rw [hr ho]
        rfl
    | finished =>
      exfalso
      cases s with
      | ended c =>
        obtain ⟨f, rfl⟩ := hs
        rw [fileStep_ended] at he
        cases he
        have := doProcess_ended fuel (.done (.ended (.image f))) _ _ _ _ rfl h
        cases this
      | origData left storage =>
        simp only [fileStep, takeStep] at he
        split at he <;> cases he
      | sectBody rem tag t met s =>
        simp only [fileStep] at he
        split at he
        · cases he
        · split at he <;> cases he
        · cases he
        · cases he
      | itemTag size pos met imet vals =>
        simp only [fileStep] at he
        split at he
        · split at he <;> cases he
        · rcases readStep_nx he with h | h | ⟨c, h⟩ <;> cases h
      | itemSkip left size pos met imet vals =>
        simp only [fileStep, takeStep] at he
        split at he <;> cases he
      | sectSkip left met s =>
        simp only [fileStep, takeStep] at he
        split at he <;> cases he
      | _ =>
        simp only [fileStep] at he
        rcases readStep_nx he with h | h | ⟨c, h⟩ <;> cases h
    | wait => cases h
    | fail c => cases h

end Brunsli
