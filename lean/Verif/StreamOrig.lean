import Verif.Alias
/-!
# A file that holds the original bytes, decoded in pieces
-/

namespace Brunsli

/-! ## What holds throughout a run of the parser -/

/-- The stages have the property, and no error has occurred. -/
def PSt.All {σ : Type} (Q : σ → Prop) : PSt σ → Prop
  | .dead _ _ => False
  | s => Q s.core

theorem PSt.All.resume {σ : Type} {Q : σ → Prop} {s : PSt σ} : s.resume.All Q ↔ s.All Q := by cases s <;> exact Iff.rfl

/-- What holds before a step that does not fail, if it holds after it. -/
def Parser.Back {σ : Type} (P : Parser σ) (Q : σ → Prop) : Prop := ∀ s w s' n nx, P.step s w = (s', n, nx) → (∀ c, nx ≠ .fail c) → Q s' → Q s

theorem doProcess_back {σ : Type} {P : Parser σ} {Q : σ → Prop} (hQ : P.Back Q) : ∀ (fuel : Nat) (s s' : PSt σ) (w w' : List Nat) (r : PStatus),
    doProcess P fuel s w = some (s', w', r) → s'.All Q → s.All Q := by
  intro fuel
  induction fuel with
  | zero => intro s s' w w' r h; simp [doProcess] at h
  | succ fuel ih =>
    intro s s' w w' r h hs
    cases s with
    | working s =>
      rw [doProcess] at h
      rcases he : P.step s w with ⟨s1, n, nx⟩
      rw [he] at h
      cases nx with
      | go => exact hQ s w s1 n _ he (fun _ => nofun) (ih (.working s1) s' _ _ _ h hs)
      | finished => exact hQ s w s1 n _ he (fun _ => nofun) (ih (.done s1) s' _ _ _ h hs)
      | wait => cases h; exact hQ s w s1 n _ he (fun _ => nofun) hs
      | fail c => cases h; exact hs.elim
    | paused s => rw [doProcess] at h; cases h; exact hs
    | done s =>
      rw [doProcess] at h
      split at h <;> cases h
      · exact hs.elim
      · exact hs
    | dead s c => rw [doProcess] at h; cases h; exact hs

theorem processJpeg_back {σ : Type} {P : Parser σ} {Q : σ → Prop} (hQ : P.Back Q) {fuel : Nat} {s s' : PSt σ} {b ext b' e : List Nat} {r : PStatus}
    (h : processJpeg P fuel s b ext = some (s', b', e, r)) (hs : s'.All Q) : s.All Q := by
  have direct : ∀ {s s' : PSt σ} {ext b e : List Nat} {r : PStatus}, processDirect P fuel s ext = some (s', b, e, r) → s'.All Q → s.All Q := by
    intro s s' ext b e r h hs
    unfold processDirect at h
    rcases hd : doProcess P fuel s ext with _ | ⟨s1, w, st⟩
    · rw [hd] at h; cases h
    · rw [hd] at h
      have := doProcess_back hQ fuel s s1 ext w st hd
      cases st <;> cases h <;> exact this hs
  unfold processJpeg at h
  split at h
  · cases h; exact hs.elim
  · split at h
    · exact PSt.All.resume.mp (direct h hs)
    · dsimp only at h
      rcases hd : doProcess P fuel s.resume (b ++ ext.take maxReadAhead) with _ | ⟨s1, w, st⟩
      · rw [hd] at h; cases h
      · rw [hd] at h
        dsimp only at h
        have h1 := doProcess_back hQ fuel s.resume s1 _ w st hd
        refine PSt.All.resume.mp (h1 ?_)
        split at h
        · split at h
          · exact PSt.All.resume.mp (direct h hs)
          · cases h; exact hs
        · split at h <;> cases h <;> exact hs

theorem feed_back {σ : Type} {P : Parser σ} {Q : σ → Prop} (hQ : P.Back Q) {fuel : Nat} : ∀ (chunks : List (List Nat)) (s s' : PSt σ) (b b' e : List Nat) (r : PStatus),
    feed P fuel s b chunks = some (s', b', e, r) → s'.All Q → s.All Q
  | [], s, s', b, b', e, r, h, hs => by
    simp only [feed, Option.some.injEq, Prod.mk.injEq] at h
    rw [h.1]; exact hs
  | c :: cs, s, s', b, b', e, r, h, hs => by
    rw [feed] at h
    rcases hp : processJpeg P fuel s b c with _ | ⟨s1, b1, e1, r1⟩
    · rw [hp] at h; cases h
    · rw [hp] at h
      cases r1 with
      | needMore =>
        dsimp only at h
        split at h
        · exact processJpeg_back hQ hp (feed_back hQ cs s1 s' b1 b' e r h hs)
        · cases h
      | ok =>
        simp only [Option.some.injEq, Prod.mk.injEq] at h
        rw [← h.1] at hs
        exact processJpeg_back hQ hp hs
      | bad c =>
        simp only [Option.some.injEq, Prod.mk.injEq] at h
        rw [← h.1] at hs
        exact processJpeg_back hQ hp hs

/-- Once the contents are complete, they stay. -/
theorem feed_ended {z : Inflater} {c : Content SectState} {fuel : Nat} : ∀ (chunks : List (List Nat)) (s s' : PSt (FileSt z)) (b b' e : List Nat) (r : PStatus),
    s.core = .ended c → feed (fileParser z) fuel s b chunks = some (s', b', e, r) → s'.core = .ended c
  | [], s, s', b, b', e, r, hs, h => by
    simp only [feed, Option.some.injEq, Prod.mk.injEq] at h
    rw [← h.1]; exact hs
  | x :: cs, s, s', b, b', e, r, hs, h => by
    rw [feed] at h
    rcases hp : processJpeg (fileParser z) fuel s b x with _ | ⟨s1, b1, e1, r1⟩
    · rw [hp] at h; cases h
    · rw [hp] at h
      have h1 := processJpeg_ended hs hp
      cases r1 with
      | needMore =>
        dsimp only at h
        split at h
        · exact feed_ended cs s1 s' b1 b' e r h1 h
        · cases h
      | ok =>
        simp only [Option.some.injEq, Prod.mk.injEq] at h
        rw [← h.1]; exact h1
      | bad c =>
        simp only [Option.some.injEq, Prod.mk.injEq] at h
        rw [← h.1]; exact h1

/-! ## Before the contents are complete -/

/-- The file is not known to hold an image. -/
def FileSt.Plain {z : Inflater} : FileSt z → Prop
  | .sectTag _ _ | .sectValue _ _ | .sectSize _ _ _ | .sectSkip _ _ _ | .sectBody _ _ _ _ _ => False
  | .ended (.image _) => False
  | _ => True

theorem plain_back (z : Inflater) : (fileParser z).Back FileSt.Plain := by
  intro s w s' n nx he hn hs
  have he : fileStep z s w = (s', n, nx) := he
  cases s with
  | sectTag met s =>
    simp only [fileStep] at he
    rcases readStep_cases he with rfl | ⟨b, rest, k, hr, e, _⟩
    · exact hs
    · split at e
      · cases e; exact hs
      · split at e <;> cases e
        exact hs
  | sectValue met s =>
    simp only [fileStep] at he
    rcases readStep_cases he with rfl | ⟨b, rest, k, hr, e, _⟩
    · exact hs
    · cases e; exact hs
  | sectSize tag met s =>
    simp only [fileStep] at he
    rcases readStep_cases he with rfl | ⟨b, rest, k, hr, e, _⟩
    · exact hs
    · split at e
      · cases e; exact hs
      · split at e
        · cases e
        · split at e
          · cases e
          · cases hss : sectStart z s tag b with
            | none => rw [hss] at e; cases e
            | some t => rw [hss] at e; cases e; exact hs
  | sectSkip left met s =>
    simp only [fileStep] at he
    rcases takeStep_cases he with rfl | rfl <;> exact hs
  | sectBody rem tag t met s =>
    simp only [fileStep] at he
    cases hbo : sectBody z s t rem w with
    | more t' k => rw [hbo] at he; cases he; exact hs
    | wait t' k => rw [hbo] at he; cases he; exact hs
    | bad => rw [hbo] at he; cases he; exact absurd rfl (hn _)
    | done s'' k =>
      rw [hbo] at he
      dsimp only at he
      split at he
      · split at he <;> cases he <;> exact hs
      · cases he; exact hs
  | ended c =>
    simp only [fileStep] at he
    cases he
    exact hs
  | _ => trivial

/-- What the calls give of a file that holds the bytes `whole`: as `Delivers`, but the last call that takes input may ask for space although there is some (C40). -/
structure Hands {σ τ : Type} (whole : List Nat) (rs : List (DResult σ τ)) : Prop where
  noError : ∀ r ∈ rs, r.status ≠ .error
  allRead : ∀ r ∈ rs, r.unread = []
  inOrder : (rs.map DResult.out).flatten <+: whole
  last : ∀ r, rs.getLast? = some r → (r.status = .done ∧ (rs.map DResult.out).flatten = whole) ∨ r.status = .needsOutput

/-- Nothing is given out before the contents are complete; then what is not given out is in the queue. -/
def Handing {z : Inflater} (o out : List Nat) (d : DecState (FileSt z) WJS) : Prop :=
  (d.ser.stage = .init ∧ d.ser.queue = [] ∧ out = []) ∨
    (d.parser.core = .ended (.original o) ∧ d.ser.stage = .done ∧ out ++ d.ser.queue.flatten = o)

theorem run_hands {z : Inflater} {o : List Nat} (ho : o ≠ []) {fuel : Nat} (hfuel : 0 < fuel) :
    ∀ (calls : List (List Nat × Nat)) (d : DecState (FileSt z) WJS) (out : List Nat), Arriving fuel (.original o) d.parser d.buffer (calls.map Prod.fst) →
      Handing o out d →
      ∃ rs, decodeCalls (fileParser z) (streamApi.via fileView) fuel calls d = some rs ∧ (∀ r ∈ rs, r.status ≠ .error) ∧ (∀ r ∈ rs, r.unread = []) ∧
        out ++ (rs.map DResult.out).flatten <+: o ∧
        (∀ r, rs.getLast? = some r → (r.status = .done ∧ out ++ (rs.map DResult.out).flatten = o) ∨ r.status = .needsOutput) ∧
        ∀ r ∈ rs, r.state.parser.All FileSt.Plain ∧ ∀ o', r.state.parser.core = .ended (.original o') → o' = o := by
  intro calls
  induction calls with
  | nil =>
    intro d out h hd
    refine ⟨[], by rw [decodeCalls], fun r h => by simp at h, fun r h => by simp at h, ?_, fun r h => by simp at h, fun r h => by simp at h⟩
    simp only [List.map_nil, List.flatten_nil, List.append_nil]
    rcases hd with ⟨_, _, rfl⟩ | ⟨_, _, h⟩
    · exact List.nil_prefix
    · exact ⟨_, h⟩
  | cons c calls ih =>
    intro d out h hd
    obtain ⟨piece, space⟩ := c
    rw [List.map_cons] at h
    obtain ⟨s', b', r, hp, hr, hnext⟩ := Arriving.call hfuel h
    have hplain : s'.All FileSt.Plain := by
      rcases hnext with hn | ⟨hn, _, _⟩
      · exact feed_back (plain_back z) _ _ _ _ _ _ _ hn trivial
      · rw [hn]; trivial
    have hunique : ∀ o', s'.core = .ended (.original o') → o' = o := by
      intro o' ho'
      rcases hnext with hn | ⟨hn, _, _⟩
      · have := feed_ended _ _ _ _ _ _ _ ho' hn
        simp only [PSt.core] at this
        cases this
        rfl
      · rw [hn] at ho'
        simp only [PSt.core] at ho'
        cases ho'
        rfl
    generalize hw' : serialize (streamApi.via fileView) s' space d.ser = w
    have hcall : decodeCall (fileParser z) (streamApi.via fileView) fuel piece space d = some ⟨dStatus w.status, [], w.out, w.left, ⟨s', b', w.state⟩⟩ := by
      unfold decodeCall
      rw [hp]
      cases r with
      | bad c => exact absurd rfl (hr c)
      | ok => dsimp only; rw [hw']; cases w.status <;> rfl
      | needMore => dsimp only; rw [hw']; cases w.status <;> rfl
    have hstep : Handing o (out ++ w.out) (⟨s', b', w.state⟩ : DecState (FileSt z) WJS) ∧ w.status ≠ .error ∧
        (s' = .done (.ended (.original o)) → (w.status = .done ∧ out ++ w.out = o) ∨ w.status = .needsOutput) := by
      have e0 : pushOutput space [] = ([], space, []) := by cases space <;> rfl
      rcases hd with ⟨h1, h2, rfl⟩ | ⟨h1, h2, h3⟩
      · unfold serialize at hw'
        rw [h1] at hw'
        dsimp only at hw'
        rw [h2, e0] at hw'
        dsimp only at hw'
        by_cases hs : s' = .done (.ended (.original o))
        · rw [hs] at hw'
          rw [if_neg (by simp [SerApi.via, streamApi, fileView, View.canStart]), if_pos (by rfl)] at hw'
          have ev : (streamApi.via fileView).original (PSt.done (.ended (.original o)) : PSt (FileSt z)) = some o := by
            show (if o = [] then none else some o) = some o
            rw [if_neg ho]
          rw [ev] at hw'
          subst hw'
          refine ⟨.inr ⟨by rw [hs]; rfl, rfl, by simp⟩, by simp, fun _ => .inr (by simp)⟩
        · have hc : (streamApi.via (fileView (z := z))).canStart s' = false := by
            cases s' with
            | dead t c => exact hplain.elim
            | working t => cases t <;> first | rfl | exact absurd hplain (by simp [PSt.All, PSt.core, FileSt.Plain]) | skip
            | paused t => cases t <;> first | rfl | exact absurd hplain (by simp [PSt.All, PSt.core, FileSt.Plain]) | skip
            | done t =>
              cases t with
              | ended c =>
                cases c with
                | image f => exact hplain.elim
                | original o' => rw [hunique o' rfl] at hs; exact absurd rfl hs
              | sectTag _ _ => exact hplain.elim
              | sectValue _ _ => exact hplain.elim
              | sectSize _ _ _ => exact hplain.elim
              | sectSkip _ _ _ => exact hplain.elim
              | sectBody _ _ _ _ _ => exact hplain.elim
              | _ => rfl
          rw [hc, if_pos (by simp)] at hw'
          subst hw'
          exact ⟨.inl ⟨rfl, rfl, by simp⟩, by simp, fun h => absurd h hs⟩
      · have hs' : s'.core = .ended (.original o) := processJpeg_ended h1 hp
        unfold serialize at hw'
        rw [h2] at hw'
        dsimp only at hw'
        subst hw'
        have hf := pushOutput_flatten space d.ser.queue
        refine ⟨.inr ⟨hs', rfl, by rw [List.append_assoc, hf, h3]⟩, ?_, fun _ => ?_⟩
        · dsimp only; split <;> simp
        · dsimp only
          by_cases hq : (pushOutput space d.ser.queue).2.2 = []
          · left
            rw [hq] at hf ⊢
            refine ⟨rfl, ?_⟩
            rw [← h3, ← hf]
            simp
          · right
            cases hq2 : (pushOutput space d.ser.queue).2.2 with
            | nil => exact absurd hq2 hq
            | cons a b => rfl
    obtain ⟨k1, k2, k3⟩ := hstep
    obtain ⟨rs, i1, i2, i3, i4, i5, i6⟩ := ih ⟨s', b', w.state⟩ (out ++ w.out) hnext k1
    refine ⟨⟨dStatus w.status, [], w.out, w.left, ⟨s', b', w.state⟩⟩ :: rs, ?_, ?_, ?_, ?_, ?_, ?_⟩
    · rw [decodeCalls, hcall]
      dsimp only
      rw [i1]
      rfl
    · intro r hr
      rcases List.mem_cons.mp hr with rfl | hr
      · show dStatus w.status ≠ .error
        revert k2
        cases w.status <;> simp [dStatus]
      · exact i2 r hr
    · intro r hr
      rcases List.mem_cons.mp hr with rfl | hr
      · rfl
      · exact i3 r hr
    · rw [List.map_cons, List.flatten_cons, ← List.append_assoc]
      exact i4
    · intro r hr
      rw [List.map_cons, List.flatten_cons, ← List.append_assoc]
      cases rs with
      | cons x rs =>
        rw [List.getLast?_cons_cons] at hr
        exact i5 r hr
      | nil =>
        simp only [List.getLast?_singleton, Option.some.injEq] at hr
        have hc : calls = [] := by
          cases calls with
          | nil => rfl
          | cons c cs =>
            rw [decodeCalls] at i1
            split at i1
            · cases i1
            · rename_i x _
              cases hh : decodeCalls (fileParser z) (streamApi.via fileView) fuel cs x.state with
              | none => rw [hh] at i1; cases i1
              | some y => rw [hh] at i1; cases i1
        subst hc
        have hs' : s' = .done (.ended (.original o)) := by
          rcases hnext with hn | ⟨hn, _, _⟩
          · simp [feed] at hn
          · exact hn
        subst hr
        rcases k3 hs' with ⟨h1, h2⟩ | h1
        · exact .inl ⟨by rw [h1]; rfl, by simpa using h2⟩
        · exact .inr (by rw [h1]; rfl)
    · intro r hr
      rcases List.mem_cons.mp hr with rfl | hr
      · exact ⟨hplain, hunique⟩
      · exact i6 r hr

/-- The decoder fed a file that holds the bytes `o`, in whatever pieces and with whatever space. -/
theorem Decoder.hands {z : Inflater} {par : Codec} (hz : ∀ p, (par.decompress p).map List.flatten = z.whole p) (file o : List Nat) (ho : o ≠ [])
    (hc : fileContent par file = some (.original o)) (T : HSlot → CodeTable) (calls : List (List Nat × Nat)) (hcalls : (calls.map Prod.fst).flatten = file) :
    ∃ fuel rs, Decoder.run z fuel T calls = some rs ∧ Hands o rs ∧ ∀ r ∈ rs, ∀ o', r.state.parser.core = .ended (.original o') → o' = o := by
  have hne : (calls.map Prod.fst).flatten ≠ [] := fun e => by
    rw [← hcalls, e] at hc
    simp [fileContent, decodeFile, readFile, Rd.andThen, readSignature, Rd.bytes] at hc
  obtain ⟨fuel, hfeed⟩ := (C27_any_pieces hz (calls.map Prod.fst) hne (.done (.ended (.original o))) []).mpr ⟨_, by rw [hcalls]; exact hc, rfl, rfl⟩
  have hpos : 0 < fuel := by
    cases fuel with
    | succ n => omega
    | zero =>
      exfalso
      cases calls with
      | nil => exact hne rfl
      | cons c cs =>
        rw [List.map_cons, feed] at hfeed
        simp [processJpeg, processDirect, PSt.resume, doProcess] at hfeed
  obtain ⟨rs, h1, h2, h3, h4, h5, h6⟩ := run_hands ho hpos calls (Decoder.start z T) [] (.inl hfeed) (.inl ⟨rfl, rfl, rfl⟩)
  exact ⟨fuel, rs, h1, ⟨h2, h3, by simpa using h4, by simpa using h5⟩, fun r hr => (h6 r hr).2⟩

/-! ## Undefined behaviour of the writer ends with an error -/

theorem streamMarker_broken {v : View} {a a' : WJS} {m : Nat} {cs : List (List Nat)} {fin : Bool} (h : streamMarker v a m = .ok (a', cs, fin)) : a'.broken = a.broken := by
  unfold streamMarker at h
  split at h
  · cases hs : v.jpg.scans[a.base.scan]? with
    | none => rw [hs] at h; cases h
    | some s =>
      rw [hs] at h
      dsimp only at h
      cases ho : streamScan v s a.base a.scan with
      | ok o => rw [ho] at h; cases h; rfl
      | fail => rw [ho] at h; cases h
      | ub => rw [ho] at h; cases h
  · cases ho : writeMarker v.jpg a.base m with
    | ok o => rw [ho] at h; cases h; rfl
    | fail => rw [ho] at h; cases h
    | ub => rw [ho] at h; cases h

theorem prodSections_broken (v : View) : ∀ (ms : List Nat) (a : WJS), a.broken = false →
    (prodSections streamApi v ms a).2.1.broken = true → (prodSections streamApi v ms a).1 = .error
  | [], a, ha, h => by
    rw [prodSections] at h
    rw [ha] at h
    cases h
  | m :: ms, a, ha, h => by
    rw [prodSections] at h ⊢
    have em : streamApi.marker v a m = match streamMarker v a m with
      | .ok (a, cs, fin) => (a, cs, if fin then .done else .needsInput)
      | .fail => (a, [], .error)
      | .ub => ({ a with broken := true }, [], .error) := rfl
    rw [em] at h ⊢
    cases hm : streamMarker v a m with
    | ok o =>
      obtain ⟨a', cs, fin⟩ := o
      have hb := streamMarker_broken hm
      rw [hm] at h
      cases fin with
      | true => exact prodSections_broken v ms a' (hb.trans ha) h
      | false =>
        have h : a'.broken = true := h
        rw [hb, ha] at h
        cases h
    | fail => rfl
    | ub => rfl

theorem prod_broken (v : View) (st : SStage) (a : WJS) (ha' : a.broken = true → st = .error) (h : (prod streamApi v st a).2.1.broken = true) :
    (prod streamApi v st a).1 = .error := by
  by_cases hs : st = .error
  · rw [hs]; rfl
  · have ha : a.broken = false := by
      cases hb : a.broken with
      | false => rfl
      | true => exact absurd (ha' hb) hs
    clear ha'
    cases st with
    | error => rfl
    | done => exact absurd (ha.symm.trans h) (by simp)
    | sections ms => exact prodSections_broken v ms a ha h
    | init =>
      unfold prod at h ⊢
      dsimp only at h ⊢
      split at h
      · exact absurd (ha.symm.trans h) (by simp)
      · rename_i h1
        rw [if_neg h1]
        split at h
        · rename_i h2
          rw [if_pos h2]
          cases ho : streamApi.original v with
          | none => rfl
          | some o => rw [ho] at h; exact absurd (ha.symm.trans h) (by simp)
        · rename_i h2
          rw [if_neg h2]
          split at h
          · exact absurd (ha.symm.trans h) (by simp)
          · rename_i h3
            rw [if_neg h3]
            split at h
            · exact absurd (ha.symm.trans h) (by simp)
            · rename_i h4
              rw [if_neg h4]
              exact prodSections_broken v _ _ ha h

theorem decodeCalls_broken {z : Inflater} {fuel : Nat} : ∀ (calls : List (List Nat × Nat)) (d : DecState (FileSt z) WJS) (rs : List (DResult (FileSt z) WJS)),
    (d.ser.aux.broken = true → d.ser.stage = .error) → decodeCalls (fileParser z) (streamApi.via fileView) fuel calls d = some rs →
    ∀ r ∈ rs, r.state.ser.aux.broken = true → r.status = .error
  | [], d, rs, _, h, r, hr, _ => by
    rw [decodeCalls] at h
    cases h
    simp at hr
  | (piece, space) :: cs, d, rs, hd, h, r, hr, hb => by
    rw [decodeCalls] at h
    cases hc : decodeCall (fileParser z) (streamApi.via fileView) fuel piece space d with
    | none => rw [hc] at h; cases h
    | some r0 =>
      rw [hc] at h
      dsimp only at h
      cases hrec : decodeCalls (fileParser z) (streamApi.via fileView) fuel cs r0.state with
      | none => rw [hrec] at h; cases h
      | some rs' =>
        rw [hrec] at h
        cases h
        have key : (r0.state.ser.aux.broken = true → r0.state.ser.stage = .error) ∧ (r0.state.ser.aux.broken = true → r0.status = .error) := by
          unfold decodeCall at hc
          rcases hp : processJpeg (fileParser z) fuel d.parser d.buffer piece with _ | ⟨s', b', e, st⟩
          · rw [hp] at hc; cases hc
          · rw [hp] at hc
            have hst := serialize_status (streamApi.via fileView) s' space d.ser
            have hq : (serialize (streamApi.via fileView) s' space d.ser).state.aux.broken = true →
                (serialize (streamApi.via fileView) s' space d.ser).state.stage = .error := fun h => by
              rw [serialize_via] at h ⊢
              have hpr := serialize_prod streamApi (fileView s') space d.ser
              rw [hpr.2.1]
              rw [hpr.2.2] at h
              exact prod_broken _ _ _ hd h
            have hq' : (serialize (streamApi.via fileView) s' space d.ser).state.aux.broken = true →
                (serialize (streamApi.via fileView) s' space d.ser).status = .error := fun h => by rw [hst, hq h]; rfl
            cases st with
            | bad c => cases hc; exact ⟨hd, fun _ => rfl⟩
            | ok => cases hc; exact ⟨hq, fun h => by dsimp only; rw [hq' h]⟩
            | needMore => cases hc; exact ⟨hq, fun h => by dsimp only; rw [hq' h]⟩
        rcases List.mem_cons.mp hr with rfl | hr
        · exact key.2 hb
        · exact decodeCalls_broken cs r0.state rs' key.1 hrec r hr hb

end Brunsli
