import Verif.StreamWatch
import Verif.PropsR
/-!
# The whole decoder, fed in pieces

`BrunsliDecoder::Decode` (c/dec/brunsli_decode.cc:2509-2565) with the parser of `StreamFile.lean` and the writer of `StreamOut.lean`.
-/

namespace Brunsli

/-- `BrunsliDecoder` as constructed; `T` is what the tables of Huffman codes hold before they are filled. -/
def Decoder.start (z : Inflater) (T : HSlot → CodeTable) : DecState (FileSt z) WJS := ⟨.working .signature, [], SState.init (WJS.init T)⟩

/-- Calls of `BrunsliDecoder::Decode`, each with some input and some space for output. -/
def Decoder.run (z : Inflater) (fuel : Nat) (T : HSlot → CodeTable) (calls : List (List Nat × Nat)) : Option (List (DResult (FileSt z) WJS)) :=
  decodeCalls (fileParser z) (streamApi.via fileView) fuel calls (Decoder.start z T)

/-! ## Once the writer can start it can always continue -/

/-- The DC or the AC section has begun. -/
def FileSt.InCoefs {z : Inflater} : FileSt z → Prop
  | .sectTag met _ => 7 ∈ met ∨ 8 ∈ met
  | .sectValue met _ => 7 ∈ met ∨ 8 ∈ met
  | .sectSkip _ met _ => 7 ∈ met ∨ 8 ∈ met
  | .sectSize _ met _ => 7 ∈ met ∨ 8 ∈ met
  | .sectBody _ _ _ met _ => 7 ∈ met ∨ 8 ∈ met
  | _ => False

def FileSt.Begun {z : Inflater} (s : FileSt z) : Prop := s.InCoefs ∨ ∃ c, s = .ended c

theorem FileSt.inCoefs_iff {z : Inflater} (s : FileSt z) : s.view.canStart = true ↔ s.InCoefs := by
  cases s <;> simp [FileSt.view, FileSt.InCoefs, View.canStart, SectState.view]

def PSt.Shown {z : Inflater} : PSt (FileSt z) → Prop
  | .dead _ _ => True
  | s => (fileView s).canStart = true

def PSt.Begun {z : Inflater} : PSt (FileSt z) → Prop
  | .working s => s.Begun
  | s => s.Shown

theorem fileView_ended {z : Inflater} (c : Content SectState) : (fileView (z := z) (.done (.ended c))).done = true := by
  cases c <;> rfl

theorem fileView_done {z : Inflater} {s : FileSt z} (h : s.Begun) : (fileView (.done s)).canStart = true := by
  rcases h with h | ⟨c, rfl⟩
  · cases s with
    | sectTag met s => exact (FileSt.inCoefs_iff _).mpr h
    | sectValue met s => exact (FileSt.inCoefs_iff _).mpr h
    | sectSkip left met s => exact (FileSt.inCoefs_iff _).mpr h
    | sectSize tag met s => exact (FileSt.inCoefs_iff _).mpr h
    | sectBody rem tag t met s => exact (FileSt.inCoefs_iff _).mpr h
    | _ => exact h.elim
  · simp [View.canStart, fileView_ended]

theorem PSt.Shown.resume {z : Inflater} {s : PSt (FileSt z)} (h : s.Shown) : s.resume.Begun := by
  cases s with
  | working s => exact .inl ((FileSt.inCoefs_iff s).mp h)
  | paused s => exact .inl ((FileSt.inCoefs_iff s).mp h)
  | done s => exact h
  | dead s c => trivial

theorem fileStep_begun {z : Inflater} {s s' : FileSt z} {w : List Nat} {n : Nat} {nx : PNext} (h : s.Begun) (he : fileStep z s w = (s', n, nx)) :
    s'.Begun ∧ (nx = .wait → s'.InCoefs) := by
  rcases h with h | ⟨c, rfl⟩
  · suffices hs : s'.InCoefs ∨ (nx = .go ∧ ∃ c, s' = .ended c) by
      rcases hs with hs | ⟨e, c, hc⟩
      · exact ⟨.inl hs, fun _ => hs⟩
      · exact ⟨.inr ⟨c, hc⟩, fun e2 => by rw [e] at e2; cases e2⟩
    cases s with
    | sectTag met s =>
      simp only [fileStep] at he
      rcases readStep_cases he with rfl | ⟨b, rest, k, hr, e, _⟩
      · exact .inl h
      · have ht := (readTag_ok hr).2.2.2.2
        have sub : 7 ∈ b.2.2 ∨ 8 ∈ b.2.2 := by rw [ht]; exact h.imp (List.mem_cons_of_mem _) (List.mem_cons_of_mem _)
        split at e
        · cases e; exact .inl sub
        · split at e
          · cases e
          · cases e; exact .inl sub
    | sectValue met s =>
      simp only [fileStep] at he
      rcases readStep_cases he with rfl | ⟨b, rest, k, _, e, _⟩
      · exact .inl h
      · cases e; exact .inl h
    | sectSkip left met s =>
      simp only [fileStep] at he
      rcases takeStep_cases he with rfl | rfl <;> exact .inl h
    | sectSize tag met s =>
      simp only [fileStep] at he
      rcases readStep_cases he with rfl | ⟨b, rest, k, _, e, _⟩
      · exact .inl h
      · split at e
        · cases e; exact .inl h
        · split at e
          · cases e
          · split at e
            · cases e
            · cases hs : sectStart z s tag b with
              | none => rw [hs] at e; cases e
              | some t => rw [hs] at e; cases e; exact .inl h
    | sectBody rem tag t met s =>
      simp only [fileStep] at he
      cases hbo : sectBody z s t rem w with
      | more t' k => rw [hbo] at he; cases he; exact .inl h
      | wait t' k => rw [hbo] at he; cases he; exact .inl h
      | bad => rw [hbo] at he; cases he; exact .inl h
      | done s'' k =>
        rw [hbo] at he
        dsimp only at he
        split at he
        · split at he
          · cases he; exact .inr ⟨rfl, _, rfl⟩
          · cases he; exact .inl h
        · cases he; exact .inl h
    | _ => exact h.elim
  · simp only [fileStep] at he
    cases he
    exact ⟨.inr ⟨c, rfl⟩, nofun⟩

theorem doProcess_shown {z : Inflater} : ∀ (fuel : Nat) (s s' : PSt (FileSt z)) (w w' : List Nat) (r : PStatus), s.Begun →
    doProcess (fileParser z) fuel s w = some (s', w', r) → s'.Shown := by
  intro fuel
  induction fuel with
  | zero => intro s s' w w' r _ h; simp [doProcess] at h
  | succ fuel ih =>
    intro s s' w w' r hs h
    cases s with
    | working s =>
      rw [doProcess] at h
      rcases he : fileStep z s w with ⟨s1, n, nx⟩
      have he' : (fileParser z).step s w = (s1, n, nx) := he
      rw [he'] at h
      obtain ⟨h1, h2⟩ := fileStep_begun hs he
      cases nx with
      | go => exact ih (.working s1) s' _ _ _ h1 h
      | finished => exact ih (.done s1) s' _ _ _ (fileView_done h1) h
      | wait => cases h; exact (FileSt.inCoefs_iff s1).mpr (h2 rfl)
      | fail c => cases h; trivial
    | paused s => rw [doProcess] at h; cases h; exact hs
    | done s =>
      rw [doProcess] at h
      split at h <;> cases h
      · trivial
      · exact hs
    | dead s c => rw [doProcess] at h; cases h; trivial

theorem processDirect_shown {z : Inflater} {fuel : Nat} {s s' : PSt (FileSt z)} {ext b e : List Nat} {r : PStatus} (hs : s.Begun)
    (h : processDirect (fileParser z) fuel s ext = some (s', b, e, r)) : s'.Shown := by
  unfold processDirect at h
  rcases hd : doProcess (fileParser z) fuel s ext with _ | ⟨s1, w, st⟩
  · rw [hd] at h; cases h
  · rw [hd] at h
    have := doProcess_shown fuel s s1 ext w st hs hd
    cases st <;> cases h <;> exact this

theorem processJpeg_shown {z : Inflater} {fuel : Nat} {s s' : PSt (FileSt z)} {b ext b' e : List Nat} {r : PStatus} (hs : s.Shown)
    (h : processJpeg (fileParser z) fuel s b ext = some (s', b', e, r)) : s'.Shown := by
  have key : s.resume.Begun := hs.resume
  unfold processJpeg at h
  split at h
  · cases h; trivial
  · split at h
    · exact processDirect_shown key h
    · dsimp only at h
      rcases hd : doProcess (fileParser z) fuel s.resume (b ++ ext.take maxReadAhead) with _ | ⟨s1, w, st⟩
      · rw [hd] at h; cases h
      · rw [hd] at h
        dsimp only at h
        have h1 := doProcess_shown fuel s.resume s1 _ w st key hd
        split at h
        · split at h
          · exact processDirect_shown h1.resume h
          · cases h; exact h1
        · split at h <;> cases h <;> exact h1

/-! ## All calls -/

/-- What the calls give, one after the other: no error; all bytes of the input are taken; what is delivered, is delivered in order; in the end everything has been
delivered or the space was used up. -/
structure Delivers {σ τ : Type} (whole : List Nat) (rs : List (DResult σ τ)) : Prop where
  noError : ∀ r ∈ rs, r.status ≠ .error
  allRead : ∀ r ∈ rs, r.unread = []
  inOrder : (rs.map DResult.out).flatten <+: whole
  last : ∀ r, rs.getLast? = some r → (r.status = .done ∧ (rs.map DResult.out).flatten = whole) ∨ (r.status = .needsOutput ∧ r.left = 0)

theorem leads_ended (z : Inflater) (f : SectState) : (PSt.done (.ended (.image f)) : PSt (FileSt z)).Leads f := rfl

theorem feed_leads {z : Inflater} {f : SectState} {fuel : Nat} : ∀ (chunks : List (List Nat)) (s s' : PSt (FileSt z)) (b b' e : List Nat) (r : PStatus), s.Ok →
    feed (fileParser z) fuel s b chunks = some (s', b', e, r) → s'.Leads f → s.Leads f
  | [], s, s', b, b', e, r, _, h, hl => by
    simp only [feed, Option.some.injEq, Prod.mk.injEq] at h
    rw [h.1]; exact hl
  | c :: cs, s, s', b, b', e, r, hok, h, hl => by
    rw [feed] at h
    rcases hp : processJpeg (fileParser z) fuel s b c with _ | ⟨s1, b1, e1, r1⟩
    · rw [hp] at h; cases h
    · rw [hp] at h
      obtain ⟨h1, h2⟩ := processJpeg_leads (f := f) hok hp
      cases r1 with
      | needMore =>
        dsimp only at h
        split at h
        · exact h2 (feed_leads cs s1 s' b1 b' e r h1 h hl)
        · cases h
      | ok =>
        simp only [Option.some.injEq, Prod.mk.injEq] at h
        rw [← h.1] at hl
        exact h2 hl
      | bad c =>
        simp only [Option.some.injEq, Prod.mk.injEq] at h
        rw [← h.1] at hl
        exact h2 hl

/-- The parser is on its way to the end, with the pieces that are to come, or is there. -/
def Arriving {z : Inflater} (fuel : Nat) (f : Content SectState) (s : PSt (FileSt z)) (b : List Nat) (chunks : List (List Nat)) : Prop :=
  feed (fileParser z) fuel s b chunks = some (.done (.ended f), [], [], .ok) ∨ (s = .done (.ended f) ∧ b = [] ∧ chunks.flatten = [])

theorem Arriving.leads {z : Inflater} {fuel : Nat} {f : SectState} {s : PSt (FileSt z)} {b : List Nat} {chunks : List (List Nat)} (h : Arriving fuel (.image f) s b chunks)
    (hok : s.Ok) : s.Leads f := by
  rcases h with h | ⟨h, _, _⟩
  · exact feed_leads chunks s _ b _ _ _ hok h (leads_ended z f)
  · rw [h]; exact leads_ended z f

theorem Arriving.call {z : Inflater} {fuel : Nat} (hfuel : 0 < fuel) {f : Content SectState} {s : PSt (FileSt z)} {b piece : List Nat} {chunks : List (List Nat)}
    (h : Arriving fuel f s b (piece :: chunks)) : ∃ s' b' r, processJpeg (fileParser z) fuel s b piece = some (s', b', [], r) ∧ (∀ c, r ≠ .bad c) ∧
      Arriving fuel f s' b' chunks := by
  rcases h with h | ⟨h1, h2, h3⟩
  · rw [feed] at h
    rcases hp : processJpeg (fileParser z) fuel s b piece with _ | ⟨s', b', e', r⟩
    · rw [hp] at h; cases h
    · rw [hp] at h
      cases r with
      | needMore =>
        dsimp only at h
        split at h
        · rename_i he; subst he
          exact ⟨s', b', _, rfl, nofun, .inl h⟩
        · cases h
      | ok =>
        simp only [Option.some.injEq, Prod.mk.injEq, List.append_eq_nil_iff, and_true] at h
        obtain ⟨h1, h2, h3, h4⟩ := h
        subst h3
        exact ⟨s', b', _, rfl, nofun, .inr ⟨h1, h2, h4⟩⟩
      | bad c => simp at h
  · rw [List.flatten_cons, List.append_eq_nil_iff] at h3
    obtain ⟨h3, h4⟩ := h3
    refine ⟨_, _, .ok, ?_, nofun, .inr ⟨rfl, rfl, h4⟩⟩
    rw [h1, h2, h3]
    obtain ⟨k, rfl⟩ : ∃ k, fuel = k + 1 := ⟨fuel - 1, by omega⟩
    simp [processJpeg, processDirect, PSt.resume, doProcess]

/-- The status of a call of the decoder. -/
def dStatus : SStatus → DStatus
  | .done => .done
  | .needsInput => .needsInput
  | .needsOutput => .needsOutput
  | .error => .error

/-- One call of the writer. -/
theorem OnWay.shown {z : Inflater} {f : SectState} {J : JpegData} (hf : f.Result J) (hlate : f.late = false) {whole out : List Nat} {ser : SState WJS}
    (hw : OnWay J whole out ser) {s : PSt (FileSt z)} (hok : s.Ok) (hl : s.Leads f) (hs : ser.stage ≠ .init → s.Shown) (space : Nat) {w : SResult WJS}
    (he : serialize (streamApi.via fileView) s space ser = w) :
    OnWay J whole (out ++ w.out) w.state ∧ (w.state.stage ≠ .init → s.Shown) ∧ w.status ≠ .error ∧ ((fileView s).done = true → w.state.stage = .done) ∧
      (w.status = .needsOutput → w.left = 0) := by
  have hcs : s.Shown ↔ (fileView s).canStart = true := by
    cases s with
    | dead t c => exact hl.elim
    | _ => exact Iff.rfl
  have hst := serialize_status (streamApi.via fileView) s space ser
  have hfull := serialize_full (streamApi.via fileView) s space ser
  obtain ⟨h1, h2, h3⟩ := OnWay.call hw hf.dims.2 (v := fileView s) (fun h => fileView_of hf hlate hok hl h) (fun h => hcs.mp (hs h)) space
  rw [he] at hst hfull
  rw [serialize_via] at he
  rw [he] at h1 h2 h3
  have herr : w.state.stage ≠ .error := h1.stage
  refine ⟨h1, fun h => hcs.mpr (h2 h), ?_, h3, ?_⟩
  · rw [hst]
    intro e
    revert e herr
    cases w.state.stage <;> simp only [statusOf] <;> intro h1 h2
    · cases h2
    · cases h2
    · split at h2 <;> cases h2
    · exact h1 rfl
  · intro hn
    by_contra h0
    have hq := hfull (fun hi hv => ?_) h0 herr
    · rw [hst, hq] at hn
      revert hn herr
      cases w.state.stage <;> simp [statusOf]
    · have hc : (fileView s).canStart = true := by
        by_contra hc
        have : w.state.stage = .init := by
          by_contra hne
          exact hc (h2 hne)
        rw [hst, this] at hn
        cases hn
      have hb := (fileView_of hf hlate hok hl hc).bare
      have hJ : J.version = 1 := (congrArg JpegData.version hb).symm.trans hv
      have hd := hw.1
      rw [hi] at hd
      have f2 : streamApi.version (View.complete J) = 1 := hJ
      unfold prod at hd
      dsimp only at hd
      rw [if_neg (show ¬ ¬ streamApi.canStart (View.complete J) = true by simp [streamApi, View.complete, View.canStart]), if_pos f2] at hd
      cases hd

/-- All calls. -/
theorem run_delivers {z : Inflater} {f : SectState} {J : JpegData} (hf : f.Result J) (hlate : f.late = false) {whole : List Nat} {fuel : Nat} (hfuel : 0 < fuel) :
    ∀ (calls : List (List Nat × Nat)) (d : DecState (FileSt z) WJS) (out : List Nat), Arriving fuel (.image f) d.parser d.buffer (calls.map Prod.fst) →
      d.parser.Ok → OnWay J whole out d.ser → (d.ser.stage ≠ .init → d.parser.Shown) →
      ∃ rs, decodeCalls (fileParser z) (streamApi.via fileView) fuel calls d = some rs ∧ (∀ r ∈ rs, r.status ≠ .error) ∧ (∀ r ∈ rs, r.unread = []) ∧
        out ++ (rs.map DResult.out).flatten <+: whole ∧
        ∀ r, rs.getLast? = some r → (r.status = .done ∧ out ++ (rs.map DResult.out).flatten = whole) ∨ (r.status = .needsOutput ∧ r.left = 0) := by
  intro calls
  induction calls with
  | nil =>
    intro d out h hok hw hst
    refine ⟨[], by rw [decodeCalls], fun r h => by simp at h, fun r h => by simp at h, ?_, fun r h => by simp at h⟩
    simp only [List.map_nil, List.flatten_nil, List.append_nil]
    have := hw.2
    rw [List.append_assoc] at this
    exact ⟨_, this⟩
  | cons c calls ih =>
    intro d out h hok hw hst
    obtain ⟨piece, space⟩ := c
    rw [List.map_cons] at h
    obtain ⟨s', b', r, hp, hr, hnext⟩ := Arriving.call hfuel h
    have hok' := (processJpeg_leads (f := f) hok hp).1
    have hl := hnext.leads hok'
    have hshow : d.ser.stage ≠ .init → s'.Shown := fun h => processJpeg_shown (hst h) hp
    generalize hw' : serialize (streamApi.via fileView) s' space d.ser = w
    obtain ⟨k1, k2, k3, k4, k5⟩ := hw.shown hf hlate hok' hl hshow space hw'
    have hcall : decodeCall (fileParser z) (streamApi.via fileView) fuel piece space d = some ⟨dStatus w.status, [], w.out, w.left, ⟨s', b', w.state⟩⟩ := by
      unfold decodeCall
      rw [hp]
      cases r with
      | bad c => exact absurd rfl (hr c)
      | ok => dsimp only; rw [hw']; cases w.status <;> rfl
      | needMore => dsimp only; rw [hw']; cases w.status <;> rfl
    obtain ⟨rs, i1, i2, i3, i4, i5⟩ := ih ⟨s', b', w.state⟩ (out ++ w.out) hnext hok' k1 k2
    refine ⟨⟨dStatus w.status, [], w.out, w.left, ⟨s', b', w.state⟩⟩ :: rs, ?_, ?_, ?_, ?_, ?_⟩
    · rw [decodeCalls, hcall]
      dsimp only
      rw [i1]
      rfl
    · intro r hr
      rcases List.mem_cons.mp hr with rfl | hr
      · show dStatus w.status ≠ .error
        revert k3
        cases w.status <;> simp [dStatus]
      · exact i2 r hr
    · intro r hr
      rcases List.mem_cons.mp hr with rfl | hr
      · rfl
      · exact i3 r hr
    · rw [List.map_cons, List.flatten_cons, ← List.append_assoc]
      exact i4
    · intro r hr
      rw [List.map_cons, List.flatten_cons, ← List.append_assoc]
      cases rs with
      | cons x rs =>
        rw [List.getLast?_cons_cons] at hr
        exact i5 r hr
      | nil =>
        simp only [List.getLast?_singleton, Option.some.injEq] at hr
        have hc : calls = [] := by
          cases calls with
          | nil => rfl
          | cons c cs =>
            rw [decodeCalls] at i1
            split at i1
            · cases i1
            · rename_i x _
              cases hh : decodeCalls (fileParser z) (streamApi.via fileView) fuel cs x.state with
              | none => rw [hh] at i1; cases i1
              | some y => rw [hh] at i1; cases i1
        subst hc
        have hs' : s' = .done (.ended (.image f)) := by
          rcases hnext with hn | ⟨hn, _, _⟩
          · simp [feed] at hn
          · exact hn
        have hdone := k4 (by rw [hs']; exact fileView_ended _)
        have hst2 := serialize_status (streamApi.via fileView) s' space d.ser
        rw [hw', hdone] at hst2
        subst hr
        dsimp only
        by_cases hq : w.state.queue = []
        · left
          rw [hq] at hst2
          refine ⟨by rw [hst2]; rfl, ?_⟩
          have := k1.all hdone
          rw [hq] at this
          simpa using this
        · right
          have : w.status = .needsOutput := by
            rw [hst2]
            cases hh : w.state.queue with
            | nil => exact absurd hh hq
            | cons x y => rfl
          exact ⟨by rw [this]; rfl, k5 this⟩

theorem doProcess_pos {σ : Type} {P : Parser σ} {fuel : Nat} {s : PSt σ} {w : List Nat} {r : PSt σ × List Nat × PStatus} (h : doProcess P fuel s w = some r) : 0 < fuel := by
  cases fuel with
  | zero => simp [doProcess] at h
  | succ n => omega

/-- **The decoder on a file in pieces**, if the metadata do not follow the DC section: with any pieces and any spaces the JPEG file is delivered that is
written from the whole file. -/
theorem Decoder.delivers {z : Inflater} {par : Codec} (hz : ∀ p, (par.decompress p).map List.flatten = z.whole p) (file : List Nat) (f : SectState)
    (hc : fileContent par file = some (.image f)) (hlate : f.late = false) (J : JpegData) (hr : f.result = some J)
    (hcomp : J.components.length = f.header.comps.length) (T : HSlot → CodeTable) (cs : List (List Nat)) (hj : writeJpeg T J = .ok cs)
    (calls : List (List Nat × Nat)) (hcalls : (calls.map Prod.fst).flatten = file) :
    ∃ fuel rs, Decoder.run z fuel T calls = some rs ∧ Delivers cs.flatten rs := by
  have hne : (calls.map Prod.fst).flatten ≠ [] := fun e => by
    rw [← hcalls, e] at hc
    simp [fileContent, decodeFile, readFile, Rd.andThen, readSignature, Rd.bytes] at hc
  obtain ⟨fuel, q, hq, hx⟩ := doProcess_file hz file
  rw [hc] at hx
  subst hx
  have hok : (PSt.working .signature : PSt (FileSt z)).Ok := ⟨trivial, trivial⟩
  have hfin : f.Final := ((doProcess_leads (f := f) fuel _ _ _ _ _ hok hq).1).2
  obtain ⟨fuel, hfeed⟩ := (C27_any_pieces hz (calls.map Prod.fst) hne (.done (.ended (.image f))) []).mpr ⟨_, by rw [hcalls]; exact hc, rfl, rfl⟩
  have hpos : 0 < fuel := by
    cases fuel with
    | succ n => omega
    | zero =>
      exfalso
      cases calls with
      | nil => exact hne rfl
      | cons c cs =>
        rw [List.map_cons, feed] at hfeed
        simp [processJpeg, processDirect, PSt.resume, doProcess] at hfeed
  obtain ⟨rs, h1, h2, h3, h4, h5⟩ := run_delivers ⟨hfin, hr, hcomp⟩ hlate hpos calls (Decoder.start z T) [] (.inl hfeed) hok (OnWay.init hj) fun h => absurd rfl h
  exact ⟨fuel, rs, h1, h2, h3, by simpa using h4, by simpa using h5⟩

end Brunsli
