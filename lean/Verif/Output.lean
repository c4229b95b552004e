/-!
# Delivery of the restored JPEG

The serialiser as a state machine around an output queue (c/dec/jpeg_data_writer.cc:945-1093), the loop of the one-shot writer (lines 967-984) and
the C API around it (c/dec/decode.cc, c/enc/encode.cc) with arbitrary callbacks.  What a marker segment is serialised to is a parameter here
(`SerApi.marker`); the segments themselves are modelled in other modules.
-/

namespace Brunsli

/-- `SerializationStatus` (c/dec/jpeg_data_writer.h / c/dec/state.h). -/
inductive SStatus where
  | needsInput | needsOutput | done | error
deriving DecidableEq, Repr

/-- What the serialiser asks of the parser and of the segment writers.  `V` is what the parser has made available so far, `σ` the variables of
`SerializationState` besides stage and queue. -/
structure SerApi (V σ : Type) where
  /-- Parsing is complete or has reached the DC or AC section (c/dec/jpeg_data_writer.cc:1005-1012). -/
  canStart : V → Bool
  /-- `jpg.version` -/
  version : V → Nat
  /-- `jpg.original_jpg` -/
  original : V → Option (List Nat)
  /-- `jpg.marker_order` -/
  markers : V → List Nat
  /-- Variables after `EncodeSOI` (lines 1042-1049). -/
  prepared : V → σ → σ
  /-- `SerializeSection` (lines 876-943): new variables, chunks appended to the queue, status. -/
  marker : V → σ → Nat → σ × List (List Nat) × SStatus

/-- `SerializationState::Stage` with the markers still to write (`section_index`). -/
inductive SStage where
  | init
  | sections (rest : List Nat)
  | done
  | error
deriving DecidableEq, Repr

/-- `SerializationState` (c/dec/serialization_state.h:70-96). -/
structure SState (σ : Type) where
  stage : SStage
  aux : σ
  queue : List (List Nat)

/-- `PushOutput` (c/dec/jpeg_data_writer.cc:945-961): bytes copied, space left, queue left. -/
def pushOutput : Nat → List (List Nat) → List Nat × Nat × List (List Nat)
  | 0, q => ([], 0, q)
  | a + 1, [] => ([], a + 1, [])
  | a + 1, c :: q =>
    if c.length ≤ a + 1 then
      let r := pushOutput (a + 1 - c.length) q
      (c ++ r.1, r.2)
    else (c.take (a + 1), 0, c.drop (a + 1) :: q)

/-- Result of a call: status, bytes delivered, space left, state. -/
structure SResult (σ : Type) where
  status : SStatus
  out : List Nat
  left : Nat
  state : SState σ

/-- The stage `SERIALIZE_SECTION` (c/dec/jpeg_data_writer.cc:1052-1076) and what follows it. -/
def serSections {V σ : Type} (api : SerApi V σ) (v : V) : List Nat → σ → List (List Nat) → Nat → SResult σ
  | [], aux, q, a => ⟨if q.isEmpty then .done else .needsOutput, [], a, ⟨.done, aux, q⟩⟩
  | m :: rest, aux, q, a =>
    match api.marker v aux m with
    | (aux', cs, .error) => ⟨.error, [], a, ⟨.error, aux', q ++ cs⟩⟩
    | (aux', cs, .needsInput) =>
      let p := pushOutput a (q ++ cs)
      ⟨.needsInput, p.1, p.2.1, ⟨.sections (m :: rest), aux', p.2.2⟩⟩
    | (aux', cs, .needsOutput) =>
      let p := pushOutput a (q ++ cs)
      ⟨.error, p.1, p.2.1, ⟨.error, aux', p.2.2⟩⟩
    | (aux', cs, .done) =>
      let p := pushOutput a (q ++ cs)
      let r := serSections api v rest aux' p.2.2 p.2.1
      { r with out := p.1 ++ r.out }

/-- `SerializeJpeg` (c/dec/jpeg_data_writer.cc:988-1093). -/
def serialize {V σ : Type} (api : SerApi V σ) (v : V) (a : Nat) (s : SState σ) : SResult σ :=
  match s.stage with
  | .error => ⟨.error, [], a, s⟩
  | .done =>
    let p := pushOutput a s.queue
    ⟨if p.2.2.isEmpty then .done else .needsOutput, p.1, p.2.1, { s with queue := p.2.2 }⟩
  | .sections rest =>
    let p := pushOutput a s.queue
    let r := serSections api v rest s.aux p.2.2 p.2.1
    { r with out := p.1 ++ r.out }
  | .init =>
    let p := pushOutput a s.queue
    if ¬ api.canStart v then ⟨.needsInput, p.1, p.2.1, { s with queue := p.2.2 }⟩
    else if api.version v = 1 then
      match api.original v with
      | none => ⟨.error, p.1, p.2.1, { s with stage := .error, queue := p.2.2 }⟩
      | some o =>
        let q := p.2.2 ++ [o]
        ⟨if q.isEmpty then .done else .needsOutput, p.1, p.2.1, { s with stage := .done, queue := q }⟩
    else if api.version v % 2 = 1 then ⟨.error, p.1, p.2.1, { s with stage := .error, queue := p.2.2 }⟩
    else if (api.markers v).isEmpty then ⟨.error, p.1, p.2.1, { s with stage := .error, queue := p.2.2 }⟩
    else
      let p2 := pushOutput p.2.1 (p.2.2 ++ [[0xFF, 0xD8]])
      let r := serSections api v (api.markers v) (api.prepared v s.aux) p2.2.2 p2.2.1
      { r with out := p.1 ++ (p2.1 ++ r.out) }

/-- A fresh serialiser. -/
def SState.init {σ : Type} (aux : σ) : SState σ := ⟨.init, aux, []⟩

/-! ## What is produced, apart from how it is delivered -/

/-- Stage, variables and chunks after the marker stage. -/
def prodSections {V σ : Type} (api : SerApi V σ) (v : V) : List Nat → σ → SStage × σ × List (List Nat)
  | [], aux => (.done, aux, [])
  | m :: rest, aux =>
    match api.marker v aux m with
    | (aux', cs, .error) => (.error, aux', cs)
    | (aux', cs, .needsInput) => (.sections (m :: rest), aux', cs)
    | (aux', cs, .needsOutput) => (.error, aux', cs)
    | (aux', cs, .done) =>
      let r := prodSections api v rest aux'
      (r.1, r.2.1, cs ++ r.2.2)

/-- Stage, variables and chunks after a call. -/
def prod {V σ : Type} (api : SerApi V σ) (v : V) (stage : SStage) (aux : σ) : SStage × σ × List (List Nat) :=
  match stage with
  | .error => (.error, aux, [])
  | .done => (.done, aux, [])
  | .sections rest => prodSections api v rest aux
  | .init =>
    if ¬ api.canStart v then (.init, aux, [])
    else if api.version v = 1 then
      match api.original v with
      | none => (.error, aux, [])
      | some o => (.done, aux, [o])
    else if api.version v % 2 = 1 then (.error, aux, [])
    else if (api.markers v).isEmpty then (.error, aux, [])
    else
      let r := prodSections api v (api.markers v) (api.prepared v aux)
      (r.1, r.2.1, [0xFF, 0xD8] :: r.2.2)

theorem pushOutput_flatten (a : Nat) (q : List (List Nat)) : (pushOutput a q).1 ++ (pushOutput a q).2.2.flatten = q.flatten := by
  induction q generalizing a with
  | nil => cases a <;> simp [pushOutput]
  | cons c q ih =>
    cases a with
    | zero => simp [pushOutput]
    | succ a =>
      rw [pushOutput]
      split
      · simp only [List.append_assoc, List.flatten_cons, ih]
      · simp only [List.flatten_cons, ← List.append_assoc, List.take_append_drop]

theorem pushOutput_left (a : Nat) (q : List (List Nat)) : (pushOutput a q).1.length + (pushOutput a q).2.1 = a := by
  induction q generalizing a with
  | nil => cases a <;> simp [pushOutput]
  | cons c q ih =>
    cases a with
    | zero => simp [pushOutput]
    | succ a =>
      rw [pushOutput]
      split
      · have := ih (a + 1 - c.length)
        simp only [List.length_append]
        omega
      · simp only [List.length_take]; omega

/-- Space is left over only if the queue is empty. -/
theorem pushOutput_full (a : Nat) (q : List (List Nat)) (h : (pushOutput a q).2.1 ≠ 0) : (pushOutput a q).2.2 = [] := by
  induction q generalizing a with
  | nil => cases a <;> simp [pushOutput]
  | cons c q ih =>
    cases a with
    | zero => simp [pushOutput] at h
    | succ a =>
      rw [pushOutput] at h ⊢
      split at h
      · rename_i hc
        rw [if_pos hc]
        exact ih _ h
      · exact absurd rfl h

theorem serSections_prod {V σ : Type} (api : SerApi V σ) (v : V) (rest : List Nat) (aux : σ) (q : List (List Nat)) (a : Nat) :
    (serSections api v rest aux q a).out ++ (serSections api v rest aux q a).state.queue.flatten =
        q.flatten ++ (prodSections api v rest aux).2.2.flatten ∧
      (serSections api v rest aux q a).state.stage = (prodSections api v rest aux).1 ∧
      (serSections api v rest aux q a).state.aux = (prodSections api v rest aux).2.1 := by
  induction rest generalizing aux q a with
  | nil => simp [serSections, prodSections]
  | cons m rest ih =>
    rcases hm : api.marker v aux m with ⟨aux', cs, st⟩
    rw [serSections, prodSections, hm]
    cases st with
    | error => simp
    | needsInput =>
      dsimp only
      exact ⟨by rw [pushOutput_flatten]; simp, rfl, rfl⟩
    | needsOutput =>
      dsimp only
      exact ⟨by rw [pushOutput_flatten]; simp, rfl, rfl⟩
    | done =>
      obtain ⟨h1, h2, h3⟩ := ih aux' (pushOutput a (q ++ cs)).2.2 (pushOutput a (q ++ cs)).2.1
      dsimp only
      refine ⟨?_, h2, h3⟩
      rw [List.append_assoc, h1, ← List.append_assoc, pushOutput_flatten]
      simp

theorem serSections_left {V σ : Type} (api : SerApi V σ) (v : V) (rest : List Nat) (aux : σ) (q : List (List Nat)) (a : Nat) :
    (serSections api v rest aux q a).out.length + (serSections api v rest aux q a).left = a := by
  induction rest generalizing aux q a with
  | nil => simp [serSections]
  | cons m rest ih =>
    rcases hm : api.marker v aux m with ⟨aux', cs, st⟩
    rw [serSections, hm]
    cases st with
    | error => simp
    | needsInput => exact pushOutput_left _ _
    | needsOutput => exact pushOutput_left _ _
    | done =>
      dsimp only
      rw [List.length_append, Nat.add_assoc, ih, pushOutput_left]

/-- What has been delivered and what is queued is what has been produced, whatever the space. -/
theorem serialize_prod {V σ : Type} (api : SerApi V σ) (v : V) (a : Nat) (s : SState σ) :
    (serialize api v a s).out ++ (serialize api v a s).state.queue.flatten = s.queue.flatten ++ (prod api v s.stage s.aux).2.2.flatten ∧
      (serialize api v a s).state.stage = (prod api v s.stage s.aux).1 ∧
      (serialize api v a s).state.aux = (prod api v s.stage s.aux).2.1 := by
  rcases s with ⟨stage, aux, q⟩
  cases stage with
  | error => simp [serialize, prod]
  | done => exact ⟨by simp only [serialize, prod, pushOutput_flatten]; simp, rfl, rfl⟩
  | sections rest =>
    obtain ⟨h1, h2, h3⟩ := serSections_prod api v rest aux (pushOutput a q).2.2 (pushOutput a q).2.1
    refine ⟨?_, h2, h3⟩
    simp only [serialize, prod]
    rw [List.append_assoc, h1, ← List.append_assoc, pushOutput_flatten]
  | init =>
    simp only [serialize, prod]
    by_cases c1 : ¬ api.canStart v
    · rw [if_pos c1, if_pos c1]
      exact ⟨by simp [pushOutput_flatten], rfl, rfl⟩
    rw [if_neg c1, if_neg c1]
    by_cases c2 : api.version v = 1
    · rw [if_pos c2, if_pos c2]
      cases api.original v with
      | none => exact ⟨by simp [pushOutput_flatten], rfl, rfl⟩
      | some o =>
        refine ⟨?_, rfl, rfl⟩
        simp only [List.flatten_append, ← List.append_assoc, pushOutput_flatten]
    rw [if_neg c2, if_neg c2]
    by_cases c3 : api.version v % 2 = 1
    · rw [if_pos c3, if_pos c3]
      exact ⟨by simp [pushOutput_flatten], rfl, rfl⟩
    rw [if_neg c3, if_neg c3]
    by_cases c4 : (api.markers v).isEmpty
    · rw [if_pos c4, if_pos c4]
      exact ⟨by simp [pushOutput_flatten], rfl, rfl⟩
    rw [if_neg c4, if_neg c4]
    obtain ⟨h1, h2, h3⟩ := serSections_prod api v (api.markers v) (api.prepared v aux)
      (pushOutput (pushOutput a q).2.1 ((pushOutput a q).2.2 ++ [[0xFF, 0xD8]])).2.2
      (pushOutput (pushOutput a q).2.1 ((pushOutput a q).2.2 ++ [[0xFF, 0xD8]])).2.1
    refine ⟨?_, h2, h3⟩
    dsimp only
    rw [List.append_assoc, List.append_assoc, h1,
      ← List.append_assoc (pushOutput (pushOutput a q).2.1 ((pushOutput a q).2.2 ++ [[0xFF, 0xD8]])).1, pushOutput_flatten,
      List.flatten_append, List.append_assoc, ← List.append_assoc, pushOutput_flatten]
    simp

/-- No more bytes are delivered than there is space, and the rest of the space is reported. -/
theorem serialize_left {V σ : Type} (api : SerApi V σ) (v : V) (a : Nat) (s : SState σ) :
    (serialize api v a s).out.length + (serialize api v a s).left = a := by
  rcases s with ⟨stage, aux, q⟩
  cases stage with
  | error => simp [serialize]
  | done => exact pushOutput_left _ _
  | sections rest =>
    simp only [serialize]
    rw [List.length_append, Nat.add_assoc, serSections_left, pushOutput_left]
  | init =>
    simp only [serialize]
    have hp := pushOutput_left a q
    by_cases c1 : ¬ api.canStart v
    · rw [if_pos c1]; exact hp
    rw [if_neg c1]
    by_cases c2 : api.version v = 1
    · rw [if_pos c2]
      cases api.original v <;> exact hp
    rw [if_neg c2]
    by_cases c3 : api.version v % 2 = 1
    · rw [if_pos c3]; exact hp
    rw [if_neg c3]
    by_cases c4 : (api.markers v).isEmpty
    · rw [if_pos c4]; exact hp
    rw [if_neg c4]
    dsimp only
    rw [List.length_append, List.length_append, Nat.add_assoc, Nat.add_assoc, serSections_left, pushOutput_left, pushOutput_left]

/-! ## Status -/

/-- What the status says of the state left. -/
def statusOf : SStage → List (List Nat) → SStatus
  | .error, _ => .error
  | .init, _ => .needsInput
  | .sections _, _ => .needsInput
  | .done, q => if q.isEmpty then .done else .needsOutput

theorem serSections_status {V σ : Type} (api : SerApi V σ) (v : V) (rest : List Nat) (aux : σ) (q : List (List Nat)) (a : Nat) :
    (serSections api v rest aux q a).status = statusOf (serSections api v rest aux q a).state.stage (serSections api v rest aux q a).state.queue := by
  induction rest generalizing aux q a with
  | nil => rfl
  | cons m rest ih =>
    rcases hm : api.marker v aux m with ⟨aux', cs, st⟩
    rw [serSections, hm]
    cases st with
    | error => rfl
    | needsInput => rfl
    | needsOutput => rfl
    | done => exact ih _ _ _

theorem serialize_status {V σ : Type} (api : SerApi V σ) (v : V) (a : Nat) (s : SState σ) :
    (serialize api v a s).status = statusOf (serialize api v a s).state.stage (serialize api v a s).state.queue := by
  rcases s with ⟨stage, aux, q⟩
  cases stage with
  | error => rfl
  | done => rfl
  | sections rest => exact serSections_status _ _ _ _ _ _
  | init =>
    simp only [serialize]
    by_cases c1 : ¬ api.canStart v
    · rw [if_pos c1]; rfl
    rw [if_neg c1]
    by_cases c2 : api.version v = 1
    · rw [if_pos c2]
      cases api.original v <;> rfl
    rw [if_neg c2]
    by_cases c3 : api.version v % 2 = 1
    · rw [if_pos c3]; rfl
    rw [if_neg c3]
    by_cases c4 : (api.markers v).isEmpty
    · rw [if_pos c4]; rfl
    rw [if_neg c4]
    exact serSections_status _ _ _ _ _ _

/-- Outside of the bypass, space left over means that the queue is empty. -/
theorem serSections_full {V σ : Type} (api : SerApi V σ) (v : V) (rest : List Nat) (aux : σ) (q : List (List Nat)) (a : Nat)
    (hq : a ≠ 0 → q = []) (h : (serSections api v rest aux q a).left ≠ 0) (he : (serSections api v rest aux q a).state.stage ≠ .error) :
    (serSections api v rest aux q a).state.queue = [] := by
  induction rest generalizing aux q a with
  | nil => exact hq h
  | cons m rest ih =>
    rcases hm : api.marker v aux m with ⟨aux', cs, st⟩
    rw [serSections, hm] at h he ⊢
    cases st with
    | error => exact absurd rfl he
    | needsInput => exact pushOutput_full _ _ h
    | needsOutput => exact absurd rfl he
    | done => exact ih _ _ _ (fun h => pushOutput_full _ _ h) h he

theorem serialize_full {V σ : Type} (api : SerApi V σ) (v : V) (a : Nat) (s : SState σ) (hb : s.stage = .init → api.version v ≠ 1)
    (h : (serialize api v a s).left ≠ 0) (he : (serialize api v a s).state.stage ≠ .error) : (serialize api v a s).state.queue = [] := by
  rcases s with ⟨stage, aux, q⟩
  cases stage with
  | error => exact absurd rfl he
  | done => exact pushOutput_full _ _ h
  | sections rest =>
    exact serSections_full _ _ _ _ _ _ (fun h => pushOutput_full _ _ h) h he
  | init =>
    simp only [serialize] at h he ⊢
    by_cases c1 : ¬ api.canStart v
    · rw [if_pos c1] at h he ⊢; exact pushOutput_full _ _ h
    rw [if_neg c1, if_neg (hb rfl)] at h he ⊢
    by_cases c3 : api.version v % 2 = 1
    · rw [if_pos c3] at he; exact absurd rfl he
    rw [if_neg c3] at h he ⊢
    by_cases c4 : (api.markers v).isEmpty
    · rw [if_pos c4] at he; exact absurd rfl he
    rw [if_neg c4] at h he ⊢
    exact serSections_full _ _ _ _ _ _ (fun h => pushOutput_full _ _ h) h he

/-! ## The one-shot writer and the C API -/

/-- A callback: bytes it accepts of a buffer, given the buffers it was handed before. -/
abbrev Sink := List (List Nat) → List Nat → Nat

/-- `JPEGOutput::Write` (c/include/brunsli/jpeg_data_writer.h:25-29): success, and the history of the callback. -/
def sinkWrite (sink : Sink) (hist : List (List Nat)) (buf : List Nat) : Bool × List (List Nat) :=
  if buf.length = 0 then (true, hist) else (sink hist buf == buf.length, hist ++ [buf])

/-- `WriteJpeg` (c/dec/jpeg_data_writer.cc:967-984) with buffers of `size` bytes (16384 in the code) and at most `fuel` rounds; `none` if these do
not suffice.  Also returns the buffers handed to the callback. -/
def writeJpegLoop {V σ : Type} (api : SerApi V σ) (v : V) (sink : Sink) (size : Nat) : Nat → SState σ → List (List Nat) → Option Bool × List (List Nat)
  | 0, _, hist => (none, hist)
  | fuel + 1, s, hist =>
    let r := serialize api v size s
    if r.status ≠ .done ∧ r.status ≠ .needsOutput then (some false, hist)
    else
      let w := sinkWrite sink hist r.out
      if !w.1 then (some false, w.2)
      else if r.status = .done then (some true, w.2)
      else writeJpegLoop api v sink size fuel r.state w.2

/-- `DecodeBrunsli` (c/dec/decode.cc:25-46): `parse` stands for `BrunsliDecodeJpeg`, `aux` for the variables of a fresh serialiser. -/
def decodeBrunsli {V σ : Type} (api : SerApi V σ) (parse : List Nat → Option V) (aux : σ) (sink : Sink) (fuel : Nat) (input : List Nat) :
    Option Bool × List (List Nat) :=
  match parse input with
  | none => (some false, [])
  | some v => writeJpegLoop api v sink 16384 fuel (.init aux) []

/-- `EncodeBrunsli` (c/enc/encode.cc:19-39): `encode` stands for `ReadJpeg` followed by `BrunsliEncodeJpeg`.  The callback is handed the whole
output once, and only a return value of zero is a failure. -/
def encodeBrunsli (encode : List Nat → Option (List Nat)) (sink : Sink) (input : List Nat) : Bool × List (List Nat) :=
  match encode input with
  | none => (false, [])
  | some out => (sink [] out != 0, [out])

end Brunsli
