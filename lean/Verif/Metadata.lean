import Verif.MetaTables
import Verif.Base128
/-!
# Metadata

`TransformApp*Marker`, `EncodeMetaData` (c/enc/brunsli_encode.cc:111-199, 836-897), `GenerateApp*Marker`,
`ProcessMetaData`, `DecodeMetaDataSection` (c/dec/brunsli_decode.cc:176-295, 1274-1366).  The Brotli library is a
parameter.
-/

namespace Brunsli

/-- `TransformApp0Marker` (c/enc/brunsli_encode.cc:111-141); the loop keeps the last density that matches. -/
def transformApp0 (s : List Nat) : Option (List Nat) :=
  if s.length ≠ 17 then none
  else if s.take 9 ≠ appDatae0.take 9 then none
  else if (s.getD 9 0 = 1 ∨ s.getD 9 0 = 2) ∧ s.getD 10 0 < 4 ∧ s.getD 15 0 = 0 ∧ s.getD 16 0 = 0 then
    let x := s.getD 11 0 * 256 + s.getD 12 0
    let y := s.getD 13 0 * 256 + s.getD 14 0
    match (List.range 8).reverse.find? fun k => kApp0Densities.getD k 0 == x && y == x with
    | some k => some [(s.getD 9 0 - 1) ||| (s.getD 10 0 <<< 1) ||| (k <<< 3)]
    | none => none
  else none

/-- The common form of `TransformApp2Marker`, `TransformApp12Marker` and `TransformApp14Marker`
(c/enc/brunsli_encode.cc:143-181): the segment is `ref` but for the byte at `at_`. -/
def transformAppAt (ref : List Nat) (at_ code : Nat) (s : List Nat) : Option (List Nat) :=
  if s.length = ref.length ∧ s.take at_ = ref.take at_ ∧ s.drop (at_ + 1) = ref.drop (at_ + 1) then some [code, s.getD at_ 0] else none

/-- `TransformAppMarker` (c/enc/brunsli_encode.cc:183-199); `none` when the segment is left as it is. -/
def transformApp (s : List Nat) : Option (List Nat) :=
  match transformApp0 s with
  | some o => some o
  | none =>
    match transformAppAt appDatae2 84 0x80 s with
    | some o => some o
    | none =>
      match transformAppAt appDataec 15 0x81 s with
      | some o => some o
      | none => transformAppAt appDataee 10 0x82 s

/-- `kBrunsliShortMarkerLimit` (c/common/constants.h:42). -/
def kBrunsliShortMarkerLimit : Nat := 0x40 + 3 * 0x100

/-- `kBrunsliMultibyteMarkerLimit` (c/common/constants.h:43). -/
def kBrunsliMultibyteMarkerLimit : Nat := 0x400

/-- The concatenated metadata (c/enc/brunsli_encode.cc:839-872). -/
def joinMetadata (app com : List (List Nat)) (tail : List Nat) : Option (List Nat) :=
  let short := app.countP fun s => (transformApp s).isSome
  if short > kBrunsliShortMarkerLimit then none
  else if app.length - short > kBrunsliMultibyteMarkerLimit then none
  else if com.length > kBrunsliMultibyteMarkerLimit then none
  else some (app.flatMap (fun s => (transformApp s).getD s) ++ (com.flatten ++ if tail = [] then [] else 0xD9 :: tail))

/-- `EncodeMetaData` (c/enc/brunsli_encode.cc:836-897), with `compress` for the Brotli encoder (`none` when it fails). -/
def encodeMetadata (compress : List Nat → Option (List Nat)) (app com : List (List Nat)) (tail : List Nat) : Option (List Nat) :=
  match joinMetadata app com tail with
  | none => none
  | some [] => some []
  | some [b] => some [b]
  | some m => (compress m).map fun c => encodeBase128 m.length ++ c

/-- `GenerateApp0Marker` (c/dec/brunsli_decode.cc:176-186). -/
def generateApp0 (status : Nat) : List Nat :=
  let m := appDatae0.set 9 (if status % 2 = 1 then 2 else 1)
  let m := m.set 10 (status / 2 % 4)
  let x := kApp0Densities.getD (status / 8) 0
  (((m.set 11 (x / 256)).set 13 (x / 256)).set 12 (x % 256)).set 14 (x % 256)

/-- `GenerateAppMarker` (c/dec/brunsli_decode.cc:188-202). -/
def generateApp (marker code : Nat) : List Nat :=
  if marker = 0x80 then appDatae2.set 84 code
  else if marker = 0x81 then appDataec.set 15 code
  else appDataee.set 10 code

/-- `MetadataState::Stage` (c/dec/state_internal.h:151-163). -/
inductive MetaStage where
  | marker | tail | code | lengthHi | lengthLo | multibyte
deriving DecidableEq, Repr

/-- `MetadataState` (c/dec/state_internal.h:150-170) with the parts of the JPEG it fills; `sinkCom` tells which list the
`multibyte_sink` is the last element of. -/
structure MetaState where
  stage : MetaStage
  short : Nat
  marker : Nat
  hi : Nat
  remaining : Nat
  sinkCom : Bool
  app : List (List Nat)
  com : List (List Nat)
  tail : List Nat
deriving DecidableEq, Repr

/-- The initial state. -/
def MetaState.init : MetaState := ⟨.marker, 0, 0, 0, 0, false, [], [], []⟩

/-- Append to the last element. -/
def appendLast : List (List Nat) → List Nat → List (List Nat)
  | [], _ => []
  | [a], x => [a ++ x]
  | a :: b :: l, x => a :: appendLast (b :: l) x

/-- Append to `multibyte_sink`. -/
def MetaState.sink (s : MetaState) (x : List Nat) : MetaState :=
  if s.sinkCom then { s with com := appendLast s.com x } else { s with app := appendLast s.app x }

/-- `READ_MARKER` (c/dec/brunsli_decode.cc:209-237). -/
def metaMarker (s : MetaState) (b : Nat) : Option MetaState :=
  if b = 0xD9 then some { s with marker := b, tail := [], stage := .tail }
  else if b < 0x40 then
    if s.short + 1 > kBrunsliShortMarkerLimit then none
    else some { s with marker := b, short := s.short + 1, app := s.app ++ [generateApp0 b] }
  else if 0x80 ≤ b ∧ b ≤ 0x82 then
    if s.short + 1 > kBrunsliShortMarkerLimit then none else some { s with marker := b, short := s.short + 1, stage := .code }
  else if b ≠ 0xFE ∧ b / 16 ≠ 0x0E then none
  else some { s with marker := b, stage := .lengthHi }

/-- `READ_LENGTH_LO` (c/dec/brunsli_decode.cc:258-279). -/
def metaLengthLo (s : MetaState) (lo : Nat) : Option MetaState :=
  let len := s.hi * 256 + lo
  if len < 2 then none
  else
    let isCom := decide (s.marker = 0xFE)
    if (if isCom then s.com.length else s.app.length - s.short) ≥ kBrunsliMultibyteMarkerLimit then none
    else
      let head := [s.marker, s.hi, lo]
      let s := { s with remaining := len - 2, sinkCom := isCom, stage := if len - 2 > 0 then MetaStage.multibyte else .marker }
      some (if isCom then { s with com := s.com ++ [head] } else { s with app := s.app ++ [head] })

/-- One round of the loop of `ProcessMetaData` (c/dec/brunsli_decode.cc:207-293): the new state and what is left of
the chunk. -/
def metaRound (s : MetaState) : List Nat → Option (MetaState × List Nat)
  | [] => some (s, [])
  | b :: d =>
    match s.stage with
    | .marker => (metaMarker s b).map fun s => (s, d)
    | .tail => some ({ s with tail := s.tail ++ (b :: d) }, [])
    | .code => some ({ s with app := s.app ++ [generateApp s.marker b], stage := .marker }, d)
    | .lengthHi => some ({ s with hi := b, stage := .lengthLo }, d)
    | .lengthLo => (metaLengthLo s b).map fun s => (s, d)
    | .multibyte =>
      let n := min s.remaining (b :: d).length
      let t := s.sink ((b :: d).take n)
      some ({ t with remaining := s.remaining - n, stage := if s.remaining - n = 0 then .marker else .multibyte }, (b :: d).drop n)

/-- The loop of `ProcessMetaData`. -/
def metaLoop : (fuel : Nat) → MetaState → List Nat → Option MetaState
  | _, s, [] => some s
  | 0, _, _ => none
  | fuel + 1, s, d =>
    match metaRound s d with
    | none => none
    | some (s, d) => metaLoop fuel s d

/-- `ProcessMetaData` (c/dec/brunsli_decode.cc:204-295); at most one round takes no byte. -/
def processMeta (s : MetaState) (chunk : List Nat) : Option MetaState := metaLoop (chunk.length + 1) s chunk

/-- `CanFinish` (c/dec/state_internal.h:181). -/
def MetaState.canFinish (s : MetaState) : Bool := s.stage == .marker || s.stage == .tail

/-- The decompression loop (c/dec/brunsli_decode.cc:1322-1360) over the chunks Brotli delivers; `left` is
`metadata_size - decompressed_size`. -/
def metaChunks : (left : Nat) → MetaState → List (List Nat) → Option MetaState
  | left, s, [] => if left = 0 ∧ s.canFinish then some s else none
  | left, s, c :: cs =>
    if c.length > left then none
    else
      match processMeta s c with
      | none => none
      | some s => metaChunks (left - c.length) s cs

/-- `DecodeMetaDataSection` (c/dec/brunsli_decode.cc:1274-1366) on the bytes of the section; `decompress` gives the chunks
the Brotli decoder delivers, `none` unless it ends exactly at the end of its input. -/
def decodeMetadata (decompress : List Nat → Option (List (List Nat))) (payload : List Nat) : Option MetaState :=
  match payload with
  | [] => some MetaState.init
  | [b] => (processMeta .init [b]).bind fun s => if s.canFinish then some s else none
  | p =>
    match decodeBase128 p with
    | .ok size rest =>
      if rest = [] then none
      else (decompress rest).bind fun chunks => metaChunks size .init chunks
    | _ => none

/-! ## Byte by byte -/

/-- The effect of one byte. -/
def metaByte (s : MetaState) (b : Nat) : Option MetaState :=
  match s.stage with
  | .marker => metaMarker s b
  | .tail => some { s with tail := s.tail ++ [b] }
  | .code => some { s with app := s.app ++ [generateApp s.marker b], stage := .marker }
  | .lengthHi => some { s with hi := b, stage := .lengthLo }
  | .lengthLo => metaLengthLo s b
  | .multibyte => some { s.sink [b] with remaining := s.remaining - 1, stage := if s.remaining - 1 = 0 then .marker else .multibyte }

/-- In a segment some bytes remain. -/
def MetaState.Inv (s : MetaState) : Prop := s.stage = .multibyte → 0 < s.remaining

theorem appendLast_append (l : List (List Nat)) (a x : List Nat) : appendLast (l ++ [a]) x = l ++ [a ++ x] := by
  induction l with
  | nil => rfl
  | cons b l ih =>
    cases l with
    | nil => rfl
    | cons c l => rw [List.cons_append, List.cons_append, appendLast]; rw [List.cons_append] at ih; rw [ih]; rfl

theorem appendLast_appendLast (l : List (List Nat)) (x y : List Nat) : appendLast (appendLast l x) y = appendLast l (x ++ y) := by
  rcases List.eq_nil_or_concat l with rfl | ⟨l, a, rfl⟩
  · rfl
  · rw [List.concat_eq_append, appendLast_append, appendLast_append, appendLast_append, List.append_assoc]

theorem sink_sink (s : MetaState) (x y : List Nat) : (s.sink x).sink y = s.sink (x ++ y) := by
  unfold MetaState.sink
  split
  · simp only [*, ↓reduceIte, appendLast_appendLast]
  · rename_i h
    simp only [h, Bool.false_eq_true, ↓reduceIte, appendLast_appendLast]

theorem metaByte_of_tail {s : MetaState} (h : s.stage = .tail) {b : Nat} : metaByte s b = some { s with tail := s.tail ++ [b] } := by
  unfold metaByte; split <;> simp_all

theorem metaByte_of_marker {s : MetaState} (h : s.stage = .marker) {b : Nat} : metaByte s b = metaMarker s b := by
  unfold metaByte; split <;> simp_all

theorem metaByte_of_lengthLo {s : MetaState} (h : s.stage = .lengthLo) {b : Nat} : metaByte s b = metaLengthLo s b := by
  unfold metaByte; split <;> simp_all

theorem metaByte_of_lengthHi {s : MetaState} (h : s.stage = .lengthHi) {b : Nat} :
    metaByte s b = some { s with hi := b, stage := .lengthLo } := by
  unfold metaByte; split <;> simp_all

theorem metaByte_of_code {s : MetaState} (h : s.stage = .code) {b : Nat} :
    metaByte s b = some { s with app := s.app ++ [generateApp s.marker b], stage := .marker } := by
  unfold metaByte; split <;> simp_all

theorem metaByte_of_multibyte {s : MetaState} (h : s.stage = .multibyte) {b : Nat} :
    metaByte s b = some { s.sink [b] with remaining := s.remaining - 1, stage := if s.remaining - 1 = 0 then .marker else .multibyte } := by
  unfold metaByte; split <;> simp_all

theorem metaByte_tail (c : List Nat) : ∀ {s : MetaState}, s.stage = .tail → c.foldlM metaByte s = some { s with tail := s.tail ++ c } := by
  induction c with
  | nil => intro s h; simp
  | cons b c ih =>
    intro s h
    rw [List.foldlM_cons, metaByte_of_tail h]
    show (c.foldlM metaByte { s with tail := s.tail ++ [b] }) = _
    rw [ih (by exact h)]
    simp

theorem metaByte_multibyte (c : List Nat) : ∀ {s : MetaState}, s.stage = .multibyte → c ≠ [] → c.length ≤ s.remaining →
    c.foldlM metaByte s = some { s.sink c with
      remaining := s.remaining - c.length, stage := if s.remaining - c.length = 0 then .marker else .multibyte } := by
  induction c with
  | nil => intro s _ h; exact absurd rfl h
  | cons b c ih =>
    intro s h _ hl
    rw [List.length_cons] at hl
    rw [List.foldlM_cons, metaByte_of_multibyte h]
    show (c.foldlM metaByte { s.sink [b] with remaining := s.remaining - 1, stage := if s.remaining - 1 = 0 then .marker else .multibyte }) = _
    cases c with
    | nil => rfl
    | cons b' c =>
      have hr : s.remaining - 1 ≠ 0 := by rw [List.length_cons] at hl; omega
      simp only [if_neg hr]
      rw [ih rfl (by simp) (by simp only [List.length_cons] at hl ⊢; omega)]
      simp only
      have e1 : s.remaining - 1 - (b' :: c).length = s.remaining - (b :: b' :: c).length := by simp only [List.length_cons]; omega
      rw [e1]
      congr 1
      have := sink_sink s [b] (b' :: c)
      rw [List.singleton_append] at this
      rw [← this]
      unfold MetaState.sink
      split <;> (split <;> simp_all)

theorem metaMarker_inv {s t : MetaState} (hs : s.stage = .marker) {b : Nat} (h : metaMarker s b = some t) : t.stage ≠ .multibyte := by
  unfold metaMarker at h
  (repeat' split at h) <;> simp only [Option.some.injEq, reduceCtorEq] at h <;> subst h <;> simp_all

theorem metaLengthLo_inv {s t : MetaState} {b : Nat} (h : metaLengthLo s b = some t) : t.Inv := by
  intro ht
  unfold metaLengthLo at h
  by_cases h1 : s.hi * 256 + b < 2
  · simp only [if_pos h1, reduceCtorEq] at h
  · simp only [if_neg h1] at h
    by_cases h2 : (if decide (s.marker = 0xFE) = true then s.com.length else s.app.length - s.short) ≥ kBrunsliMultibyteMarkerLimit
    · simp only [if_pos h2, reduceCtorEq] at h
    · simp only [if_neg h2, Option.some.injEq] at h
      by_cases h3 : s.hi * 256 + b - 2 > 0
      · subst h; split <;> exact h3
      · exfalso
        subst h
        revert ht
        split <;> simp only [if_neg h3, reduceCtorEq, imp_self, not_false_eq_true]

/-- A round does what its bytes do one by one. -/
def RoundOk (s : MetaState) (d : List Nat) : Option (MetaState × List Nat) → Prop
  | none => d.foldlM metaByte s = none
  | some (t, e) => t.Inv ∧ e.length < d.length ∧ d.foldlM metaByte s = e.foldlM metaByte t

theorem metaRound_fold {s : MetaState} (hi : s.Inv) {d : List Nat} (hd : d ≠ []) : RoundOk s d (metaRound s d) := by
  cases d with
  | nil => exact absurd rfl hd
  | cons b d =>
    have hlt : d.length < (b :: d).length := by simp
    rw [metaRound]
    split
    · rename_i hs
      have e : (b :: d).foldlM metaByte s = (metaMarker s b).bind fun t => d.foldlM metaByte t := by
        rw [List.foldlM_cons, metaByte_of_marker hs]; rfl
      cases hm : metaMarker s b with
      | none => rw [hm] at e; exact e
      | some t => rw [hm] at e; exact ⟨fun ht => absurd ht (metaMarker_inv hs hm), hlt, e⟩
    · rename_i hs
      refine ⟨fun ht => ?_, by simp, ?_⟩
      · have ht : s.stage = .multibyte := ht
        rw [hs] at ht; cases ht
      · rw [metaByte_tail (b :: d) hs]; rfl
    · rename_i hs
      exact ⟨fun ht => (by cases ht), hlt, by rw [List.foldlM_cons, metaByte_of_code hs]; rfl⟩
    · rename_i hs
      exact ⟨fun ht => (by cases ht), hlt, by rw [List.foldlM_cons, metaByte_of_lengthHi hs]; rfl⟩
    · rename_i hs
      have e : (b :: d).foldlM metaByte s = (metaLengthLo s b).bind fun t => d.foldlM metaByte t := by
        rw [List.foldlM_cons, metaByte_of_lengthLo hs]; rfl
      cases hm : metaLengthLo s b with
      | none => rw [hm] at e; exact e
      | some t => rw [hm] at e; exact ⟨metaLengthLo_inv hm, hlt, e⟩
    · rename_i hs
      have hr := hi hs
      have hn : min s.remaining (b :: d).length ≠ 0 := by simp only [List.length_cons]; omega
      refine ⟨fun ht => ?_, by rw [List.length_drop]; simp only [List.length_cons] at hn ⊢; omega, ?_⟩
      · simp only at ht ⊢
        split at ht
        · cases ht
        · omega
      · have hl : ((b :: d).take (min s.remaining (b :: d).length)).length = min s.remaining (b :: d).length := by
          rw [List.length_take]; omega
        have := metaByte_multibyte ((b :: d).take (min s.remaining (b :: d).length)) hs
          (fun h => hn (by rw [← hl, h]; rfl)) (by rw [hl]; omega)
        rw [hl] at this
        conv => lhs; rw [← List.take_append_drop (min s.remaining (b :: d).length) (b :: d)]
        rw [List.foldlM_append, this]
        rfl

theorem metaLoop_fold (fuel : Nat) : ∀ {s : MetaState} {d : List Nat}, s.Inv → d.length ≤ fuel → metaLoop fuel s d = d.foldlM metaByte s := by
  induction fuel with
  | zero =>
    intro s d _ h
    have : d = [] := List.length_eq_zero_iff.mp (by omega)
    subst this; rfl
  | succ fuel ih =>
    intro s d hi h
    cases d with
    | nil => rfl
    | cons b d =>
      rw [metaLoop]
      · have := metaRound_fold hi (d := b :: d) (by simp)
        cases hm : metaRound s (b :: d) with
        | none => rw [hm] at this; exact this.symm
        | some p =>
          obtain ⟨t, e⟩ := p
          rw [hm] at this
          obtain ⟨h1, h2, h3⟩ := this
          simp only
          rw [h3, ih h1 (by simp only [List.length_cons] at h h2; omega)]
      · simp

theorem processMeta_fold {s : MetaState} (hi : s.Inv) (d : List Nat) : processMeta s d = d.foldlM metaByte s := metaLoop_fold _ hi (by omega)

theorem metaByte_inv {s t : MetaState} (hi : s.Inv) {b : Nat} (h : metaByte s b = some t) : t.Inv := by
  have := metaRound_fold hi (d := [b]) (by simp)
  have e : [b].foldlM metaByte s = some t := by simp [List.foldlM, h]
  cases hm : metaRound s [b] with
  | none =>
    rw [hm] at this
    have this : [b].foldlM metaByte s = none := this
    rw [e] at this; cases this
  | some p =>
    obtain ⟨u, r⟩ := p
    rw [hm] at this
    obtain ⟨h1, h2, h3⟩ := this
    have : r = [] := List.length_eq_zero_iff.mp (by simpa using h2)
    subst this
    rw [e] at h3
    cases h3
    exact h1

theorem foldlM_inv {s t : MetaState} (hi : s.Inv) {d : List Nat} (h : d.foldlM metaByte s = some t) : t.Inv := by
  induction d generalizing s with
  | nil => cases h; exact hi
  | cons b d ih =>
    rw [List.foldlM_cons] at h
    cases hb : metaByte s b with
    | none => rw [hb] at h; cases h
    | some u => rw [hb] at h; exact ih (metaByte_inv hi hb) h

theorem init_inv : MetaState.init.Inv := fun h => by cases h

theorem processMeta_append {s : MetaState} (hi : s.Inv) (a b : List Nat) :
    processMeta s (a ++ b) = (processMeta s a).bind fun t => processMeta t b := by
  rw [processMeta_fold hi, processMeta_fold hi, List.foldlM_append]
  cases h : a.foldlM metaByte s with
  | none => rfl
  | some t => exact (processMeta_fold (foldlM_inv hi h) b).symm

theorem processMeta_chunks (cs : List (List Nat)) : ∀ {s : MetaState}, s.Inv → cs.foldlM processMeta s = processMeta s cs.flatten := by
  induction cs with
  | nil => intro s _; rfl
  | cons c cs ih =>
    intro s hi
    rw [List.foldlM_cons, List.flatten_cons, processMeta_append hi]
    cases h : processMeta s c with
    | none => rfl
    | some t =>
      rw [processMeta_fold hi] at h
      exact ih (foldlM_inv hi h)

theorem metaChunks_eq (cs : List (List Nat)) : ∀ {left : Nat} {s : MetaState}, s.Inv → metaChunks left s cs =
    if cs.flatten.length = left then (processMeta s cs.flatten).bind fun s => if s.canFinish then some s else none else none := by
  induction cs with
  | nil =>
    intro left s _
    rw [metaChunks]
    show _ = if 0 = left then (some s).bind _ else none
    by_cases h : left = 0
    · subst h; simp
    · rw [if_neg (fun e => h e.1), if_neg (fun e => h e.symm)]
  | cons c cs ih =>
    intro left s hi
    rw [metaChunks, List.flatten_cons, List.length_append]
    by_cases h : c.length > left
    · rw [if_pos h, if_neg (by omega)]
    · rw [if_neg h, processMeta_append hi]
      cases hc : processMeta s c with
      | none => simp
      | some t =>
        have ht : t.Inv := by rw [processMeta_fold hi] at hc; exact foldlM_inv hi hc
        simp only [Option.bind_some]
        rw [ih ht]
        by_cases he : cs.flatten.length = left - c.length
        · rw [if_pos he, if_pos (by omega)]
        · rw [if_neg he, if_neg (by omega)]

/-! ## Round trip -/

/-- A saved APPn segment, as `ProcessAPP` stores it (c/enc/jpeg_data_reader.cc:394-406): marker, length, contents. -/
def AppSeg (s : List Nat) : Prop :=
  ∃ m hi lo rest, s = m :: hi :: lo :: rest ∧ 0xE0 ≤ m ∧ m ≤ 0xEF ∧ hi < 256 ∧ lo < 256 ∧ rest.length + 2 = hi * 256 + lo ∧ Bytes rest

/-- A saved comment, as `ProcessCOM` stores it (c/enc/jpeg_data_reader.cc:408-420). -/
def ComSeg (s : List Nat) : Prop :=
  ∃ hi lo rest, s = 0xFE :: hi :: lo :: rest ∧ hi < 256 ∧ lo < 256 ∧ rest.length + 2 = hi * 256 + lo ∧ Bytes rest

/-- `t` comes from `s` by adding the segments `a` and `c`, of which `n` were short. -/
def MetaNext (s t : MetaState) (a c : List (List Nat)) (n : Nat) : Prop :=
  t.stage = .marker ∧ t.short = s.short + n ∧ t.app = s.app ++ a ∧ t.com = s.com ++ c ∧ t.tail = s.tail

theorem meta_rest {s : MetaState} {rest : List Nat} (hr : rest.length = s.remaining)
    (hs : s.stage = if rest.length > 0 then MetaStage.multibyte else .marker) :
    ∃ t, rest.foldlM metaByte s = some t ∧ t.stage = .marker ∧ t.short = s.short ∧ t.app = (s.sink rest).app ∧
      t.com = (s.sink rest).com ∧ t.tail = s.tail ∨ rest = [] := by
  by_cases he : rest = []
  · exact ⟨s, Or.inr he⟩
  · have hp : rest.length > 0 := List.length_pos_iff.mpr he
    rw [if_pos hp] at hs
    refine ⟨_, Or.inl ⟨metaByte_multibyte rest hs he (by omega), ?_, ?_, rfl, rfl, ?_⟩⟩
    · simp only; rw [if_pos (by omega)]
    · simp only [MetaState.sink]; split <;> rfl
    · simp only [MetaState.sink]; split <;> rfl

theorem meta_app {s : MetaState} {x : List Nat} (hs : s.stage = .marker) (hx : AppSeg x)
    (hl : s.app.length - s.short < kBrunsliMultibyteMarkerLimit) : ∃ t, x.foldlM metaByte s = some t ∧ MetaNext s t [x] [] 0 := by
  obtain ⟨m, hi, lo, rest, rfl, h1, h2, h3, h4, h5, h6⟩ := hx
  have e1 : metaByte s m = some { s with marker := m, stage := .lengthHi } := by
    rw [metaByte_of_marker hs, metaMarker, if_neg (by omega), if_neg (by omega), if_neg (by omega), if_neg (by omega)]
  have e2 : metaByte { s with marker := m, stage := .lengthHi } hi = some { s with marker := m, hi := hi, stage := .lengthLo } :=
    metaByte_of_lengthHi rfl
  have e3 : metaByte { s with marker := m, hi := hi, stage := .lengthLo } lo = some { s with
      marker := m, hi := hi, remaining := hi * 256 + lo - 2, sinkCom := false, app := s.app ++ [[m, hi, lo]],
      stage := if hi * 256 + lo - 2 > 0 then MetaStage.multibyte else .marker } := by
    rw [metaByte_of_lengthLo rfl, metaLengthLo]
    have hd : decide (m = 0xFE) = false := decide_eq_false (by omega)
    simp only [hd]
    rw [if_neg (by omega)]
    simp only [Bool.false_eq_true, ↓reduceIte]
    rw [if_neg (by omega)]
  rw [List.foldlM_cons, e1]
  simp only [Option.bind_eq_bind, Option.bind_some]
  rw [List.foldlM_cons, e2]
  simp only [Option.bind_eq_bind, Option.bind_some]
  rw [List.foldlM_cons, e3]
  simp only [Option.bind_eq_bind, Option.bind_some]
  have hlen : hi * 256 + lo - 2 = rest.length := by omega
  rw [hlen]
  obtain ⟨t, ⟨g1, g2, g3, g4, g5, g6⟩ | g⟩ := meta_rest (s := { s with
      marker := m, hi := hi, remaining := rest.length, sinkCom := false, app := s.app ++ [[m, hi, lo]],
      stage := if rest.length > 0 then MetaStage.multibyte else .marker }) (rest := rest) rfl rfl
  · refine ⟨t, g1, g2, by rw [g3]; rfl, ?_, ?_, g6⟩
    · rw [g4]
      simp only [MetaState.sink, Bool.false_eq_true, ↓reduceIte, appendLast_append]
      rfl
    · rw [g5]; simp [MetaState.sink]
  · subst g
    exact ⟨_, rfl, rfl, rfl, rfl, by simp, rfl⟩

theorem meta_com {s : MetaState} {x : List Nat} (hs : s.stage = .marker) (hx : ComSeg x)
    (hl : s.com.length < kBrunsliMultibyteMarkerLimit) : ∃ t, x.foldlM metaByte s = some t ∧ MetaNext s t [] [x] 0 := by
  obtain ⟨hi, lo, rest, rfl, h3, h4, h5, h6⟩ := hx
  have e1 : metaByte s 0xFE = some { s with marker := 0xFE, stage := .lengthHi } := by
    rw [metaByte_of_marker hs, metaMarker, if_neg (by omega), if_neg (by omega), if_neg (by omega), if_neg (by omega)]
  have e2 : metaByte { s with marker := 0xFE, stage := .lengthHi } hi = some { s with marker := 0xFE, hi := hi, stage := .lengthLo } :=
    metaByte_of_lengthHi rfl
  have e3 : metaByte { s with marker := 0xFE, hi := hi, stage := .lengthLo } lo = some { s with
      marker := 0xFE, hi := hi, remaining := hi * 256 + lo - 2, sinkCom := true, com := s.com ++ [[0xFE, hi, lo]],
      stage := if hi * 256 + lo - 2 > 0 then MetaStage.multibyte else .marker } := by
    rw [metaByte_of_lengthLo rfl, metaLengthLo]
    simp only [decide_true, ↓reduceIte]
    rw [if_neg (by omega), if_neg (by omega)]
  rw [List.foldlM_cons, e1]
  simp only [Option.bind_eq_bind, Option.bind_some]
  rw [List.foldlM_cons, e2]
  simp only [Option.bind_eq_bind, Option.bind_some]
  rw [List.foldlM_cons, e3]
  simp only [Option.bind_eq_bind, Option.bind_some]
  have hlen : hi * 256 + lo - 2 = rest.length := by omega
  rw [hlen]
  obtain ⟨t, ⟨g1, g2, g3, g4, g5, g6⟩ | g⟩ := meta_rest (s := { s with
      marker := 0xFE, hi := hi, remaining := rest.length, sinkCom := true, com := s.com ++ [[0xFE, hi, lo]],
      stage := if rest.length > 0 then MetaStage.multibyte else .marker }) (rest := rest) rfl rfl
  · refine ⟨t, g1, g2, by rw [g3]; rfl, ?_, ?_, g6⟩
    · rw [g4]; simp [MetaState.sink]
    · rw [g5]
      simp only [MetaState.sink, ↓reduceIte, appendLast_append]
      rfl
  · subst g
    exact ⟨_, rfl, rfl, rfl, by simp, rfl, rfl⟩

theorem len8 {l : List Nat} (h : l.length = 8) :
    l = [l.getD 0 0, l.getD 1 0, l.getD 2 0, l.getD 3 0, l.getD 4 0, l.getD 5 0, l.getD 6 0, l.getD 7 0] := by
  match l, h with
  | [_, _, _, _, _, _, _, _], _ => rfl

theorem generateApp0_all : ∀ a < 2, ∀ b < 4, ∀ k < 8, (a ||| (b <<< 1) ||| (k <<< 3)) < 0x40 ∧
    generateApp0 (a ||| (b <<< 1) ||| (k <<< 3)) = appDatae0.take 9 ++ [a + 1, b, kApp0Densities.getD k 0 / 256,
      kApp0Densities.getD k 0 % 256, kApp0Densities.getD k 0 / 256, kApp0Densities.getD k 0 % 256, 0, 0] := by decide +kernel

theorem transformApp0_some {x o : List Nat} (hb : Bytes x) (h : transformApp0 x = some o) :
    ∃ c, o = [c] ∧ c < 0x40 ∧ generateApp0 c = x := by
  unfold transformApp0 at h
  by_cases h1 : x.length ≠ 17
  · rw [if_pos h1] at h; cases h
  rw [if_neg h1] at h
  by_cases h2 : x.take 9 ≠ appDatae0.take 9
  · rw [if_pos h2] at h; cases h
  rw [if_neg h2] at h
  by_cases h3 : (x.getD 9 0 = 1 ∨ x.getD 9 0 = 2) ∧ x.getD 10 0 < 4 ∧ x.getD 15 0 = 0 ∧ x.getD 16 0 = 0
  · rw [if_pos h3] at h
    simp only at h
    cases hk : (List.range 8).reverse.find? (fun k => kApp0Densities.getD k 0 == x.getD 11 0 * 256 + x.getD 12 0 &&
        x.getD 13 0 * 256 + x.getD 14 0 == x.getD 11 0 * 256 + x.getD 12 0) with
    | none => rw [hk] at h; cases h
    | some k =>
      rw [hk] at h
      simp only [Option.some.injEq] at h
      have hkm := List.mem_of_find?_eq_some hk
      have hkp := List.find?_some hk
      simp only [List.mem_reverse, List.mem_range] at hkm
      simp only [Bool.and_eq_true, beq_iff_eq] at hkp
      have h1 : x.length = 17 := by omega
      have h2 : x.take 9 = appDatae0.take 9 := by simpa using h2
      have hb' : ∀ i, x.getD i 0 < 256 := by
        intro i
        rw [List.getD_eq_getElem?_getD]
        cases hi : x[i]? with
        | none => simp
        | some v => exact hb v (List.mem_of_getElem? hi)
      have hdrop : x.drop 9 = [x.getD 9 0, x.getD 10 0, x.getD 11 0, x.getD 12 0, x.getD 13 0, x.getD 14 0, x.getD 15 0, x.getD 16 0] := by
        have := len8 (l := x.drop 9) (by rw [List.length_drop]; omega)
        simpa only [List.getD_eq_getElem?_getD, List.getElem?_drop] using this
      obtain ⟨g1, g2⟩ := generateApp0_all (x.getD 9 0 - 1) (by omega) (x.getD 10 0) h3.2.1 k hkm
      refine ⟨_, h.symm, g1, ?_⟩
      rw [g2, ← h2]
      conv => rhs; rw [← List.take_append_drop 9 x, hdrop]
      have b11 := hb' 11
      have b12 := hb' 12
      have b13 := hb' 13
      have b14 := hb' 14
      obtain ⟨k1, k2⟩ := hkp
      obtain ⟨k3, k4, k5, k6⟩ := h3
      rw [k1, k5, k6]
      generalize x.getD 9 0 = x9 at *
      generalize x.getD 11 0 = x11 at *
      generalize x.getD 12 0 = x12 at *
      generalize x.getD 13 0 = x13 at *
      generalize x.getD 14 0 = x14 at *
      rw [show x9 - 1 + 1 = x9 by omega, show (x11 * 256 + x12) / 256 = x11 by omega, show (x11 * 256 + x12) % 256 = x12 by omega,
        show x13 = x11 by omega, show x14 = x12 by omega]
  · rw [if_neg h3] at h; cases h

theorem transformAppAt_some {ref x o : List Nat} {k code : Nat} (hk : k < ref.length) (h : transformAppAt ref k code x = some o) :
    o = [code, x.getD k 0] ∧ ref.set k (x.getD k 0) = x := by
  unfold transformAppAt at h
  split at h
  · rename_i hc
    obtain ⟨h1, h2, h3⟩ := hc
    refine ⟨(Option.some.inj h).symm, ?_⟩
    rw [List.set_eq_take_append_cons_drop, if_pos hk, ← h2, ← h3]
    have hk' : k < x.length := by omega
    rw [List.getD_eq_getElem?_getD, List.getElem?_eq_getElem hk', Option.getD_some]
    rw [List.getElem_cons_drop, List.take_append_drop]
  · cases h

theorem meta_code {s : MetaState} {m c : Nat} (hs : s.stage = .marker) (hm : 0x80 ≤ m ∧ m ≤ 0x82) (hl : s.short < kBrunsliShortMarkerLimit) :
    ∃ t, [m, c].foldlM metaByte s = some t ∧ MetaNext s t [generateApp m c] [] 1 := by
  have e1 : metaByte s m = some { s with marker := m, short := s.short + 1, stage := .code } := by
    rw [metaByte_of_marker hs, metaMarker, if_neg (by omega), if_neg (by omega), if_pos hm, if_neg (by omega)]
  refine ⟨{ s with marker := m, short := s.short + 1, app := s.app ++ [generateApp m c], stage := .marker }, ?_, ?_⟩
  · rw [List.foldlM_cons, e1]
    simp only [Option.bind_eq_bind, Option.bind_some]
    rw [List.foldlM_cons, metaByte_of_code rfl]
    rfl
  · exact ⟨rfl, rfl, rfl, by simp, rfl⟩

theorem meta_short {s : MetaState} {x o : List Nat} (hs : s.stage = .marker) (hx : Bytes x) (h : transformApp x = some o)
    (hl : s.short < kBrunsliShortMarkerLimit) : ∃ t, o.foldlM metaByte s = some t ∧ MetaNext s t [x] [] 1 := by
  unfold transformApp at h
  cases h0 : transformApp0 x with
  | some o0 =>
    rw [h0] at h; cases h
    obtain ⟨c, rfl, hc, he⟩ := transformApp0_some hx h0
    refine ⟨{ s with marker := c, short := s.short + 1, app := s.app ++ [generateApp0 c] }, ?_, hs, rfl, by rw [he], by simp, rfl⟩
    rw [List.foldlM_cons, metaByte_of_marker hs, metaMarker, if_neg (by omega), if_pos hc, if_neg (by omega)]
    rfl
  | none =>
    rw [h0] at h
    simp only at h
    cases h2 : transformAppAt appDatae2 84 0x80 x with
    | some o0 =>
      rw [h2] at h; cases h
      obtain ⟨rfl, he⟩ := transformAppAt_some (by decide +kernel) h2
      have := meta_code (m := 0x80) (c := x.getD 84 0) hs (by omega) hl
      rw [generateApp, if_pos rfl, he] at this
      exact this
    | none =>
      rw [h2] at h
      simp only at h
      cases h3 : transformAppAt appDataec 15 0x81 x with
      | some o0 =>
        rw [h3] at h; cases h
        obtain ⟨rfl, he⟩ := transformAppAt_some (by decide +kernel) h3
        have := meta_code (m := 0x81) (c := x.getD 15 0) hs (by omega) hl
        rw [generateApp, if_neg (by omega), if_pos rfl, he] at this
        exact this
      | none =>
        rw [h3] at h
        simp only at h
        obtain ⟨rfl, he⟩ := transformAppAt_some (by decide +kernel) h
        have := meta_code (m := 0x82) (c := x.getD 10 0) hs (by omega) hl
        rw [generateApp, if_neg (by omega), if_neg (by omega), he] at this
        exact this

theorem AppSeg.bytes {s : List Nat} (h : AppSeg s) : Bytes s := by
  obtain ⟨m, hi, lo, rest, rfl, h1, h2, h3, h4, h5, h6⟩ := h
  intro b hb
  simp only [List.mem_cons] at hb
  rcases hb with rfl | rfl | rfl | hb
  · omega
  · omega
  · omega
  · exact h6 b hb

theorem meta_apps (app : List (List Nat)) : ∀ {s : MetaState}, s.stage = .marker → (∀ x ∈ app, AppSeg x) → s.short ≤ s.app.length →
    s.short + app.countP (fun x => (transformApp x).isSome) ≤ kBrunsliShortMarkerLimit →
    s.app.length - s.short + (app.length - app.countP (fun x => (transformApp x).isSome)) ≤ kBrunsliMultibyteMarkerLimit →
    ∃ t, (app.flatMap fun x => (transformApp x).getD x).foldlM metaByte s = some t ∧
      MetaNext s t app [] (app.countP fun x => (transformApp x).isSome) := by
  induction app with
  | nil => intro s hs _ _ _ _; exact ⟨s, rfl, hs, rfl, by simp, by simp, rfl⟩
  | cons x app ih =>
    intro s hs hx hle h1 h2
    have hcp := List.countP_le_length (p := fun x => (transformApp x).isSome) (l := app)
    rw [List.flatMap_cons, List.foldlM_append]
    rw [List.countP_cons, List.length_cons] at h2
    rw [List.countP_cons] at h1 ⊢
    have key : ∃ t, ((transformApp x).getD x).foldlM metaByte s = some t ∧ MetaNext s t [x] [] (if (transformApp x).isSome then 1 else 0) := by
      cases ht : transformApp x with
      | none =>
        rw [ht] at h2
        simp only [Option.isSome_none, Bool.false_eq_true, ↓reduceIte] at h2
        exact meta_app hs (hx x List.mem_cons_self) (by omega)
      | some o =>
        rw [ht] at h1
        simp only [Option.isSome_some, ↓reduceIte] at h1
        exact meta_short hs (hx x List.mem_cons_self).bytes ht (by omega)
    obtain ⟨t, e, g1, g2, g3, g4, g5⟩ := key
    rw [e]
    have hlen : t.app.length = s.app.length + 1 := by rw [g3]; simp
    obtain ⟨u, e', k1, k2, k3, k4, k5⟩ := ih (s := t) g1 (fun y hy => hx y (List.mem_cons_of_mem _ hy))
      (by rw [hlen, g2]; split <;> omega) (by rw [g2]; omega)
      (by rw [hlen, g2]; split at h2 <;> simp_all <;> omega)
    refine ⟨u, e', k1, by rw [k2, g2]; omega, by rw [k3, g3]; simp, by rw [k4, g4]; simp, by rw [k5, g5]⟩

theorem meta_coms (com : List (List Nat)) : ∀ {s : MetaState}, s.stage = .marker → (∀ x ∈ com, ComSeg x) →
    s.com.length + com.length ≤ kBrunsliMultibyteMarkerLimit →
    ∃ t, com.flatten.foldlM metaByte s = some t ∧ MetaNext s t [] com 0 := by
  induction com with
  | nil => intro s hs _ _; exact ⟨s, rfl, hs, rfl, by simp, by simp, rfl⟩
  | cons x com ih =>
    intro s hs hx hl
    rw [List.length_cons] at hl
    obtain ⟨t, e, g1, g2, g3, g4, g5⟩ := meta_com hs (hx x List.mem_cons_self) (by omega)
    rw [List.flatten_cons, List.foldlM_append, e]
    obtain ⟨u, e', k1, k2, k3, k4, k5⟩ := ih (s := t) g1 (fun y hy => hx y (List.mem_cons_of_mem _ hy)) (by rw [g4]; simp; omega)
    exact ⟨u, e', k1, by rw [k2, g2], by rw [k3, g3]; simp, by rw [k4, g4]; simp, by rw [k5, g5]⟩

theorem joinMetadata_reads {app com : List (List Nat)} {tail m : List Nat} (ha : ∀ x ∈ app, AppSeg x) (hc : ∀ x ∈ com, ComSeg x)
    (h : joinMetadata app com tail = some m) : ∃ t, m.foldlM metaByte MetaState.init = some t ∧
      t.canFinish = true ∧ t.app = app ∧ t.com = com ∧ t.tail = tail := by
  unfold joinMetadata at h
  simp only at h
  by_cases h1 : (app.countP fun s => (transformApp s).isSome) > kBrunsliShortMarkerLimit
  · rw [if_pos h1] at h; cases h
  rw [if_neg h1] at h
  by_cases h2 : app.length - (app.countP fun s => (transformApp s).isSome) > kBrunsliMultibyteMarkerLimit
  · rw [if_pos h2] at h; cases h
  rw [if_neg h2] at h
  by_cases h3 : com.length > kBrunsliMultibyteMarkerLimit
  · rw [if_pos h3] at h; cases h
  rw [if_neg h3] at h
  obtain rfl := Option.some.inj h
  obtain ⟨t, e, g1, g2, g3, g4, g5⟩ := meta_apps app (s := .init) rfl ha (Nat.le_refl _)
    (by simp only [MetaState.init]; omega) (by simp only [MetaState.init, List.length_nil]; omega)
  obtain ⟨u, e', k1, k2, k3, k4, k5⟩ := meta_coms com g1 hc (by rw [g4]; simp [MetaState.init]; omega)
  rw [List.foldlM_append, e]
  simp only [Option.bind_eq_bind, Option.bind_some]
  rw [List.foldlM_append, e']
  simp only [Option.bind_eq_bind, Option.bind_some]
  have a1 : u.app = app := by rw [k3, g3]; simp [MetaState.init]
  have a2 : u.com = com := by rw [k4, g4]; simp [MetaState.init]
  have a3 : u.tail = [] := by rw [k5, g5]; rfl
  by_cases ht : tail = []
  · subst ht
    exact ⟨u, rfl, by simp [MetaState.canFinish, k1], a1, a2, a3⟩
  · rw [if_neg ht, List.foldlM_cons, metaByte_of_marker k1, metaMarker, if_pos rfl]
    simp only [Option.bind_eq_bind, Option.bind_some]
    rw [metaByte_tail tail rfl]
    exact ⟨_, rfl, rfl, a1, a2, by simp⟩

theorem transformApp_length {x o : List Nat} (h : transformApp x = some o) : o.length ≤ x.length := by
  have ht : ∀ {ref : List Nat} {k code : Nat}, 2 ≤ ref.length → transformAppAt ref k code x = some o → o.length ≤ x.length := by
    intro ref k code hr h
    unfold transformAppAt at h
    split at h
    · cases h
      rename_i hc
      simp only [List.length_cons, List.length_nil]
      omega
    · cases h
  unfold transformApp at h
  cases h0 : transformApp0 x with
  | some o0 =>
    rw [h0] at h; cases h
    unfold transformApp0 at h0
    split at h0
    · cases h0
    · have h1 : x.length = 17 := by omega
      split at h0
      · cases h0
      · split at h0
        · simp only at h0
          split at h0
          · cases h0; simp only [List.length_cons, List.length_nil]; omega
          · cases h0
        · cases h0
  | none =>
    rw [h0] at h
    simp only at h
    cases h2 : transformAppAt appDatae2 84 0x80 x with
    | some o0 => rw [h2] at h; cases h; exact ht (by decide +kernel) h2
    | none =>
      rw [h2] at h
      simp only at h
      cases h3 : transformAppAt appDataec 15 0x81 x with
      | some o0 => rw [h3] at h; cases h; exact ht (by decide +kernel) h3
      | none => rw [h3] at h; exact ht (by decide +kernel) h

theorem joinMetadata_length {app com : List (List Nat)} {tail m : List Nat} (h : joinMetadata app com tail = some m) :
    m.length ≤ app.flatten.length + com.flatten.length + tail.length + 1 := by
  have key : (app.flatMap fun s => (transformApp s).getD s).length ≤ app.flatten.length := by
    clear h
    induction app with
    | nil => simp
    | cons x app ih =>
      rw [List.flatMap_cons, List.flatten_cons, List.length_append, List.length_append]
      cases hx : transformApp x with
      | none => simp only [Option.getD_none]; omega
      | some o => simp only [Option.getD_some]; have := transformApp_length hx; omega
  unfold joinMetadata at h
  simp only at h
  split at h
  · cases h
  · split at h
    · cases h
    · split at h
      · cases h
      · cases h
        simp only [List.length_append]
        split <;> simp only [List.length_nil, List.length_cons] <;> omega

theorem decodeBase128_encode {n : Nat} (h : n < 2 ^ 63) (rest : List Nat) : decodeBase128 (encodeBase128 n ++ rest) = .ok n rest := by
  have := decodeLoop_encode 9 n 0 0 rest (by decide) (by omega)
  simpa [decodeBase128] using this

theorem metadata_roundtrip {compress : List Nat → Option (List Nat)} {decompress : List Nat → Option (List (List Nat))}
    (hz : ∀ m c, compress m = some c → c ≠ [] ∧ ∃ chunks, decompress c = some chunks ∧ chunks.flatten = m)
    {app com : List (List Nat)} {tail p m : List Nat} (ha : ∀ x ∈ app, AppSeg x) (hc : ∀ x ∈ com, ComSeg x)
    (hm : joinMetadata app com tail = some m) (hl : m.length < 2 ^ 63)
    (h : encodeMetadata compress app com tail = some p) :
    ∃ t, decodeMetadata decompress p = some t ∧ t.app = app ∧ t.com = com ∧ t.tail = tail := by
  obtain ⟨t, e, g1, g2⟩ := joinMetadata_reads ha hc hm
  unfold encodeMetadata at h
  rw [hm] at h
  match m, h, e with
  | [], h, e =>
    cases h; cases e
    exact ⟨_, rfl, g2⟩
  | [b], h, e =>
    cases h
    refine ⟨t, ?_, g2⟩
    show (processMeta .init [b]).bind _ = _
    rw [processMeta_fold init_inv, e]
    simp [g1]
  | b :: b' :: m, h, e =>
    simp only [Option.map_eq_some_iff] at h
    obtain ⟨c, h1, h2⟩ := h
    obtain ⟨hne, chunks, hd, hf⟩ := hz _ _ h1
    refine ⟨t, ?_, g2⟩
    obtain ⟨x, y, hxy⟩ : ∃ x y, encodeBase128 (b :: b' :: m).length = x :: y := by
      unfold encodeBase128; split <;> exact ⟨_, _, rfl⟩
    obtain ⟨z, w, hzw⟩ := List.exists_cons_of_ne_nil hne
    have hp : ∃ p0 p1 pr, p = p0 :: p1 :: pr := by
      rw [← h2, hxy, hzw]
      cases y with
      | nil => exact ⟨_, _, _, rfl⟩
      | cons y ys => exact ⟨_, _, _, rfl⟩
    obtain ⟨p0, p1, pr, hp⟩ := hp
    have hdec : decodeBase128 p = .ok (b :: b' :: m).length c := by rw [← h2]; exact decodeBase128_encode hl c
    rw [hp] at hdec ⊢
    simp only [decodeMetadata, hdec]
    rw [if_neg hne, hd]
    simp only [Option.bind_some]
    rw [metaChunks_eq chunks init_inv, hf, if_pos rfl, processMeta_fold init_inv, e]
    simp [g1]

end Brunsli
