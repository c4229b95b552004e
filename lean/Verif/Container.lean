import Verif.Reader
/-!
# The container

`EncodeSignature`, `FrameTypeCode`, `EncodeHeader`, `BrunsliSerialize`, `BrunsliEncodeJpegBypass`
(c/enc/brunsli_encode.cc:782-834, 1359-1418, 1534-1582) and `VerifySignature`, `DecodeHeader`, `DecodeOriginalJpg`, `ParseSection`,
`ProcessSection`, `UpdateSubsamplingDerivatives`, `DoProcessJpeg` (c/dec/brunsli_decode.cc:1097-1272, 1978-2314).

The bodies of the sections are a parameter, applied to the whole payload; how the code resumes in the middle of a payload is
not modelled here.
-/

namespace Brunsli

/-- `kBrunsliSignature` (c/common/constants.cc:13-15). -/
def kBrunsliSignature : List Nat := [0x0A, 0x04, 0x42, 0xD2, 0xD5, 0x4E]

/-- `VerifySignature` (c/dec/brunsli_decode.cc:1097-1110). -/
def readSignature : Rd Unit := Rd.andThen (Rd.bytes 6) fun s => if s = kBrunsliSignature then Rd.ret () else Rd.fail

/-- What the header describes; `comps` are the horizontal and vertical sampling factors. -/
structure Header where
  version : Nat
  width : Nat
  height : Nat
  comps : List (Nat × Nat)
deriving DecidableEq, Repr

/-- The largest factor, at least 1 (`max_h_samp_factor`, `max_v_samp_factor`: initial value 1, c/include/brunsli/jpeg_data.h:214-215). -/
def maxFactor (fs : List Nat) : Nat := fs.foldl max 1

/-- `DivCeil` (c/dec/brunsli_decode.cc:84). -/
def divCeil (a b : Nat) : Nat := (a + b - 1) / b

/-- `MCU_rows` (c/dec/brunsli_decode.cc:2207). -/
def Header.mcuRows (h : Header) : Nat := divCeil h.height (maxFactor (h.comps.map Prod.snd) * 8)

/-- `MCU_cols` (c/dec/brunsli_decode.cc:2208). -/
def Header.mcuCols (h : Header) : Nat := divCeil h.width (maxFactor (h.comps.map Prod.fst) * 8)

/-- `width_in_blocks` and `height_in_blocks` of the components (c/dec/brunsli_decode.cc:2211-2212). -/
def Header.blocks (h : Header) : List (Nat × Nat) := h.comps.map fun c => (h.mcuCols * c.1, h.mcuRows * c.2)

/-- `kBrunsliMaxNumBlocks` (c/common/constants.h:20). -/
def kBrunsliMaxNumBlocks : Nat := 2 ^ 21

/-- `UpdateSubsamplingDerivatives` (c/dec/brunsli_decode.cc:2201-2223). -/
def Header.blocksOk (h : Header) : Bool := h.blocks.all fun b => b.1 * b.2 ≤ kBrunsliMaxNumBlocks

/-- One item of the header (c/dec/brunsli_decode.cc:1138-1178): its tag, the tags met and the value, if it is a number.  The
`Fail` of line 1149 has no effect, its result not being returned. -/
def headerItem (met : List Nat) : Rd (Nat × List Nat × Option Nat) :=
  Rd.andThen (readTag met) fun t =>
    Rd.andThen decodeBase128 fun v =>
      if t.2.1 then Rd.andThen (Rd.bytes v) fun _ => Rd.ret (t.1, t.2.2, none) else Rd.ret (t.1, t.2.2, some v)

/-- The items of a header of `size` bytes, `pos` of which have been read (c/dec/brunsli_decode.cc:1138-1178).  The tags being
distinct, there are at most 15. -/
def headerItems (size : Nat) : (fuel pos : Nat) → (met vals : List Nat) → Rd (List Nat × List Nat)
  | 0, _, _, _ => Rd.fail
  | fuel + 1, pos, met, vals =>
    if pos = size then Rd.ret (met, vals)
    else Rd.andThen (Rd.counted (headerItem met)) fun t =>
      headerItems size fuel (pos + t.2) t.1.2.1 (match t.1.2.2 with | some v => vals.set t.1.1 v | none => vals)

/-- The sampling factors in the subsampling code (c/dec/brunsli_decode.cc:1237-1249). -/
def unpackSampling : (n code : Nat) → List (Nat × Nat)
  | 0, _ => []
  | n + 1, code => (code / 16 % 16 + 1, code % 16 + 1) :: unpackSampling n (code / 256)

/-- The end of the header (c/dec/brunsli_decode.cc:1180-1262). -/
def headerFinale (met vals : List Nat) : Option Header :=
  if 3 ∉ met then none
  else
    let vc := vals.getD 3 0
    let version := vc / 4
    if version = 1 then some ⟨1, 0, 0, []⟩
    else if version % 2 ≠ 0 then none
    else if 8 ≤ version then none
    else if 1 ∉ met then none
    else if 2 ∉ met then none
    else
      let width := vals.getD 1 0
      let height := vals.getD 2 0
      if width = 0 ∨ height = 0 then none
      else if width > 65535 ∨ height > 65535 then none
      else if 4 ∉ met then none
      else
        let comps := unpackSampling (vc % 4 + 1) (vals.getD 4 0)
        if comps.any (fun c => c.1 > 15 ∨ c.2 > 15) then none
        else
          let h : Header := ⟨version, width, height, comps⟩
          if h.blocksOk then some h else none

/-- The contents of the header section; `varint_values` starts as zeros, `InternalState` being value-initialised
(c/dec/state.cc:16). -/
def readHeaderBody (size : Nat) : Rd Header :=
  Rd.andThen (headerItems size 16 0 [] (List.replicate 16 0)) fun t => Rd.ofOption (headerFinale t.1 t.2)

/-- `DecodeHeader` (c/dec/brunsli_decode.cc:1116-1272): the header and the tags met at top level. -/
def readHeader (met : List Nat) : Rd (Header × List Nat) :=
  Rd.andThen (readTag met) fun t =>
    if t.1 = 2 ∧ t.2.1 then
      Rd.andThen decodeBase128 fun size => Rd.andThen (readHeaderBody size) fun h => Rd.ret (h, t.2.2)
    else Rd.fail

/-- `DecodeOriginalJpg` (c/dec/brunsli_decode.cc:1978-2044). -/
def readOriginal (met : List Nat) : Rd (List Nat) :=
  Rd.andThen (readTag met) fun t =>
    if t.1 = 9 ∧ t.2.1 then Rd.andThen decodeBase128 fun size => Rd.bytes size else Rd.fail

/-- The sections a section needs before it (c/dec/brunsli_decode.cc:2131-2178). -/
def requires (tag : Nat) : List Nat :=
  if tag = 5 ∨ tag = 6 then [4] else if tag = 7 then [6, 5] else if tag = 8 then [7] else []

/-- DC and AC data come in words (c/dec/brunsli_decode.cc:2157-2160, 2171-2174). -/
def wordSection (tag : Nat) : Bool := tag = 7 ∨ tag = 8

/-- `ParseSection`, `ProcessSection` (c/dec/brunsli_decode.cc:2046-2196) from the first section to the last: `body` decodes the
payload of a known section.  The `HasSection` test of line 2057 is only met when the AC data is skipped. -/
def readSections {σ : Type} (body : σ → Nat → List Nat → Option σ) : (fuel : Nat) → (met : List Nat) → σ → Rd σ
  | 0, _, _ => Rd.fail
  | fuel + 1, met, s =>
    Rd.andThen (readTag met) fun t =>
      if t.2.1 then
        Rd.andThen decodeBase128 fun v =>
          if 9 < t.1 then Rd.andThen (Rd.bytes v) fun _ => readSections body fuel t.2.2 s
          else if (requires t.1).any (fun r => r ∉ met) then Rd.fail
          else if wordSection t.1 ∧ v % 2 ≠ 0 then Rd.fail
          else Rd.andThen (Rd.bytes v) fun payload =>
            Rd.andThen (Rd.ofOption (body s t.1 payload)) fun s =>
              if t.1 = 8 then Rd.ret s else readSections body fuel t.2.2 s
      else if t.1 ≤ 9 then Rd.fail
      else Rd.andThen decodeBase128 fun _ => readSections body fuel t.2.2 s

/-- What a file holds. -/
inductive Content (σ : Type) where
  | original (bytes : List Nat)
  | image (s : σ)
deriving DecidableEq, Repr

/-- The stages of `DoProcessJpeg` (c/dec/brunsli_decode.cc:2269-2292). -/
def readFile {σ : Type} (init : Header → Option σ) (body : σ → Nat → List Nat → Option σ) : Rd (Content σ) :=
  Rd.andThen readSignature fun _ =>
    Rd.andThen (readHeader [1]) fun t =>
      if t.1.version = 1 then Rd.andThen (readOriginal t.2) fun d => Rd.ret (.original d)
      else Rd.andThen (Rd.ofOption (init t.1)) fun s =>
        Rd.andThen (readSections body 16 (9 :: t.2) s) fun s => Rd.ret (.image s)

/-- `DoProcessJpeg` on a whole file: nothing may follow (c/dec/brunsli_decode.cc:2294-2301). -/
def decodeFile {σ : Type} (init : Header → Option σ) (body : σ → Nat → List Nat → Option σ) (bs : List Nat) : Res (Content σ) :=
  match readFile init body bs with
  | .ok c rest => if rest = [] then .ok c [] else .invalid
  | .needMore => .needMore
  | .invalid => .invalid

/-! ## Encoder -/

/-- `EncodeValue` (c/enc/brunsli_encode.cc:803-806). -/
def encodeValue (tag v : Nat) : List Nat := valueMarker tag :: encodeBase128 v

/-- `FrameTypeCode` (c/enc/brunsli_encode.cc:782-792), for at most four components. -/
def packSampling : List (Nat × Nat) → Nat
  | [] => 0
  | (h, v) :: cs => (v - 1) + (h - 1) * 16 + packSampling cs * 256

/-- `EncodeHeader` (c/enc/brunsli_encode.cc:808-834). -/
def encodeHeader (h : Header) : Option (List Nat) :=
  if h.version % 2 = 1 ∧ h.version ≠ 1 then none
  else if (h.version % 2 ≠ 1 ∧ (h.width = 0 ∨ h.height = 0)) ∨ h.comps = [] ∨ h.comps.length > 4 then none
  else if 8 ≤ h.version then none
  else some (encodeValue 1 h.width ++ (encodeValue 2 h.height ++
    (encodeValue 3 (h.comps.length - 1 + h.version * 4) ++ encodeValue 4 (packSampling h.comps))))

/-- The header section: marker, length of one byte, contents (c/enc/brunsli_encode.cc:1378-1381). -/
def encodeHeaderSection (h : Header) : Option (List Nat) := encodeSection 2 1 (encodeHeader h)

/-- The other sections: tag, bytes reserved for the length, contents (c/enc/brunsli_encode.cc:1383-1414). -/
def encodeSections : List (Nat × Nat × List Nat) → Option (List Nat)
  | [] => some []
  | (tag, k, p) :: l =>
    match encodeSection tag k (some p) with
    | none => none
    | some s => (encodeSections l).map (s ++ ·)

/-- `BrunsliSerialize` (c/enc/brunsli_encode.cc:1359-1418) on the contents of the sections. -/
def encodeFile (h : Header) (sections : List (Nat × Nat × List Nat)) : Option (List Nat) :=
  match encodeHeaderSection h with
  | none => none
  | some s => (encodeSections sections).map fun t => kBrunsliSignature ++ (s ++ t)

/-- `GetBrunsliBypassSize` (c/enc/brunsli_encode.cc:1533-1536). -/
def bypassSize (n : Nat) : Nat := n + 6 + 30

/-- `BrunsliEncodeJpegBypass` (c/enc/brunsli_encode.cc:1550-1582) into a buffer of `cap` bytes; `h` is what `ReadJpeg` finds in
the input, `none` when it fails.  The room left for the data is computed in 64 bits and wraps around in a buffer too small for
what precedes it (c/enc/brunsli_encode.cc:978). -/
def encodeBypass (cap : Nat) (h : Option Header) (data : List Nat) : Option (List Nat) :=
  if cap < 6 then none
  else
    let h : Header := match h with
      | some h => { h with version := 1 }
      | none => ⟨1, 0, 0, [(1, 1)]⟩
    match encodeHeaderSection h with
    | none => none
    | some s =>
      let k := base128Size data.length
      if data.length > (cap + 2 ^ 64 - (6 + s.length + 1 + k)) % 2 ^ 64 then none
      else (encodeSection 9 k (some data)).map fun t => kBrunsliSignature ++ (s ++ t)

/-- What is written for a file in bypass mode: an empty payload leaves `original_jpg` null (c/dec/brunsli_decode.cc:1998-2003),
which the writer takes for an error (c/dec/jpeg_data_writer.cc:1016-1027). -/
def writeOriginal (data : List Nat) : Option (List Nat) := if data = [] then none else some data

/-! ## Independence from what follows -/

open Rd

theorem readSignature_mono : Mono readSignature := (Mono.bytes 6).andThen fun _ => Mono.ite (Mono.ret _) Mono.fail

theorem headerItem_mono (met : List Nat) : Mono (headerItem met) :=
  (Mono.readTag met).andThen fun _ => Mono.decodeBase128.andThen fun _ =>
    Mono.ite ((Mono.bytes _).andThen fun _ => Mono.ret _) (Mono.ret _)

theorem headerItems_mono (size fuel : Nat) : ∀ pos met vals, Mono (headerItems size fuel pos met vals) := by
  induction fuel with
  | zero => intro _ _ _; exact Mono.fail
  | succ fuel ih =>
    intro pos met vals
    exact Mono.ite (Mono.ret _) ((Mono.counted (headerItem_mono met)).andThen fun _ => ih _ _ _)

theorem readHeaderBody_mono (size : Nat) : Mono (readHeaderBody size) :=
  (headerItems_mono _ _ _ _ _).andThen fun _ => Mono.ofOption _

theorem readHeader_mono (met : List Nat) : Mono (readHeader met) :=
  (Mono.readTag met).andThen fun _ => Mono.ite
    (Mono.decodeBase128.andThen fun _ => (readHeaderBody_mono _).andThen fun _ => Mono.ret _) Mono.fail

theorem readOriginal_mono (met : List Nat) : Mono (readOriginal met) :=
  (Mono.readTag met).andThen fun _ => Mono.ite (Mono.decodeBase128.andThen fun _ => Mono.bytes _) Mono.fail

theorem readSections_mono {σ : Type} (body : σ → Nat → List Nat → Option σ) (fuel : Nat) :
    ∀ met s, Mono (readSections body fuel met s) := by
  induction fuel with
  | zero => intro _ _; exact Mono.fail
  | succ fuel ih =>
    intro met s
    exact (Mono.readTag met).andThen fun _ => Mono.ite
      (Mono.decodeBase128.andThen fun _ => Mono.ite ((Mono.bytes _).andThen fun _ => ih _ _)
        (Mono.ite Mono.fail (Mono.ite Mono.fail ((Mono.bytes _).andThen fun _ =>
          (Mono.ofOption _).andThen fun _ => Mono.ite (Mono.ret _) (ih _ _)))))
      (Mono.ite Mono.fail (Mono.decodeBase128.andThen fun _ => ih _ _))

theorem readFile_mono {σ : Type} (init : Header → Option σ) (body : σ → Nat → List Nat → Option σ) : Mono (readFile init body) :=
  readSignature_mono.andThen fun _ => (readHeader_mono _).andThen fun _ => Mono.ite
    ((readOriginal_mono _).andThen fun _ => Mono.ret _)
    ((Mono.ofOption _).andThen fun _ => (readSections_mono _ _ _ _).andThen fun _ => Mono.ret _)

theorem decodeFile_prefix {σ : Type} {init : Header → Option σ} {body : σ → Nat → List Nat → Option σ} {p ext : List Nat}
    {c : Content σ} (h : decodeFile init body (p ++ ext) = .ok c []) (hext : ext ≠ []) : decodeFile init body p = .needMore := by
  unfold decodeFile at h ⊢
  cases h1 : readFile init body (p ++ ext) with
  | needMore => rw [h1] at h; cases h
  | invalid => rw [h1] at h; cases h
  | ok c' rest =>
    rw [h1] at h
    simp only at h
    split at h
    · rename_i hr
      subst hr
      rw [(readFile_mono init body).prefix h1 (List.length_pos_iff.mpr hext)]
    · cases h

/-! ## Structure of accepted files -/

/-- An item at top level: a section or a number. -/
structure Item where
  tag : Nat
  isSec : Bool
  len : List Nat
  payload : List Nat
deriving DecidableEq, Repr

/-- Its bytes. -/
def Item.bytes (i : Item) : List Nat := (i.tag * 8 + if i.isSec then 2 else 0) :: (i.len ++ i.payload)

/-- Tag in range; `len` is a base-128 number, of a section the length of its payload. -/
def Item.Wf (i : Item) : Prop :=
  1 ≤ i.tag ∧ i.tag ≤ 15 ∧ ∃ v, decodeBase128 i.len = .ok v [] ∧ if i.isSec then i.payload.length = v else i.payload = [] ∧ 9 < i.tag

/-- The effect of an item: only known sections have one. -/
def Item.run {σ : Type} (body : σ → Nat → List Nat → Option σ) (s : σ) (i : Item) : Option σ :=
  if i.isSec ∧ i.tag ≤ 9 then body s i.tag i.payload else some s

/-- Items in an acceptable order after the tags `met`, the last one being the AC data. -/
def okOrder : List Nat → List Item → Prop
  | _, [] => False
  | met, i :: l => i.tag ∉ met ∧ i.Wf ∧ (i.tag ≤ 9 → (∀ r ∈ requires i.tag, r ∈ met) ∧ (wordSection i.tag → i.payload.length % 2 = 0)) ∧
    if i.tag = 8 then l = [] else okOrder (i.tag :: met) l

theorem readTag_ok {met bs rest : List Nat} {t : Nat × Bool × List Nat} (h : readTag met bs = .ok t rest) :
    bs = (t.1 * 8 + if t.2.1 then 2 else 0) :: rest ∧ 1 ≤ t.1 ∧ t.1 ≤ 15 ∧ t.1 ∉ met ∧ t.2.2 = t.1 :: met := by
  cases bs with
  | nil => cases h
  | cons m bs =>
    unfold readTag at h
    simp only at h
    split at h
    · cases h
    · rename_i h1
      split at h
      · cases h
      · rename_i h2
        split at h
        · cases h
        · rename_i h3
          cases h
          refine ⟨?_, by omega, by omega, h3, rfl⟩
          simp only [List.cons.injEq, and_true]
          by_cases h4 : m % 8 = 2
          · rw [if_pos (by simpa using h4)]; omega
          · rw [if_neg (by simpa using h4)]; omega

theorem bytes_ok {n : Nat} {bs a rest : List Nat} (h : Rd.bytes n bs = .ok a rest) : bs = a ++ rest ∧ a.length = n := by
  unfold Rd.bytes at h
  split at h
  · cases h
  · cases h
    exact ⟨(List.take_append_drop n bs).symm, by rw [List.length_take]; omega⟩

theorem ofOption_ok {α : Type} {o : Option α} {bs rest : List Nat} {a : α} (h : Rd.ofOption o bs = .ok a rest) : o = some a ∧ bs = rest := by
  cases o with
  | none => cases h
  | some b => cases h; exact ⟨rfl, rfl⟩

theorem base128_split {bs rest : List Nat} {v : Nat} (h : decodeBase128 bs = .ok v rest) : ∃ l, bs = l ++ rest ∧ decodeBase128 l = .ok v [] := by
  obtain ⟨l, rfl⟩ := Mono.decodeBase128.suffix h
  refine ⟨l, rfl, ?_⟩
  cases h1 : decodeBase128 l with
  | ok w r =>
    have := Mono.decodeBase128.ok h1 rest
    rw [h] at this
    have e : r = [] := by
      have e : rest = r ++ rest := (Res.ok.inj this).2
      have := congrArg List.length e
      rw [List.length_append] at this
      exact List.length_eq_zero_iff.mp (by omega)
    rw [e, (Res.ok.inj this).1]
  | invalid => rw [Mono.decodeBase128.invalid h1 rest] at h; cases h
  | needMore =>
    exfalso
    have key : ∀ n i w (l rest : List Nat), decodeBase128Loop n i w l = .needMore → ∀ v, decodeBase128Loop n i w (l ++ rest) ≠ .ok v rest := by
      intro n
      induction n with
      | zero => intro i w l rest h; cases h
      | succ n ih =>
        intro i w l rest h v hv
        cases l with
        | nil =>
          cases rest with
          | nil => cases hv
          | cons b rest =>
            simp only [List.nil_append, decodeBase128Loop] at hv
            split at hv
            · have := congrArg List.length (Res.ok.inj hv).2
              simp at this
            · obtain ⟨u, hu⟩ := (loopMono _ _ _).suffix hv
              have := congrArg List.length hu
              rw [List.length_append, List.length_cons] at this
              omega
        | cons b l =>
          simp only [List.cons_append, decodeBase128Loop] at h hv
          split at h
          · cases h
          · rename_i hc
            rw [if_neg hc] at hv
            exact ih _ _ _ _ h _ hv
    exact key 9 0 0 l rest h1 v h

theorem readSections_ok {σ : Type} {body : σ → Nat → List Nat → Option σ} (fuel : Nat) :
    ∀ {met : List Nat} {s s' : σ} {bs rest : List Nat}, readSections body fuel met s bs = .ok s' rest →
      ∃ items : List Item, bs = items.flatMap Item.bytes ++ rest ∧ okOrder met items ∧ items.foldlM (Item.run body) s = some s' := by
  induction fuel with
  | zero => intro _ _ _ _ _ h; cases h
  | succ fuel ih =>
    intro met s s' bs rest h
    have hx := Rd.andThen_ok h
    clear h
    obtain ⟨t, m1, h1, h⟩ := hx
    obtain ⟨e1, a1, a2, a3, a4⟩ := readTag_ok h1
    subst e1
    by_cases hs : t.2.1 = true
    · rw [if_pos hs] at h
      rw [if_pos hs]
      have hx := Rd.andThen_ok h
      clear h
      obtain ⟨v, m2, h2, h⟩ := hx
      obtain ⟨l, rfl, hl⟩ := base128_split h2
      by_cases h9 : 9 < t.1
      · rw [if_pos h9] at h
        have hx := Rd.andThen_ok h
        clear h
        obtain ⟨p, m3, h3, h⟩ := hx
        obtain ⟨rfl, hp⟩ := bytes_ok h3
        obtain ⟨items, rfl, g2, g3⟩ := ih h
        refine ⟨⟨t.1, true, l, p⟩ :: items, ?_, ⟨a3, ⟨a1, a2, v, hl, hp⟩, fun h => absurd h (by simp only; omega), ?_⟩, ?_⟩
        · simp [Item.bytes]
        · simp only
          rw [if_neg (by omega)]
          rw [a4] at g2
          exact g2
        · rw [List.foldlM_cons]
          have : Item.run body s ⟨t.1, true, l, p⟩ = some s := by
            unfold Item.run
            rw [if_neg (by simp only; omega)]
          rw [this]
          exact g3
      · rw [if_neg h9] at h
        by_cases hr : ((requires t.1).any fun r => r ∉ met) = true
        · rw [if_pos hr] at h; cases h
        rw [if_neg hr] at h
        by_cases hw : wordSection t.1 = true ∧ v % 2 ≠ 0
        · rw [if_pos hw] at h; cases h
        rw [if_neg hw] at h
        have hx := Rd.andThen_ok h
        clear h
        obtain ⟨p, m3, h3, h⟩ := hx
        obtain ⟨rfl, hp⟩ := bytes_ok h3
        have hx := Rd.andThen_ok h
        clear h
        obtain ⟨s1, m4, h4, h⟩ := hx
        obtain ⟨hb, rfl⟩ := ofOption_ok h4
        have hreq : ∀ r ∈ requires t.1, r ∈ met := by
          intro r hrm
          by_cases hin : r ∈ met
          · exact hin
          · exact absurd (List.any_eq_true.mpr ⟨r, hrm, by simpa using hin⟩) hr
        have hword : wordSection t.1 = true → p.length % 2 = 0 := by
          intro hws
          rw [hp]
          by_cases hv : v % 2 = 0
          · exact hv
          · exact absurd ⟨hws, hv⟩ hw
        have hrun : Item.run body s ⟨t.1, true, l, p⟩ = some s1 := by
          unfold Item.run
          rw [if_pos ⟨rfl, by simp only; omega⟩]
          exact hb
        by_cases h8 : t.1 = 8
        · rw [if_pos h8] at h
          cases h
          refine ⟨[⟨t.1, true, l, p⟩], by simp [Item.bytes], ⟨a3, ⟨a1, a2, v, hl, hp⟩, fun _ => ⟨hreq, hword⟩, ?_⟩, ?_⟩
          · simp only [h8, ↓reduceIte]
          · rw [List.foldlM_cons, hrun]; rfl
        · rw [if_neg h8] at h
          obtain ⟨items, rfl, g2, g3⟩ := ih h
          refine ⟨⟨t.1, true, l, p⟩ :: items, by simp [Item.bytes], ⟨a3, ⟨a1, a2, v, hl, hp⟩, fun _ => ⟨hreq, hword⟩, ?_⟩, ?_⟩
          · simp only
            rw [if_neg h8]
            rw [a4] at g2
            exact g2
          · rw [List.foldlM_cons, hrun]; exact g3
    · rw [if_neg hs] at h
      rw [if_neg hs]
      by_cases h9 : t.1 ≤ 9
      · rw [if_pos h9] at h; cases h
      rw [if_neg h9] at h
      have hx := Rd.andThen_ok h
      clear h
      obtain ⟨v, m2, h2, h⟩ := hx
      obtain ⟨l, rfl, hl⟩ := base128_split h2
      obtain ⟨items, rfl, g2, g3⟩ := ih h
      refine ⟨⟨t.1, false, l, []⟩ :: items, ?_, ⟨a3, ⟨a1, a2, v, hl, rfl, by simp only; omega⟩, fun h => absurd h h9, ?_⟩, ?_⟩
      · simp [Item.bytes]
      · simp only
        rw [if_neg (by omega)]
        rw [a4] at g2
        exact g2
      · rw [List.foldlM_cons]
        have : Item.run body s ⟨t.1, false, l, []⟩ = some s := by
          unfold Item.run
          rw [if_neg (by simp)]
        rw [this]
        exact g3

/-! ## Encoder and decoder -/

theorem base128_append {l rest : List Nat} {v : Nat} (h : decodeBase128 l = .ok v []) : decodeBase128 (l ++ rest) = .ok v rest := by
  have := Mono.decodeBase128.ok h rest
  simpa using this

theorem bytes_append {p rest : List Nat} : Rd.bytes p.length (p ++ rest) = .ok p rest := by
  unfold Rd.bytes
  rw [if_neg (by rw [List.length_append]; omega)]
  simp

theorem andThen_eq {α β : Type} {p : Rd α} {f : α → Rd β} {bs mid : List Nat} {a : α} (h : p bs = .ok a mid) : Rd.andThen p f bs = f a mid := by
  unfold Rd.andThen; rw [h]

theorem readSections_items {σ : Type} {body : σ → Nat → List Nat → Option σ} (fuel : Nat) :
    ∀ {met : List Nat} {s s' : σ} {items : List Item} {rest : List Nat}, items.length ≤ fuel → okOrder met items →
      items.foldlM (Item.run body) s = some s' → readSections body fuel met s (items.flatMap Item.bytes ++ rest) = .ok s' rest := by
  induction fuel with
  | zero =>
    intro met s s' items rest hf ho _
    have : items = [] := List.length_eq_zero_iff.mp (by omega)
    subst this; exact ho.elim
  | succ fuel ih =>
    intro met s s' items rest hf ho hr
    cases items with
    | nil => exact ho.elim
    | cons i l =>
      obtain ⟨tag, isSec, len, payload⟩ := i
      obtain ⟨h1, ⟨h2, h3, v, h4, h5⟩, h6, h7⟩ := ho
      simp only at h1 h2 h3 h4 h5 h6 h7
      rw [List.length_cons] at hf
      rw [List.foldlM_cons] at hr
      rw [readSections, List.flatMap_cons, List.append_assoc]
      cases isSec with
      | true =>
        simp only [↓reduceIte] at h5
        have e1 : readTag met (Item.bytes ⟨tag, true, len, payload⟩ ++ (l.flatMap Item.bytes ++ rest)) =
            .ok (tag, true, tag :: met) (len ++ (payload ++ (l.flatMap Item.bytes ++ rest))) := by
          have := readTag_section (bs := len ++ (payload ++ (l.flatMap Item.bytes ++ rest))) h2 h3 h1
          simpa [Item.bytes, sectionMarker] using this
        rw [andThen_eq e1]
        simp only [↓reduceIte]
        rw [andThen_eq (base128_append h4)]
        by_cases h9 : 9 < tag
        · rw [if_pos h9, ← h5, andThen_eq bytes_append]
          have hrun : Item.run body s ⟨tag, true, len, payload⟩ = some s := by unfold Item.run; rw [if_neg (by simp only; omega)]
          rw [hrun] at hr
          rw [if_neg (by omega)] at h7
          exact ih (by omega) h7 hr
        · obtain ⟨k1, k2⟩ := h6 (by omega)
          rw [if_neg h9, if_neg, if_neg, ← h5, andThen_eq bytes_append]
          · have hrun : Item.run body s ⟨tag, true, len, payload⟩ = body s tag payload := by
              unfold Item.run; rw [if_pos ⟨rfl, by simp only; omega⟩]
            rw [hrun] at hr
            cases hb : body s tag payload with
            | none => rw [hb] at hr; cases hr
            | some s1 =>
              rw [hb] at hr
              rw [andThen_eq (p := Rd.ofOption (some s1)) (a := s1) (mid := l.flatMap Item.bytes ++ rest) rfl]
              by_cases h8 : tag = 8
              · rw [if_pos h8] at h7 ⊢
                subst h7
                cases hr
                rfl
              · rw [if_neg h8] at h7 ⊢
                exact ih (by omega) h7 hr
          · rintro ⟨a, b⟩
            exact b (by rw [← h5]; exact k2 a)
          · intro ha
            obtain ⟨r, hr1, hr2⟩ := List.any_eq_true.mp ha
            exact absurd (k1 r hr1) (by simpa using hr2)
      | false =>
        simp only [Bool.false_eq_true, ↓reduceIte] at h5
        obtain ⟨rfl, h9⟩ := h5
        have e1 : readTag met (Item.bytes ⟨tag, false, len, []⟩ ++ (l.flatMap Item.bytes ++ rest)) =
            .ok (tag, false, tag :: met) (len ++ (l.flatMap Item.bytes ++ rest)) := by
          have := readTag_value (bs := len ++ (l.flatMap Item.bytes ++ rest)) h2 h3 h1
          simpa [Item.bytes, valueMarker] using this
        rw [andThen_eq e1]
        simp only [Bool.false_eq_true, ↓reduceIte]
        rw [if_neg (by omega), andThen_eq (base128_append h4)]
        have hrun : Item.run body s ⟨tag, false, len, []⟩ = some s := by unfold Item.run; rw [if_neg (by simp)]
        rw [hrun] at hr
        rw [if_neg (by omega)] at h7
        exact ih (by omega) h7 hr

/-- The item a written section is. -/
def sectionItem (x : Nat × Nat × List Nat) : Item := ⟨x.1, true, encodeBase128Fix x.2.2.length x.2.1, x.2.2⟩

theorem decodeBase128_fix {n k : Nat} (h : n < 2 ^ (7 * k)) (h1 : 0 < k) (h9 : k ≤ 9) : decodeBase128 (encodeBase128Fix n k) = .ok n [] := by
  have := decodeLoop_encodeFix k 9 n 0 0 [] (by simp) h h1 h9
  simpa [decodeBase128] using this

theorem encodeSections_items {l : List (Nat × Nat × List Nat)} {bs : List Nat} (h : encodeSections l = some bs) :
    bs = (l.map sectionItem).flatMap Item.bytes ∧ ∀ x ∈ l, x.2.2.length < 2 ^ (7 * x.2.1) := by
  induction l generalizing bs with
  | nil => cases h; exact ⟨rfl, by simp⟩
  | cons x l ih =>
    obtain ⟨tag, k, p⟩ := x
    rw [encodeSections] at h
    cases h1 : encodeSection tag k (some p) with
    | none => rw [h1] at h; cases h
    | some s =>
      rw [h1] at h
      simp only [Option.map_eq_some_iff] at h
      obtain ⟨t, h2, rfl⟩ := h
      obtain ⟨rfl, g⟩ := ih h2
      have hlt : p.length < 2 ^ (7 * k) := by
        have : ¬ 2 ^ (7 * k) ≤ p.length := fun hc => by rw [encodeSection_none.mpr hc] at h1; cases h1
        omega
      unfold encodeSection at h1
      simp only at h1
      split at h1
      · cases h1
      · cases h1
        refine ⟨?_, ?_⟩
        · simp [sectionItem, Item.bytes, sectionMarker]
        · intro y hy
          rcases List.mem_cons.mp hy with rfl | hy
          · exact hlt
          · exact g y hy

theorem headerItem_value {met : List Nat} {tag v : Nat} {rest : List Nat} (h1 : 0 < tag) (h2 : tag ≤ 15) (h3 : tag ∉ met) (hv : v < 2 ^ 63) :
    Rd.counted (headerItem met) (encodeValue tag v ++ rest) = .ok ((tag, tag :: met, some v), (encodeValue tag v).length) rest := by
  have e : headerItem met (encodeValue tag v ++ rest) = .ok (tag, tag :: met, some v) rest := by
    unfold headerItem
    have e1 : readTag met (encodeValue tag v ++ rest) = .ok (tag, false, tag :: met) (encodeBase128 v ++ rest) := readTag_value h1 h2 h3
    rw [andThen_eq e1]
    have e2 : decodeBase128 (encodeBase128 v ++ rest) = .ok v rest := by
      have := decodeLoop_encode 9 v 0 0 rest (by simp) hv (by omega)
      simpa [decodeBase128] using this
    rw [andThen_eq e2]
    rfl
  unfold Rd.counted
  rw [e]
  simp

theorem unpack_pack (cs : List (Nat × Nat)) (h : ∀ c ∈ cs, 1 ≤ c.1 ∧ c.1 ≤ 16 ∧ 1 ≤ c.2 ∧ c.2 ≤ 16) :
    unpackSampling cs.length (packSampling cs) = cs := by
  induction cs with
  | nil => rfl
  | cons c cs ih =>
    obtain ⟨a, b⟩ := c
    have := h (a, b) List.mem_cons_self
    simp only at this
    rw [packSampling, List.length_cons, unpackSampling]
    generalize hp : packSampling cs = x at *
    rw [show (b - 1 + (a - 1) * 16 + x * 256) / 256 = x by omega, ih fun c hc => h c (List.mem_cons_of_mem _ hc)]
    congr 2 <;> omega

theorem packSampling_lt (cs : List (Nat × Nat)) (h : ∀ c ∈ cs, c.1 ≤ 16 ∧ c.2 ≤ 16) : packSampling cs < 256 ^ cs.length := by
  induction cs with
  | nil => simp [packSampling]
  | cons c cs ih =>
    obtain ⟨a, b⟩ := c
    have := h (a, b) List.mem_cons_self
    simp only at this
    have := ih fun c hc => h c (List.mem_cons_of_mem _ hc)
    rw [packSampling, List.length_cons, Nat.pow_succ]
    omega

/-- A header that can be written and read back. -/
structure Header.Ok (h : Header) : Prop where
  version : h.version < 8 ∧ h.version % 2 = 0
  width : 1 ≤ h.width ∧ h.width ≤ 65535
  height : 1 ≤ h.height ∧ h.height ≤ 65535
  ncomp : 1 ≤ h.comps.length ∧ h.comps.length ≤ 4
  factors : ∀ c ∈ h.comps, 1 ≤ c.1 ∧ c.1 ≤ 15 ∧ 1 ≤ c.2 ∧ c.2 ≤ 15
  blocks : ∀ b ∈ h.blocks, b.1 * b.2 ≤ kBrunsliMaxNumBlocks

theorem headerItems_encoded {h : Header} {p rest : List Nat} (hp : encodeHeader h = some p) (hv : h.version < 2 ^ 30) (hw : h.width < 2 ^ 63)
    (hh : h.height < 2 ^ 63) (hf : ∀ c ∈ h.comps, c.1 ≤ 16 ∧ c.2 ≤ 16) :
    headerItems p.length 16 0 [] (List.replicate 16 0) (p ++ rest) =
      .ok ([4, 3, 2, 1], [0, h.width, h.height, h.comps.length - 1 + h.version * 4, packSampling h.comps, 0, 0, 0, 0, 0, 0, 0, 0, 0, 0, 0]) rest := by
  unfold encodeHeader at hp
  split at hp
  · cases hp
  split at hp
  · cases hp
  rename_i h2
  split at hp
  · cases hp
  rename_i h3
  have hlen : h.comps.length ≤ 4 := by
    by_cases hc : h.comps.length > 4
    · exact absurd (Or.inr (Or.inr hc)) h2
    · omega
  have hs : packSampling h.comps < 2 ^ 63 := by
    have h1 := packSampling_lt h.comps hf
    have h2 : 256 ^ h.comps.length ≤ 256 ^ 4 := Nat.pow_le_pow_right (by omega) hlen
    have h3 : (256 : Nat) ^ 4 < 2 ^ 63 := by decide
    omega
  cases hp
  set_option maxRecDepth 2000 in
  have l1 : 0 < (encodeValue 1 h.width).length := by simp [encodeValue]
  have l2 : 0 < (encodeValue 2 h.height).length := by simp [encodeValue]
  have l3 : 0 < (encodeValue 3 (h.comps.length - 1 + h.version * 4)).length := by simp [encodeValue]
  have l4 : 0 < (encodeValue 4 (packSampling h.comps)).length := by simp [encodeValue]
  simp only [List.length_append, List.append_assoc]
  rw [headerItems, if_neg (by omega), andThen_eq (headerItem_value (by omega) (by omega) (by simp) hw)]
  rw [headerItems, if_neg (by omega), andThen_eq (headerItem_value (by omega) (by omega) (by simp) hh)]
  rw [headerItems, if_neg (by omega), andThen_eq (headerItem_value (by omega) (by omega) (by simp) (by omega))]
  rw [headerItems, if_neg (by omega), andThen_eq (headerItem_value (by omega) (by omega) (by simp) hs)]
  rw [headerItems, if_pos (by omega)]
  rfl

theorem encodeHeader_some {h : Header} (hok : h.Ok) : ∃ p, encodeHeader h = some p := by
  unfold encodeHeader
  have := hok.version
  have := hok.width
  have := hok.height
  have := hok.ncomp
  rw [if_neg (by omega), if_neg, if_neg (by omega)]
  · exact ⟨_, rfl⟩
  · rintro (h1 | h1 | h1)
    · omega
    · rw [h1] at this; simp at this
    · omega

theorem headerFinale_encoded {h : Header} (hok : h.Ok) :
    headerFinale [4, 3, 2, 1] [0, h.width, h.height, h.comps.length - 1 + h.version * 4, packSampling h.comps, 0, 0, 0, 0, 0, 0, 0, 0, 0, 0, 0] =
      some h := by
  unfold headerFinale
  have hv := hok.version
  have hw := hok.width
  have hh := hok.height
  have hn := hok.ncomp
  rw [if_neg (by simp)]
  simp only [List.getD_cons_succ, List.getD_cons_zero]
  have e1 : (h.comps.length - 1 + h.version * 4) / 4 = h.version := by omega
  have e2 : (h.comps.length - 1 + h.version * 4) % 4 + 1 = h.comps.length := by omega
  rw [e1, e2, if_neg (by omega), if_neg (by omega), if_neg (by omega), if_neg (by simp), if_neg (by simp), if_neg (by omega), if_neg (by omega),
    if_neg (by simp), unpack_pack _ (fun c hc => by have := hok.factors c hc; omega), if_neg, if_pos]
  · rw [Header.blocksOk, List.all_eq_true]
    intro b hb
    simpa using hok.blocks b hb
  · intro hc
    obtain ⟨c, hc1, hc2⟩ := List.any_eq_true.mp hc
    have := hok.factors c hc1
    simp only [gt_iff_lt, Bool.decide_or, Bool.or_eq_true, decide_eq_true_eq] at hc2
    omega

theorem readHeader_encoded {h : Header} {s rest met : List Nat} (hok : h.Ok) (hmet : 2 ∉ met) (hs : encodeHeaderSection h = some s) :
    readHeader met (s ++ rest) = .ok (h, 2 :: met) rest := by
  unfold encodeHeaderSection at hs
  obtain ⟨p, hp⟩ := encodeHeader_some hok
  rw [hp] at hs
  obtain ⟨a, b, c, d⟩ := encodeSection_frame (rest := rest) (met := met) (by omega) (by omega) (by omega) (by omega) hmet hs
  unfold readHeader
  rw [andThen_eq a]
  simp only [and_self, ↓reduceIte]
  rw [andThen_eq b]
  unfold readHeaderBody
  have hv := hok.version
  have hw := hok.width
  have hh := hok.height
  rw [andThen_eq (a := h) (mid := rest)]
  · rfl
  · rw [andThen_eq (headerItems_encoded hp (by omega) (by omega) (by omega) (fun c hc => by have := hok.factors c hc; omega))]
    simp only
    rw [headerFinale_encoded hok]
    rfl

theorem readSignature_append {rest : List Nat} : readSignature (kBrunsliSignature ++ rest) = .ok () rest := by
  unfold readSignature
  have e : Rd.bytes 6 (kBrunsliSignature ++ rest) = .ok kBrunsliSignature rest := bytes_append (p := kBrunsliSignature)
  rw [andThen_eq e]
  simp [Rd.ret]

theorem decodeFile_encoded {σ : Type} {init : Header → Option σ} {body : σ → Nat → List Nat → Option σ} {h : Header}
    {sections : List (Nat × Nat × List Nat)} {bs : List Nat} {s0 s : σ} (hok : h.Ok) (henc : encodeFile h sections = some bs)
    (hn : sections.length ≤ 15)
    (hord : (∀ x ∈ sections, x.2.2.length < 2 ^ (7 * x.2.1)) → okOrder [9, 2, 1] (sections.map sectionItem))
    (hinit : init h = some s0) (hbody : (sections.map sectionItem).foldlM (Item.run body) s0 = some s) :
    decodeFile init body bs = .ok (.image s) [] := by
  unfold encodeFile at henc
  cases hs : encodeHeaderSection h with
  | none => rw [hs] at henc; cases henc
  | some hb =>
    rw [hs] at henc
    simp only [Option.map_eq_some_iff] at henc
    obtain ⟨t, h2, rfl⟩ := henc
    obtain ⟨rfl, hl⟩ := encodeSections_items h2
    have hv := hok.version
    have e : readFile init body (kBrunsliSignature ++ (hb ++ (sections.map sectionItem).flatMap Item.bytes)) = .ok (.image s) [] := by
      unfold readFile
      rw [andThen_eq readSignature_append, andThen_eq (readHeader_encoded hok (by simp) hs), if_neg (by simp only; omega)]
      simp only
      rw [hinit, andThen_eq (p := Rd.ofOption (some s0)) rfl]
      have := readSections_items (body := body) 16 (rest := []) (by rw [List.length_map]; omega) (hord hl) hbody
      rw [List.append_nil] at this
      rw [andThen_eq this]
      rfl
    unfold decodeFile
    rw [e]
    simp

/-! ## Bypass -/

theorem base128Size_le (k : Nat) : ∀ v, v < 128 ^ (k + 1) → base128Size v ≤ k + 1 := by
  induction k with
  | zero => intro v h; rw [base128Size, if_pos (by simpa using h)]; omega
  | succ k ih =>
    intro v h
    rw [base128Size]
    split
    · omega
    · have := ih (v / 128) (by rw [Nat.pow_succ] at h; omega)
      omega

theorem base128Size_pos (v : Nat) : 1 ≤ base128Size v := by rw [base128Size]; split <;> omega

theorem base128_lt_size (v : Nat) : v < 2 ^ (7 * base128Size v) := by
  rw [Nat.pow_mul]
  show v < 128 ^ base128Size v
  induction v using Nat.strongRecOn with
  | _ v ih =>
    rw [base128Size]
    split
    · omega
    · have := ih (v / 128) (by omega)
      rw [Nat.add_comm, Nat.pow_succ]
      omega

/-- What `ReadJpeg` gives for a header: dimensions of 16 bits, up to four components with factors from 1 to 15. -/
def Header.Read (h : Header) : Prop :=
  h.width ≤ 65535 ∧ h.height ≤ 65535 ∧ 1 ≤ h.comps.length ∧ h.comps.length ≤ 4 ∧ ∀ c ∈ h.comps, 1 ≤ c.1 ∧ c.1 ≤ 15 ∧ 1 ≤ c.2 ∧ c.2 ≤ 15

theorem bypass_header {h : Header} (hr : h.Read) : ∃ p s, encodeHeader { h with version := 1 } = some p ∧
    encodeHeaderSection { h with version := 1 } = some s ∧ s.length = p.length + 2 ∧ p.length ≤ 16 := by
  obtain ⟨h1, h2, h3, h4, h5⟩ := hr
  have hp := packSampling_lt h.comps fun c hc => by have := h5 c hc; omega
  have hp' : packSampling h.comps < 256 ^ 4 := Nat.lt_of_lt_of_le hp (Nat.pow_le_pow_right (by omega) h4)
  refine ⟨encodeValue 1 h.width ++ (encodeValue 2 h.height ++ (encodeValue 3 (h.comps.length - 1 + 1 * 4) ++ encodeValue 4 (packSampling h.comps))), ?_⟩
  have l1 := base128Size_le 2 h.width (by omega)
  have l2 := base128Size_le 2 h.height (by omega)
  have l3 := base128Size_le 0 (h.comps.length - 1 + 1 * 4) (by omega)
  have l4 := base128Size_le 4 (packSampling h.comps) (by omega)
  have hlen : (encodeValue 1 h.width ++ (encodeValue 2 h.height ++ (encodeValue 3 (h.comps.length - 1 + 1 * 4) ++
      encodeValue 4 (packSampling h.comps)))).length ≤ 16 := by
    simp only [List.length_append, encodeValue, List.length_cons, encodeBase128_length]
    omega
  have e1 : encodeHeader { h with version := 1 } = some (encodeValue 1 h.width ++ (encodeValue 2 h.height ++
      (encodeValue 3 (h.comps.length - 1 + 1 * 4) ++ encodeValue 4 (packSampling h.comps)))) := by
    unfold encodeHeader
    rw [if_neg (by simp), if_neg, if_neg (by simp)]
    rintro (hc | hc | hc)
    · simp at hc
    · simp only at hc; rw [hc] at h3; simp at h3
    · simp only at hc; omega
  unfold encodeHeaderSection
  rw [e1, encodeSection]
  simp only
  rw [if_neg (by
    intro hc
    have := (Nat.div_pos_iff.1 hc).2
    omega)]
  refine ⟨_, trivial, rfl, ?_, hlen⟩
  simp only [List.cons_append, List.length_cons, List.length_append, encodeBase128Fix_length]
  omega

theorem headerFinale_bypass {n : Nat} (h1 : 1 ≤ n) (h4 : n ≤ 4) (w ht sub : Nat) :
    headerFinale [4, 3, 2, 1] [0, w, ht, n - 1 + 1 * 4, sub, 0, 0, 0, 0, 0, 0, 0, 0, 0, 0, 0] = some ⟨1, 0, 0, []⟩ := by
  unfold headerFinale
  rw [if_neg (by simp)]
  simp only [List.getD_cons_succ, List.getD_cons_zero]
  rw [if_pos (by omega)]

theorem bypass_roundtrip {σ : Type} (init : Header → Option σ) (body : σ → Nat → List Nat → Option σ) (h : Option Header)
    (hr : ∀ x ∈ h, x.Read) {data : List Nat} (hl : data.length < 2 ^ 63) :
    ∃ out, encodeBypass (bypassSize data.length) h data = some out ∧ out.length ≤ bypassSize data.length ∧
      decodeFile init body out = .ok (.original data) [] := by
  obtain ⟨h', hread, heq⟩ : ∃ h' : Header, h'.Read ∧ (match h with | some h => { h with version := 1 } | none => (⟨1, 0, 0, [(1, 1)]⟩ : Header)) =
      { h' with version := 1 } := by
    cases h with
    | none => exact ⟨⟨1, 0, 0, [(1, 1)]⟩, ⟨by simp, by simp, by simp, by simp, by simp⟩, rfl⟩
    | some x => exact ⟨x, hr x rfl, rfl⟩
  obtain ⟨p, s, hp, hs, hsl, hpl⟩ := bypass_header hread
  have hk1 := base128Size_pos data.length
  have hk9 : base128Size data.length ≤ 9 := base128Size_le 8 _ (by
    have : (128 : Nat) ^ (8 + 1) = 2 ^ 63 := by decide
    omega)
  have hlt := base128_lt_size data.length
  have ht : encodeSection 9 (base128Size data.length) (some data) =
      some (sectionMarker 9 :: encodeBase128Fix data.length (base128Size data.length) ++ data) := by
    unfold encodeSection
    simp only
    rw [if_neg (by
      intro hc
      have := (Nat.div_pos_iff.1 hc).2
      omega)]
  refine ⟨kBrunsliSignature ++ (s ++ (sectionMarker 9 :: encodeBase128Fix data.length (base128Size data.length) ++ data)), ?_, ?_, ?_⟩
  · unfold encodeBypass
    rw [if_neg (by unfold bypassSize; omega)]
    simp only
    rw [heq, hs]
    simp only
    rw [if_neg (by unfold bypassSize; omega), ht]
    rfl
  · simp only [List.length_append, List.length_cons, encodeBase128Fix_length, kBrunsliSignature, List.length_nil, bypassSize]
    omega
  · unfold decodeFile readFile
    rw [andThen_eq readSignature_append]
    obtain ⟨a, b, c, d⟩ := encodeSection_frame (rest := sectionMarker 9 :: encodeBase128Fix data.length (base128Size data.length) ++ data)
      (tag := 2) (k := 1) (p := p) (s := s) (met := [1]) (by omega) (by omega) (by omega) (by omega) (by simp) (by rw [← hp]; exact hs)
    have e1 : readHeader [1] (s ++ (sectionMarker 9 :: encodeBase128Fix data.length (base128Size data.length) ++ data)) =
        .ok (⟨1, 0, 0, []⟩, [2, 1]) (sectionMarker 9 :: encodeBase128Fix data.length (base128Size data.length) ++ data) := by
      unfold readHeader
      rw [andThen_eq a]
      simp only [and_self, ↓reduceIte]
      rw [andThen_eq b]
      unfold readHeaderBody
      obtain ⟨r1, r2, r3, r4, r5⟩ := hread
      have e2 := headerItems_encoded (rest := sectionMarker 9 :: encodeBase128Fix data.length (base128Size data.length) ++ data) hp
        (by simp) (by simp only; omega) (by simp only; omega) (fun c hc => by have := r5 c hc; omega)
      rw [andThen_eq (a := (⟨1, 0, 0, []⟩ : Header)) (mid := sectionMarker 9 :: encodeBase128Fix data.length (base128Size data.length) ++ data)]
      · rfl
      · rw [andThen_eq e2]
        simp only
        rw [headerFinale_bypass r3 r4]
        rfl
    rw [andThen_eq e1]
    simp only [↓reduceIte]
    obtain ⟨a, b, c, d⟩ := encodeSection_frame (rest := []) (met := [2, 1]) hk1 hk9 (by omega) (by omega) (by simp) ht
    rw [List.append_nil] at a b
    have e3 : readOriginal [2, 1] (sectionMarker 9 :: encodeBase128Fix data.length (base128Size data.length) ++ data) = .ok data [] := by
      unfold readOriginal
      rw [andThen_eq a]
      simp only [and_self, ↓reduceIte]
      rw [List.append_nil, andThen_eq b]
      have := bytes_append (p := data) (rest := [])
      simpa using this
    rw [andThen_eq e3]
    simp [Rd.ret]

theorem bypass_fits {cap : Nat} (hcap : 36 ≤ cap ∧ cap < 2 ^ 64) {h : Option Header} (hr : ∀ x ∈ h, x.Read) {data : List Nat}
    (hl : data.length < 2 ^ 63) {out : List Nat} (he : encodeBypass cap h data = some out) : out.length ≤ cap := by
  obtain ⟨h', hread, heq⟩ : ∃ h' : Header, h'.Read ∧ (match h with | some h => { h with version := 1 } | none => (⟨1, 0, 0, [(1, 1)]⟩ : Header)) =
      { h' with version := 1 } := by
    cases h with
    | none => exact ⟨⟨1, 0, 0, [(1, 1)]⟩, ⟨by simp, by simp, by simp, by simp, by simp⟩, rfl⟩
    | some x => exact ⟨x, hr x rfl, rfl⟩
  obtain ⟨p, s, hp, hs, hsl, hpl⟩ := bypass_header hread
  have hk9 : base128Size data.length ≤ 9 := base128Size_le 8 _ (by
    have : (128 : Nat) ^ (8 + 1) = 2 ^ 63 := by decide
    omega)
  unfold encodeBypass at he
  rw [if_neg (by omega)] at he
  simp only [heq, hs] at he
  split at he
  · cases he
  · rename_i hc
    unfold encodeSection at he
    simp only at he
    split at he
    · cases he
    · cases he
      simp only [List.length_append, List.length_cons, encodeBase128Fix_length, kBrunsliSignature, List.length_nil]
      omega

end Brunsli
