import Verif.GroupTiles
import Verif.Serialize
/-!
# The groups mode

`EncodeGroups` and `DecodeGroups` (c/experimental/groups.cc:111-536).  Each task sees arrays of its own (`crop`), and what it writes is put back (`paste`).
Group dimensions whose products with sampling factors leave `size_t` are not modelled (they are kept as numbers without bound).
-/

namespace Brunsli

open Groups

/-! ## Tasks -/

/-- The sampling of a component with factors `c`. -/
def Header.geometry (h : Header) (c : Nat × Nat) : Geometry :=
  ⟨h.mcuCols, h.mcuRows, maxFactor (h.comps.map Prod.fst), maxFactor (h.comps.map Prod.snd), c.1, c.2⟩

/-- `w_ac * h_ac` or `w_dc * h_dc` (c/experimental/groups.cc:133-140, 425-432). -/
def Header.tasks (h : Header) (dim : Nat) : Nat :=
  numTiles h.mcuCols (maxFactor (h.comps.map Prod.fst)) dim * numTiles h.mcuRows (maxFactor (h.comps.map Prod.snd)) dim

/-- `mcu_rows` of a task: `meta[0].height_in_blocks / meta[0].v_samp` (c/enc/brunsli_encode.cc:1090, 1186, c/dec/brunsli_decode.cc:621, 874). -/
def Header.tileRows (h : Header) (dim t : Nat) : Nat :=
  match h.comps with
  | [] => 0
  | c :: _ => (h.geometry c).lines dim t / c.2

/-- `meta` of a task (c/experimental/groups.cc:162-217, 252-278, 463-483, 507-527). -/
def Header.tileMetas (h : Header) (dim t : Nat) (ms : List Meta) : List Meta :=
  List.zipWith (fun c m => { m with w := (h.geometry c).cols dim t }) h.comps ms

/-- The coefficients of a task, `ac_coeffs` (c/experimental/groups.cc:178, 209, 474, 519). -/
def Header.tileImgs (h : Header) (dim t : Nat) (imgs : List (List Int)) : List (List Int) :=
  List.zipWith (fun c img => crop 0 ((h.geometry c).coefPlace dim t) ((h.geometry c).size dim t * 64) img) h.comps imgs

/-- The flags of a task, `block_state` (c/experimental/groups.cc:183, 214, 475-476, 520-521). -/
def Header.tileFlags (h : Header) (dim t : Nat) (flags : List (List Bool)) : List (List Bool) :=
  List.zipWith (fun c fl => crop false ((h.geometry c).place dim t) ((h.geometry c).size dim t) fl) h.comps flags

/-- The coefficients after a task. -/
def Header.pasteImgs (h : Header) (dim t : Nat) (parts imgs : List (List Int)) : List (List Int) :=
  List.zipWith (fun c (p : List Int × List Int) => paste 0 ((h.geometry c).coefPlace dim t) ((h.geometry c).size dim t * 64) p.1 p.2) h.comps (parts.zip imgs)

/-- The flags after a task. -/
def Header.pasteFlags (h : Header) (dim t : Nat) (parts flags : List (List Bool)) : List (List Bool) :=
  List.zipWith (fun c (p : List Bool × List Bool) => paste false ((h.geometry c).place dim t) ((h.geometry c).size dim t) p.1 p.2) h.comps (parts.zip flags)

/-- `block_state` at first (c/experimental/groups.cc:145-150, c/dec/brunsli_decode.cc:2252). -/
def Header.noFlags (h : Header) : List (List Bool) := h.comps.map fun c => List.replicate (h.mcuCols * c.1 * (h.mcuRows * c.2)) false

/-- The coefficients at first (c/dec/brunsli_decode.cc:2251). -/
def Header.noImgs (h : Header) : List (List Int) := h.comps.map fun c => List.replicate (h.mcuCols * c.1 * (h.mcuRows * c.2) * 64) 0

/-! ## Encoder -/

/-- Run something for each element, up to the first failure. -/
def Run.each {α β : Type} (f : α → Run β) : List α → Run (List β)
  | [] => .ok []
  | a :: l => (f a).bind fun b => (Run.each f l).bind fun bs => .ok (b :: bs)

/-- The context resolutions: `SampleNumNonZeros` of each AC task, summed up (c/experimental/groups.cc:221-247). -/
def JpegData.groupSchemes (jpg : JpegData) (acDim : Nat) : List Nat :=
  jpg.components.map fun c =>
    let g := jpg.header.geometry (c.hSamp, c.vSamp)
    selectContextBits (((List.range (jpg.header.tasks acDim)).map fun t =>
      sampleNumNonZeros (crop 0 (g.coefPlace acDim t) (g.size acDim t * 64) c.coeffs) (g.size acDim t)).sum + 1)

/-- The coefficient orders of an AC task (c/enc/brunsli_encode.cc:1195-1198). -/
def JpegData.groupOrders (jpg : JpegData) (acDim t : Nat) : List (List Nat) :=
  jpg.components.map fun c =>
    let g := jpg.header.geometry (c.hSamp, c.vSamp)
    computeCoeffOrder (numZeros (crop 0 (g.coefPlace acDim t) (g.size acDim t * 64) c.coeffs) (g.size acDim t))

/-- What the tasks leave for the sections. -/
structure GroupCoded where
  schemes : List Nat
  map : List Nat
  clusters : List Cluster
  dc : List (List Op)
  ac : List (List Op)

/-- `encode_dc` (c/experimental/groups.cc:281-287): the flags and the stream of a DC task. -/
def encodeDcTask (jpg : JpegData) (ms : List Meta) (dim t : Nat) : Run (List (List Bool) × List Op) :=
  let ms := jpg.header.tileMetas dim t ms
  let rows := jpg.header.tileRows dim t
  let imgs := jpg.header.tileImgs dim t (jpg.components.map Component.coeffs)
  if ¬ (ms.zip imgs).all (fun (m, img) => predictDCCoeffs img m.w (rows * m.vs)) then .fail else Run.orUb (encodeDC rows ms imgs)

/-- `encode_ac` (c/experimental/groups.cc:291-293); `use_legacy_context_model` is never set (c/enc/state.h:139). -/
def encodeAcTask (jpg : JpegData) (ms : List Meta) (quants : List (List Nat)) (flags : List (List Bool)) (dim t : Nat) : Run (List Op) :=
  (Run.orUb (encodeAC (contextCount ms) false (jpg.header.tileRows dim t) (jpg.header.tileMetas dim t ms) (jpg.groupOrders dim t) quants
    (jpg.header.tileImgs dim t (jpg.components.map Component.coeffs)) (jpg.header.tileFlags dim t flags))).bind fun r => .ok r.2

/-- `EncodeGroups` up to the sections (c/experimental/groups.cc:129-311).  The tasks of a stage are run in order; as each has its own
state, and tiles do not overlap (C36), the order is of no importance. -/
def groupCoefs (par : Codec) (acDim dcDim : Nat) (jpg : JpegData) : Run GroupCoded :=
  (Run.orFail jpg.quants).bind fun quants =>
    let h := jpg.header
    let ms := metas h (jpg.groupSchemes acDim)
    (Run.each (encodeDcTask jpg ms dcDim) (List.range (h.tasks dcDim))).bind fun dc =>
      let flags := (List.range (h.tasks dcDim)).foldl (fun fl t => h.pasteFlags dcDim t (dc.getD t ([], [])).1 fl) h.noFlags
      (Run.each (encodeAcTask jpg ms quants flags acDim) (List.range (h.tasks acDim))).bind fun ac =>
        (Run.orUb (par.cluster (0 :: ms.map Meta.ctxOffset) (countSymbols (contextCount ms) ((dc.map Prod.snd).flatten ++ ac.flatten)))).bind fun r =>
          .ok ⟨jpg.groupSchemes acDim, r.1, r.2, dc.map Prod.snd, ac⟩

/-- `part_size` of the first part (c/experimental/groups.cc:321-333). -/
def groupCommonSize (jpg : JpegData) : Nat :=
  20480 + (jpg.interMarker.map fun s => 5 + s.length).sum + (jpg.appData.map List.length).sum + (jpg.comData.map List.length).sum + jpg.tailData.length

/-- The first part: `BrunsliSerialize` without DC and AC data (c/experimental/groups.cc:334-340, c/enc/brunsli_encode.cc:1359-1402); with
the tables `EncodeHistogramData` leaves. -/
def groupCommon (par : Codec) (cap : Nat) (jpg : JpegData) (c : GroupCoded) : Run (List (List Nat) × List Nat) :=
  if cap < 6 then .fail
  else
    (putSection cap 2 1 0 (fun _ => Run.orFail (encodeHeader jpg.header)) kBrunsliSignature).bind fun out =>
      (putSection cap 4 (base128Size (estimateAuxDataSize jpg)) 8
        (fun _ => Run.orFail (encodeInternals (paddingBitsLimit jpg.width jpg.height jpg.components.length) jpg.internals)) out).bind fun out =>
        (putSection cap 3 (base128Size (cap - out.length)) 0
          (fun room => Run.orFail (encodeMetadata (par.compress room) jpg.appData jpg.comData jpg.tailData)) out).bind fun out =>
          (putSection cap 5 2 8 (fun _ => Run.orFail ((encodeQuantTables (jpg.quant.map QuantTable.values) (jpg.components.map Component.quantIdx)).map
            packBits)) out).bind fun out =>
            (Run.orUb (encodeHistogramData c.schemes c.map c.clusters)).bind fun (tabs, bits) =>
              (putSection cap 6 (base128Size (cap - out.length)) 8 (fun _ => .ok (packBits bits)) out).bind fun out => .ok (tabs, out)

/-- `part_size` of a DC part (c/experimental/groups.cc:351), whatever the group dimension. -/
def groupDcSize (jpg : JpegData) : Nat := 128 * (128 + 16) * jpg.components.length

/-- `part_size` of an AC part (c/experimental/groups.cc:367), whatever the group dimension. -/
def groupAcSize (jpg : JpegData) : Nat := 32 * 32 * 63 * jpg.components.length

/-- A DC or AC part in a buffer of its own: `BrunsliSerialize` of that section only (c/experimental/groups.cc:346-379). -/
def groupPart (cap tag : Nat) (tab : Nat → List Nat) (ops : List Op) : Run (List Nat) :=
  putSection cap tag (base128Size cap) 0 (fun _ => Run.orUb ((encodeWords tab ops).map wordBytes)) []

/-- `EncodeGroups` (c/experimental/groups.cc:111-399) into a buffer of `cap` bytes. -/
def encodeGroups (par : Codec) (acDim dcDim cap : Nat) (jpg : JpegData) : Run (List Nat) :=
  match dimsOk acDim dcDim (maxFactor (jpg.header.comps.map Prod.fst)) (maxFactor (jpg.header.comps.map Prod.snd)) with
  | none => .ub
  | some false => .fail
  | some true =>
    if dcDim = 0 then .ub
    else
      (groupCoefs par acDim dcDim jpg).bind fun c =>
        (groupCommon par (groupCommonSize jpg) jpg c).bind fun (tabs, common) =>
          let tab := fun ctx => tabs.getD (c.map.getD ctx 0) []
          (Run.each (groupPart (groupDcSize jpg) 7 tab) c.dc).bind fun dcs =>
            (Run.each (groupPart (groupAcSize jpg) 8 tab) c.ac).bind fun acs =>
              if cap < (common ++ (dcs.flatten ++ acs.flatten)).length then .fail else .ok (common ++ (dcs.flatten ++ acs.flatten))

/-! ## Decoder -/

/-- `n` calls of `SkipSection` (c/experimental/groups.cc:400-403, 434-459): the pieces and what is left. -/
def splitSections : Nat → List Nat → Option (List (List Nat) × List Nat)
  | 0, bs => some ([], bs)
  | n + 1, bs =>
    match skipSection bs with
    | none => none
    | some rest => (splitSections n rest).map fun r => (bs.take (bs.length - rest.length) :: r.1, r.2)

/-- The sections up to the end of the input, as `readSections` (`Container.lean`); `none`: `ProcessJpeg` reports an error, or that the
image is complete.  Of a section that is cut short only the length is looked at. -/
def sectionsSoFar {σ : Type} (body : σ → Nat → List Nat → Option σ) : (fuel : Nat) → (met : List Nat) → σ → List Nat → Option σ
  | 0, _, _, _ => none
  | fuel + 1, met, s, bs =>
    match readTag met bs with
    | .needMore => some s
    | .invalid => none
    | .ok t bs =>
      if t.2.1 then
        match decodeBase128 bs with
        | .needMore => some s
        | .invalid => none
        | .ok v bs =>
          if 9 < t.1 then (if bs.length < v then some s else sectionsSoFar body fuel t.2.2 s (bs.drop v))
          else if (requires t.1).any (fun r => r ∉ met) then none
          else if wordSection t.1 ∧ v % 2 ≠ 0 then none
          else if bs.length < v then some s
          else
            match body s t.1 (bs.take v) with
            | none => none
            | some s => if t.1 = 8 then none else sectionsSoFar body fuel t.2.2 s (bs.drop v)
      else if t.1 ≤ 9 then none
      else
        match decodeBase128 bs with
        | .needMore => some s
        | .invalid => none
        | .ok _ bs => sectionsSoFar body fuel t.2.2 s bs

/-- `ProcessJpeg` on the common sections (c/experimental/groups.cc:405-414): the state when it returns `BRUNSLI_NOT_ENOUGH_DATA`.  Chunks that end
within the header, and those of bypass files, are not followed. -/
def readCommon (par : Codec) (bs : List Nat) : Option SectState :=
  match Rd.andThen readSignature (fun _ => readHeader [1]) bs with
  | .ok t rest => if t.1.version = 1 then none else sectionsSoFar (decBody par) 16 (9 :: t.2) (SectState.init t.1) rest
  | _ => none

/-- `ProcessJpeg` from `Stage::SECTION` with all other sections met (c/experimental/groups.cc:453-458, 497-502): a single section of words;
DC data are followed by `Stage::DONE` because of c/dec/brunsli_decode.cc:2057. -/
def readPart (tag : Nat) (bs : List Nat) : Option (List Nat) :=
  match Rd.andThen (readTag ((List.range 16).filter (· ≠ tag))) (fun t =>
      if t.2.1 then Rd.andThen decodeBase128 fun v => if v % 2 ≠ 0 then Rd.fail else Rd.bytes v else Rd.fail) bs with
  | .ok p [] => some p
  | _ => none

/-- `decode_dc` (c/experimental/groups.cc:449-489). -/
def decodeDcTask (h : Header) (r : HistogramData) (dim : Nat) (parts : List (List Nat)) (st : List (List Int) × List (List Bool)) (t : Nat) :
    Option (List (List Int) × List (List Bool)) :=
  let ms := metas h r.schemes
  (readPart 7 (parts.getD t [])).bind fun p =>
    (decodeWords (histMaps r.contextMap r.histograms) (decodeDC (contextCount ms) (h.tileRows dim t) (h.tileMetas dim t ms)) (bytesWords p)).map fun x =>
      (h.pasteImgs dim t (x.map Prod.fst) st.1, h.pasteFlags dim t (x.map Prod.snd) st.2)

/-- `decode_ac` (c/experimental/groups.cc:493-533); `use_legacy_context_model` is not set (c/dec/state.h:85). -/
def decodeAcTask (h : Header) (r : HistogramData) (quants : List (List Nat)) (dim : Nat) (parts : List (List Nat)) (flags : List (List Bool))
    (imgs : List (List Int)) (t : Nat) : Option (List (List Int)) :=
  let ms := metas h r.schemes
  (readPart 8 (parts.getD t [])).bind fun p =>
    (decodeWords (histMaps r.contextMap r.histograms) (decodeAC (contextCount ms) false (h.tileRows dim t) (h.tileMetas dim t ms) quants
      (h.tileImgs dim t imgs) (h.tileFlags dim t flags)) (bytesWords p)).map fun x => h.pasteImgs dim t x imgs

/-- `DecodeGroups` (c/experimental/groups.cc:383-536); the tasks are run in the orders given. -/
def decodeGroups (par : Codec) (acDim dcDim : Nat) (dcOrder acOrder : List Nat) (data : List Nat) : Run JpegData :=
  if notPowerOfTwo acDim then .fail
  else if notPowerOfTwo dcDim then .fail
  else if acDim = 0 then .ub
  else if dcDim % acDim ≠ 0 then .fail
  else
    match splitSections 6 data with
    | none => .fail
    | some (chunk, rest) =>
      match readCommon par chunk.flatten with
      | none => .fail
      | some s =>
        match s.quant, s.hist with
        | some (tabs, idx), some r =>
          let h := s.header
          if acDim % maxFactor (h.comps.map Prod.fst) ≠ 0 then .fail
          else if acDim % maxFactor (h.comps.map Prod.snd) ≠ 0 then .fail
          else if dcDim = 0 then .ub
          else
            match splitSections (h.tasks dcDim) rest with
            | none => .fail
            | some (dcParts, rest) =>
              match splitSections (h.tasks acDim) rest with
              | none => .fail
              | some (acParts, rest) =>
                if rest ≠ [] then .fail
                else
                  match dcOrder.foldlM (decodeDcTask h r dcDim dcParts) (h.noImgs, h.noFlags) with
                  | none => .fail
                  | some (imgs, flags) =>
                    match acOrder.foldlM (decodeAcTask h r (idx.map fun i => tabs.getD i []) acDim acParts flags) imgs with
                    | none => .fail
                    | some imgs => Run.orUb { s with ac := some imgs }.result
        | _, _ => .ub

end Brunsli
