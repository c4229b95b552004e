import Verif.JOut
import Verif.PropsC
import Verif.Internals
import Verif.PropsE
import Verif.PropsG
import Verif.PropsH
/-!
# The whole encoder and the whole decoder

`BrunsliEncodeJpeg` (c/enc/brunsli_encode.cc:1427-1480) with `BrunsliSerialize` (:1359-1418), `EncodeBrunsli`
(c/enc/encode.cc:18-36), and what `BrunsliDecodeJpeg` makes of the sections.
-/

namespace Brunsli

/-! ## Sizes -/

/-- `EstimateAuxDataSize` (c/enc/brunsli_encode.cc:52-67). -/
def estimateAuxDataSize (jpg : JpegData) : Nat :=
  jpg.markerOrder.length + 272 * jpg.huffman.length + 7 * jpg.scans.length + 16 +
  (jpg.scans.map fun s => 7 * s.resetPoints.length + 7 * s.extraZeroRuns.length).sum +
  ((if jpg.hasZeroPaddingBit then jpg.paddingBits.length else 0) + 43) / 8 +
  (jpg.interMarker.map fun s => 5 + s.length).sum

/-- `GetMaximumBrunsliEncodedSize` (c/enc/brunsli_encode.cc:69-89). -/
def maxEncodedSize (jpg : JpegData) : Nat :=
  (jpg.components.map fun c => c.width * c.height).sum * 84 +
  (2 ^ 20 + estimateAuxDataSize jpg + (jpg.appData.map List.length).sum + (jpg.comData.map List.length).sum + jpg.tailData.length)

/-! ## Parameters of the coefficient coding -/

/-- What the header section is written from. -/
def JpegData.header (jpg : JpegData) : Header := ⟨jpg.version, jpg.width, jpg.height, jpg.components.map fun c => (c.hSamp, c.vSamp)⟩

/-- Coefficient `k` of block `b`. -/
def coefAt (img : List Int) (b k : Nat) : Int := img.getD (b * 64 + k) 0

/-- `num_zeros` as `SampleNumNonZeros` leaves it (c/enc/brunsli_encode.cc:1000-1024), in a component of `n` blocks: one block in 5
is looked at, if there are at least 1024; the array is zero at first (`meta.resize`, :1068). -/
def sampleZeros (img : List Int) (n k : Nat) : Nat :=
  if n < 1024 then 0 else (List.range ((n + 4) / 5)).countP fun i => coefAt img (i * 5) k = 0

/-- `num_zeros` afterwards (c/enc/brunsli_encode.cc:1022). -/
def numZeros (img : List Int) (n k : Nat) : Nat := if k = 0 then 0 else sampleZeros img n k

/-- The result of `SampleNumNonZeros` (c/enc/brunsli_encode.cc:1000-1024). -/
def sampleNumNonZeros (img : List Int) (n : Nat) : Nat :=
  if n < 1024 then 64 * n else (64 * ((n + 4) / 5) - ((List.range 64).map (sampleZeros img n)).sum) * 5

/-- `kContextBits` (c/enc/brunsli_encode.cc:1027-1030). -/
def kContextBits : List Nat := [0, 0, 0, 0, 0, 0, 0, 0, 0, 0, 0, 0, 1, 1, 2, 2, 3, 3, 3, 3, 4, 4, 4, 4, 5, 5, 5, 6, 6, 6, 6, 6, 6]

/-- `SelectContextBits` (c/enc/brunsli_encode.cc:1026-1036). -/
def selectContextBits (n : Nat) : Nat := kContextBits.getD (Nat.log2 n) 0

/-- The components with their widths, vertical factors and context layout (c/enc/brunsli_encode.cc:1074-1079, 1440-1452,
c/dec/brunsli_decode.cc:1806, 1829-1836, 2225-2241). -/
def metasFrom (offset : Nat) : List (Nat × Nat × Nat) → List Meta
  | [] => []
  | (w, vs, bits) :: l => ⟨w, vs, offset, bits⟩ :: metasFrom (offset + kNumNonzeroContextSkip.getD bits 0) l

/-- The components of an image with header `h` and context resolutions `schemes`. -/
def metas (h : Header) (schemes : List Nat) : List Meta :=
  metasFrom h.comps.length ((h.comps.zip schemes).map fun (c, s) => (h.mcuCols * c.1, c.2, s))

/-- The context resolutions the encoder chooses (c/enc/brunsli_encode.cc:1436-1442). -/
def JpegData.schemes (jpg : JpegData) : List Nat :=
  jpg.components.map fun c => selectContextBits (sampleNumNonZeros c.coeffs (jpg.header.mcuCols * c.hSamp * (jpg.header.mcuRows * c.vSamp)) + 1)

/-- The coefficient orders the encoder chooses (c/enc/brunsli_encode.cc:1195-1198). -/
def JpegData.orders (jpg : JpegData) : List (List Nat) :=
  jpg.components.map fun c => computeCoeffOrder (numZeros c.coeffs (jpg.header.mcuCols * c.hSamp * (jpg.header.mcuRows * c.vSamp)))

/-- The tables of the components (c/enc/brunsli_encode.cc:1072-1083); `none`: an index is out of range. -/
def JpegData.quants (jpg : JpegData) : Option (List (List Nat)) := jpg.components.mapM fun c => (jpg.quant[c.quantIdx]?).map QuantTable.values

/-- What the section of internals is written from. -/
def JpegData.internals (jpg : JpegData) : Internals :=
  ⟨jpg.markerOrder, jpg.restartInterval, jpg.huffman, jpg.scans, jpg.quant.map fun q => (q.index, q.isLast, q.precision), jpg.components.map Component.id,
    if jpg.hasZeroPaddingBit then jpg.paddingBits.map (· == 1) else [], jpg.interMarker⟩

/-- `use_legacy_context_model` (c/enc/brunsli_encode.cc:1431, c/dec/brunsli_decode.cc:1230). -/
def legacyModel (version : Nat) : Bool := version / 2 % 2 == 0

/-! ## Encoder -/

/-- The histograms of `n` contexts (`EntropySource::AddCode`, c/enc/brunsli_encode.cc:554-561, `Histogram::Add`). -/
def countSymbols (n : Nat) (ops : List Op) : List (List Nat) :=
  (List.range n).map fun c => (List.range 18).map fun s => ops.countP fun op => decide (op = .code c s)

/-- Brotli, and the clustering of histograms, `none` being undefined behaviour (`realCluster` is the one of the code).  `compress` has as its
first argument the room for the result. -/
structure Codec where
  compress : Nat → List Nat → Option (List Nat)
  decompress : List Nat → Option (List (List Nat))
  cluster : List Nat → List (List Nat) → Option (List Nat × List Cluster)

/-- One section of a buffer of `cap` bytes (`EncodeSection`, c/enc/brunsli_encode.cc:965-995); `slack` more bytes than the
contents are accessed. -/
def putSection (cap tag k slack : Nat) (fn : Nat → Run (List Nat)) (out : List Nat) : Run (List Nat) :=
  if cap < out.length + 1 + k then .ub
  else (fn (cap - (out.length + 1 + k))).bind fun p =>
    if cap < out.length + 1 + k + p.length + slack then .ub
    else
      match encodeSection tag k (some p) with
      | none => .fail
      | some s => .ok (out ++ s)

/-- A result that is missing when the encoder returns `false`. -/
def Run.orFail {α : Type} : Option α → Run α
  | some a => .ok a
  | none => .fail

/-- A result that is missing when the program aborts or leaves its tables. -/
def Run.orUb {α : Type} : Option α → Run α
  | some a => .ok a
  | none => .ub

/-- What the coefficient coding leaves for the sections: `PrepareEntropyCodes` (c/enc/brunsli_encode.cc:1348-1357) and the two streams. -/
structure Coded where
  map : List Nat
  clusters : List Cluster
  dc : List Op
  ac : List Op

/-- `BrunsliEncodeJpeg` up to `BrunsliSerialize` (c/enc/brunsli_encode.cc:1427-1476). -/
def encodeCoefs (par : Codec) (jpg : JpegData) : Run Coded :=
  (Run.orFail jpg.quants).bind fun quants =>
    let ms := metas jpg.header jpg.schemes
    let rows := jpg.header.mcuRows
    let imgs := jpg.components.map Component.coeffs
    if ¬ (ms.zip imgs).all (fun (m, img) => predictDCCoeffs img m.w (rows * m.vs)) then .fail
    else
      (Run.orUb (encodeDC rows ms imgs)).bind fun (flags, dc) =>
        (Run.orUb (encodeAC (contextCount ms) (legacyModel jpg.version) rows ms jpg.orders quants imgs flags)).bind fun (_, ac) =>
          (Run.orUb (par.cluster (0 :: ms.map Meta.ctxOffset) (countSymbols (contextCount ms) (dc ++ ac)))).bind fun r => .ok ⟨r.1, r.2, dc, ac⟩

/-- The histogram section, DC data and AC data, `tabs` and `bits` being what `EncodeHistogramData` produces
(c/enc/brunsli_encode.cc:925-961, 1399-1414). -/
def putCoefs (cap : Nat) (c : Coded) (tabs : List (List Nat)) (bits : List Bool) (out : List Nat) : Run (List Nat) :=
  let tab := fun ctx => tabs.getD (c.map.getD ctx 0) []
  (putSection cap 6 (base128Size (cap - out.length)) 8 (fun _ => .ok (packBits bits)) out).bind fun out =>
    (putSection cap 7 (base128Size (cap - out.length)) 0 (fun _ => Run.orUb ((encodeWords tab c.dc).map wordBytes)) out).bind fun out =>
      putSection cap 8 (base128Size (cap - out.length)) 0 (fun _ => Run.orUb ((encodeWords tab c.ac).map wordBytes)) out

/-- `BrunsliSerialize` (c/enc/brunsli_encode.cc:1359-1418), no section being skipped. -/
def brunsliSerialize (par : Codec) (cap : Nat) (jpg : JpegData) (c : Coded) : Run (List Nat) :=
  if cap < 6 then .fail
  else
    (putSection cap 2 1 0 (fun _ => Run.orFail (encodeHeader jpg.header)) kBrunsliSignature).bind fun out =>
      (putSection cap 4 (base128Size (estimateAuxDataSize jpg)) 8
        (fun _ => Run.orFail (encodeInternals (paddingBitsLimit jpg.width jpg.height jpg.components.length) jpg.internals)) out).bind fun out =>
        (putSection cap 3 (base128Size (cap - out.length)) 0
          (fun room => Run.orFail (encodeMetadata (par.compress room) jpg.appData jpg.comData jpg.tailData)) out).bind fun out =>
          (putSection cap 5 2 8 (fun _ => Run.orFail ((encodeQuantTables (jpg.quant.map QuantTable.values) (jpg.components.map Component.quantIdx)).map
            packBits)) out).bind fun out =>
            (Run.orUb (encodeHistogramData jpg.schemes c.map c.clusters)).bind fun (tabs, bits) => putCoefs cap c tabs bits out

/-- `BrunsliEncodeJpeg` (c/enc/brunsli_encode.cc:1427-1480) into a buffer of `cap` bytes: the bytes written; `fail` when it returns
`false`, `ub` when it leaves the buffer or another table, or aborts. -/
def encodeJpeg (par : Codec) (cap : Nat) (jpg : JpegData) : Run (List Nat) := (encodeCoefs par jpg).bind (brunsliSerialize par cap jpg)

/-- `EncodeBrunsli` (c/enc/encode.cc:18-36) up to the call of the sink.  A buffer of 2^63 bytes cannot be had
(`std::vector::resize` throws). -/
def encodeData (par : Codec) (data : List Nat) : Run (List Nat) :=
  (readJpeg data).bind fun jpg => if 2 ^ 63 ≤ maxEncodedSize jpg then .fail else encodeJpeg par (maxEncodedSize jpg) jpg

/-! ## Decoder -/

/-- `State` and `JPEGData` between the sections. -/
structure SectState where
  header : Header
  internals : Option Internals
  metadata : MetaState
  quant : Option (List (List Nat) × List Nat)
  hist : Option HistogramData
  dc : Option (List (List Int × List Bool))
  ac : Option (List (List Int))
  /-- Not in the code: whether the metadata section followed the DC section. -/
  late : Bool

/-- After the header (c/dec/brunsli_decode.cc:1252-1262). -/
def SectState.init (h : Header) : SectState := ⟨h, none, MetaState.init, none, none, none, none, false⟩

/-- `ProcessSection` (c/dec/brunsli_decode.cc:2096-2196): the contents of a section.  `HasSection` tests are made by the container. -/
def decBody (par : Codec) (s : SectState) (tag : Nat) (payload : List Nat) : Option SectState :=
  if tag = 3 then (decodeMetadata par.decompress payload).map fun m => { s with metadata := m, late := s.dc.isSome }
  else if tag = 4 then
    (decodeInternals (paddingBitsLimit s.header.width s.header.height s.header.comps.length) s.header.comps.length payload).map fun x =>
      { s with internals := some x }
  else if tag = 5 then
    match s.internals with
    | none => none
    | some x =>
      match decodeQuantData (x.quant.map fun q => q.2.2) s.header.comps.length (bytesBits payload) with
      | some (r, []) => some { s with quant := some r }
      | _ => none
  else if tag = 6 then
    match decodeHistogramData s.header.comps.length (bytesBits payload) with
    | some (some r, []) => some { s with hist := some r }
    | _ => none
  else if tag = 7 then
    match s.hist with
    | none => none
    | some r =>
      let ms := metas s.header r.schemes
      (decodeWords (histMaps r.contextMap r.histograms) (decodeDC (contextCount ms) s.header.mcuRows ms) (bytesWords payload)).map fun x =>
        { s with dc := some x }
  else if tag = 8 then
    match s.hist, s.quant, s.dc with
    | some r, some (tabs, idx), some dc =>
      let ms := metas s.header r.schemes
      (decodeWords (histMaps r.contextMap r.histograms) (decodeAC (contextCount ms) (legacyModel s.header.version) s.header.mcuRows ms
        (idx.map fun i => tabs.getD i []) (dc.map Prod.fst) (dc.map Prod.snd)) (bytesWords payload)).map fun x => { s with ac := some x }
    | _, _, _ => none
  else none

/-- The components: identifiers from the internals, sizes from the header, table indices from the section of tables, coefficients. -/
def decComps (h : Header) : List (Nat × Nat) → List Nat → List Nat → List (List Int) → List Component
  | (hs, vs) :: cs, id :: ids, q :: qs, img :: imgs => ⟨id, hs, vs, q, h.mcuCols * hs, h.mcuRows * vs, img⟩ :: decComps h cs ids qs imgs
  | _, _, _, _ => []

/-- `*jpg` after the last section. -/
def SectState.result (s : SectState) : Option JpegData :=
  match s.internals, s.quant, s.ac with
  | some x, some (tabs, idx), some imgs => some {
      width := s.header.width
      height := s.header.height
      version := s.header.version
      restartInterval := x.restartInterval
      appData := s.metadata.app
      comData := s.metadata.com
      quant := (x.quant.zip tabs).map fun (q, t) => ⟨t, q.2.2, q.1, q.2.1⟩
      huffman := x.huffman
      components := decComps s.header s.header.comps x.ids idx imgs
      scans := x.scans
      markerOrder := x.markers
      interMarker := x.interMarker
      tailData := s.metadata.tail
      hasZeroPaddingBit := !x.padding.isEmpty
      paddingBits := x.padding.map Bool.toNat }
  | _, _, _ => none

/-- `BrunsliDecodeJpeg` (c/dec/brunsli_decode.cc) on a file that holds an image. -/
def decodeJpeg (par : Codec) (file : List Nat) : Option JpegData :=
  match decodeFile (fun h => some (SectState.init h)) (decBody par) file with
  | .ok (.image s) _ => s.result
  | _ => none

end Brunsli
