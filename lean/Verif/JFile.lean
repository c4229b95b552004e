import Verif.JMark
import Verif.Output
/-!
# JPEG files

`ReadJpeg` (c/enc/jpeg_data_reader.cc:827-1164) in the mode `JPEG_READ_ALL`, and `WriteJpeg` (c/dec/jpeg_data_writer.cc:697-1093) on complete data.
-/

namespace Brunsli

/-! ## The reader -/

/-- The variables of `ReadJpeg` and the parts of `*jpg`.  Coefficients are kept as a function of component, block and zigzag index; `pads` are the padding bits. -/
structure RJ where
  width : Nat
  height : Nat
  ri : Nat
  app : List (List Nat)
  com : List (List Nat)
  quant : List QuantTable
  huffman : List HuffCode
  comps : List Component
  scans : List ScanInfo
  order : List Nat
  inter : List (List Nat)
  pads : List Bool
  coefs : Coefs
  lut : HSlot → JMem
  masks : Masks
  prog : Bool
  sof : Bool
  dri : Bool

/-- The state after the SOI marker (c/enc/jpeg_data_reader.cc:1035-1042). -/
def RJ.init : RJ := ⟨0, 0, 0, [], [], [], [], [], [], [], [], [], fun _ _ _ => 0, fun _ _ => badEnt, fun _ _ => 0, false, false, false⟩

/-- What a scan needs to know about the components. -/
def dimsOf (cs : List Component) (c : Nat) : CompDim :=
  match cs[c]? with
  | none => ⟨0, 0, 0⟩
  | some x => ⟨x.hSamp, x.vSamp, x.width⟩

/-- `MCU_rows` and `MCUs_per_row` in the reader (c/enc/jpeg_data_reader.cc:837-847). -/
def readerMcus (w h : Nat) (cs : List Component) (s : ScanInfo) : Nat × Nat :=
  if 1 < s.comps.length then (divCeil h (maxV cs * 8), divCeil w (maxH cs * 8))
  else
    let d := dimsOf cs ((s.comps.map ScanComp.compIdx).headD 0)
    (divCeil (h * d.v) (8 * maxV cs), divCeil (w * d.h) (8 * maxH cs))

/-- The number of blocks of a component. -/
def blocksOf (cs : List Component) (c : Nat) : Nat := ((cs[c]?).map fun x => x.width * x.height).getD 0

/-- The part of `ProcessScan` after the header and the masks (c/enc/jpeg_data_reader.cc:837-853,887-977).  A block that does not exist is undefined behaviour. -/
def scanBody (st : RJ) (s : ScanInfo) (masks : Masks) : JM RJ := fun d p =>
  let n := readerMcus st.width st.height st.comps s
  let mcus := mcuGrid (dimsOf st.comps) s.comps n.1 n.2
  if mcus.flatten.any fun v => decide (blocksOf st.comps v.comp ≤ v.blk) then .ub
  else match readScanData d st.lut (scanParams st.prog s) st.ri mcus p st.coefs st.pads with
    | none => .fail
    | some (rs, p') =>
      .ok ({ st with scans := st.scans ++ [{ s with resetPoints := rs.resets, extraZeroRuns := rs.runs }], masks := masks, coefs := rs.coefs, pads := rs.pads }, p')

/-- `ProcessScan` (c/enc/jpeg_data_reader.cc:827-978). -/
def processScan (st : RJ) : JM RJ := do
  let s ← processSOS st.comps st.huffman
  match markScan (scanParams st.prog s) (s.comps.map ScanComp.compIdx) st.masks with
  | none => JM.failed
  | some masks => scanBody st s masks

/-- The second byte of the markers that are known (c/enc/jpeg_data_reader.cc:1004-1009). -/
def isMarker (m : Nat) : Bool :=
  (0xc0 ≤ m && m ≤ 0xc2) || m = 0xc4 || (0xd0 ≤ m && m ≤ 0xd7) || (0xd9 ≤ m && m ≤ 0xdb) || m = 0xdd || (0xe0 ≤ m && m ≤ 0xef) || m = 0xfe

/-- `FindNextMarker` (c/enc/jpeg_data_reader.cc:1003-1017): the position of the next marker, or of the last byte.  `fuel` does not run out if it is the length of the input. -/
def findMarker (data : List Nat) : Nat → Nat → Nat
  | 0, p => p
  | fuel + 1, p => if p + 1 < data.length ∧ (byteOf data p ≠ 0xff ∨ isMarker (byteOf data (p + 1)) = false) then findMarker data fuel (p + 1) else p

/-- `BRUNSLI_EXPECT_MARKER` and the marker (c/enc/jpeg_data_reader.cc:49-56,1060-1062). -/
def expectMarker : JM Nat := fun d p => if d.length < p + 2 ∨ byteOf d p ≠ 0xff then .fail else .ok (byteOf d (p + 1), p + 2)

/-- The bytes before the next marker (c/enc/jpeg_data_reader.cc:1051-1059). -/
def skipData (st : RJ) : JM RJ := fun d p =>
  let q := findMarker d d.length p
  if p < q then .ok ({ st with order := st.order ++ [0xff], inter := st.inter ++ [slice d p q] }, q) else .ok (st, p)

/-- The segment of a marker (c/enc/jpeg_data_reader.cc:1064-1133). -/
def readSegment (st : RJ) (m : Nat) : JM RJ :=
  if 0xc0 ≤ m ∧ m ≤ 0xc2 then do
    let r ← processSOF st.width
    pure { st with prog := decide (m = 0xc2), sof := true, width := r.1, height := r.2.1, comps := r.2.2 }
  else if m = 0xc4 then do
    let r ← processDHT st.huffman st.lut
    pure { st with huffman := r.1, lut := r.2 }
  else if 0xd0 ≤ m ∧ m ≤ 0xd7 then pure st
  else if m = 0xd9 then pure st
  else if m = 0xda then processScan st
  else if m = 0xdb then do
    let r ← processDQT st.quant
    pure { st with quant := r }
  else if m = 0xdd then do
    let r ← processDRI st.dri
    pure { st with ri := r, dri := true }
  else if 0xe0 ≤ m ∧ m ≤ 0xef then do
    let r ← processBlob
    pure { st with app := st.app ++ [r] }
  else if m = 0xfe then do
    let r ← processBlob
    pure { st with com := st.com ++ [r] }
  else JM.failed

/-- One round of the loop (c/enc/jpeg_data_reader.cc:1046-1141): the state and the marker. -/
def readMarker (st : RJ) : JM (RJ × Nat) := do
  let st ← skipData st
  let m ← expectMarker
  let st ← readSegment st m
  pure ({ st with order := st.order ++ [m] }, m)

/-- The loop over markers (c/enc/jpeg_data_reader.cc:1046-1142); `fuel` does not run out. -/
def readLoop : Nat → RJ → JM RJ
  | 0, _ => JM.broken
  | fuel + 1, st => do
    let r ← readMarker st
    if r.2 = 0xd9 then pure r.1 else readLoop fuel r.1

/-- `FixupIndexes` for one component (c/enc/jpeg_data_reader.cc:984-992). -/
def fixupIndex (quant : List QuantTable) (c : Component) : Option Component :=
  let j := quant.findIdx fun q => q.index = c.quantIdx
  if j < quant.length then some { c with quantIdx := j } else none

/-- `FixupIndexes` (c/enc/jpeg_data_reader.cc:982-1001). -/
def fixupIndexes (quant : List QuantTable) : List Component → Option (List Component)
  | [] => some []
  | c :: cs => (fixupIndex quant c).bind fun c => (fixupIndexes quant cs).map (c :: ·)

/-- The place of a coefficient in a block: the zigzag index of the coefficient stored at place `i` (inverse of `kJPEGNaturalOrder`). -/
def zigzagOf (i : Nat) : Nat := naturalOrder.findIdx (· = i)

/-- `coeffs` of a component: block by block, in natural order (c/enc/jpeg_data_reader.cc:144-146,656,932). -/
def coefList (C : Nat → Blk) (n : Nat) : List Int := (List.range (64 * n)).map fun i => C (i / 64) (zigzagOf (i % 64))

/-- The components with their coefficients. -/
def fillCoefs (C : Coefs) (cs : List Component) : List Component :=
  cs.zipIdx.map fun (c, i) => { c with coeffs := coefList (C i) (c.width * c.height) }

/-- `*jpg` at the end; 2 is the default of `version` (c/include/brunsli/jpeg_data.h:218). -/
def RJ.result (st : RJ) (comps : List Component) (tail : List Nat) : JpegData where
  width := st.width
  height := st.height
  version := 2
  restartInterval := st.ri
  appData := st.app
  comData := st.com
  quant := st.quant
  huffman := st.huffman
  components := fillCoefs st.coefs comps
  scans := st.scans
  markerOrder := st.order
  interMarker := st.inter
  tailData := tail
  hasZeroPaddingBit := st.pads.any (!·)
  paddingBits := st.pads.map Bool.toNat

/-- `ReadJpeg` (c/enc/jpeg_data_reader.cc:1021-1164). -/
def readJpeg (data : List Nat) : Run JpegData :=
  (expectMarker data 0).bind fun (m, p) =>
    if m ≠ 0xd8 then .fail
    else (readLoop (data.length + 1) RJ.init data p).bind fun (st, p) =>
      if ¬ st.sof then .fail
      else match fixupIndexes st.quant st.comps with
        | none => .fail
        | some comps =>
          if st.huffman = [] then .fail
          else if kMaxDHTMarkers ≤ st.huffman.length then .fail
          else .ok (st.result comps (slice data p data.length))

/-! ## The writer -/

/-- `SerializationState` without stage and queue (c/dec/serialization_state.h:85-112). -/
structure WJ where
  dht : Nat
  dqt : Nat
  app : Nat
  com : Nat
  inter : Nat
  scan : Nat
  T : HSlot → CodeTable
  pads : Pads
  dri : Bool
  prog : Bool

/-- The state before `SerializeJpeg`; the tables are indeterminate. -/
def WJ.init (T : HSlot → CodeTable) : WJ := ⟨0, 0, 0, 0, 0, 0, T, none, false, false⟩

/-- The padding bits, if any is 0 (c/dec/jpeg_data_writer.cc:1044-1047). -/
def WJ.prepared (jpg : JpegData) (ws : WJ) : WJ := { ws with pads := if jpg.hasZeroPaddingBit then some jpg.paddingBits else none }

/-- The coefficients the writer uses (c/dec/jpeg_data_writer.cc:820). -/
def JpegData.coefs (jpg : JpegData) : Coefs := fun c b k =>
  match jpg.components[c]? with
  | none => 0
  | some x => if k < 64 then x.coeffs.getD (64 * b + naturalOrder.getD k 0) 0 else 0

/-- `MCU_rows` and `MCUs_per_row` in the writer (c/dec/jpeg_data_writer.cc:748-763). -/
def writerMcus (jpg : JpegData) (s : ScanInfo) : Nat × Nat :=
  let d := dimsOf jpg.components ((s.comps.map ScanComp.compIdx).headD 0)
  let vg := if 1 < s.comps.length then 1 else d.v
  let hg := if 1 < s.comps.length then 1 else d.h
  (divCeil (jpg.height * vg) (8 * maxV jpg.components), divCeil (jpg.width * hg) (8 * maxH jpg.components))

/-- `EncodeScan` (c/dec/jpeg_data_writer.cc:697-874) on complete data: chunks, padding bits left.  A table index above 3, or a block that does not exist, is undefined
behaviour. -/
def encodeScan (jpg : JpegData) (s : ScanInfo) (ws : WJ) : Run (List (List Nat) × Pads) :=
  (encodeSOS jpg s).bind fun sos =>
    let n := writerMcus jpg s
    let mcus := mcuGrid (dimsOf jpg.components) s.comps n.1 n.2
    if (s.comps.any fun c => 4 ≤ c.dcTbl || 4 ≤ c.acTbl) ∨ (mcus.flatten.any fun v => decide (((jpg.components[v.comp]?).map fun c => c.coeffs.length).getD 0 < 64 * v.blk + 64)) then .ub
    else
      (writeScanData ws.T ws.prog (scanParams ws.prog s) (if ws.dri then jpg.restartInterval else 0) jpg.coefs mcus s.resetPoints s.extraZeroRuns (BW.init [sos]) ws.pads).bind
        fun (w, pads) => .ok (w.finish, pads)

/-- `SerializeSection` (c/dec/jpeg_data_writer.cc:876-940): the chunks and the new state. -/
def writeMarker (jpg : JpegData) (ws : WJ) (m : Nat) : Run (List (List Nat) × WJ) :=
  if (0xC0 ≤ m ∧ m ≤ 0xC2) ∨ m = 0xC9 ∨ m = 0xCA then
    (encodeSOF jpg m).bind fun c => .ok ([c], { ws with prog := if m ≤ 0xC2 then decide (m = 0xC2) else ws.prog })
  else if m = 0xC4 then (encodeDHT jpg ws.dht ws.T).bind fun (c, i, T) => .ok ([c], { ws with dht := i, T := T })
  else if 0xD0 ≤ m ∧ m ≤ 0xD7 then .ok ([[0xFF, m]], ws)
  else if m = 0xD9 then .ok ([[0xFF, 0xD9], jpg.tailData], ws)
  else if m = 0xDA then
    match jpg.scans[ws.scan]? with
    | none => .ub
    | some s => (encodeScan jpg s ws).bind fun (cs, pads) => .ok (cs, { ws with pads := pads, scan := ws.scan + 1 })
  else if m = 0xDB then (encodeDQT jpg ws.dqt).bind fun (c, i) => .ok ([c], { ws with dqt := i })
  else if m = 0xDD then .ok ([encodeDRI jpg], { ws with dri := true })
  else if 0xE0 ≤ m ∧ m ≤ 0xEF then
    match jpg.appData[ws.app]? with
    | none => .fail
    | some a => .ok ([[0xFF], a], { ws with app := ws.app + 1 })
  else if m = 0xFE then
    match jpg.comData[ws.com]? with
    | none => .fail
    | some a => .ok ([[0xFF], a], { ws with com := ws.com + 1 })
  else if m = 0xFF then
    match jpg.interMarker[ws.inter]? with
    | none => .fail
    | some a => .ok ([a], { ws with inter := ws.inter + 1 })
  else .fail

/-- All of the markers (c/dec/jpeg_data_writer.cc:1053-1077). -/
def writeMarkers (jpg : JpegData) : List Nat → WJ → Run (List (List Nat))
  | [], _ => .ok []
  | m :: ms, ws => (writeMarker jpg ws m).bind fun (cs, ws) => (writeMarkers jpg ms ws).bind fun r => .ok (cs ++ r)

/-- The chunks `SerializeJpeg` queues for complete data (c/dec/jpeg_data_writer.cc:1005-1077); `original_jpg` is not modelled, so `version` 1 fails. -/
def writeJpeg (T : HSlot → CodeTable) (jpg : JpegData) : Run (List (List Nat)) :=
  if jpg.version % 2 = 1 then .fail
  else if jpg.markerOrder = [] then .fail
  else (writeMarkers jpg jpg.markerOrder ((WJ.init T).prepared jpg)).bind fun r => .ok ([0xFF, 0xD8] :: r)

/-- The serializer of the library for complete data, as an instance of the state machine around the output queue. -/
def jpegApi : SerApi JpegData WJ where
  canStart := fun _ => true
  version := JpegData.version
  original := fun _ => none
  markers := JpegData.markerOrder
  prepared := WJ.prepared
  marker := fun jpg ws m =>
    match writeMarker jpg ws m with
    | .ok (cs, ws) => (ws, cs, .done)
    | _ => (ws, [], .error)

end Brunsli
