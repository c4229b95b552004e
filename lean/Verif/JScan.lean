import Verif.JValues
/-!
# Scans

The entropy-coded segments of a scan, as the JPEG reader decodes them (c/enc/jpeg_data_reader.cc:803-978) and as the JPEG writer encodes them
(c/dec/jpeg_data_writer.cc:697-874).
-/

namespace Brunsli

/-- The parameters of a scan. -/
structure SP where
  ss : Nat
  se : Nat
  ah : Nat
  al : Nat
deriving DecidableEq

/-- `Al`, `Ah`, `Ss`, `Se` (c/enc/jpeg_data_reader.cc:854-857; c/dec/jpeg_data_writer.cc:759-762). -/
def scanParams (prog : Bool) (s : ScanInfo) : SP := if prog then ⟨s.ss, s.se, s.ah, s.al⟩ else ⟨0, 63, 0, 0⟩

/-- A block to be coded: its component, Huffman tables and index. -/
structure Visit where
  comp : Nat
  dc : HSlot
  ac : HSlot
  blk : Nat
deriving DecidableEq

/-- The coefficients, by component, block and zigzag index. -/
abbrev Coefs := Nat → Nat → Blk

/-! ## The reader -/

/-- The variables of `ProcessScan` (c/enc/jpeg_data_reader.cc:848-853), the coefficients, reset points and zero runs of the scan, and the padding bits. -/
structure RS where
  coefs : Coefs
  last : Nat → Int
  eob : Int
  br : JR
  idx : Nat
  resets : List Nat
  runs : List (Nat × Nat)
  pads : List Bool
  toGo : Nat
  marker : Nat

/-- The decoder of a block (c/enc/jpeg_data_reader.cc:934-945). -/
def readProg (P : SP) (v : Visit) (last e : Int) (B : Blk) : JProg BlkOut :=
  if P.ah = 0 then decodeBlock v.dc v.ac P.ss P.se P.al last e B else refineBlock v.ac P.ss P.se P.al last e B

/-- What happens after a block (c/enc/jpeg_data_reader.cc:946-956). -/
def RS.after (st : RS) (v : Visit) (o : BlkOut) (br : JR) : RS :=
  { st with
    coefs := fun c b => if c = v.comp ∧ b = v.blk then o.blk else st.coefs c b
    last := fun c => if c = v.comp then o.last else st.last c
    eob := o.eob
    br := br
    idx := st.idx + 1
    resets := if o.reset then st.resets ++ [st.idx] else st.resets
    runs := if 0 < o.nzr then st.runs ++ [(st.idx, o.nzr)] else st.runs }

/-- One block (c/enc/jpeg_data_reader.cc:927-956). -/
def readBlk (data : List Nat) (lut : HSlot → JMem) (P : SP) (v : Visit) (st : RS) : Option RS :=
  ((readProg P v (st.last v.comp) st.eob (st.coefs v.comp v.blk)).run data lut st.br).map fun q => st.after v q.1 q.2

/-- One MCU (c/enc/jpeg_data_reader.cc:917-960). -/
def readMcu (data : List Nat) (lut : HSlot → JMem) (P : SP) : List Visit → RS → Option RS
  | [], st => some st
  | v :: vs, st => (readBlk data lut P v st).bind (readMcu data lut P vs)

/-- `ProcessRestart` and what follows it (c/enc/jpeg_data_reader.cc:803-825,893-906). -/
def readRestart (data : List Nat) (ri : Nat) (st : RS) : Option RS :=
  match st.br.finish data with
  | none => none
  | some (ps, pos) =>
    if data.length < pos + 2 ∨ byteOf data pos ≠ 0xff then none
    else if byteOf data (pos + 1) ≠ 0xd0 + st.marker then none
    else if 0 < st.eob then none
    else some { st with br := JR.reset data (pos + 2), marker := (st.marker + 1) % 8, toGo := ri, last := fun _ => 0, eob := -1, pads := st.pads ++ ps }

/-- The restart markers (c/enc/jpeg_data_reader.cc:890-909). -/
def readMcuHead (data : List Nat) (ri : Nat) (st : RS) : Option RS :=
  if 0 < ri then
    (if st.toGo = 0 then readRestart data ri st else some st).map fun st => { st with toGo := st.toGo - 1 }
  else some st

/-- All MCUs (c/enc/jpeg_data_reader.cc:887-962). -/
def readMcus (data : List Nat) (lut : HSlot → JMem) (P : SP) (ri : Nat) : List (List Visit) → RS → Option RS
  | [], st => some st
  | m :: ms, st =>
    match readMcuHead data ri st with
    | none => none
    | some st => if st.br.unhealthy then none else (readMcu data lut P m st).bind (readMcus data lut P ri ms)

/-- The state before the first MCU (c/enc/jpeg_data_reader.cc:848-853). -/
def RS.start (data : List Nat) (ri pos : Nat) (coefs : Coefs) (pads : List Bool) : RS :=
  ⟨coefs, fun _ => 0, -1, JR.reset data pos, 0, [], [], pads, ri, 0⟩

/-- The entropy-coded segments of a scan from position `pos` on (c/enc/jpeg_data_reader.cc:848-977): the final state and position. -/
def readScanData (data : List Nat) (lut : HSlot → JMem) (P : SP) (ri : Nat) (mcus : List (List Visit)) (pos : Nat) (coefs : Coefs) (pads : List Bool) : Option (RS × Nat) :=
  match readMcus data lut P ri mcus (RS.start data ri pos coefs pads) with
  | none => none
  | some st =>
    if 0 < st.eob then none
    else match st.br.finish data with
      | none => none
      | some (ps, pos) => if data.length < pos then none else some ({ st with pads := st.pads ++ ps }, pos)

/-! ## The writer -/

/-- `EncodeScanState` (c/dec/serialization_state.h:58-83); `resets` and `runs` are the reset points and zero runs still to come. -/
structure WS where
  cs : CS
  last : Nat → Int
  idx : Nat
  resets : List Nat
  runs : List (Nat × Nat)
  toGo : Nat
  marker : Nat

/-- What a scan calls: `WriteBits`, or `JumpToByteBoundary` and `EmitMarker`. -/
inductive WAct where
  | req (r : WReq)
  | restart (m : Nat)
deriving DecidableEq

/-- The encoder of a block (c/dec/jpeg_data_writer.cc:823-834,856-874). -/
def encBlock (prog : Bool) (P : SP) (v : Visit) (nzr : Nat) (last : Int) (F : Blk) (cs : CS) : Option (List WReq × Int × CS) :=
  if prog = false ∨ (P.ah = 0 ∧ P.al = 0 ∧ P.ss = 0 ∧ P.se = 63) then
    let q := encSeq v.dc v.ac nzr last F
    some (q.1, q.2, cs)
  else if P.ah = 0 then some (encProg v.dc v.ac P.ss P.se P.al nzr last F cs)
  else (encRefine v.ac P.ss P.se P.al F cs).map fun q => (q.1, last, q.2)

/-- `Flush` at a reset point (c/dec/jpeg_data_writer.cc:809-812); after the last one `next_reset_point` is -1. -/
def takeReset (ws : WS) : List WReq × WS :=
  if ws.resets.head? = some ws.idx then (ws.cs.flush.1, { ws with cs := ws.cs.flush.2, resets := ws.resets.tail }) else ([], ws)

/-- `num_zero_runs` (c/dec/jpeg_data_writer.cc:813-819). -/
def takeRuns (ws : WS) : Nat × List (Nat × Nat) :=
  match ws.runs with
  | [] => (0, [])
  | (i, n) :: rs => if i = ws.idx then (n, rs) else (0, (i, n) :: rs)

/-- One block (c/dec/jpeg_data_writer.cc:806-837). -/
def writeBlk (prog : Bool) (P : SP) (F : Coefs) (v : Visit) (ws : WS) : Option (List WReq × WS) :=
  let r := takeReset ws
  let z := takeRuns r.2
  (encBlock prog P v z.1 (r.2.last v.comp) (F v.comp v.blk) r.2.cs).map fun q =>
    (r.1 ++ q.1, { r.2 with cs := q.2.2, last := fun c => if c = v.comp then q.2.1 else r.2.last c, idx := r.2.idx + 1, runs := z.2 })

/-- One MCU (c/dec/jpeg_data_writer.cc:793-839). -/
def writeMcu (prog : Bool) (P : SP) (F : Coefs) : List Visit → WS → Option (List WReq × WS)
  | [], ws => some ([], ws)
  | v :: vs, ws => (writeBlk prog P F v ws).bind fun p => (writeMcu prog P F vs p.2).map fun q => (p.1 ++ q.1, q.2)

/-- The restart marker (c/dec/jpeg_data_writer.cc:782-792). -/
def writeMcuHead (ri : Nat) (ws : WS) : List WAct × WS :=
  if 0 < ri ∧ ws.toGo = 0 then
    (ws.cs.flush.1.map .req ++ [.restart ws.marker], { ws with cs := ws.cs.flush.2, marker := (ws.marker + 1) % 8, toGo := ri, last := fun _ => 0 })
  else ([], ws)

/-- All MCUs (c/dec/jpeg_data_writer.cc:779-842); `restarts_to_go` is only read if there are restart markers, so that it is not below 0 when it is. -/
def writeMcus (prog : Bool) (P : SP) (ri : Nat) (F : Coefs) : List (List Visit) → WS → Option (List WAct × WS)
  | [], ws => some ([], ws)
  | m :: ms, ws =>
    let h := writeMcuHead ri ws
    (writeMcu prog P F m h.2).bind fun p => (writeMcus prog P ri F ms { p.2 with toGo := p.2.toGo - 1 }).map fun q => (h.1 ++ p.1.map .req ++ q.1, q.2)

/-- The state before the first MCU (c/dec/jpeg_data_writer.cc:723-739). -/
def WS.start (ri : Nat) (resets : List Nat) (runs : List (Nat × Nat)) : WS := ⟨.init, fun _ => 0, 0, resets, runs, ri, 0⟩

/-- The calls of a scan, without the last `JumpToByteBoundary` (c/dec/jpeg_data_writer.cc:720-844). -/
def scanCalls (prog : Bool) (P : SP) (ri : Nat) (F : Coefs) (mcus : List (List Visit)) (resets : List Nat) (runs : List (Nat × Nat)) : Option (List WAct) :=
  (writeMcus prog P ri F mcus (WS.start ri resets runs)).map fun q => q.1 ++ q.2.cs.flush.1.map .req

/-- The arguments of `WriteBits`. -/
def reqPair (T : HSlot → CodeTable) : WReq → Nat × Nat
  | .sym t v => (T t).word v
  | .bits n v => (n, v)

def WAct.toAct (T : HSlot → CodeTable) : WAct → Act
  | .req r => .bits (reqPair T r).1 (reqPair T r).2
  | .restart m => .restart m

/-- `DoEncodeScan` after the header, when all of the coefficients are known (c/dec/jpeg_data_writer.cc:720-854). -/
def writeScanData (T : HSlot → CodeTable) (prog : Bool) (P : SP) (ri : Nat) (F : Coefs) (mcus : List (List Visit)) (resets : List Nat) (runs : List (Nat × Nat))
    (w : BW) (pads : Pads) : Run (BW × Pads) :=
  match scanCalls prog P ri F mcus resets runs with
  | none => .fail
  | some as => (w.scan pads (as.map (WAct.toAct T))).bind fun (w, pads) => if w.healthy then .ok (w, pads) else .fail

/-! ## The order of the blocks -/

/-- What a scan needs to know about a component. -/
structure CompDim where
  h : Nat
  v : Nat
  width : Nat
deriving DecidableEq

/-- The blocks of an MCU (c/enc/jpeg_data_reader.cc:917-931; c/dec/jpeg_data_writer.cc:794-808). -/
def mcuVisits (dims : Nat → CompDim) (comps : List ScanComp) (my mx : Nat) : List Visit :=
  comps.flatMap fun s =>
    let c := dims s.compIdx
    let ny := if 1 < comps.length then c.v else 1
    let nx := if 1 < comps.length then c.h else 1
    (List.range ny).flatMap fun iy => (List.range nx).map fun ix => ⟨s.compIdx, (false, s.dcTbl), (true, s.acTbl), (my * ny + iy) * c.width + (mx * nx + ix)⟩

def mcuGrid (dims : Nat → CompDim) (comps : List ScanComp) (rows cols : Nat) : List (List Visit) :=
  (List.range rows).flatMap fun my => (List.range cols).map fun mx => mcuVisits dims comps my mx

end Brunsli
