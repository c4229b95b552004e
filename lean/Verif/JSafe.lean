import Verif.JFile
/-!
# The JPEG reader with checked accesses and checked arithmetic

The decoder of entropy-coded data of the JPEG reader (c/enc/jpeg_data_reader.cc:422-978) once more, as a program for which everything undefined is an
outcome of its own: reading a byte outside of the input, an entry outside of a lookup table or a coefficient outside of a block, a shift by a negative
amount or by the width of the word, a position below 0, a value that does not fit an `int`.  A value that changes when it is stored as a 16-bit
coefficient counts as undefined, too, except for the one the code tests itself.
-/

namespace Brunsli

/-- A failure of the code that is no undefined behaviour. -/
def Run.ofOption {α : Type} : Option α → Run α
  | none => .fail
  | some a => .ok a

/-! ## The bit reader -/

/-- `data_[i]` (c/enc/jpeg_data_reader.cc:443,445,507,508). -/
def fetch (data : List Nat) (i : Nat) : Run Nat :=
  match data[i]? with
  | none => .ub
  | some c => .ok c

/-- `val_ >> (bits_left_ - n)` (c/enc/jpeg_data_reader.cc:471,493,533,537) of a 64-bit word. -/
def shr64 (v left n : Nat) : Run Nat := if n ≤ left ∧ left < n + 64 then .ok (v / 2 ^ (left - n)) else .ub

/-- An entry of a lookup table of `kJpegHuffmanLutSize` entries (c/enc/jpeg_data_reader.cc:534,537,540-541). -/
def lutAt (m : JMem) (i : Nat) : Run Ent := if i < kJpegHuffmanLutSize then .ok (m i) else .ub

/-- `GetNextByte` (c/enc/jpeg_data_reader.cc:439-457). -/
def gnextC (data : List Nat) (p nm : Nat) : Run (Nat × Nat × Nat) :=
  if nm ≤ p then .ok (0, p + 1, nm)
  else (fetch data p).bind fun c =>
    if c = 0xff then (fetch data (p + 1)).bind fun e => .ok (if e = 0 then (0xff, p + 2, nm) else (0xff, p + 1, p))
    else .ok (c, p + 1, nm)

/-- The loop of `FillBitWindow` (c/enc/jpeg_data_reader.cc:461-465). -/
def JR.fillLoopC (data : List Nat) : Nat → JR → Run JR
  | 0, b => .ok b
  | n + 1, b =>
    if b.left ≤ 56 then
      (gnextC data b.pos b.nm).bind fun g => JR.fillLoopC data n ⟨g.2.1, (b.val * 256 + g.1) % 2 ^ 64, b.left + 8, g.2.2⟩
    else .ok b

/-- `FillBitWindow` (c/enc/jpeg_data_reader.cc:459-467). -/
def JR.fillC (data : List Nat) (b : JR) : Run JR := if b.left ≤ 16 then JR.fillLoopC data 8 b else .ok b

/-- `Reset` (c/enc/jpeg_data_reader.cc:430-436); `len_ - 2` must not wrap around. -/
def JR.resetC (data : List Nat) (pos : Nat) : Run JR := if data.length < 2 then .ub else JR.fillC data ⟨pos, 0, 0, data.length - 2⟩

/-- `ReadBits` (c/enc/jpeg_data_reader.cc:469-475). -/
def JR.readBitsC (data : List Nat) (n : Nat) (b : JR) : Run (Nat × JR) :=
  (b.fillC data).bind fun b => (shr64 b.val b.left n).bind fun v =>
    if n < 64 then .ok (v % 2 ^ n, { b with left := b.left - n }) else .ub

/-- `ReadSymbol` (c/enc/jpeg_data_reader.cc:528-542).  After a value that is no symbol the number of bits left does not matter: the callers return. -/
def JR.readSymbolC (data : List Nat) (m : JMem) (b : JR) : Run (Nat × JR) :=
  (b.fillC data).bind fun b => (shr64 b.val b.left 8).bind fun v => (lutAt m (v % 256)).bind fun e =>
    if 0 < e.bits - 8 then
      (shr64 b.val (b.left - 8) (e.bits - 8)).bind fun w => (lutAt m (v % 256 + e.value + w % 2 ^ (e.bits - 8))).bind fun f =>
        .ok (f.value, { b with left := b.left - 8 - f.bits })
    else .ok (e.value, { b with left := b.left - e.bits })

/-- One byte is given back (c/enc/jpeg_data_reader.cc:503-510). -/
def giveBack1C (data : List Nat) (nm pos : Nat) : Run Nat :=
  if pos = 0 then .ub
  else if pos - 1 < nm then
    (fetch data (pos - 1)).bind fun c =>
      if c = 0 then
        if pos - 1 = 0 then .ub
        else (fetch data (pos - 1 - 1)).bind fun e => .ok (if e = 0xff then pos - 1 - 1 else pos - 1)
      else .ok (pos - 1)
  else .ok (pos - 1)

/-- The loop that gives bytes back (c/enc/jpeg_data_reader.cc:501-511). -/
def giveBackC (data : List Nat) (nm : Nat) : Nat → Nat → Run Nat
  | 0, pos => .ok pos
  | n + 1, pos => (giveBack1C data nm pos).bind (giveBackC data nm n)

/-- `FinishStream` (c/enc/jpeg_data_reader.cc:489-517). -/
def JR.finishC (data : List Nat) (b : JR) : Run (List Bool × Nat) :=
  (if 0 < b.left % 8 then shr64 b.val b.left (b.left % 8) else .ok 0).bind fun v =>
    (giveBackC data b.nm (b.left / 8) b.pos).bind fun pos => if b.nm < pos then .fail else .ok (msb (b.left % 8) (v % 2 ^ (b.left % 8)), pos)

/-! ## Blocks -/

/-- A program that reads symbols and bits, and may do something undefined. -/
inductive CProg (α : Type) where
  | pure (a : α)
  | fail
  | ub
  | sym (t : HSlot) (k : Nat → CProg α)
  | bits (n : Nat) (k : Nat → CProg α)

namespace CProg

def bind {α β : Type} : CProg α → (α → CProg β) → CProg β
  | .pure a, f => f a
  | .fail, _ => .fail
  | .ub, _ => .ub
  | .sym t k, f => .sym t fun v => (k v).bind f
  | .bits n k, f => .bits n fun v => (k v).bind f

/-- The program run by the bit reader with the given lookup tables. -/
def run {α : Type} (data : List Nat) (lut : HSlot → JMem) : CProg α → JR → Run (α × JR)
  | .pure a, b => .ok (a, b)
  | .fail, _ => .fail
  | .ub, _ => .ub
  | .sym t k, b => (b.readSymbolC data (lut t)).bind fun r => if r.1 < 256 then (k r.1).run data lut r.2 else .fail
  | .bits n k, b => (b.readBitsC data n).bind fun r => (k r.1).run data lut r.2

/-- A value of type `int`. -/
def int {α : Type} (x : Int) (k : Int → CProg α) : CProg α := if -2147483648 ≤ x ∧ x ≤ 2147483647 then k x else .ub

/-- A value stored as `coeff_t`. -/
def short {α : Type} (x : Int) (k : Int → CProg α) : CProg α := if -32768 ≤ x ∧ x ≤ 32767 then k x else .ub

/-- An access to the coefficient number `k` of a block. -/
def spot {α : Type} (k : Nat) (p : CProg α) : CProg α := if k < 64 then p else .ub

end CProg

/-- `HuffExtend` (c/enc/jpeg_data_reader.cc:574-583): the shifts need `1 ≤ s` and a power of 2 that fits. -/
def huffExtendC {α : Type} (x s : Nat) (k : Int → CProg α) : CProg α :=
  if s = 0 then .ub else .int (2 ^ s) fun p => if 2 ^ (s - 1) ≤ x then k x else .int (x - p) fun y => .int (y + 1) k

/-- The end of both block decoders: `--(*eobrun)` (c/enc/jpeg_data_reader.cc:678,799). -/
def endRunC (B : Blk) (last e : Int) (reset : Bool) (nzr : Nat) : CProg BlkOut := .int (e - 1) fun e => .pure ⟨B, last, e, reset, nzr⟩

/-- The loop of `DecodeDCTBlock` over the AC coefficients (c/enc/jpeg_data_reader.cc:629-678). -/
def decACC (ac : HSlot) (Ss Se Al : Nat) (allowed : Bool) (last e : Int) : Nat → Nat → Nat → Blk → CProg BlkOut
  | 0, _, nzr, B => endRunC B last e false nzr
  | n + 1, k, nzr, B =>
    if Se < k then endRunC B last e false nzr
    else .sym ac fun sr =>
      if 0 < sr % 16 then
        if Se < k + sr / 16 then .fail
        else if 12 ≤ sr % 16 + Al then .fail
        else .bits (sr % 16) fun x => huffExtendC x (sr % 16) fun c => .int (c * 2 ^ Al) fun v => .short v fun v =>
          .spot (k + sr / 16) (decACC ac Ss Se Al allowed last e n (k + sr / 16 + 1) 0 (B.set (k + sr / 16) v))
      else if sr / 16 = 15 then decACC ac Ss Se Al allowed last e n (k + 16) (nzr + 1) B
      else .int (2 ^ (sr / 16)) fun e' =>
        if 0 < sr / 16 then
          if allowed then .bits (sr / 16) fun x => .int (e' + x) fun e' => endRunC B last e' (allowed && decide (k = Ss) && decide (e = 0)) nzr else .fail
        else endRunC B last e' (allowed && decide (k = Ss) && decide (e = 0)) nzr

/-- The part of `DecodeDCTBlock` after the DC coefficient (c/enc/jpeg_data_reader.cc:621-680). -/
def decRestC (ac : HSlot) (Ss Se Al : Nat) (allowed : Bool) (last e : Int) (B : Blk) : CProg BlkOut :=
  if Se < Ss then .pure ⟨B, last, e, false, 0⟩
  else if 0 < e then endRunC B last e false 0
  else decACC ac Ss Se Al allowed last e (Se + 1 - Ss) Ss 0 B

/-- `DecodeDCTBlock` (c/enc/jpeg_data_reader.cc:586-680).  `coeffs[0] = dc_coeff` may change the value; the code tests it. -/
def decodeBlockC (dc ac : HSlot) (Ss Se Al : Nat) (last e : Int) (B : Blk) : CProg BlkOut :=
  .int (2 ^ Al) fun am =>
    if Ss = 0 then
      .sym dc fun s =>
        let step := fun (diff : Int) => .int (diff + last) fun c => .int (c * am) fun v =>
          if i16 v = v then .short c fun l => decRestC ac 1 Se Al false l e (B.set 0 v) else .fail
        if 12 ≤ s then .fail
        else if 0 < s then .bits s fun x => huffExtendC x s step
        else step 0
    else decRestC ac Ss Se Al true last e B

/-- A correction bit (c/enc/jpeg_data_reader.cc:752-760,784-792). -/
def refBitC {α : Type} (Al : Nat) (v : Int) (b : Nat) (k : Int → CProg α) : CProg α :=
  if b ≠ 0 then
    if v / 2 ^ Al % 2 = 0 then .short (if 0 ≤ v then v + 2 ^ Al else v - 2 ^ Al) k else k v
  else k v

/-- The inner loop of `RefineDCTBlock` (c/enc/jpeg_data_reader.cc:749-769). -/
def refSkipC (Al : Nat) : Nat → Nat → Nat → Blk → CProg (Nat × Blk)
  | 0, k, _, B => .pure (k, B)
  | n + 1, k, r, B => .spot k <|
    if B k ≠ 0 then .bits 1 fun b => refBitC Al (B k) b fun v => refSkipC Al n (k + 1) r (B.set k v)
    else if r = 0 then .pure (k, B)
    else refSkipC Al n (k + 1) (r - 1) B

/-- The loop of `RefineDCTBlock` that reads symbols (c/enc/jpeg_data_reader.cc:706-778). -/
def refACC (ac : HSlot) (Ss Se Al : Nat) (allowed : Bool) (e : Int) : Nat → Nat → Bool → Blk → CProg (Nat × Bool × Blk × Int × Bool)
  | 0, k, z, B => .pure (k, z, B, e, false)
  | n + 1, k, z, B =>
    if Se < k then .pure (k, z, B, e, false)
    else .sym ac fun sr =>
      if sr % 16 ≠ 0 then
        if sr % 16 ≠ 1 then .fail
        else .bits 1 fun b => (refSkipC Al (Se + 1 - k) k (sr / 16) B).bind fun q =>
          if Se < q.1 then .fail
          else .short (if b ≠ 0 then 2 ^ Al else - 2 ^ Al) fun v => .spot q.1 (refACC ac Ss Se Al allowed e n (q.1 + 1) false (q.2.set q.1 v))
      else if sr / 16 ≠ 15 then .int (2 ^ (sr / 16)) fun e' =>
        if 0 < sr / 16 then
          if allowed then .bits (sr / 16) fun x => .int (e' + x) fun e' => .pure (k, z, B, e', allowed && decide (k = Ss) && decide (e = 0)) else .fail
        else .pure (k, z, B, e', allowed && decide (k = Ss) && decide (e = 0))
      else (refSkipC Al (Se + 1 - k) k 15 B).bind fun q => refACC ac Ss Se Al allowed e n (q.1 + 1) true q.2

/-- The loop of `RefineDCTBlock` within an end-of-band run (c/enc/jpeg_data_reader.cc:782-797). -/
def refTailC (Al : Nat) : Nat → Nat → Blk → CProg Blk
  | 0, _, B => .pure B
  | n + 1, k, B => .spot k <|
    if B k ≠ 0 then .bits 1 fun b => refBitC Al (B k) b fun v => refTailC Al n (k + 1) (B.set k v)
    else refTailC Al n (k + 1) B

/-- The part of `RefineDCTBlock` after the DC coefficient (c/enc/jpeg_data_reader.cc:694-801). -/
def refRestC (ac : HSlot) (Ss Se Al : Nat) (allowed : Bool) (last e : Int) (B : Blk) : CProg BlkOut :=
  if Se < Ss then .pure ⟨B, last, e, false, 0⟩
  else
    (if e ≤ 0 then refACC ac Ss Se Al allowed e (Se + 1 - Ss) Ss false B else .pure (Ss, false, B, e, false)).bind fun q =>
      if q.2.1 then .fail
      else if 0 < q.2.2.2.1 then (refTailC Al (Se + 1 - q.1) q.1 q.2.2.1).bind fun B => endRunC B last q.2.2.2.1 q.2.2.2.2 0
      else endRunC q.2.2.1 last q.2.2.2.1 q.2.2.2.2 0

/-- `RefineDCTBlock` (c/enc/jpeg_data_reader.cc:682-801).  `|=` on the DC coefficient sets the bit `Al`. -/
def refineBlockC (ac : HSlot) (Ss Se Al : Nat) (last e : Int) (B : Blk) : CProg BlkOut :=
  .int (2 ^ Al) fun am =>
    if Ss = 0 then
      .bits 1 fun s => .int (s * am) fun _ => .short (if s ≠ 0 ∧ B 0 / 2 ^ Al % 2 = 0 then B 0 + 2 ^ Al else B 0) fun v =>
        refRestC ac 1 Se Al false last e (B.set 0 v)
    else refRestC ac Ss Se Al true last e B

/-! ## Scans -/

/-- The decoder of a block (c/enc/jpeg_data_reader.cc:934-945). -/
def readProgC (P : SP) (v : Visit) (last e : Int) (B : Blk) : CProg BlkOut :=
  if P.ah = 0 then decodeBlockC v.dc v.ac P.ss P.se P.al last e B else refineBlockC v.ac P.ss P.se P.al last e B

/-- One block (c/enc/jpeg_data_reader.cc:927-956); `++block_scan_index` must fit. -/
def readBlkC (data : List Nat) (lut : HSlot → JMem) (P : SP) (v : Visit) (st : RS) : Run RS :=
  ((readProgC P v (st.last v.comp) st.eob (st.coefs v.comp v.blk)).run data lut st.br).bind fun q =>
    if st.idx + 1 < 2 ^ 31 then .ok (st.after v q.1 q.2) else .ub

/-- One MCU (c/enc/jpeg_data_reader.cc:917-960). -/
def readMcuC (data : List Nat) (lut : HSlot → JMem) (P : SP) : List Visit → RS → Run RS
  | [], st => .ok st
  | v :: vs, st => (readBlkC data lut P v st).bind (readMcuC data lut P vs)

/-- `ProcessRestart` and what follows it (c/enc/jpeg_data_reader.cc:803-825,893-906). -/
def readRestartC (data : List Nat) (ri : Nat) (st : RS) : Run RS :=
  (st.br.finishC data).bind fun (ps, pos) =>
    if data.length < pos + 2 then .fail
    else (fetch data pos).bind fun a => if a ≠ 0xff then .fail
    else (fetch data (pos + 1)).bind fun m => if m ≠ 0xd0 + st.marker then .fail
    else (JR.resetC data (pos + 2)).bind fun br =>
      if 0 < st.eob then .fail
      else .ok { st with br := br, marker := (st.marker + 1) % 8, toGo := ri, last := fun _ => 0, eob := -1, pads := st.pads ++ ps }

/-- The restart markers (c/enc/jpeg_data_reader.cc:890-909). -/
def readMcuHeadC (data : List Nat) (ri : Nat) (st : RS) : Run RS :=
  if 0 < ri then
    (if st.toGo = 0 then readRestartC data ri st else .ok st).bind fun st => if st.toGo = 0 then .ub else .ok { st with toGo := st.toGo - 1 }
  else .ok st

/-- All MCUs (c/enc/jpeg_data_reader.cc:887-962). -/
def readMcusC (data : List Nat) (lut : HSlot → JMem) (P : SP) (ri : Nat) : List (List Visit) → RS → Run RS
  | [], st => .ok st
  | m :: ms, st =>
    (readMcuHeadC data ri st).bind fun st => if st.br.unhealthy then .fail else (readMcuC data lut P m st).bind (readMcusC data lut P ri ms)

/-- The entropy-coded segments of a scan from position `pos` on (c/enc/jpeg_data_reader.cc:848-977). -/
def readScanDataC (data : List Nat) (lut : HSlot → JMem) (P : SP) (ri : Nat) (mcus : List (List Visit)) (pos : Nat) (coefs : Coefs) (pads : List Bool) : Run (RS × Nat) :=
  (JR.resetC data pos).bind fun br =>
    (readMcusC data lut P ri mcus ⟨coefs, fun _ => 0, -1, br, 0, [], [], pads, ri, 0⟩).bind fun st =>
      if 0 < st.eob then .fail
      else (st.br.finishC data).bind fun (ps, pos) => if data.length < pos then .fail else .ok ({ st with pads := st.pads ++ ps }, pos)

/-! ## Files -/

/-- The part of `ProcessScan` after the header and the masks (c/enc/jpeg_data_reader.cc:837-853,887-977). -/
def scanBodyC (st : RJ) (s : ScanInfo) (masks : Masks) : JM RJ := fun d p =>
  let n := readerMcus st.width st.height st.comps s
  let mcus := mcuGrid (dimsOf st.comps) s.comps n.1 n.2
  if mcus.flatten.any fun v => decide (blocksOf st.comps v.comp ≤ v.blk) then .ub
  else (readScanDataC d st.lut (scanParams st.prog s) st.ri mcus p st.coefs st.pads).bind fun (rs, p') =>
    .ok ({ st with scans := st.scans ++ [{ s with resetPoints := rs.resets, extraZeroRuns := rs.runs }], masks := masks, coefs := rs.coefs, pads := rs.pads }, p')

/-- `ProcessScan` (c/enc/jpeg_data_reader.cc:827-978). -/
def processScanC (st : RJ) : JM RJ := do
  let s ← processSOS st.comps st.huffman
  match markScan (scanParams st.prog s) (s.comps.map ScanComp.compIdx) st.masks with
  | none => JM.failed
  | some masks => scanBodyC st s masks

/-- The marker segments (c/enc/jpeg_data_reader.cc:1071-1130); those without entropy-coded data are as before. -/
def readSegmentC (st : RJ) (m : Nat) : JM RJ := if m = 0xda then processScanC st else readSegment st m

/-- One round of the loop (c/enc/jpeg_data_reader.cc:1046-1141). -/
def readMarkerC (st : RJ) : JM (RJ × Nat) := do
  let st ← skipData st
  let m ← expectMarker
  let st ← readSegmentC st m
  pure ({ st with order := st.order ++ [m] }, m)

/-- The loop over markers (c/enc/jpeg_data_reader.cc:1046-1142). -/
def readLoopC : Nat → RJ → JM RJ
  | 0, _ => JM.broken
  | fuel + 1, st => do
    let r ← readMarkerC st
    if r.2 = 0xd9 then pure r.1 else readLoopC fuel r.1

/-- `ReadJpeg` (c/enc/jpeg_data_reader.cc:1021-1164). -/
def readJpegC (data : List Nat) : Run JpegData :=
  (expectMarker data 0).bind fun (m, p) =>
    if m ≠ 0xd8 then .fail
    else (readLoopC (data.length + 1) RJ.init data p).bind fun (st, p) =>
      if ¬ st.sof then .fail
      else match fixupIndexes st.quant st.comps with
        | none => .fail
        | some comps =>
          if st.huffman = [] then .fail
          else if kMaxDHTMarkers ≤ st.huffman.length then .fail
          else .ok (st.result comps (slice data p data.length))

end Brunsli
