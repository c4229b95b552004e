import Verif.JGrid
import Verif.Quant
/-!
# Marker segments

The JPEG reader's functions for marker segments (c/enc/jpeg_data_reader.cc:74-420) and the writer's (c/dec/jpeg_data_writer.cc:307-504).
The reader's functions work on the input and a position; reading a byte that is not there is undefined behaviour.  Error codes are not modelled.
-/

namespace Brunsli

/-- A reader: from the input and a position to a result and a position. -/
def JM (α : Type) := List Nat → Nat → Run (α × Nat)

namespace JM

def ret {α : Type} (a : α) : JM α := fun _ p => .ok (a, p)

def andThen {α β : Type} (m : JM α) (f : α → JM β) : JM β := fun d p => (m d p).bind fun q => f q.1 d q.2

instance : Monad JM where
  pure := ret
  bind := andThen

/-- The position. -/
def pos : JM Nat := fun _ p => .ok (p, p)

/-- `return false` unless the condition holds (`BRUNSLI_VERIFY_INPUT`, c/enc/jpeg_data_reader.cc:32-38, and others). -/
def check (c : Bool) : JM Unit := fun _ p => if c then .ok ((), p) else .fail

/-- `BRUNSLI_VERIFY_LEN` (c/enc/jpeg_data_reader.cc:23-30). -/
def need (n : Nat) : JM Unit := fun d p => if d.length < p + n then .fail else .ok ((), p)

/-- `return false`. -/
def failed {α : Type} : JM α := fun _ _ => .fail

/-- Undefined behaviour. -/
def broken {α : Type} : JM α := fun _ _ => .ub

/-- `ReadUint8` (c/enc/jpeg_data_reader.cc:61-63). -/
def u8 : JM Nat := fun d p => if p < d.length then .ok (byteOf d p, p + 1) else .ub

/-- `ReadUint16` (c/enc/jpeg_data_reader.cc:65-69). -/
def u16 : JM Nat := fun d p => if p + 1 < d.length then .ok (byteOf d p * 256 + byteOf d (p + 1), p + 2) else .ub

/-- `BRUNSLI_VERIFY_MARKER_END` (c/enc/jpeg_data_reader.cc:40-47). -/
def endsAt (e : Nat) : JM Unit := fun _ p => if e = p then .ok ((), p) else .fail

end JM

open JM

/-! ## Reading -/

/-- The components of a frame header, without their dimensions (c/enc/jpeg_data_reader.cc:99-122); `seen` are the identifiers so far. -/
def sofComps : Nat → List Nat → JM (List Component)
  | 0, _ => pure []
  | n + 1, seen => do
    let id ← u8
    check (decide (id ∉ seen))
    let f ← u8
    check (decide (1 ≤ f / 16 ∧ f / 16 ≤ 15))
    check (decide (1 ≤ f % 16 ∧ f % 16 ≤ 15))
    let q ← u8
    let cs ← sofComps n (id :: seen)
    pure (⟨id, f / 16, f % 16, q, 0, 0, []⟩ :: cs)

def maxH (cs : List Component) : Nat := maxFactor (cs.map Component.hSamp)

def maxV (cs : List Component) : Nat := maxFactor (cs.map Component.vSamp)

/-- The dimensions of a component (c/enc/jpeg_data_reader.cc:126-127,138-139). -/
def sizedComp (w h mh mv : Nat) (c : Component) : Component :=
  { c with width := divCeil w (mh * 8) * c.hSamp, height := divCeil h (mv * 8) * c.vSamp }

/-- The checks of a component (c/enc/jpeg_data_reader.cc:131-146). -/
def compOk (mh mv : Nat) (c : Component) : Bool :=
  decide (mh % c.hSamp = 0 ∧ mv % c.vSamp = 0 ∧ c.width * c.height ≤ kBrunsliMaxNumBlocks)

/-- `ProcessSOF` (c/enc/jpeg_data_reader.cc:74-151): width, height and components.  The coefficients are kept elsewhere. -/
def processSOF (width0 : Nat) : JM (Nat × Nat × List Component) := do
  check (decide (width0 = 0))
  let start ← pos
  need 8
  let len ← u16
  let precision ← u8
  let height ← u16
  let width ← u16
  let n ← u8
  check (decide (precision = 8))
  check (decide (1 ≤ height ∧ height ≤ 65535))
  check (decide (1 ≤ width ∧ width ≤ 65535))
  check (decide (1 ≤ n ∧ n ≤ 4))
  need (3 * n)
  let cs ← sofComps n []
  let sized := cs.map (sizedComp width height (maxH cs) (maxV cs))
  check (sized.all (compOk (maxH cs) (maxV cs)))
  endsAt (start + len)
  pure (width, height, sized)

/-- The index of the component with the given identifier; the last one, as there (c/enc/jpeg_data_reader.cc:175-181). -/
def findComp (id : Nat) : Nat → List Component → Option Nat
  | _, [] => none
  | j, c :: cs => (findComp id (j + 1) cs).or (if c.id = id then some j else none)

/-- The components of a scan header (c/enc/jpeg_data_reader.cc:168-196). -/
def sosComps (comps : List Component) : Nat → List Nat → JM (List ScanComp)
  | 0, _ => pure []
  | n + 1, seen => do
    let id ← u8
    check (decide (id ∉ seen))
    match findComp id 0 comps with
    | none => JM.failed
    | some j => do
      let c ← u8
      check (decide (c / 16 ≤ 3))
      check (decide (c % 16 ≤ 3))
      let cs ← sosComps comps n (id :: seen)
      pure (⟨j, c / 16, c % 16⟩ :: cs)

/-- The tables a scan needs are there (c/enc/jpeg_data_reader.cc:212-240). -/
def tablesFound (huffman : List HuffCode) (ss se : Nat) (c : ScanComp) : Bool :=
  (ss ≠ 0 || huffman.any fun h => h.slotId = c.dcTbl) && (se = 0 || huffman.any fun h => h.slotId ≠ c.dcTbl && h.slotId = c.acTbl + 16)

/-- `ProcessSOS` (c/enc/jpeg_data_reader.cc:155-244). -/
def processSOS (comps : List Component) (huffman : List HuffCode) : JM ScanInfo := do
  let start ← pos
  need 3
  let len ← u16
  let n ← u8
  check (decide (1 ≤ n ∧ n ≤ comps.length))
  need (2 * n)
  let cs ← sosComps comps n []
  need 3
  let ss ← u8
  let se ← u8
  check (decide (ss ≤ 63))
  check (decide (ss ≤ se ∧ se ≤ 63))
  let c ← u8
  check (cs.all (tablesFound huffman ss se))
  endsAt (start + len)
  pure ⟨ss, se, c / 16, c % 16, cs, [], []⟩

/-- A list of bytes (c/enc/jpeg_data_reader.cc:281-289). -/
def u8s : Nat → JM (List Nat)
  | 0 => pure []
  | n + 1 => do
    let b ← u8
    let bs ← u8s n
    pure (b :: bs)

/-- The values of a Huffman code (c/enc/jpeg_data_reader.cc:297-311). -/
def dhtValues (bound : Nat) : Nat → List Nat → JM (List Nat)
  | 0, _ => pure []
  | n + 1, seen => do
    let v ← u8
    check (decide (v < bound))
    check (decide (v ∉ seen))
    let vs ← dhtValues bound n (v :: seen)
    pure (v :: vs)

/-- `max_depth` (c/enc/jpeg_data_reader.cc:279-285): the last length that has codes, or 1; `cs` are the counts from length `i` on. -/
def maxDepth : (i best : Nat) → List Nat → Nat
  | _, best, [] => best
  | i, best, c :: cs => maxDepth (i + 1) (if c ≠ 0 then i else best) cs

/-- One Huffman code of a DHT segment (c/enc/jpeg_data_reader.cc:263-319,331); `stop` is the end of the segment. -/
def dhtCode (stop : Nat) : JM HuffCode := do
  need 17
  let slot ← u8
  let ac := slot &&& 0x10 ≠ 0
  check (decide ((if ac then slot - 0x10 else slot) ≤ 3))
  let counts ← u8s 16
  check (decide (counts.sum ≤ if ac then 256 else 12))
  need counts.sum
  let values ← dhtValues (if ac then 256 else 12) counts.sum []
  let d := maxDepth 1 1 counts
  let counts' := (0 :: counts).modify d (· + 1)
  check (decide (((List.range' 1 16).map fun i => counts'.getD i 0 * 2 ^ (16 - i)).sum ≤ 2 ^ 16))
  let p ← pos
  pure ⟨counts', values ++ 256 :: List.replicate (256 - counts.sum) 0, slot, decide (p = stop)⟩

/-- The slot a code is for (c/enc/jpeg_data_reader.cc:265-276; c/dec/jpeg_data_writer.cc:397-404). -/
def HuffCode.slot (h : HuffCode) : HSlot := if h.slotId &&& 0x10 ≠ 0 then (true, h.slotId - 0x10) else (false, h.slotId)

/-- The loop of `ProcessDHT` (c/enc/jpeg_data_reader.cc:262-333): the codes and the lookup tables.  `fuel` does not run out. -/
def dhtLoop (stop : Nat) : Nat → List HuffCode → (HSlot → JMem) → JM (List HuffCode × (HSlot → JMem))
  | 0, _, _ => JM.broken
  | fuel + 1, hs, lut => do
    let p ← pos
    if p < stop then do
      let h ← dhtCode stop
      match dhtLut (lut h.slot) h with
      | none => JM.broken
      | some m => dhtLoop stop fuel (hs ++ [h]) fun s => if s = h.slot then m else lut s
    else pure (hs, lut)

/-- `ProcessDHT` (c/enc/jpeg_data_reader.cc:249-336). -/
def processDHT (hs : List HuffCode) (lut : HSlot → JMem) : JM (List HuffCode × (HSlot → JMem)) := do
  let start ← pos
  need 2
  let len ← u16
  check (decide (len ≠ 2))
  let r ← dhtLoop (start + len) (len + 1) hs lut
  endsAt (start + len)
  pure r

/-- The values of a quantization table, in the order of the segment (c/enc/jpeg_data_reader.cc:362-366). -/
def dqtValues (precision : Nat) : Nat → JM (List Nat)
  | 0 => pure []
  | n + 1 => do
    let v ← if precision = 0 then u8 else u16
    check (decide (1 ≤ v ∧ v ≤ 65535))
    let vs ← dqtValues precision n
    pure (v :: vs)

/-- `table.values[kJPEGNaturalOrder[i]] = …` for the values of a segment. -/
def placeValues (vs : List Nat) : List Nat := (naturalOrder.zip vs).foldl (fun t p => t.set p.1 p.2) (List.replicate 64 0)

/-- One quantization table (c/enc/jpeg_data_reader.cc:353-369). -/
def dqtTable (stop : Nat) : JM QuantTable := do
  need 1
  let b ← u8
  check (decide (b / 16 ≤ 1))
  check (decide (b % 16 ≤ 3))
  need ((b / 16 + 1) * 64)
  let vs ← dqtValues (b / 16) 64
  let p ← pos
  pure ⟨placeValues vs, b / 16, b % 16, decide (p = stop)⟩

/-- The loop of `ProcessDQT` (c/enc/jpeg_data_reader.cc:352-371). -/
def dqtLoop (stop : Nat) : Nat → List QuantTable → JM (List QuantTable)
  | 0, _ => JM.broken
  | fuel + 1, qs => do
    let p ← pos
    if p < stop ∧ qs.length < 4 then do
      let q ← dqtTable stop
      dqtLoop stop fuel (qs ++ [q])
    else pure qs

/-- `ProcessDQT` (c/enc/jpeg_data_reader.cc:340-373). -/
def processDQT (qs : List QuantTable) : JM (List QuantTable) := do
  let start ← pos
  need 2
  let len ← u16
  check (decide (len ≠ 2))
  let r ← dqtLoop (start + len) (len + 1) qs
  endsAt (start + len)
  pure r

/-- `ProcessDRI` (c/enc/jpeg_data_reader.cc:376-391). -/
def processDRI (found : Bool) : JM Nat := do
  check (!found)
  let start ← pos
  need 4
  let len ← u16
  let ri ← u16
  endsAt (start + len)
  pure ri

/-- The bytes from three before the position on, and the end of the segment (c/enc/jpeg_data_reader.cc:400-402). -/
def blobOf (len : Nat) : JM (List Nat) := fun d p => .ok (slice d (p - 3) (p - 3 + (len + 1)), p + (len - 2))

/-- `ProcessAPP` and `ProcessCOM` (c/enc/jpeg_data_reader.cc:394-420): the segment from the second byte of the marker on. -/
def processBlob : JM (List Nat) := do
  need 2
  let len ← u16
  check (decide (2 ≤ len))
  need (len - 2)
  blobOf len

/-! ## Writing -/

/-- A chunk of `n` bytes, initially 0, whose first bytes are set (c/dec/jpeg_data_writer.cc:322-324 and others); storing beyond its end is undefined behaviour. -/
def chunkOf (n : Nat) (bs : List Nat) : Run (List Nat) := if bs.length ≤ n then .ok (bs ++ List.replicate (n - bs.length) 0) else .ub

/-- Two bytes, high byte first. -/
def be16 (v : Nat) : List Nat := [v / 256 % 256, v % 256]

/-- The components in a frame header (c/dec/jpeg_data_writer.cc:335-343). -/
def sofBytes (quant : List QuantTable) : List Component → Option (List Nat)
  | [] => some []
  | c :: cs =>
    match quant[c.quantIdx]? with
    | none => none
    | some q => (sofBytes quant cs).map fun bs => c.id % 256 :: ((c.hSamp * 16) ||| c.vSamp) % 256 :: q.index % 256 :: bs

/-- `EncodeSOF` (c/dec/jpeg_data_writer.cc:317-344). -/
def encodeSOF (jpg : JpegData) (marker : Nat) : Run (List Nat) :=
  let n := jpg.components.length
  match sofBytes jpg.quant jpg.components with
  | none => .fail
  | some bs => chunkOf (8 + 3 * n + 2) (0xFF :: marker % 256 :: (be16 (8 + 3 * n) ++ 8 :: (be16 jpg.height ++ (be16 jpg.width ++ n % 256 :: bs))))

/-- The components in a scan header (c/dec/jpeg_data_writer.cc:358-363). -/
def sosBytes (comps : List Component) : List ScanComp → Option (List Nat)
  | [] => some []
  | s :: ss =>
    match comps[s.compIdx]? with
    | none => none
    | some c => (sosBytes comps ss).map fun bs => c.id % 256 :: (s.dcTbl * 16 + s.acTbl) % 256 :: bs

/-- `EncodeSOS` (c/dec/jpeg_data_writer.cc:346-368). -/
def encodeSOS (jpg : JpegData) (s : ScanInfo) : Run (List Nat) :=
  let n := s.comps.length
  match sosBytes jpg.components s.comps with
  | none => .fail
  | some bs => chunkOf (6 + 2 * n + 2) (0xFF :: 0xDA :: (be16 (6 + 2 * n) ++ n % 256 :: (bs ++ [s.ss % 256, s.se % 256, ((s.ah * 16) ||| s.al) % 256])))

/-- The first loop of `EncodeDHT` (c/dec/jpeg_data_writer.cc:373-381). -/
def dhtLength : List HuffCode → Nat
  | [] => 0
  | h :: hs => 16 + h.counts.sum + if h.isLast then 0 else dhtLength hs

/-- `max_length` (c/dec/jpeg_data_writer.cc:411-416). -/
def dhtMaxLength (counts : List Nat) : Nat := maxDepth 0 0 counts

/-- A code in a DHT segment (c/dec/jpeg_data_writer.cc:409-423). -/
def dhtBytes (h : HuffCode) : List Nat :=
  h.slotId % 256 :: ((List.range' 1 16).map fun i => (if i = dhtMaxLength h.counts then h.counts.getD i 0 - 1 else h.counts.getD i 0) % 256) ++
    (h.values.take (h.counts.sum - 1)).map (· % 256)

/-- The second loop of `EncodeDHT` (c/dec/jpeg_data_writer.cc:388-426), over the codes from `dht_index` on: bytes, number of codes, tables.
A slot that does not exist, or a code without any word (for which `total_count` wraps around), is undefined behaviour. -/
def dhtWrite : List HuffCode → (HSlot → CodeTable) → Run (List Nat × Nat × (HSlot → CodeTable))
  | [], _ => .fail
  | h :: hs, T =>
    if 4 ≤ h.slot.2 ∨ h.counts.sum = 0 then .ub
    else (buildCodeTable (T h.slot) h).bind fun t =>
      let T' := fun s => if s = h.slot then t else T s
      if h.isLast then .ok (dhtBytes h, 1, T')
      else (dhtWrite hs T').bind fun r => .ok (dhtBytes h ++ r.1, r.2.1 + 1, r.2.2)

/-- `EncodeDHT` (c/dec/jpeg_data_writer.cc:370-427): chunk, new `dht_index`, tables. -/
def encodeDHT (jpg : JpegData) (idx : Nat) (T : HSlot → CodeTable) : Run (List Nat × Nat × (HSlot → CodeTable)) :=
  let len := 2 + dhtLength (jpg.huffman.drop idx)
  (dhtWrite (jpg.huffman.drop idx) T).bind fun r =>
    (chunkOf (len + 2) (0xFF :: 0xC4 :: (be16 len ++ r.1))).bind fun c => .ok (c, idx + r.2.1, r.2.2)

/-- The first loop of `EncodeDQT` (c/dec/jpeg_data_writer.cc:430-435). -/
def dqtLength : List QuantTable → Nat
  | [] => 0
  | q :: qs => 1 + (if q.precision ≠ 0 then 2 else 1) * 64 + if q.isLast then 0 else dqtLength qs

/-- A table in a DQT segment (c/dec/jpeg_data_writer.cc:448-457). -/
def dqtBytes (q : QuantTable) : List Nat :=
  (q.precision * 16 + q.index) % 256 :: naturalOrder.flatMap fun j =>
    (if q.precision ≠ 0 then [q.values.getD j 0 / 256 % 256] else []) ++ [q.values.getD j 0 % 256]

/-- The second loop of `EncodeDQT` (c/dec/jpeg_data_writer.cc:442-459). -/
def dqtWrite : List QuantTable → Run (List Nat × Nat)
  | [] => .fail
  | q :: qs => if q.isLast then .ok (dqtBytes q, 1) else (dqtWrite qs).bind fun r => .ok (dqtBytes q ++ r.1, r.2 + 1)

/-- `EncodeDQT` (c/dec/jpeg_data_writer.cc:429-461). -/
def encodeDQT (jpg : JpegData) (idx : Nat) : Run (List Nat × Nat) :=
  let len := 2 + dqtLength (jpg.quant.drop idx)
  (dqtWrite (jpg.quant.drop idx)).bind fun r => (chunkOf (len + 2) (0xFF :: 0xDB :: (be16 len ++ r.1))).bind fun c => .ok (c, idx + r.2)

/-- `EncodeDRI` (c/dec/jpeg_data_writer.cc:463-473). -/
def encodeDRI (jpg : JpegData) : List Nat := [0xFF, 0xDD, 0, 4] ++ be16 jpg.restartInterval

end Brunsli
