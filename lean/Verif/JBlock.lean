import Verif.JAtom
/-!
# Blocks of JPEG coefficients: decoders and encoders

The decoders of the JPEG reader (c/enc/jpeg_data_reader.cc:574-801) as programs, the encoders of the JPEG writer
(c/dec/jpeg_data_writer.cc:185-263,506-695) as functions that give the list of calls of `WriteBits`.

A block is a function of the zigzag index: all accesses of both go through `kJPEGNaturalOrder`, which is a permutation (C38), except for the
first coefficient, which it maps to itself.  AC coefficients are computed without the wrap of 16-bit numbers: it is shown that their
absolute values stay below 2^11.
-/

namespace Brunsli

/-- The coefficients of a block, by zigzag index. -/
abbrev Blk := Nat → Int

def Blk.set (B : Blk) (k : Nat) (v : Int) : Blk := fun i => if i = k then v else B i

/-- Conversion to `int16_t`. -/
def i16 (x : Int) : Int := Int.bmod x 65536

/-! ## The reader -/

/-- `HuffExtend` (c/enc/jpeg_data_reader.cc:574-583). -/
def huffExtend (x s : Nat) : Int := if 2 ^ (s - 1) ≤ x then x else x - 2 ^ s + 1

/-- What a block decoder gives: the block, `*last_dc_coeff`, `*eobrun`, `*reset_state`, `*num_zero_runs`. -/
structure BlkOut where
  blk : Blk
  last : Int
  eob : Int
  reset : Bool
  nzr : Nat

/-- The loop of `DecodeDCTBlock` over the AC coefficients (c/enc/jpeg_data_reader.cc:629-678): at index `k` after `nzr` zero runs. -/
def decAC (ac : HSlot) (Ss Se Al : Nat) (allowed : Bool) (last e : Int) : Nat → Nat → Nat → Blk → JProg BlkOut
  | 0, _, nzr, B => .pure ⟨B, last, e - 1, false, nzr⟩
  | n + 1, k, nzr, B =>
    if Se < k then .pure ⟨B, last, e - 1, false, nzr⟩
    else .sym ac fun sr =>
      if 0 < sr % 16 then
        if Se < k + sr / 16 then .fail
        else if 12 ≤ sr % 16 + Al then .fail
        else .bits (sr % 16) fun x => decAC ac Ss Se Al allowed last e n (k + sr / 16 + 1) 0 (B.set (k + sr / 16) (huffExtend x (sr % 16) * 2 ^ Al))
      else if sr / 16 = 15 then decAC ac Ss Se Al allowed last e n (k + 16) (nzr + 1) B
      else if 0 < sr / 16 then
        if allowed then .bits (sr / 16) fun x => .pure ⟨B, last, (2 ^ (sr / 16) + x : Nat) - 1, allowed && decide (k = Ss) && decide (e = 0), nzr⟩ else .fail
      else .pure ⟨B, last, 0, allowed && decide (k = Ss) && decide (e = 0), nzr⟩

/-- The part of `DecodeDCTBlock` after the DC coefficient (c/enc/jpeg_data_reader.cc:621-680). -/
def decRest (ac : HSlot) (Ss Se Al : Nat) (allowed : Bool) (last e : Int) (B : Blk) : JProg BlkOut :=
  if Se < Ss then .pure ⟨B, last, e, false, 0⟩
  else if 0 < e then .pure ⟨B, last, e - 1, false, 0⟩
  else decAC ac Ss Se Al allowed last e (Se + 1 - Ss) Ss 0 B

/-- `DecodeDCTBlock` (c/enc/jpeg_data_reader.cc:586-680). -/
def decodeBlock (dc ac : HSlot) (Ss Se Al : Nat) (last e : Int) (B : Blk) : JProg BlkOut :=
  if Ss = 0 then
    .sym dc fun s =>
      let step := fun (diff : Int) =>
        if i16 ((diff + last) * 2 ^ Al) = (diff + last) * 2 ^ Al then
          decRest ac 1 Se Al false (i16 (diff + last)) e (B.set 0 ((diff + last) * 2 ^ Al))
        else .fail
      if 12 ≤ s then .fail
      else if 0 < s then .bits s fun x => step (huffExtend x s)
      else step 0
  else decRest ac Ss Se Al true last e B

/-- A correction bit (c/enc/jpeg_data_reader.cc:752-760,784-792). -/
def refBit (Al : Nat) (v : Int) (b : Nat) : Int :=
  if b ≠ 0 then
    if v / 2 ^ Al % 2 = 0 then (if 0 ≤ v then v + 2 ^ Al else v - 2 ^ Al) else v
  else v

/-- The inner loop of `RefineDCTBlock` (c/enc/jpeg_data_reader.cc:749-769), with `Se + 1 - k` rounds left: the index at which it stops, and the block. -/
def refSkip (Al : Nat) : Nat → Nat → Nat → Blk → JProg (Nat × Blk)
  | 0, k, _, B => .pure (k, B)
  | n + 1, k, r, B =>
    if B k ≠ 0 then .bits 1 fun b => refSkip Al n (k + 1) r (B.set k (refBit Al (B k) b))
    else if r = 0 then .pure (k, B)
    else refSkip Al n (k + 1) (r - 1) B

/-- The loop of `RefineDCTBlock` that reads symbols (c/enc/jpeg_data_reader.cc:706-778): the index at which it stops, the flag `in_zero_run`,
the block, `*eobrun` and `*reset_state`. -/
def refAC (ac : HSlot) (Ss Se Al : Nat) (allowed : Bool) (e : Int) : Nat → Nat → Bool → Blk → JProg (Nat × Bool × Blk × Int × Bool)
  | 0, k, z, B => .pure (k, z, B, e, false)
  | n + 1, k, z, B =>
    if Se < k then .pure (k, z, B, e, false)
    else .sym ac fun sr =>
      if sr % 16 ≠ 0 then
        if sr % 16 ≠ 1 then .fail
        else .bits 1 fun b => (refSkip Al (Se + 1 - k) k (sr / 16) B).bind fun q =>
          if Se < q.1 then .fail
          else refAC ac Ss Se Al allowed e n (q.1 + 1) false (q.2.set q.1 (if b ≠ 0 then 2 ^ Al else - 2 ^ Al))
      else if sr / 16 ≠ 15 then
        if 0 < sr / 16 then
          if allowed then .bits (sr / 16) fun x => .pure (k, z, B, (2 ^ (sr / 16) + x : Nat), allowed && decide (k = Ss) && decide (e = 0)) else .fail
        else .pure (k, z, B, 1, allowed && decide (k = Ss) && decide (e = 0))
      else (refSkip Al (Se + 1 - k) k 15 B).bind fun q => refAC ac Ss Se Al allowed e n (q.1 + 1) true q.2

/-- The loop of `RefineDCTBlock` within an end-of-band run (c/enc/jpeg_data_reader.cc:782-797). -/
def refTail (Al : Nat) : Nat → Nat → Blk → JProg Blk
  | 0, _, B => .pure B
  | n + 1, k, B =>
    if B k ≠ 0 then .bits 1 fun b => refTail Al n (k + 1) (B.set k (refBit Al (B k) b))
    else refTail Al n (k + 1) B

/-- The part of `RefineDCTBlock` after the DC coefficient (c/enc/jpeg_data_reader.cc:694-801). -/
def refRest (ac : HSlot) (Ss Se Al : Nat) (allowed : Bool) (last e : Int) (B : Blk) : JProg BlkOut :=
  if Se < Ss then .pure ⟨B, last, e, false, 0⟩
  else
    (if e ≤ 0 then refAC ac Ss Se Al allowed e (Se + 1 - Ss) Ss false B else .pure (Ss, false, B, e, false)).bind fun q =>
      if q.2.1 then .fail
      else if 0 < q.2.2.2.1 then (refTail Al (Se + 1 - q.1) q.1 q.2.2.1).bind fun B => .pure ⟨B, last, q.2.2.2.1 - 1, q.2.2.2.2, 0⟩
      else .pure ⟨q.2.2.1, last, q.2.2.2.1 - 1, q.2.2.2.2, 0⟩

/-- `RefineDCTBlock` (c/enc/jpeg_data_reader.cc:682-801).  `|=` on the DC coefficient sets the bit `Al`. -/
def refineBlock (ac : HSlot) (Ss Se Al : Nat) (last e : Int) (B : Blk) : JProg BlkOut :=
  if Ss = 0 then
    .bits 1 fun s => refRest ac 1 Se Al false last e (B.set 0 (if s ≠ 0 ∧ B 0 / 2 ^ Al % 2 = 0 then B 0 + 2 ^ Al else B 0))
  else refRest ac Ss Se Al true last e B

/-! ## The writer -/

/-- A call of `WriteBits`: the code word of a symbol, or `n` bits. -/
inductive WReq where
  | sym (t : HSlot) (v : Nat)
  | bits (n v : Nat)
deriving DecidableEq

/-- `DCTCodingState` (c/dec/serialization_state.h:44-55). -/
structure CS where
  eob : Nat
  tbl : HSlot
  words : List Nat
  count : Nat
deriving DecidableEq

/-- `DCTCodingStateInit` (c/dec/jpeg_data_writer.cc:185-191). -/
def CS.init : CS := ⟨0, (true, 0), [], 0⟩

/-- The symbol of an end-of-band run and its extra bits (c/dec/jpeg_data_writer.cc:196-205). -/
def eobReqs (t : HSlot) (n : Nat) : List WReq :=
  .sym t (16 * Nat.log2 n) :: (if 0 < Nat.log2 n then [.bits (Nat.log2 n) (n % 2 ^ Nat.log2 n)] else [])

/-- `Flush` (c/dec/jpeg_data_writer.cc:195-216). -/
def CS.flush (s : CS) : List WReq × CS :=
  ((if 0 < s.eob then eobReqs s.tbl s.eob else []) ++ (s.words.take (s.count / 16)).map (.bits 16) ++
    (if s.count % 16 ≠ 0 then [.bits (s.count % 16) (s.words.getLastD 0)] else []), ⟨0, s.tbl, [], 0⟩)

/-- The full words of `n` bits (c/dec/jpeg_data_writer.cc:244-248). -/
def fullWords (v n : Nat) : List Nat := (List.range (n / 16)).map fun i => v / 2 ^ (n - 16 * (i + 1)) % 65536

/-- New refinement bits are appended to the buffer of 16-bit words (c/dec/jpeg_data_writer.cc:229-253). -/
def CS.append (s : CS) (bs : List Bool) : CS :=
  if bs = [] then s
  else
    let v := ofMsb bs
    let sb := if s.count % 16 ≠ 0 then min (16 - s.count % 16) bs.length else 0
    let words := if s.count % 16 ≠ 0 then s.words.dropLast ++ [(s.words.getLastD 0 * 2 ^ sb + v / 2 ^ (bs.length - sb) % 2 ^ sb) % 65536] else s.words
    let n := bs.length - sb
    { s with words := words ++ fullWords v n ++ (if n % 16 ≠ 0 then [v % 2 ^ (n % 16)] else []), count := s.count + bs.length }

/-- `BufferEndOfBand` (c/dec/jpeg_data_writer.cc:220-263): the result, the calls and the new state. -/
def CS.buffer (s : CS) (ac : HSlot) (bs : List Bool) : Bool × List WReq × CS :=
  let s1 := if s.eob = 0 then { s with tbl := ac } else s
  let s2 := CS.append { s1 with eob := s1.eob + 1 } bs
  if 0x7FFF * 63 < s2.count then (false, [], s2)
  else if s2.eob = 0x7FFF then (true, s2.flush) else (true, [], s2)

/-- The DC coefficient (c/dec/jpeg_data_writer.cc:512-527,568-583), from the new and the last value: `temp` is the difference. -/
def dcReqs (dc : HSlot) (temp : Int) : List WReq :=
  let a := if temp < 0 then i16 (-temp) else temp
  let t := if temp < 0 then i16 (temp - 1) else temp
  let nb := if a = 0 then 0 else Nat.log2 (a % 2 ^ 32).toNat + 1
  .sym dc nb :: (if 0 < nb then [.bits nb (t % 2 ^ nb).toNat] else [])

/-- A coefficient with its run of zeros (c/dec/jpeg_data_writer.cc:539-546,605-613): `a` is the absolute value. -/
def acReqs (ac : HSlot) (r a : Nat) (neg : Bool) : List WReq :=
  let nb := Nat.log2 a + 1
  List.replicate (r / 16) (.sym ac 0xf0) ++
    [.sym ac (16 * (r % 16) + nb), .bits nb ((if neg then - (a : Int) - 1 else a) % 2 ^ nb).toNat]

/-- The loop of `EncodeDCTBlockSequential` (c/dec/jpeg_data_writer.cc:528-548), over `n` coefficients from `k` on: the calls and `r`. -/
def seqAC (ac : HSlot) (F : Blk) : Nat → Nat → Nat → List WReq × Nat
  | 0, _, r => ([], r)
  | n + 1, k, r =>
    if F k = 0 then seqAC ac F n (k + 1) (r + 1)
    else
      let q := seqAC ac F n (k + 1) 0
      (acReqs ac r (F k).natAbs (decide (F k < 0)) ++ q.1, q.2)

/-- `EncodeDCTBlockSequential` (c/dec/jpeg_data_writer.cc:506-556): the calls and `*last_dc_coeff`. -/
def encSeq (dc ac : HSlot) (nzr : Nat) (last : Int) (F : Blk) : List WReq × Int :=
  let q := seqAC ac F 63 1 0
  (dcReqs dc (i16 (F 0 - last)) ++ q.1 ++ List.replicate nzr (.sym ac 0xf0) ++ (if 16 * nzr < q.2 then [.sym ac 0] else []), F 0)

/-- The loop of `EncodeDCTBlockProgressive` (c/dec/jpeg_data_writer.cc:589-615). -/
def progAC (ac : HSlot) (Al : Nat) (F : Blk) : Nat → Nat → Nat → CS → List WReq × Nat × CS
  | 0, _, r, s => ([], r, s)
  | n + 1, k, r, s =>
    if (F k).natAbs / 2 ^ Al = 0 then progAC ac Al F n (k + 1) (r + 1) s
    else
      let q := progAC ac Al F n (k + 1) 0 s.flush.2
      (s.flush.1 ++ acReqs ac r ((F k).natAbs / 2 ^ Al) (decide (F k < 0)) ++ q.1, q.2)

/-- The end of `EncodeDCTBlockProgressive` (c/dec/jpeg_data_writer.cc:616-630). -/
def progTail (ac : HSlot) (allowed : Bool) (nzr r : Nat) (s : CS) : List WReq × CS :=
  let p := if 0 < nzr then (s.flush.1 ++ List.replicate nzr (.sym ac 0xf0), s.flush.2) else ([], s)
  if 16 * nzr < r then
    let q := (p.2.buffer ac []).2
    if allowed then (p.1 ++ q.1, q.2) else (p.1 ++ q.1 ++ q.2.flush.1, q.2.flush.2)
  else p

def progRest (ac : HSlot) (Ss Se Al : Nat) (allowed : Bool) (nzr : Nat) (F : Blk) (s : CS) : List WReq × CS :=
  if Se < Ss then ([], s)
  else
    let q := progAC ac Al F (Se + 1 - Ss) Ss 0 s
    let t := progTail ac allowed nzr q.2.1 q.2.2
    (q.1 ++ t.1, t.2)

/-- `EncodeDCTBlockProgressive` (c/dec/jpeg_data_writer.cc:558-630). -/
def encProg (dc ac : HSlot) (Ss Se Al nzr : Nat) (last : Int) (F : Blk) (s : CS) : List WReq × Int × CS :=
  if Ss = 0 then
    let t := i16 (F 0 / 2 ^ Al)
    let q := progRest ac 1 Se Al false nzr F s
    (dcReqs dc (i16 (t - last)) ++ q.1, t, q.2)
  else
    let q := progRest ac Ss Se Al true nzr F s
    (q.1, last, q.2)

/-- The zero runs that are due, with the refinement bits that belong to the first one (c/dec/jpeg_data_writer.cc:661-669). -/
def refZrl (ac : HSlot) : Nat → List Bool → CS → List WReq × List Bool × CS
  | 0, buf, s => ([], buf, s)
  | q + 1, buf, s =>
    let t := refZrl ac q [] s.flush.2
    (s.flush.1 ++ [.sym ac 0xf0] ++ buf.map (fun b => .bits 1 b.toNat) ++ t.1, t.2)

/-- The loop of `EncodeRefinementBits` (c/dec/jpeg_data_writer.cc:656-685): the calls, `r`, the buffered bits and the state. -/
def refEnc (ac : HSlot) (Al eobk : Nat) (F : Blk) : Nat → Nat → Nat → List Bool → CS → List WReq × Nat × List Bool × CS
  | 0, _, r, buf, s => ([], r, buf, s)
  | n + 1, k, r, buf, s =>
    let a := (F k).natAbs / 2 ^ Al
    if a = 0 then refEnc ac Al eobk F n (k + 1) (r + 1) buf s
    else
      let z := if k ≤ eobk then refZrl ac (r / 16) buf s else ([], buf, s)
      let r := if k ≤ eobk then r % 16 else r
      if 1 < a then
        let q := refEnc ac Al eobk F n (k + 1) r (z.2.1 ++ [decide (a % 2 = 1)]) z.2.2
        (z.1 ++ q.1, q.2)
      else
        let q := refEnc ac Al eobk F n (k + 1) 0 [] z.2.2.flush.2
        (z.1 ++ z.2.2.flush.1 ++ [.sym ac (16 * r + 1), .bits 1 (if F k < 0 then 0 else 1)] ++ z.2.1.map (fun b => .bits 1 b.toNat) ++ q.1, q.2)

/-- The last newly nonzero coefficient (c/dec/jpeg_data_writer.cc:644-652). -/
def eobIndex (Al : Nat) (F : Blk) : Nat → Nat → Nat → Nat
  | 0, _, eob => eob
  | n + 1, k, eob => eobIndex Al F n (k + 1) (if (F k).natAbs / 2 ^ Al = 1 then k else eob)

def refEncRest (ac : HSlot) (Ss Se Al : Nat) (allowed : Bool) (F : Blk) (s : CS) : Option (List WReq × CS) :=
  if Se < Ss then some ([], s)
  else
    let q := refEnc ac Al (eobIndex Al F (Se + 1 - Ss) Ss 0) F (Se + 1 - Ss) Ss 0 [] s
    if 0 < q.2.1 ∨ q.2.2.1 ≠ [] then
      let t := q.2.2.2.buffer ac q.2.2.1
      if t.1 then
        if allowed then some (q.1 ++ t.2.1, t.2.2) else some (q.1 ++ t.2.1 ++ t.2.2.flush.1, t.2.2.flush.2)
      else none
    else some (q.1, q.2.2.2)

/-- `EncodeRefinementBits` (c/dec/jpeg_data_writer.cc:632-695). -/
def encRefine (ac : HSlot) (Ss Se Al : Nat) (F : Blk) (s : CS) : Option (List WReq × CS) :=
  if Ss = 0 then (refEncRest ac 1 Se Al false F s).map fun q => (.bits 1 (F 0 / 2 ^ Al % 2).toNat :: q.1, q.2)
  else refEncRest ac Ss Se Al true F s

/-! ## Atoms written -/

def reqAtoms : WReq → List Atom
  | .sym t v => [.sym t v]
  | .bits n v => (msb n v).map .bit

def atomsOf (ws : List WReq) : List Atom := ws.flatMap reqAtoms

theorem atomsOf_append (a b : List WReq) : atomsOf (a ++ b) = atomsOf a ++ atomsOf b := List.flatMap_append

end Brunsli
