import Verif.ScanInfo
import Verif.BitBytes
/-!
# The section of JPEG internals

`EncodeAuxData` (c/enc/brunsli_encode.cc:417-509) and `DecodeJPEGInternalsSection` (c/dec/brunsli_decode.cc:1408-1633),
the section being available as a whole.
-/

namespace Brunsli

open P

/-- What the section holds: the marker order, restart interval, Huffman codes, scans, the index, last flag and
precision of every quantisation table, the component identifiers, padding bits and inter-marker data. -/
structure Internals where
  markers : List Nat
  restartInterval : Nat
  huffman : List HuffCode
  scans : List ScanInfo
  quant : List (Nat × Bool × Nat)
  ids : List Nat
  padding : List Bool
  interMarker : List (List Nat)
deriving DecidableEq, Repr

/-- `PaddingBitsLimit` (c/include/brunsli/jpeg_data.h:276-287). -/
def paddingBitsLimit (width height ncomp : Nat) : Nat := 7 * ((width + 15) / 8) * ((height + 15) / 8) * ncomp + 256

/-- `MatchComponentIds` (c/enc/brunsli_encode.cc:417-429). -/
def matchComponentIds (ids : List Nat) : Nat :=
  if ids = [1] then 1 else if ids = [1, 2, 3] then 0 else if ids = [82, 71, 66] then 2 else 3

/-- The quantisation tables' parameters (c/enc/brunsli_encode.cc:476-484). -/
def encQuantHeads : List (Nat × Bool × Nat) → Option (List Bool)
  | [] => some []
  | [(i, l, p)] => if l then some (bitsOf 2 i ++ bitsOf 4 p) else none
  | (i, l, p) :: qs => (encQuantHeads qs).map fun b => bitsOf 2 i ++ (l :: (bitsOf 4 p ++ b))

/-- The bits of the section (c/enc/brunsli_encode.cc:438-500); `x.padding` is what is written, that is the padding bits if
there is a zero among them and nothing otherwise. -/
def encInternalsBits (limit : Nat) (x : Internals) : Option (List Bool) :=
  if x.markers.getLast? ≠ some 0xd9 then none
  else if x.markers.any (· < 0xc0) then none
  else if x.markers.count 0xda ≠ x.scans.length then none
  else if x.padding.length > limit then none
  else
    match encHuffCodes x.huffman, encQuantHeads x.quant with
    | some h, some q => some (x.markers.flatMap (fun m => bitsOf 6 (m - 0xc0)) ++
        ((if 0xdd ∈ x.markers then bitsOf 16 x.restartInterval else []) ++
        (h ++ (x.scans.flatMap encScanInfo ++ (bitsOf 2 (x.quant.length - 1) ++ (q ++ (bitsOf 2 (matchComponentIds x.ids) ++
        ((if matchComponentIds x.ids = 3 then x.ids.flatMap (bitsOf 8) else []) ++
        (encodeLimitedVarint 8 4 x.padding.length ++ x.padding)))))))))
    | _, _ => none

/-- `EncodeAuxData` (c/enc/brunsli_encode.cc:438-509). -/
def encodeInternals (limit : Nat) (x : Internals) : Option (List Nat) :=
  (encInternalsBits limit x).map fun b => packBits (padByte b) ++ x.interMarker.flatMap fun s => encodeBase128 s.length ++ s

/-- The markers, up to the end-of-image marker (c/dec/brunsli_decode.cc:1424-1437). -/
def readMarkers : (fuel : Nat) → P Bool (List Nat)
  | 0 => P.fail
  | fuel + 1 => do
    let m ← readBits 6
    if 0xc0 + m = 0xd9 then Pure.pure [0xd9]
    else do
      let ms ← readMarkers fuel
      Pure.pure ((0xc0 + m) :: ms)

/-- The parameters of `n` quantisation tables (c/dec/brunsli_decode.cc:1493-1517). -/
def readQuantHeads : Nat → P Bool (List (Nat × Bool × Nat))
  | 0 => Pure.pure []
  | n + 1 => do
    let i ← readBits 2
    let l ← (if n = 0 then Pure.pure true else readBit)
    let p ← readBits 4
    P.guard (p ≤ 1)
    let qs ← readQuantHeads n
    Pure.pure ((i, l, p) :: qs)

/-- The component identifiers (c/dec/brunsli_decode.cc:1519-1564). -/
def readIds (ncomp : Nat) : P Bool (List Nat) := do
  let k ← readBits 2
  if k = 3 then P.replicate ncomp (readBits 8)
  else do
    let ids := if k = 0 then [1, 2, 3] else if k = 1 then [1] else [82, 71, 66]
    P.guard (ids.length ≤ ncomp)
    Pure.pure (ids ++ List.replicate (ncomp - ids.length) 0)

/-- The bits of the section (c/dec/brunsli_decode.cc:1408-1588). -/
def readInternalsBits (limit ncomp : Nat) : P Bool Internals := do
  let markers ← whileBits readMarkers
  let dri ← (if 0xdd ∈ markers then readBits 16 else Pure.pure 0)
  let huffman ← readHuffCodes kMaxDHTMarkers
  P.guard (markers.count 0xc4 = huffman.countP (·.isLast))
  let scans ← P.replicate (markers.count 0xda) readScanInfo
  let n ← readBits 2
  let quant ← readQuantHeads (n + 1)
  let ids ← readIds ncomp
  let np ← decodeLimitedVarint 8 4
  P.guard (np ≤ limit)
  let padding ← P.replicate np readBit
  Pure.pure ⟨markers, dri, huffman, scans, quant, ids, padding, []⟩

/-- The inter-marker data, one string per marker 0xff (c/dec/brunsli_decode.cc:1591-1628). -/
def readInterMarker : Nat → List Nat → Option (List (List Nat) × List Nat)
  | 0, bs => some ([], bs)
  | n + 1, bs =>
    match decodeBase128 bs with
    | .ok len rest =>
      if len ≤ rest.length then (readInterMarker n (rest.drop len)).map fun (l, r) => (rest.take len :: l, r) else none
    | _ => none

/-- `DecodeJPEGInternalsSection` (c/dec/brunsli_decode.cc:1408-1633) on the bytes of the section: the bits, zeros up to
the next byte, the inter-marker data, and nothing else. -/
def decodeInternals (limit ncomp : Nat) (payload : List Nat) : Option Internals :=
  match readInternalsBits limit ncomp (bytesBits payload) with
  | none => none
  | some (x, r) =>
    if (r.take (r.length % 8)).any id then none
    else
      match readInterMarker (x.markers.count 0xff) (payload.drop (payload.length - r.length / 8)) with
      | some (l, []) => some { x with interMarker := l }
      | _ => none

/-! ## Round trip -/

theorem markers_reads (ms : List Nat) : ∀ {fuel : Nat}, (∀ m ∈ ms, 0xc0 ≤ m ∧ m < 256 ∧ m ≠ 0xd9) → ms.length < fuel →
    Reads (readMarkers fuel) ((ms ++ [0xd9]).flatMap fun m => bitsOf 6 (m - 0xc0)) (ms ++ [0xd9]) := by
  induction ms with
  | nil =>
    intro fuel _ hf
    cases fuel with
    | zero => simp at hf
    | succ fuel =>
      show Reads _ (bitsOf 6 (0xd9 - 0xc0) ++ []) _
      exact Reads.bind (readBits_reads (by decide)) (Reads.pure _)
  | cons m ms ih =>
    intro fuel h hf
    cases fuel with
    | zero => simp at hf
    | succ fuel =>
      obtain ⟨h1, h2, h3⟩ := h m List.mem_cons_self
      rw [List.cons_append, List.flatMap_cons]
      refine Reads.bind (readBits_reads (by omega)) ?_
      rw [if_neg (by omega), show 192 + (m - 192) = m by omega]
      exact Reads.bind' (ih (fun x hx => h x (List.mem_cons_of_mem _ hx)) (by simpa using hf)) (Reads.pure _) (List.append_nil _).symm

theorem quantHeads_reads : ∀ (qs : List (Nat × Bool × Nat)) (bs : List Bool), (∀ q ∈ qs, q.1 < 4 ∧ q.2.2 ≤ 1) → encQuantHeads qs = some bs →
    Reads (readQuantHeads qs.length) bs qs := by
  intro qs
  induction qs with
  | nil => intro bs _ h; cases h; exact Reads.pure _
  | cons q qs ih =>
    obtain ⟨i, l, p⟩ := q
    intro bs hq h
    obtain ⟨h1, h2⟩ := hq (i, l, p) List.mem_cons_self
    simp only at h1 h2
    rw [List.length_cons, readQuantHeads]
    cases qs with
    | nil =>
      rw [encQuantHeads] at h
      split at h
      · rename_i hl
        cases h
        subst hl
        refine Reads.bind (readBits_reads (by omega)) ?_
        refine Reads.bind' (e₁ := []) (a := true) (Reads.pure _) ?_ rfl
        exact Reads.bind' (readBits_reads (by omega)) (Reads.seqGuard h2 (Reads.bind' (e₁ := []) (a := []) (Reads.pure _) (Reads.pure _) rfl))
          (List.append_nil _).symm
      · cases h
    | cons q' qs =>
      rw [encQuantHeads] at h
      · cases hb : encQuantHeads (q' :: qs) with
        | none => rw [hb] at h; cases h
        | some b =>
          rw [hb] at h
          cases h
          refine Reads.bind (readBits_reads (by omega)) ?_
          rw [if_neg (by simp)]
          refine Reads.bind' (e₁ := [l]) (readBit_reads l) ?_ rfl
          refine Reads.bind (readBits_reads (by omega)) (Reads.seqGuard h2 ?_)
          exact Reads.bind' (ih b (fun x hx => hq x (List.mem_cons_of_mem _ hx)) hb) (Reads.pure _) (List.append_nil _).symm
      · simp

theorem ids_reads {ids : List Nat} (h : ∀ i ∈ ids, i < 256) :
    Reads (readIds ids.length) (bitsOf 2 (matchComponentIds ids) ++ (if matchComponentIds ids = 3 then ids.flatMap (bitsOf 8) else [])) ids := by
  unfold readIds
  have hk : matchComponentIds ids < 4 := by
    unfold matchComponentIds
    repeat' split
    all_goals omega
  refine Reads.bind (readBits_reads (by omega)) ?_
  by_cases h3 : matchComponentIds ids = 3
  · rw [if_pos h3, if_pos h3]
    exact Reads.replicate _ _ fun i hi => readBits_reads (h i hi)
  · rw [if_neg h3, if_neg h3]
    have : ids = if matchComponentIds ids = 0 then [1, 2, 3] else if matchComponentIds ids = 1 then [1] else [82, 71, 66] := by
      unfold matchComponentIds at h3 ⊢
      split
      · simpa using ‹ids = [1]›
      · split
        · simpa using ‹ids = [1, 2, 3]›
        · split
          · simpa using ‹ids = [82, 71, 66]›
          · rename_i a b c
            rw [if_neg a, if_neg b, if_neg c] at h3
            exact absurd rfl h3
    have key : ∀ l : List Nat, ids = l → Reads (do
        P.guard (l.length ≤ ids.length)
        Pure.pure (l ++ List.replicate (ids.length - l.length) 0) : P Bool (List Nat)) [] ids := by
      intro l hl
      subst hl
      refine Reads.seqGuard (Nat.le_refl _) (Reads.pure' ?_)
      simp
    exact key _ this

theorem interMarker_reads (l : List (List Nat)) : (∀ s ∈ l, s.length < 2 ^ 63) →
    readInterMarker l.length (l.flatMap fun s => encodeBase128 s.length ++ s) = some (l, []) := by
  induction l with
  | nil => intro _; rfl
  | cons s l ih =>
    intro h
    have hs := h s List.mem_cons_self
    rw [List.flatMap_cons, List.length_cons, readInterMarker]
    have hd : decodeBase128 (encodeBase128 s.length ++ s ++ l.flatMap fun s => encodeBase128 s.length ++ s) =
        .ok s.length (s ++ l.flatMap fun s => encodeBase128 s.length ++ s) := by
      rw [List.append_assoc]
      have := decodeLoop_encode 9 s.length 0 0 (s ++ l.flatMap fun s => encodeBase128 s.length ++ s) (by simp) hs (by decide)
      simpa [decodeBase128] using this
    rw [hd]
    simp only
    rw [if_pos (by rw [List.length_append]; omega), List.drop_left' rfl, List.take_left' rfl, ih fun x hx => h x (List.mem_cons_of_mem _ hx)]
    rfl

/-- Internals as the JPEG reader leaves them. -/
structure Internals.Ok (limit : Nat) (x : Internals) : Prop where
  markers : ∃ ms, x.markers = ms ++ [0xd9] ∧ ∀ m ∈ ms, 0xc0 ≤ m ∧ m < 256 ∧ m ≠ 0xd9
  restart : x.restartInterval < 65536 ∧ (0xdd ∉ x.markers → x.restartInterval = 0)
  huffman : x.huffman ≠ [] ∧ x.huffman.length ≤ kMaxDHTMarkers ∧ ∀ h ∈ x.huffman, h.Ok
  huffmanLast : ∀ h ∈ x.huffman.getLast?, h.isLast = true
  dht : x.markers.count 0xc4 = x.huffman.countP (·.isLast)
  sos : x.markers.count 0xda = x.scans.length
  scans : ∀ s ∈ x.scans, s.Ok
  quant : 1 ≤ x.quant.length ∧ x.quant.length ≤ 4 ∧ ∀ q ∈ x.quant, q.1 < 4 ∧ q.2.2 ≤ 1
  quantLast : ∀ q ∈ x.quant.getLast?, q.2.1 = true
  ids : ∀ i ∈ x.ids, i < 256
  padding : x.padding.length ≤ limit ∧ x.padding.length < 2 ^ 32
  interMarker : x.markers.count 0xff = x.interMarker.length ∧ ∀ s ∈ x.interMarker, s.length < 2 ^ 63

theorem encQuantHeads_some : ∀ qs : List (Nat × Bool × Nat), (∀ q ∈ qs.getLast?, q.2.1 = true) → (encQuantHeads qs).isSome := by
  intro qs
  induction qs with
  | nil => intro _; rfl
  | cons q qs ih =>
    obtain ⟨i, l, p⟩ := q
    intro h
    cases qs with
    | nil =>
      have : l = true := h (i, l, p) rfl
      rw [encQuantHeads, if_pos this]; rfl
    | cons q' qs =>
      rw [encQuantHeads, Option.isSome_map]
      · exact ih fun x hx => h x (by simpa using hx)
      · simp

theorem internalsBits_reads {limit : Nat} {x : Internals} (ok : x.Ok limit) : ∃ bs, encInternalsBits limit x = some bs ∧
    Reads (readInternalsBits limit x.ids.length) bs { x with interMarker := [] } := by
  obtain ⟨ms, hms, hm⟩ := ok.markers
  obtain ⟨h, hh⟩ := Option.isSome_iff_exists.mp (encHuffCodes_some x.huffman ok.huffman.2.2 ok.huffmanLast)
  obtain ⟨q, hq⟩ := Option.isSome_iff_exists.mp (encQuantHeads_some x.quant ok.quantLast)
  unfold encInternalsBits
  rw [if_neg (by rw [hms]; simp), if_neg (by
    intro ha
    obtain ⟨m, h1, h2⟩ := List.any_eq_true.mp ha
    have h2 : m < 0xc0 := by simpa using h2
    rw [hms] at h1
    rcases List.mem_append.mp h1 with h1 | h1
    · have := (hm m h1).1; omega
    · have : m = 0xd9 := by simpa using h1
      omega), if_neg (by rw [ok.sos]; simp), if_neg (by have := ok.padding.1; omega), hh, hq]
  refine ⟨_, rfl, ?_⟩
  unfold readInternalsBits
  refine Reads.bind (a := x.markers) ?_ ?_
  · rw [hms]
    refine whileBits_reads fun fuel hf => markers_reads ms hm ?_
    have : ∀ l : List Nat, (l.flatMap fun m => bitsOf 6 (m - 0xc0)).length = 6 * l.length := by
      intro l
      induction l with
      | nil => rfl
      | cons a l ih => rw [List.flatMap_cons, List.length_append, ih, bitsOf_length, List.length_cons]; omega
    rw [this, List.length_append, List.length_singleton] at hf
    omega
  refine Reads.bind (a := x.restartInterval) ?_ ?_
  · split
    · exact readBits_reads ok.restart.1
    · exact Reads.pure' (ok.restart.2 ‹_›).symm
  refine Reads.bind (huffCodes_reads x.huffman _ h ok.huffman.1 ok.huffman.2.1 (fun c hc => (ok.huffman.2.2 c hc).typed) hh) (Reads.seqGuard ok.dht ?_)
  rw [ok.sos]
  refine Reads.bind (Reads.replicate encScanInfo x.scans fun s hs => scanInfo_reads (ok.scans s hs)) ?_
  obtain ⟨q1, q2, q3⟩ := ok.quant
  refine Reads.bind (readBits_reads (by omega)) ?_
  rw [show x.quant.length - 1 + 1 = x.quant.length by omega]
  refine Reads.bind (quantHeads_reads x.quant q q3 hq) ?_
  refine Reads.bind' (ids_reads ok.ids) ?_ (List.append_assoc _ _ _).symm
  refine Reads.bind (decodeLimitedVarint_reads (by have := ok.padding.2; omega)) (Reads.seqGuard ok.padding.1 ?_)
  refine Reads.bind' (a := x.padding) (e₁ := x.padding) ?_ (Reads.pure _) (List.append_nil _).symm
  have := Reads.replicate (p := readBit) (fun b => [b]) x.padding fun b _ => readBit_reads b
  rwa [List.flatMap_singleton'] at this

theorem internals_roundtrip {limit : Nat} {x : Internals} (ok : x.Ok limit) : ∃ payload, encodeInternals limit x = some payload ∧
    decodeInternals limit x.ids.length payload = some x := by
  obtain ⟨bs, e, r⟩ := internalsBits_reads ok
  unfold encodeInternals
  rw [e]
  refine ⟨_, rfl, ?_⟩
  generalize him : (x.interMarker.flatMap fun s => encodeBase128 s.length ++ s) = im
  unfold decodeInternals
  have hp8 : (padByte bs).length % 8 = 0 := by
    unfold padByte; rw [List.length_append, List.length_replicate]; omega
  rw [bytesBits_append, bytesBits_packBits hp8]
  have hr : readInternalsBits limit x.ids.length (padByte bs ++ bytesBits im) =
      some ({ x with interMarker := [] }, List.replicate ((8 - bs.length % 8) % 8) false ++ bytesBits im) := by
    unfold padByte
    rw [List.append_assoc]
    exact r _
  rw [hr]
  simp only
  have hlen : (List.replicate ((8 - bs.length % 8) % 8) false ++ bytesBits im).length = (8 - bs.length % 8) % 8 + 8 * im.length := by
    rw [List.length_append, List.length_replicate, bytesBits_length]
  rw [hlen, if_neg, show (8 - bs.length % 8) % 8 + 8 * im.length = (8 - bs.length % 8) % 8 + 8 * im.length from rfl]
  · have e1 : ((8 - bs.length % 8) % 8 + 8 * im.length) / 8 = im.length := by omega
    rw [e1, List.drop_left' (by rw [List.length_append]; omega), ok.interMarker.1, ← him, interMarker_reads _ ok.interMarker.2]
  · rw [show ((8 - bs.length % 8) % 8 + 8 * im.length) % 8 = (8 - bs.length % 8) % 8 by omega, List.take_left' (by rw [List.length_replicate])]
    simp

theorem encodeInternals_bytes {limit : Nat} {x : Internals} {payload : List Nat} (h : encodeInternals limit x = some payload)
    (hb : ∀ s ∈ x.interMarker, Bytes s) : Bytes payload := by
  unfold encodeInternals at h
  cases e : encInternalsBits limit x with
  | none => rw [e] at h; cases h
  | some bs =>
    rw [e] at h
    cases h
    intro b hb'
    rcases List.mem_append.mp hb' with h | h
    · exact packBits_bytes _ b h
    · obtain ⟨s, hs, h⟩ := List.mem_flatMap.mp h
      rcases List.mem_append.mp h with h | h
      · exact encodeBase128_bytes _ b h
      · exact hb s hs b h

end Brunsli
