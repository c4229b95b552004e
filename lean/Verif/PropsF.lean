import Verif.Internals
/-!
# Properties C08 - C11, C38: quantisation tables and JPEG internals
-/

namespace Brunsli

/-! ## C08: quantisation tables -/

/-- **C08.** Whatever tables the encoder accepts — 1 to 4 of them, 64 entries of 16 bits, of precision 1 when an entry does not
fit a byte — and whatever assignment of tables to components, the decoder reconstructs the tables and the assignment and
consumes the section to its end. -/
theorem C08_quant_roundtrip (tabs : List (List Nat)) (precisions idx : List Nat) (section_ : List Bool)
    (hlen : precisions.length = tabs.length) (h64 : ∀ t ∈ tabs, t.length = 64) (h16 : ∀ t ∈ tabs, ∀ v ∈ t, v < 65536)
    (h8 : ∀ c (h : c < tabs.length) (h' : c < precisions.length), precisions[c] = 0 → ∀ v ∈ tabs[c], v < 256)
    (hidx : ∀ i ∈ idx, i < tabs.length) (h : encodeQuantTables tabs idx = some section_) :
    decodeQuantData precisions idx.length section_ = some ((tabs, idx), []) :=
  quantData_roundtrip hlen (fun t ht => ⟨h64 t ht, h16 t ht⟩) h8 hidx h

/-- C08: 1 to 4 tables with entries from 1 to 65535 — everything a JPEG file can hold — are accepted. -/
theorem C08_quant_accepted (tabs : List (List Nat)) (idx : List Nat) (h1 : 1 ≤ tabs.length) (h4 : tabs.length ≤ 4)
    (h : ∀ t ∈ tabs, ∀ v ∈ t, 1 ≤ v ∧ v ≤ 65535) : ∃ bits, encodeQuantTables tabs idx = some bits :=
  Option.isSome_iff_exists.mp (encodeQuantTables_some idx h1 h4 h)

/-- C08: whatever bits the decoder accepts, every entry of every table is from 1 to 65535 and every component has a table. -/
theorem C08_decoded_quant (precisions : List Nat) (ncomp : Nat) (bits rest : List Bool) (tabs : List (List Nat)) (idx : List Nat)
    (h : decodeQuantData precisions ncomp bits = some ((tabs, idx), rest)) :
    1 ≤ tabs.length ∧ tabs.length ≤ 4 ∧ (∀ t ∈ tabs, t.length = 64 ∧ ∀ v ∈ t, 1 ≤ v ∧ v ≤ 65535) ∧ idx.length = ncomp ∧ ∀ i ∈ idx, i < tabs.length := by
  obtain ⟨_, h2, h3, h4, h5⟩ := decodeQuantData_safe h
  obtain ⟨r, h1', _, _⟩ := bitSection_some h
  obtain ⟨n, r2, _, h3'⟩ := P.bind_some h1'
  obtain ⟨_, r3, g, _⟩ := P.bind_some h3'
  have g := (P.guard_some g).1
  exact ⟨by omega, h2, fun t ht => ⟨(h3 t ht).1, fun v hv => by have := (h3 t ht).2 v hv; omega⟩, h4, h5⟩

/-- A table no stock table equals. -/
def sampleTable : List Nat := (List.range 64).map fun i => i * i % 251 + 1

/-- Non-vacuity: a stock table, a table of bytes and one of 16-bit entries. -/
example : (encodeQuantTables [kStockQuantizationTables.getD 3 [], sampleTable, sampleTable.map (· * 200)] [0, 1, 2]).isSome ∧
    (∀ b ∈ encodeQuantTables [kStockQuantizationTables.getD 3 [], sampleTable, sampleTable.map (· * 200)] [0, 1, 2],
      decodeQuantData [0, 0, 1] 3 b = some (([kStockQuantizationTables.getD 3 [], sampleTable, sampleTable.map (· * 200)], [0, 1, 2]), [])) := by
  constructor
  · exact encodeQuantTables_some _ (by decide) (by decide) (by decide +kernel)
  · intro b hb
    refine C08_quant_roundtrip _ [0, 0, 1] [0, 1, 2] b rfl (by decide +kernel) (by decide +kernel) ?_ (by decide) hb
    intro c hc hc' h0
    have : ∀ c : Fin 3, [0, 0, 1][c.val]'(c.isLt) = 0 → ∀ v ∈ ([kStockQuantizationTables.getD 3 [], sampleTable, sampleTable.map (· * 200)][c.val]'(c.isLt)), v < 256 := by
      decide +kernel
    exact this ⟨c, hc⟩ h0

/-! ## C09: Huffman codes -/

/-- **C09.** Every code of the right shape the encoder accepts is reconstructed exactly: slot, last flag, counts and values. -/
theorem C09_huffman_roundtrip (h : HuffCode) (knownLast : Bool) (bits : List Bool) (typed : h.Typed) (he : encHuffCode h knownLast = some bits)
    (rest : List Bool) : readHuffCode knownLast (bits ++ rest) = some (h, rest) := huffCode_reads typed he rest

/-- C09: the encoder accepts every code the JPEG reader lets through: any slot, any counts satisfying Kraft's inequality with room for
the all-ones code, any sequence of distinct symbols. -/
theorem C09_huffman_accepted (h : HuffCode) (knownLast : Bool) (ok : h.Ok) (hl : knownLast = true → h.isLast = true) :
    ∃ bits, encHuffCode h knownLast = some bits ∧ ∀ rest, readHuffCode knownLast (bits ++ rest) = some (h, rest) := by
  obtain ⟨bits, hb⟩ := Option.isSome_iff_exists.mp (encHuffCode_some ok hl)
  exact ⟨bits, hb, huffCode_reads ok.typed hb⟩

/-- C09: any number, from 1 to 512, of codes. -/
theorem C09_huffman_codes (hs : List HuffCode) (hne : hs ≠ []) (hmax : hs.length ≤ kMaxDHTMarkers) (ok : ∀ h ∈ hs, h.Ok)
    (hlast : ∀ h ∈ hs.getLast?, h.isLast = true) :
    ∃ bits, encHuffCodes hs = some bits ∧ ∀ rest, readHuffCodes kMaxDHTMarkers (bits ++ rest) = some (hs, rest) := by
  obtain ⟨bits, hb⟩ := Option.isSome_iff_exists.mp (encHuffCodes_some hs ok hlast)
  exact ⟨bits, hb, huffCodes_reads hs _ bits hne hmax (fun h hh => (ok h hh).typed) hb⟩

/-- C09: whatever bits are read, every code accepted is a prefix code with distinct symbols and room for the all-ones code. -/
theorem C09_decoded_huffman (bits rest : List Bool) (hs : List HuffCode) (h : readHuffCodes kMaxDHTMarkers bits = some (hs, rest)) :
    hs ≠ [] ∧ hs.length ≤ kMaxDHTMarkers ∧ ∀ h ∈ hs, h.Decoded := readHuffCodes_safe _ h

/-- A code that is not stock. -/
def sampleHuff : HuffCode := ⟨[0, 0, 1, 2, 3, 0, 0, 0, 4, 0, 0, 0, 0, 0, 0, 0, 0], [5, 0, 255, 17, 33, 1, 2, 3, 4, 256] ++ List.replicate 247 0, 0x12, true⟩

/-- The stock DC code. -/
def sampleDcHuff : HuffCode := ⟨0 :: stockHuffCounts true 1, stockHuffValues true 1 ++ List.replicate 244 0, 1, false⟩

theorem sampleHuff_ok : sampleHuff.Ok := by
  refine ⟨?_, ?_, ?_, ?_, ?_, ?_, ?_, ?_, ?_⟩ <;> decide +kernel

theorem sampleDcHuff_ok : sampleDcHuff.Ok := by
  refine ⟨?_, ?_, ?_, ?_, ?_, ?_, ?_, ?_, ?_⟩ <;> decide +kernel

/-- Non-vacuity. -/
example : ∀ h ∈ [sampleDcHuff, sampleHuff], h.Ok := by
  intro h hh
  simp only [List.mem_cons, List.not_mem_nil, or_false] at hh
  rcases hh with rfl | rfl
  · exact sampleDcHuff_ok
  · exact sampleHuff_ok

/-! ## C10: scans -/

/-- **C10.** Any number of scans, with their parameters, reset points and extra zero runs, are reconstructed exactly. -/
theorem C10_scans_roundtrip (scans : List ScanInfo) (ok : ∀ s ∈ scans, s.Ok) (rest : List Bool) :
    P.replicate scans.length readScanInfo (scans.flatMap encScanInfo ++ rest) = some (scans, rest) :=
  P.Reads.replicate encScanInfo scans (fun s hs => scanInfo_reads (ok s hs)) rest

/-- A scan with reset points and extra zero runs. -/
def sampleScan : ScanInfo := ⟨1, 63, 0, 2, [⟨2, 1, 3⟩], [0, 4, 5, 1000000], [(0, 1), (4, 3), (200000000, 2)]⟩

theorem sampleScan_ok : sampleScan.Ok :=
  ⟨by decide, by decide, by decide, by decide, by decide, by decide, ⟨⟨by decide, ⟨by decide, ⟨by decide, ⟨by decide, trivial⟩⟩⟩⟩, by decide⟩,
    ⟨⟨by decide, by decide, ⟨by decide, by decide, ⟨by decide, by decide, trivial⟩⟩⟩, by decide⟩⟩

/-! ## C11: the section of internals -/

/-- **C11.** The internals of every JPEG the reader lets through are written, and read back exactly: marker order, restart interval,
Huffman codes, scans, the parameters of the quantisation tables, component identifiers, padding bits and inter-marker data; the
decoder accepts only if the section is consumed to its last byte. -/
theorem C11_internals_roundtrip (width height : Nat) (x : Internals) (ok : x.Ok (paddingBitsLimit width height x.ids.length))
    (hb : ∀ s ∈ x.interMarker, Bytes s) :
    ∃ payload, encodeInternals (paddingBitsLimit width height x.ids.length) x = some payload ∧ Bytes payload ∧
      decodeInternals (paddingBitsLimit width height x.ids.length) x.ids.length payload = some x := by
  obtain ⟨p, h1, h2⟩ := internals_roundtrip ok
  exact ⟨p, h1, encodeInternals_bytes h1 hb, h2⟩

/-- Internals with every kind of content. -/
def sampleInternals : Internals :=
  ⟨[0xe0, 0xdb, 0xc2, 0xdd, 0xff, 0xc4, 0xda, 0xff, 0xc4, 0xda, 0xd9], 300, [{ sampleHuff with slotId := 0x10 }, sampleHuff], [sampleScan, sampleScan],
    [(1, false, 0), (0, true, 1)], [7, 8, 9, 255], [true, false, true], [[], [1, 2, 3]]⟩

/-- Non-vacuity. -/
theorem sampleInternals_ok : sampleInternals.Ok (paddingBitsLimit 640 480 4) := by
  refine ⟨⟨[0xe0, 0xdb, 0xc2, 0xdd, 0xff, 0xc4, 0xda, 0xff, 0xc4, 0xda], rfl, by decide⟩, by decide, ⟨by decide, by decide, ?_⟩, by decide, by decide,
    by decide, ?_, by decide, by decide, by decide, by decide, by decide⟩
  · intro h hh
    rcases List.mem_cons.mp hh with rfl | hh
    · have := sampleHuff_ok
      exact ⟨by decide, this.2, this.3, this.4, this.5, this.6, fun v hv => this.7 v hv, this.8, this.9⟩
    · rcases List.mem_cons.mp hh with rfl | hh
      · exact sampleHuff_ok
      · cases hh
  · intro s hs
    have : s = sampleScan := by
      simp only [sampleInternals, List.mem_cons, List.not_mem_nil, or_false, or_self] at hs
      exact hs
    rw [this]; exact sampleScan_ok

/-! ## C38: coefficient orders and quantisation matrices -/

/-- **C38.** The natural and zig-zag orders are mutually inverse permutations of 0..63. -/
theorem C38_orders_inverse : (∀ i < 64, ∃ j < 64, kJPEGNaturalOrder[i]? = some j ∧ kJPEGZigZagOrder[j]? = some i) ∧
    (∀ i < 64, ∃ j < 64, kJPEGZigZagOrder[i]? = some j ∧ kJPEGNaturalOrder[j]? = some i) := by
  constructor <;> decide +kernel

/-- C38: quantisation matrices have entries from 1 to 255, whatever the factor. -/
theorem C38_quant_matrix (chroma : Bool) (q : Nat) : (fillQuantMatrix chroma q).length = 64 ∧ ∀ v ∈ fillQuantMatrix chroma q, 1 ≤ v ∧ v ≤ 255 :=
  ⟨fillQuantMatrix_length chroma q, fillQuantMatrix_range chroma q⟩

/-- Non-vacuity: both bounds are met. -/
example : (fillQuantMatrix false 0).all (· == 1) ∧ 255 ∈ fillQuantMatrix true 1000 ∧ 16 ∈ fillQuantMatrix false 64 := by decide +kernel

end Brunsli
