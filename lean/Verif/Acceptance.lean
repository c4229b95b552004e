import Verif.InnerSize
/-!
# Which JPEG data the encoder accepts
-/

namespace Brunsli

/-- Brotli succeeds in a buffer of `k n` bytes on `n` bytes, whatever they are. -/
def Codec.Bounded (par : Codec) (k : Nat → Nat) : Prop := ∀ room data, k data.length ≤ room → ∃ c, par.compress room data = some c ∧ c.length ≤ k data.length

/-- The number of padding bits to be stored is in range. -/
def JpegData.PaddingFits (jpg : JpegData) : Prop :=
  jpg.hasZeroPaddingBit = true → jpg.paddingBits.length ≤ paddingBitsLimit jpg.width jpg.height jpg.components.length

theorem JpegData.Valid.internals_some {jpg : JpegData} (hv : jpg.Valid) (hp : jpg.PaddingFits) :
    ∃ inner, encodeInternals (paddingBitsLimit jpg.width jpg.height jpg.components.length) jpg.internals = some inner := by
  obtain ⟨ms, hms, hm⟩ := hv.markers
  obtain ⟨h, hh⟩ := Option.isSome_iff_exists.mp (encHuffCodes_some jpg.huffman hv.huffman.2.2 hv.huffmanLast)
  have hq : (encQuantHeads jpg.internals.quant).isSome := encQuantHeads_some _ (by
    intro q hq
    unfold JpegData.internals at hq
    rw [List.getLast?_map] at hq
    obtain ⟨q', h1, rfl⟩ := Option.map_eq_some_iff.mp hq
    exact hv.quantLast q' h1)
  obtain ⟨q, hq⟩ := Option.isSome_iff_exists.mp hq
  unfold encodeInternals encInternalsBits
  rw [show jpg.internals.markers = jpg.markerOrder from rfl, show jpg.internals.huffman = jpg.huffman from rfl, show jpg.internals.scans = jpg.scans from rfl]
  rw [if_neg (by rw [hms]; simp), if_neg (by
    intro ha
    obtain ⟨m, h1, h2⟩ := List.any_eq_true.mp ha
    have h2 : m < 0xc0 := by simpa using h2
    rw [hms] at h1
    rcases List.mem_append.mp h1 with h1 | h1
    · have := (hm m h1).1; omega
    · have : m = 0xd9 := by simpa using h1
      omega), if_neg (by rw [hv.sos]; simp), if_neg (by
    unfold JpegData.PaddingFits at hp
    unfold JpegData.internals
    dsimp only
    split
    · rename_i hz; have := hp hz; rw [List.length_map]; omega
    · simp), hh, hq]
  exact ⟨_, rfl⟩

theorem encodeMetadata_some {f : List Nat → Option (List Nat)} {app com : List (List Nat)} {tail m : List Nat} {M : Nat}
    (hj : joinMetadata app com tail = some m) (hc : ∃ c, f m = some c ∧ c.length ≤ M) (h9 : m.length < 2 ^ 63) :
    ∃ p, encodeMetadata f app com tail = some p ∧ p.length ≤ 9 + M := by
  unfold encodeMetadata
  rw [hj]
  match m, hc, h9 with
  | [], _, _ => exact ⟨[], rfl, Nat.zero_le _⟩
  | [b], _, _ => exact ⟨_, rfl, by rw [List.length_singleton]; omega⟩
  | a :: b :: m, ⟨c, h2, h3⟩, h9 =>
    refine ⟨encodeBase128 (a :: b :: m).length ++ c, ?_, ?_⟩
    · dsimp only
      rw [h2]; rfl
    · have := base128Size_le9 h9
      rw [List.length_append, encodeBase128_length]; omega

/-- Room for what the encoder writes, and for what it accesses: the internals as bounded by `internals_size`, the metadata, 654 bytes for each block
and 53100 bytes. -/
def JpegData.room (jpg : JpegData) (M : Nat) : Nat :=
  estimateAuxDataSize jpg + 132 * jpg.huffman.length + jpg.runCount / 4 + M + 654 * jpg.blocks + 53100

/-- JPEG data the encoder accepts, with metadata `m`. -/
structure JpegData.Acceptable (jpg : JpegData) (m : List Nat) : Prop where
  valid : jpg.Valid
  /-- The encoder's error `BRUNSLI_NON_REPRESENTABLE` about DC coefficients does not occur. -/
  predictable : jpg.Predictable
  /-- At most 1562500 blocks: the clustering of histograms is defined. -/
  symbols : 64 * jpg.blocks ≤ 100000000
  padding : jpg.PaddingFits
  /-- At most 1024 short markers, 1024 other application markers and 1024 comments. -/
  metadata : joinMetadata jpg.appData jpg.comData jpg.tailData = some m
  gaps : ∀ s ∈ jpg.interMarker, s.length < 2 ^ 35
  /-- The length of the internals can be written in the bytes set aside for it. -/
  field : estimateAuxDataSize jpg + 132 * jpg.huffman.length + jpg.runCount / 4 < 2 ^ (7 * base128Size (estimateAuxDataSize jpg))
  size : maxEncodedSize jpg < 2 ^ 63

theorem encodeJpeg_acceptable {par : Codec} (hcl : par.Clusters) (hw : par.Works) {k : Nat → Nat} (hk : par.Bounded k) {jpg : JpegData} {m : List Nat} (ha : jpg.Acceptable m)
    (hm : m.length < 2 ^ 63) {cap : Nat} (hcap : cap < 2 ^ 63) (hroom : jpg.room (9 + k m.length) ≤ cap) :
    ∃ out, encodeJpeg par cap jpg = .ok out := by
  obtain ⟨inner, hi⟩ := ha.valid.internals_some ha.padding
  have hs := internals_size ha.valid ha.gaps hi
  have hf := ha.field
  unfold JpegData.room at hroom
  have he : Encodable par jpg inner (9 + k m.length) := ⟨ha.valid, ha.predictable, ha.symbols, hi, by omega, fun room hr =>
    encodeMetadata_some ha.metadata (hk room m (by omega)) hm⟩
  have hb : sizeBound jpg inner.length (9 + k m.length) ≤ cap := by unfold sizeBound; omega
  rcases encodeJpeg_run hcl hw he ha.size (by omega) hcap (.inr hb) with h | ⟨h, -⟩
  · exact h
  · omega

end Brunsli
