import Verif.Metadata
/-!
# Properties C12, C13: metadata
-/

namespace Brunsli

/-! ## C12: metadata round trip -/

/-- **C12.** For every lossless compressor (whatever the granularity `chunks` in which its decoder delivers data), every list of APPn
segments, every list of comments and every tail below 2^63 bytes in all: if the encoder writes a metadata section, decoding it gives
the same segments, with the same bytes and in the same order, the same comments and the same tail. -/
theorem C12_metadata_roundtrip (compress : List Nat → Option (List Nat)) (decompress : List Nat → Option (List (List Nat)))
    (lossless : ∀ data packed, compress data = some packed →
      packed ≠ [] ∧ ∃ chunks, decompress packed = some chunks ∧ chunks.flatten = data)
    (app com : List (List Nat)) (tail section_ : List Nat)
    (happ : ∀ s ∈ app, ∃ m hi lo rest, s = m :: hi :: lo :: rest ∧ 0xE0 ≤ m ∧ m ≤ 0xEF ∧ hi < 256 ∧ lo < 256 ∧
      rest.length + 2 = hi * 256 + lo ∧ ∀ b ∈ rest, b < 256)
    (hcom : ∀ s ∈ com, ∃ hi lo rest, s = 0xFE :: hi :: lo :: rest ∧ hi < 256 ∧ lo < 256 ∧
      rest.length + 2 = hi * 256 + lo ∧ ∀ b ∈ rest, b < 256)
    (hsize : app.flatten.length + com.flatten.length + tail.length + 1 < 2 ^ 63)
    (h : encodeMetadata compress app com tail = some section_) :
    ∃ st, decodeMetadata decompress section_ = some st ∧ st.app = app ∧ st.com = com ∧ st.tail = tail := by
  cases hm : joinMetadata app com tail with
  | none => rw [encodeMetadata, hm] at h; cases h
  | some m =>
    have hl := joinMetadata_length hm
    exact metadata_roundtrip lossless happ hcom hm (Nat.lt_of_le_of_lt hl hsize) h

/-- C12: a section is written whenever there are at most 832 segments with a short code, at most 1024 others and at most 1024 comments,
and the compressor does not fail. -/
theorem C12_metadata_written (compress : List Nat → Option (List Nat)) (hz : ∀ data, (compress data).isSome)
    (app com : List (List Nat)) (tail : List Nat) (h1 : app.length ≤ 832) (h2 : com.length ≤ 1024) :
    (encodeMetadata compress app com tail).isSome := by
  have hc := List.countP_le_length (p := fun x => (transformApp x).isSome) (l := app)
  obtain ⟨m, hm⟩ : ∃ m, joinMetadata app com tail = some m := by
    unfold joinMetadata kBrunsliShortMarkerLimit kBrunsliMultibyteMarkerLimit
    simp only
    rw [if_neg (by omega), if_neg (by omega), if_neg (by omega)]
    exact ⟨_, rfl⟩
  rw [encodeMetadata, hm]
  match m with
  | [] => rfl
  | [_] => rfl
  | _ :: _ :: _ => rw [Option.isSome_map]; exact hz _

/-- A JFIF segment, a stock ICC profile, an Adobe segment, an unknown segment and a nearly-JFIF segment. -/
def sampleApp : List (List Nat) :=
  [[0xe0, 0, 16, 0x4a, 0x46, 0x49, 0x46, 0, 1, 1, 1, 0, 72, 0, 72, 0, 0], appDatae2.set 84 7, appDataee.set 10 1,
   [0xe1, 0, 4, 10, 20], [0xef, 0, 2], [0xe0, 0, 16, 0x4a, 0x46, 0x49, 0x46, 0, 1, 1, 1, 0, 72, 0, 73, 0, 0]]

/-- Non-vacuity: these segments meet the hypotheses, three of them get a short code, and with an identity compressor the section comes back. -/
example : (∀ s ∈ sampleApp, 3 ≤ s.length ∧ 0xE0 ≤ s.getD 0 0 ∧ s.getD 0 0 ≤ 0xEF ∧ s.length = s.getD 1 0 * 256 + s.getD 2 0 + 1 ∧ ∀ b ∈ s, b < 256) ∧
    sampleApp.countP (fun s => (transformApp s).isSome) = 3 ∧
    ((joinMetadata sampleApp [[0xFE, 0, 3, 65]] [1, 2, 3]).bind fun m => (m.foldlM metaByte .init)).map
      (fun st => (st.app, st.com, st.tail)) = some (sampleApp, [[0xFE, 0, 3, 65]], [1, 2, 3]) := by decide +kernel

/-! ## C13: chunking independence -/

/-- **C13.** However the metadata is cut into chunks — empty ones included — feeding the chunks one after the other has the
effect of feeding their concatenation at once: the same failure or the same final state. -/
theorem C13_chunking (chunks : List (List Nat)) : chunks.foldlM processMeta .init = processMeta .init chunks.flatten :=
  processMeta_chunks chunks init_inv

/-- C13: from the middle of the data as well: after any prefix that was accepted. -/
theorem C13_chunking_resumed (pre : List Nat) (st : MetaState) (h : processMeta .init pre = some st) (chunks : List (List Nat)) :
    chunks.foldlM processMeta st = processMeta .init (pre ++ chunks.flatten) := by
  have hi : st.Inv := by rw [processMeta_fold init_inv] at h; exact foldlM_inv init_inv h
  rw [processMeta_chunks chunks hi, processMeta_append init_inv, h]; rfl

/-- C13: the outcome of the whole section depends only on the data the decompressor delivers, not on how it delivers it. -/
theorem C13_section_chunking (d₁ d₂ : List Nat → Option (List (List Nat)))
    (h : ∀ p, (d₁ p).map List.flatten = (d₂ p).map List.flatten) (section_ : List Nat) :
    decodeMetadata d₁ section_ = decodeMetadata d₂ section_ := by
  match section_ with
  | [] => rfl
  | [_] => rfl
  | a :: b :: p =>
    simp only [decodeMetadata]
    cases hd : decodeBase128 (a :: b :: p) with
    | needMore => rfl
    | invalid => rfl
    | ok size rest =>
      simp only
      by_cases hr : rest = []
      · rw [if_pos hr, if_pos hr]
      · rw [if_neg hr, if_neg hr]
        have := h rest
        cases h1 : d₁ rest with
        | none =>
          rw [h1] at this
          cases h2 : d₂ rest with
          | none => rfl
          | some _ => rw [h2] at this; cases this
        | some c1 =>
          rw [h1] at this
          cases h2 : d₂ rest with
          | none => rw [h2] at this; cases this
          | some c2 =>
            rw [h2] at this
            simp only [Option.map_some, Option.some.injEq] at this
            simp only [Option.bind_some]
            rw [metaChunks_eq _ init_inv, metaChunks_eq _ init_inv, this]

/-- Non-vacuity: a segment cut inside its length and inside its contents. -/
example : [[0xE1], [0], [5, 1], [], [2], [3, 0xFE, 0, 2, 0xD9, 9]].foldlM processMeta .init =
    some ⟨.tail, 0, 0xD9, 0, 0, true, [[0xE1, 0, 5, 1, 2, 3]], [[0xFE, 0, 2]], [9]⟩ := by decide +kernel

end Brunsli
