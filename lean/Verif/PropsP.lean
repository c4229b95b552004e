import Verif.BigCount
import Verif.GapFile
import Verif.PropsO
/-!
# C41: how large a buffer the encoder needs, C42: which files the encoder accepts

`encodeData par data` is `EncodeBrunsli` up to the call of the sink (c/enc/encode.cc:18-36): the file is read, a buffer of `GetMaximumBrunsliEncodedSize`
bytes is allocated and the data are encoded into it.  `ub` is an access out of bounds.  `Codec.Lossless`, `Codec.Clusters`, `Codec.Works` and `Codec.Bounded` are
the contracts of Brotli and of the clustering of histograms.
-/

namespace Brunsli

/-! ## C41 -/

/-- C41 is false: whatever Brotli and the clustering do, `EncodeBrunsli` writes past the end of its buffer on some well-formed JPEG file. -/
theorem C41_overrun_false (par : Codec) (hl : par.Lossless) (hcl : par.Clusters) (hw : par.Works) :
    ∃ data, Bytes data ∧ (∃ jpg, readJpeg data = .ok jpg) ∧ encodeData par data = .ub := by
  obtain ⟨N, hN⟩ : ∃ N, 1024 * 1024 = N := ⟨_, rfl⟩
  obtain ⟨f, hf, h⟩ := exists_overrun hl hcl hw hN
  obtain ⟨jpg, hj, -⟩ := bigFile_read hf hN
  exact ⟨bigFile f N, (bigFile_data hf N).bytes, ⟨jpg, hj⟩, h⟩

/-- C41 is false: on some well-formed JPEG file the result, written to a larger buffer, is longer than `GetMaximumBrunsliEncodedSize`. -/
theorem C41_bound_false (par : Codec) (hl : par.Lossless) (hcl : par.Clusters) (hw : par.Works) :
    ∃ data jpg cap out, Bytes data ∧ readJpeg data = .ok jpg ∧ encodeJpeg par cap jpg = .ok out ∧ maxEncodedSize jpg < out.length := by
  obtain ⟨N, hN⟩ : ∃ N, 1024 * 1024 = N := ⟨_, rfl⟩
  obtain ⟨f, jpg, out, hf, h1, h2, h3⟩ := exists_long hl hcl hw hN (cap := 654 * N + 54000) (Nat.le_refl _) (by omega)
  exact ⟨bigFile f N, jpg, _, out, (bigFile_data hf N).bytes, h1, h2, h3⟩

/-- C41 for images small enough for the bound proved here (`JpegData.room`: 654 bytes for each block): the encoder stays in the buffer. -/
theorem C41_small_images_partial (par : Codec) (hcl : par.Clusters) (hw : par.Works) (k : Nat → Nat) (hk : par.Bounded k) (data : List Nat) (jpg : JpegData) (m : List Nat)
    (hr : readJpeg data = .ok jpg) (ha : jpg.Acceptable m) (hm : m.length < 2 ^ 63) (hroom : jpg.room (9 + k m.length) ≤ maxEncodedSize jpg) :
    ∃ out, encodeData par data = .ok out ∧ out.length ≤ maxEncodedSize jpg := by
  obtain ⟨out, ho⟩ := encodeJpeg_acceptable hcl hw hk ha hm ha.size hroom
  obtain ⟨x, ok⟩ := encodeJpeg_parts ho
  refine ⟨out, ?_, ok.fits⟩
  have := ha.size
  unfold encodeData
  rw [hr]
  dsimp only [Run.bind]
  rw [if_neg (by omega), ho]

/-- The contracts can be met, so that there are such files. -/
example : ∃ data, Bytes data ∧ (∃ jpg, readJpeg data = .ok jpg) ∧ encodeData plainCodec data = .ub :=
  C41_overrun_false plainCodec plainCodec_lossless plainCodec_clusters plainCodec_works

example : ∃ out, encodeData plainCodec sampleProgressive = .ok out := samples_accepted.2

/-! ## C42 -/

/-- C42 is false: a well-formed JPEG file of one block, without metadata, is refused, however large the buffer is and whatever Brotli and the clustering
do: the internals are longer than `EstimateAuxDataSize` and their length cannot be written. -/
theorem C42_refused_false : ∃ data jpg, Bytes data ∧ readJpeg data = .ok jpg ∧ jpg.width = 8 ∧ jpg.height = 8 ∧
    (∃ inner, encodeInternals (paddingBitsLimit jpg.width jpg.height jpg.components.length) jpg.internals = some inner ∧ estimateAuxDataSize jpg < inner.length) ∧
    (∀ (par : Codec) (cap : Nat) (out : List Nat), encodeJpeg par cap jpg ≠ .ok out) ∧ ∀ par : Codec, par.Clusters → par.Works → encodeData par data = .fail := by
  obtain ⟨jpg, h1, h2, h3, h4, h5, h6⟩ := gapFile_fails
  exact ⟨gapFile 13623, jpg, gapFile_bytes _, h1, h2, h3, h6, h4, h5⟩

/-- C42 for data whose internals fit the length field in any case (`JpegData.Acceptable`), given a large enough buffer. -/
theorem C42_accepted_partial (par : Codec) (hcl : par.Clusters) (hw : par.Works) (k : Nat → Nat) (hk : par.Bounded k) (jpg : JpegData) (m : List Nat) (ha : jpg.Acceptable m)
    (hm : m.length < 2 ^ 63) (cap : Nat) (hcap : cap < 2 ^ 63) (hroom : jpg.room (9 + k m.length) ≤ cap) : ∃ out, encodeJpeg par cap jpg = .ok out :=
  encodeJpeg_acceptable hcl hw hk ha hm hcap hroom

/-- The data of the sample files meet the hypotheses of both. -/
theorem smallJpeg_acceptable {data : List Nat} (hd : Bytes data) {jpg : JpegData} (h : readJpeg data = .ok jpg) (hs : smallJpeg jpg = true) :
    ∃ m, jpg.Acceptable m ∧ m.length < 1000 ∧ jpg.room (9 + (m.length + 1)) ≤ maxEncodedSize jpg := by
  simp only [smallJpeg, Bool.and_eq_true, decide_eq_true_eq] at hs
  obtain ⟨⟨⟨⟨⟨⟨⟨⟨h1, h2⟩, h3⟩, h4⟩, h5⟩, h6⟩, h7⟩, h8⟩, h9⟩ := hs
  split at h3
  swap
  · cases h3
  rename_i m hj
  have h3 := of_decide_eq_true h3
  refine ⟨m, ⟨readJpeg_valid hd h, h1, h9, h2, hj, fun s hs => by have := h4 s hs; omega, ?_, h8⟩, h3, by unfold JpegData.room at h7 ⊢; omega⟩
  have : 2 ≤ base128Size (estimateAuxDataSize jpg) := by
    rw [base128Size, if_neg (by omega)]
    have : 1 ≤ base128Size (estimateAuxDataSize jpg / 128) := by rw [base128Size]; split <;> omega
    omega
  have := Nat.pow_le_pow_right (n := 2) (by decide) (show 14 ≤ 7 * base128Size (estimateAuxDataSize jpg) by omega)
  omega

theorem smallFile_acceptable {data : List Nat} (hd : Bytes data) (h : smallFile data = true) :
    ∃ jpg m, readJpeg data = .ok jpg ∧ jpg.Acceptable m ∧ jpg.room (9 + (m.length + 1)) ≤ maxEncodedSize jpg := by
  unfold smallFile at h
  split at h
  · obtain ⟨m, h1, -, h2⟩ := smallJpeg_acceptable hd ‹_› h
    exact ⟨_, m, ‹_›, h1, h2⟩
  · cases h

example : ∃ jpg m, readJpeg sampleProgressive = .ok jpg ∧ jpg.Acceptable m ∧ jpg.room (9 + (m.length + 1)) ≤ maxEncodedSize jpg :=
  smallFile_acceptable (bytes_of_all (by decide +kernel)) (by decide +kernel)

end Brunsli
