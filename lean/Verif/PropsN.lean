import Verif.E2E
import Verif.PropsM
/-!
# C37: end to end
-/

namespace Brunsli

/-- **C37**: whatever JPEG file the encoder accepts, the decoder accepts the Brunsli file made from it and regenerates the JPEG file byte for byte.
Assumed: Brotli is lossless, the clustering of histograms leaves no symbol without a count.  `T` are the indeterminate contents of the code tables. -/
theorem C37_end_to_end (par : Codec) (hl : par.Lossless) (hcl : par.Clusters) (data out : List Nat) (hd : Bytes data) (h : encodeData par data = .ok out) :
    ∃ jpg, decodeJpeg par out = some jpg ∧ ∀ T, ∃ chunks, writeJpeg T jpg = .ok chunks ∧ chunks.flatten = data :=
  decodeJpeg_encodeData hl hcl hd h

/-- **C37 (API)**: `EncodeBrunsli` into a callback that keeps what it is given, then `DecodeBrunsli` of that into a callback that accepts everything: both
succeed, and the second callback has been given the bytes of the JPEG file. -/
theorem C37_api (par : Codec) (hl : par.Lossless) (hcl : par.Clusters) (data : List Nat) (hd : Bytes data) (out : List Nat)
    (h : encodeData par data = .ok out) (sink : Sink) (hsink : ∀ h b, sink h b = b.length) (T : HSlot → CodeTable) :
    ∃ fuel hist, decodeBrunsli jpegApi (decodeJpeg par) (WJ.init T) sink fuel out = (some true, hist) ∧ hist.flatten = data := by
  obtain ⟨jpg, h1, h2⟩ := C37_end_to_end par hl hcl data out hd h
  obtain ⟨cs, h3, h4⟩ := h2 T
  obtain ⟨h5, h6⟩ := jpegApi_prod h3
  obtain ⟨fuel, hist, h7, h8⟩ := C25_writer_completes jpegApi jpg (WJ.init T) 16384 (by decide) h5 sink hsink
  refine ⟨fuel, hist, ?_, by rw [h8, h6, h4]⟩
  unfold decodeBrunsli
  rw [h1]
  exact h7

/-- **C37 (injective)**: different files never give the same Brunsli file. -/
theorem C37_injective (par : Codec) (hl : par.Lossless) (hcl : par.Clusters) (data data' out : List Nat) (hd : Bytes data) (hd' : Bytes data')
    (h : encodeData par data = .ok out) (h' : encodeData par data' = .ok out) : data = data' := by
  obtain ⟨jpg, h1, h2⟩ := C37_end_to_end par hl hcl data out hd h
  obtain ⟨jpg', h1', h2'⟩ := C37_end_to_end par hl hcl data' out hd' h'
  rw [h1] at h1'
  cases h1'
  obtain ⟨cs, h3, h4⟩ := h2 fun _ => ⟨fun _ => 0, fun _ => 0⟩
  obtain ⟨cs', h3', h4'⟩ := h2' fun _ => ⟨fun _ => 0, fun _ => 0⟩
  rw [h3] at h3'
  cases h3'
  rw [← h4, ← h4']

end Brunsli
