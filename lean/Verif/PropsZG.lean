import Verif.OutInput
import Verif.PropsS
/-!
# Property C66: how large a file may become

The bound on the output of the decoder in terms of its input: what is written for a scan is bounded by the number of blocks, everything else by the length of the file; and of
both scans and blocks there are not many.  Brotli, which unpacks the metadata, is a parameter: `m` is the most it makes of a string that is no longer than the file.
-/

namespace Brunsli

/-- The blocks of all components. -/
def JpegData.blockCount (J : JpegData) : Nat := (J.components.map fun c => c.width * c.height).sum

/-- `par` makes at most `m` bytes of any string of at most `n` (`Codec.Expands` says no more). -/
theorem Codec.expands_iff (par : Codec) (n m : Nat) : par.Expands n m ↔ ∀ p chunks, p.length ≤ n → par.decompress p = some chunks → chunks.flatten.length ≤ m := Iff.rfl

theorem blockCount_eq {s : SectState} {imgs : List (List Int)} (h : (s.partJpeg imgs).components.length = s.header.comps.length) :
    (s.partJpeg imgs).blockCount = s.header.totalBlocks := by
  have hfac : (s.partJpeg imgs).components.map (fun x => (x.hSamp, x.vSamp)) = s.header.comps := decComps_factors s.header h
  unfold JpegData.blockCount Header.totalBlocks Header.blocks
  rw [← hfac, List.map_map, List.map_map]
  congr 1
  refine List.map_congr_left fun x hx => ?_
  obtain ⟨c, hc⟩ := List.mem_iff_getElem?.mp hx
  obtain ⟨_, _, h3, h4⟩ := decComps_get _ _ _ _ _ _ _ hc
  simp only [Function.comp]
  rw [h3, h4]

theorem totalBlocks_le {h : Header} (ho : h.Ok) : h.totalBlocks ≤ 2 ^ 23 := by
  have h1 := sum_mono (l := h.blocks) (f := fun b => b.1 * b.2) (g := fun _ => kBrunsliMaxNumBlocks) ho.blocks
  rw [sum_map_const] at h1
  have h2 : h.blocks.length ≤ 4 := by unfold Header.blocks; rw [List.length_map]; exact ho.ncomp.2
  have h3 := Nat.mul_le_mul_right kBrunsliMaxNumBlocks h2
  have e : 4 * kBrunsliMaxNumBlocks = 2 ^ 23 := by decide
  unfold Header.totalBlocks
  omega

/-- **C66 (1).** The size of the JPEG file that is restored from any byte string: what Brotli makes of the metadata, 553 bytes for each byte read, and 4232 bytes
for each scan and each block; and segments of metadata that are made from templates. -/
theorem C66_size {z : Inflater} {par : Codec} (hz : ∀ p, (par.decompress p).map List.flatten = z.whole p) (bs : List Nat) (m : Nat) (hm : par.Expands bs.length m) (J : JpegData)
    (hJ : decodeJpeg par bs = some J) (T : HSlot → CodeTable) (out : List (List Nat)) (ho : writeJpeg T J = .ok out) :
    out.flatten.length ≤ m + 553 * bs.length + 2630471 + 4232 * (J.scans.length * J.blockCount) := by
  unfold decodeJpeg at hJ
  split at hJ
  · rename_i s rest hd
    have hr := decodeFile_ready hz hd
    obtain ⟨imgs, ha, he⟩ := Ready.result hr
    obtain ⟨hk, imgs', ha', hp⟩ := hr
    rw [ha] at ha'; cases ha'
    have h1 := (restored_length hz hm hd hJ ho).1
    rw [he] at hJ
    cases hJ
    rw [blockCount_eq (partJpeg_count hk (by rw [hp.sized.1, metas_count hk (hk.has6 (by simp))]))]
    exact h1
  · cases hJ

/-- **C66 (2).** There are no more scans than 8 for each 22 bytes read, and no more than 2^23 blocks. -/
theorem C66_work {z : Inflater} {par : Codec} (hz : ∀ p, (par.decompress p).map List.flatten = z.whole p) (bs : List Nat) (J : JpegData)
    (hJ : decodeJpeg par bs = some J) : 22 * J.scans.length ≤ 8 * bs.length ∧ J.blockCount ≤ 2 ^ 23 ∧ J.components.length ≤ 4 := by
  unfold decodeJpeg at hJ
  split at hJ
  · rename_i s rest hd
    have hr := decodeFile_ready hz hd
    obtain ⟨hok, hx, -⟩ := decodeFile_counted hd
    obtain ⟨imgs, ha, he⟩ := Ready.result hr
    obtain ⟨hk, imgs', ha', hp⟩ := hr
    rw [ha] at ha'; cases ha'
    rw [he] at hJ
    cases hJ
    have hcnt := partJpeg_count hk (imgs := imgs) (by rw [hp.sized.1, metas_count hk (hk.has6 (by simp))])
    obtain ⟨x, hi⟩ := Option.isSome_iff_exists.mp (hk.has4 (by simp))
    have es : (s.partJpeg imgs).scans = x.scans := by unfold SectState.partJpeg; rw [hi]; rfl
    have hb := (hx x hi).bits
    rw [es, blockCount_eq hcnt, hcnt]
    exact ⟨by omega, totalBlocks_le hok, hok.ncomp.2⟩
  · cases hJ

/-- **C66 (3).** So the size of the output is bounded in terms of the size of the input alone. -/
theorem C66_bound {z : Inflater} {par : Codec} (hz : ∀ p, (par.decompress p).map List.flatten = z.whole p) (bs : List Nat) (m : Nat) (hm : par.Expands bs.length m) (J : JpegData)
    (hJ : decodeJpeg par bs = some J) (T : HSlot → CodeTable) (out : List (List Nat)) (ho : writeJpeg T J = .ok out) :
    out.flatten.length ≤ m + 2630471 + 553 * bs.length + 4232 * 2 ^ 23 * (8 * bs.length / 22) := by
  have h1 := C66_size hz bs m hm J hJ T out ho
  obtain ⟨h2, h3, -⟩ := C66_work hz bs J hJ
  have h4 : J.scans.length * J.blockCount ≤ (8 * bs.length / 22) * 2 ^ 23 := Nat.mul_le_mul (by omega) h3
  generalize J.scans.length * J.blockCount = B at *
  generalize 8 * bs.length / 22 = S at *
  omega

/-- **C66 (4).** The metadata of any file are at most what Brotli makes of their section, and 832 segments of at most 3161 bytes that are made from templates. -/
theorem C66_metadata {par : Codec} (bs : List Nat) (m : Nat) (hm : par.Expands bs.length m) (J : JpegData) (hJ : decodeJpeg par bs = some J) :
    (J.appData.map List.length).sum + (J.comData.map List.length).sum + J.tailData.length ≤ m + 1 + 832 * 3161 := by
  unfold decodeJpeg at hJ
  split at hJ
  · rename_i s rest hd
    have h := (decodeFile_counted hd).2.2 m hm
    unfold SectState.result at hJ
    split at hJ
    · cases hJ
      have e : s.metadata.bytes = (s.metadata.app.map List.length).sum + (s.metadata.com.map List.length).sum + s.metadata.tail.length := rfl
      dsimp only
      omega
    · cases hJ
  · cases hJ

/-! ## A file for which this holds -/

theorem after_shrinks {σ : Type} {x : Inflated σ} {o out : List Nat} {n k : Nat} (hx : ∀ out n, x = .done out n → out.length ≤ k) (ho : o.length ≤ 1) (h : x.after o 1 = .done out n) :
    out.length ≤ k + 1 := by
  cases x with
  | error => cases h
  | more s' o => cases h
  | done o' k' =>
    cases h
    have := hx _ _ rfl
    rw [List.length_append]
    omega

theorem spaced_shrinks : ∀ (p : List Nat) (s : Bool) (out : List Nat) (n : Nat), spacedInflater.feed s p = .done out n → out.length ≤ p.length
  | [], s, out, n, h => by cases h
  | b :: p, true, out, n, h => by
    have e : spacedInflater.feed true (b :: p) = (spacedInflater.feed false p).after [b] 1 := rfl
    exact after_shrinks (x := spacedInflater.feed false p) (o := [b]) (spaced_shrinks p false) (Nat.le_refl _) (e.symm.trans h)
  | 0 :: p, false, out, n, h => by
    have e : spacedInflater.feed false (0 :: p) = .done [] 1 := rfl
    have h' := e.symm.trans h
    cases h'
    exact Nat.zero_le _
  | (b + 1) :: p, false, out, n, h => by
    have e : spacedInflater.feed false ((b + 1) :: p) = (spacedInflater.feed true p).after [] 1 := rfl
    exact after_shrinks (x := spacedInflater.feed true p) (o := []) (spaced_shrinks p true) (Nat.zero_le _) (e.symm.trans h)

theorem spacedCodec_expands (n : Nat) : spacedCodec.Expands n n := by
  intro p chunks hp h
  simp only [spacedCodec] at h
  obtain ⟨x, hx, rfl⟩ := Option.map_eq_some_iff.mp h
  unfold Inflater.whole at hx
  split at hx
  · rename_i o k hf
    split at hx
    · cases hx
      have := spaced_shrinks p _ _ _ hf
      simp only [List.flatten_cons, List.flatten_nil, List.append_nil]
      omega
    · cases hx
  · cases hx

/-- The Brunsli file of the sample. -/
example (T : HSlot → CodeTable) : ∃ bs J out, encodeData spacedCodec sampleSequential = .ok bs ∧ decodeJpeg spacedCodec bs = some J ∧ writeJpeg T J = .ok out ∧
    out.flatten = sampleSequential ∧ spacedCodec.Expands bs.length bs.length ∧ sampleSequential.length ≤ bs.length + 553 * bs.length + 2630471 + 4232 * (J.scans.length * J.blockCount) := by
  have hb : Bytes sampleSequential := bytes_of_all (by decide +kernel)
  obtain ⟨bs, ho⟩ := spaced_accepted hb (by decide +kernel) (by decide +kernel)
  obtain ⟨s, J, h1, h2, -, -, h5⟩ := decodeFile_encodeData spacedCodec_lossless plainCodec_clusters hb ho
  obtain ⟨out, h6, h7⟩ := h5 T
  have hJ : decodeJpeg spacedCodec bs = some J := by unfold decodeJpeg; rw [h1]; exact h2
  have := C66_size spacedCodec_streams bs _ (spacedCodec_expands _) J hJ T out h6
  rw [h7] at this
  exact ⟨bs, J, out, ho, hJ, h6, h7, spacedCodec_expands _, this⟩

end Brunsli
