import Verif.EncEstimate
import Verif.Blank
import Verif.BigCount
import Verif.PropsY
/-!
# Property C64: the memory estimate of the encoder
-/

namespace Brunsli

/-- What the estimate needs to know of a frame. -/
structure JpegData.Framed (jpg : JpegData) : Prop where
  count : 1 ≤ jpg.components.length ∧ jpg.components.length ≤ 4
  sized : ∀ c ∈ jpg.components, c.width = jpg.header.mcuCols * c.hSamp ∧ c.height = jpg.header.mcuRows * c.vSamp
  wide : ∀ c ∈ jpg.components, 1 ≤ c.width ∧ 1 ≤ c.height
  blocks : ∀ c ∈ jpg.components, c.width * c.height ≤ 2 ^ 21

theorem framed_any {mode : ReadMode} {data : List Nat} (hd : Bytes data) {jpg : JpegData} (h : readJpegIn mode data = .ok jpg) : jpg.Framed := by
  have hc : jpg.header.mcuCols = divCeil jpg.width (maxH jpg.components * 8) := by
    unfold Header.mcuCols JpegData.header maxH
    rw [List.map_map]; rfl
  have hr : jpg.header.mcuRows = divCeil jpg.height (maxV jpg.components * 8) := by
    unfold Header.mcuRows JpegData.header maxV
    rw [List.map_map]; rfl
  have hH := maxH_pos jpg.components
  have hV := maxV_pos jpg.components
  by_cases hm : mode = .all
  · subst hm
    rw [readJpegIn_all] at h
    have v := readJpeg_valid hd h
    have hf : ∀ c ∈ jpg.components, (c.hSamp, c.vSamp) ∈ jpg.header.comps := fun c hc => List.mem_map.mpr ⟨c, hc, rfl⟩
    have hn : jpg.header.comps.length = jpg.components.length := List.length_map ..
    refine ⟨by rw [← hn]; exact v.header.ncomp, fun c hc => ⟨v.width c hc, v.height c hc⟩, fun c hm => ?_, fun c hc => ?_⟩
    · rw [v.width c hm, v.height c hm, hc, hr]
      exact ⟨Nat.mul_pos (divCeil_pos v.header.width.1 (by omega)) (v.header.factors _ (hf c hm)).1,
        Nat.mul_pos (divCeil_pos v.header.height.1 (by omega)) (v.header.factors _ (hf c hm)).2.2.1⟩
    · rw [v.width c hc, v.height c hc]
      exact v.header.blocks _ (List.mem_map.mpr ⟨_, hf c hc, rfl⟩)
  · have f := (readJpegIn_part hm hd).2 jpg h
    refine ⟨f.count, fun c hm => ⟨by rw [f.cols c hm, hc], by rw [f.rows c hm, hr]⟩, fun c hm => ?_, f.blocks⟩
    rw [f.cols c hm, f.rows c hm]
    exact ⟨Nat.mul_pos (divCeil_pos f.width.1 (by omega)) (f.raw c hm).h.1, Nat.mul_pos (divCeil_pos f.height.1 (by omega)) (f.raw c hm).v.1⟩

theorem JpegData.Framed.total {jpg : JpegData} (f : jpg.Framed) : 0 < jpg.blocks ∧ jpg.blocks ≤ 2 ^ 23 := by
  refine ⟨numBlocks_pos (fun h => ?_) f.wide, ?_⟩
  · have := f.count.1
    rw [h] at this
    exact absurd this (by decide)
  · have h1 : jpg.blocks ≤ jpg.components.length * 2 ^ 21 := sum_bounded f.blocks
    have h2 : jpg.components.length * 2 ^ 21 ≤ 4 * 2 ^ 21 := Nat.mul_le_mul_right _ f.count.2
    omega

/-- **C64 (1).** Whatever file is accepted, in whatever mode it was read, and whatever size is told: the estimate is defined, and at least 2 MiB. -/
theorem C64_defined (brotli : Nat → Nat) (data : List Nat) (hd : Bytes data) (mode : ReadMode) (jpg : JpegData) (h : readJpegIn mode data = .ok jpg) (size : Nat) :
    ∃ n, estimateEncoder brotli size jpg = .ok n ∧ 2 ^ 21 ≤ n := by
  obtain ⟨peak, n, -, h2, h3, h4⟩ := estimateEncoder_ok brotli size (framed_any hd h).total.1
  exact ⟨n, h2, by omega⟩

/-- **C64 (1).** What is estimated for the coefficients is less than 2^40: there is no overflow. -/
theorem C64_no_overflow (data : List Nat) (hd : Bytes data) (mode : ReadMode) (jpg : JpegData) (h : readJpegIn mode data = .ok jpg) (size peak : Nat) (hp : jpg.encodePeak size = .ok peak) :
    peak < 2 ^ 40 := by
  have f := framed_any hd h
  have hb := f.total
  obtain ⟨nz, h1, h2, h3⟩ := estimatedNonzeros_ok (size := size) hb.1
  unfold JpegData.encodePeak at hp
  rw [h1] at hp
  injection hp with hp
  have hl := f.count.2
  have he : estimatedContexts jpg.components.length nz ≤ 4 * 413 := by
    refine Nat.mul_le_mul hl ?_
    have := contexts_mono (m := nz) (n := 2 ^ 33 - 1) (by omega) (by decide)
    have e : kNumNonzeroContextSkip.getD (selectContextBits (2 ^ 33 - 1)) 0 = 412 := by decide +kernel
    omega
  have hw : estimatedWords jpg.components.length jpg.blocks nz ≤ 2 ^ 31 := by
    unfold estimatedWords
    omega
  have hs : (jpg.components.map fun c => stateSizeInBytes c.width).sum ≤ 4 * 2 ^ 31 := by
    refine Nat.le_trans (sum_bounded (c := 2 ^ 31) fun c hc => ?_) (Nat.mul_le_mul_right _ hl)
    have : c.width ≤ 2 ^ 21 := Nat.le_trans (Nat.le_mul_of_pos_right _ (f.wide c hc).2) (f.blocks c hc)
    unfold stateSizeInBytes
    omega
  unfold kNumAvrgContexts kHistogramBytes at hp
  omega

/-- **C64 (2).** The header alone tells as much as the file: what is estimated for the coefficients is the same. -/
theorem C64_header_same (data : List Nat) (hd : Bytes data) (jpg : JpegData) (h : readJpeg data = .ok jpg) (size : Nat) :
    ∃ hdr, readJpegIn .header data = .ok hdr ∧ hdr.encodePeak size = jpg.encodePeak size := by
  obtain ⟨hdr, h1, -, -, h4⟩ := readJpegIn_header hd h
  have e1 : ∀ f : Nat × Nat → Nat, (hdr.components.map fun c => f (c.width, c.height)) = jpg.components.map fun c => f (c.width, c.height) := fun f => by
    have := congrArg (List.map fun x : Nat × Nat × Nat × Nat × Nat => f x.2.2.2) h4
    simpa only [List.map_map, Function.comp_def] using this
  have e2 : hdr.components.length = jpg.components.length := by
    have := congrArg List.length h4
    simpa using this
  have e3 : hdr.blocks = jpg.blocks := congrArg List.sum (e1 fun x => x.1 * x.2)
  refine ⟨hdr, h1, ?_⟩
  unfold JpegData.encodePeak
  rw [e2, e3, e1 fun x => stateSizeInBytes x.1]

/-- **C64 (3), small images.** With at most 1774 blocks, whatever size is told, all that is there when the blocks are encoded is within the estimate.
Missing: larger images (`C64_bound_false`), vectors that grow, the serialized result. -/
theorem C64_small_partial (brotli : Nat → Nat) (data : List Nat) (hd : Bytes data) (jpg : JpegData) (h : readJpeg data = .ok jpg) (hb : jpg.blocks ≤ 1774) (size n : Nat)
    (he : estimateEncoder brotli size jpg = .ok n) : jpg.encodeLive ≤ n := by
  have f := framed_any (mode := .all) hd (by rw [readJpegIn_all]; exact h)
  obtain ⟨peak, n', h1, h2, -, h4⟩ := estimateEncoder_ok brotli size f.total.1
  rw [he] at h2
  cases h2
  exact Nat.le_trans (live_small f.sized f.count f.total.1 hb size peak h1) h4

/-- **C64 (3), larger images.** The same if more nonzero coefficients are estimated than were found in the sample, by one and a quarter of the number of blocks. -/
theorem C64_large_partial (brotli : Nat → Nat) (data : List Nat) (hd : Bytes data) (jpg : JpegData) (h : readJpeg data = .ok jpg) (size n nz : Nat)
    (hz : estimatedNonzeros size jpg.blocks = .ok nz) (hn : (jpg.components.map fun c => sampleNumNonZeros c.coeffs (c.width * c.height)).sum + jpg.blocks / 4 + 1 ≤ nz)
    (he : estimateEncoder brotli size jpg = .ok n) : jpg.encodeLive ≤ n := by
  have f := framed_any (mode := .all) hd (by rw [readJpegIn_all]; exact h)
  obtain ⟨peak, n', h1, h2, -, h4⟩ := estimateEncoder_ok brotli size f.total.1
  rw [he] at h2
  cases h2
  exact Nat.le_trans (live_large f.sized f.count.1 f.total.1 f.total.2 size peak nz h1 hz hn) h4

/-! ## The vector of code words -/

theorem words_from (cols rows : Nat) (s a : Component → Nat) : ∀ (l : List Component) (off : Nat),
    (((metasFrom off (l.map fun c => (cols * c.hSamp, c.vSamp, s c))).zip (l.map a)).map fun (m, nz) => 2 * nz + 1024 + 3 * (m.w * (rows * m.vs))).sum =
      (l.map fun c => 2 * a c + 1024 + 3 * (cols * c.hSamp * (rows * c.vSamp))).sum
  | [], _ => rfl
  | c :: l, off => by
    simp only [List.map_cons, metasFrom, List.zip_cons_cons, List.sum_cons]
    rw [words_from cols rows s a l]

/-- `acWordBytes` is 8 times the size of the vector that `storeAC` (C62) begins with. -/
theorem acWordBytes_vector {jpg : JpegData} (hs : ∀ c ∈ jpg.components, c.width = jpg.header.mcuCols * c.hSamp ∧ c.height = jpg.header.mcuRows * c.vSamp) :
    jpg.acWordBytes = 8 * (((metas jpg.header jpg.schemes).zip jpg.approxNonzeros).map fun (m, nz) => 2 * nz + 1024 + 3 * (m.w * (jpg.header.mcuRows * m.vs))).sum := by
  have e : (jpg.header.comps.zip jpg.schemes).map (fun (c, s) => (jpg.header.mcuCols * c.1, c.2, s)) = jpg.components.map fun c =>
      (jpg.header.mcuCols * c.hSamp, c.vSamp, selectContextBits (sampleNumNonZeros c.coeffs (jpg.header.mcuCols * c.hSamp * (jpg.header.mcuRows * c.vSamp)) + 1)) := by
    unfold JpegData.schemes
    rw [show jpg.header.comps = jpg.components.map fun c => (c.hSamp, c.vSamp) from rfl, List.zip_map', List.map_map]
    rfl
  unfold metas JpegData.approxNonzeros JpegData.acWordBytes
  rw [e, words_from]
  congr 2
  refine List.map_congr_left fun c hc => ?_
  rw [(hs c hc).1, (hs c hc).2]

/-! ## A file without scans -/

/-- A file of `n` components of `w` by `h` pixels, with a table of quantization and a Huffman code, and without any scan. -/
def blankFile (w h n : Nat) : List Nat :=
  [0xFF, 0xD8] ++ [0xFF, 0xDB, 0, 67, 0] ++ List.replicate 64 1 ++ ([0xFF, 0xC0, 0, 8 + 3 * n, 8, h / 256, h % 256, w / 256, w % 256, n] ++ (List.range n).flatMap fun i => [i + 1, 0x11, 0]) ++
  [0xFF, 0xC4, 0, 20, 0x00, 0, 1, 0, 0, 0, 0, 0, 0, 0, 0, 0, 0, 0, 0, 0, 0, 0] ++ [0xFF, 0xD9]

/-- Without scans the coefficients are encoded. -/
theorem blank_stored {data : List Nat} (hd : Bytes data) {jpg : JpegData} (h : readJpeg data = .ok jpg) (hs : 0xda ∉ jpg.markerOrder) (grow : Nat → Nat) (hg : ∀ n, n + 1024 ≤ grow n) :
    ∃ slots, storeCoefs grow jpg = .ok slots := by
  have hv := readJpeg_valid hd h
  have hz := readJpeg_blank h hs
  have hpred : ((metas jpg.header jpg.schemes).zip (jpg.components.map Component.coeffs)).all
      (fun (m, img) => predictDCCoeffs img m.w (jpg.header.mcuRows * m.vs)) = true := by
    rw [List.all_eq_true]
    rintro ⟨m, img⟩ hmem
    obtain ⟨c, hc⟩ := List.getElem?_of_mem hmem
    obtain ⟨h1, h2⟩ := List.getElem?_zip_eq_some.mp hc
    obtain ⟨q, q1, q2, q3⟩ := metas_comp h1
    rw [List.getElem?_map, q1] at h2
    cases h2
    have hq := List.mem_of_getElem? q1
    show predictDCCoeffs q.coeffs m.w (jpg.header.mcuRows * m.vs) = true
    rw [q2, q3, ← hv.width q hq, ← hv.height q hq]
    refine predictDCCoeffs_zero (hv.size q hq) fun i => ?_
    rw [List.getD_eq_getElem?_getD]
    cases hi : q.coeffs[64 * i]? with
    | none => rfl
    | some v => exact hz q hq v (List.mem_of_getElem? hi)
  obtain ⟨quants, flags, dc, ac, h1, h2, h3⟩ := coefs_coded hv hpred
  exact ⟨_, storeCoefs_ok hg hv h1 hpred h2 h3⟩

theorem blank_read : (readJpeg (blankFile 248 264 4)).test (fun jpg => decide (jpg.components.map (fun c => (c.width, c.height)) = List.replicate 4 (31, 33) ∧ jpg.metadataBytes = 0 ∧
    0xda ∉ jpg.markerOrder)) = true := by decide +kernel

/-- **C64 is false of the code**: there is a file of 117 bytes for which the encoder gets past the coefficients, and the vector of code words of `EncodeAC` alone (`acWordBytes_vector`) is larger
than the estimate by more than 1900000 bytes: for components of less than 1024 blocks there are 64 nonzero coefficients in each block as it seems to `SampleNumNonZeros`, and 1 as it seems to the estimate. -/
theorem C64_bound_false : ∃ data jpg n, Bytes data ∧ data.length < 120 ∧ readJpeg data = .ok jpg ∧ (∀ brotli, estimateEncoder brotli data.length jpg = .ok n) ∧ n + 1900000 < jpg.acWordBytes ∧
    ∀ grow : Nat → Nat, (∀ n, n + 1024 ≤ grow n) → ∃ slots, storeCoefs grow jpg = .ok slots := by
  have hb : Bytes (blankFile 248 264 4) := bytes_of_all (by decide +kernel)
  obtain ⟨jpg, h1, h2⟩ := ok_of_test blank_read
  obtain ⟨h2, h3, h4⟩ := of_decide_eq_true h2
  have e1 : ∀ f : Nat × Nat → Nat, (jpg.components.map fun c => f (c.width, c.height)) = List.replicate 4 (f (31, 33)) := fun f => by
    have := congrArg (List.map f) h2
    rw [List.map_map, List.map_replicate] at this
    exact this
  have hl : jpg.components.length = 4 := by
    have := congrArg List.length h2
    simpa using this
  have hn : jpg.blocks = 4092 := by
    unfold JpegData.blocks
    rw [e1 fun x => x.1 * x.2, List.sum_replicate_nat]
    exact (by decide : 4 * (31 * 33) = 4092)
  have hz : estimatedNonzeros (blankFile 248 264 4).length 4092 = .ok 4092 := by
    rw [show (blankFile 248 264 4).length = 117 by decide +kernel]
    unfold estimatedNonzeros
    rw [if_neg (by decide)]
    exact congrArg Run.ok (by decide +kernel)
  have ha : jpg.acWordBytes = 8 * (4 * (2 * (64 * 1023) + 1024 + 3 * 1023)) := by
    unfold JpegData.acWordBytes
    have : (jpg.components.map fun c => 2 * sampleNumNonZeros c.coeffs (c.width * c.height) + 1024 + 3 * (c.width * c.height)) =
        List.replicate 4 (2 * (64 * 1023) + 1024 + 3 * 1023) := by
      refine Eq.trans ?_ (e1 fun x => 2 * (64 * (x.1 * x.2)) + 1024 + 3 * (x.1 * x.2))
      refine List.map_congr_left fun c hc => ?_
      have hc : (c.width, c.height) ∈ List.replicate 4 (31, 33) := h2 ▸ List.mem_map.mpr ⟨c, hc, rfl⟩
      have hc := (List.mem_replicate.mp hc).2
      obtain ⟨hc1, hc2⟩ := Prod.mk.inj hc
      have hs : sampleNumNonZeros c.coeffs (31 * 33) = 64 * (31 * 33) := if_pos (by decide)
      show 2 * sampleNumNonZeros c.coeffs (c.width * c.height) + 1024 + 3 * (c.width * c.height) = 2 * (64 * (c.width * c.height)) + 1024 + 3 * (c.width * c.height)
      rw [hc1, hc2, hs]
    rw [this, List.sum_replicate_nat]
  refine ⟨_, jpg, 2 * estimatedContexts 4 4092 * 9 * 88 + estimatedWords 4 4092 4092 * 8 + 4 * stateSizeInBytes 31, hb, by decide +kernel, h1, fun brotli => ?_, ?_,
    fun grow hg => blank_stored hb h1 h4 grow hg⟩
  · unfold estimateEncoder JpegData.encodePeak
    rw [h3, hn, hz, hl, e1 fun x => stateSizeInBytes x.1]
    dsimp only [Run.bind]
    rw [if_neg (by decide), Nat.zero_max, List.sum_replicate_nat]
    unfold kNumAvrgContexts kHistogramBytes
    rfl
  · rw [ha]
    decide +kernel

/-- Non-vacuity of C64 (3): the sample of two blocks; and 1024 blocks without scans. -/
example : ∃ jpg, readJpeg sampleSequential = .ok jpg ∧ jpg.blocks ≤ 1774 := by
  obtain ⟨jpg, h1, h2⟩ := ok_of_test (f := fun jpg : JpegData => decide (jpg.blocks ≤ 1774)) (r := readJpeg sampleSequential) (by decide +kernel)
  exact ⟨jpg, h1, of_decide_eq_true h2⟩

theorem sample_zero {l : List Int} (h : ∀ v ∈ l, v = 0) {n : Nat} (hn : 1024 ≤ n) : sampleNumNonZeros l n = 0 := by
  have hz : ∀ k, sampleZeros l n k = (n + 4) / 5 := fun k => by
    unfold sampleZeros
    rw [if_neg (by omega), List.countP_eq_length.mpr, List.length_range]
    intro i _
    refine decide_eq_true ?_
    unfold coefAt
    rw [List.getD_eq_getElem?_getD]
    cases hi : l[i * 5 * 64 + k]? with
    | none => rfl
    | some v => exact h v (List.mem_of_getElem? hi)
  unfold sampleNumNonZeros
  rw [if_neg (by omega), List.map_congr_left (g := fun _ => (n + 4) / 5) fun k _ => hz k, List.map_const', List.sum_replicate_nat]
  simp

theorem blank_square : (readJpeg (blankFile 256 256 1)).test (fun jpg => decide ((∀ c ∈ jpg.components, c.width = 32 ∧ c.height = 32) ∧ jpg.blocks = 1024 ∧ 0xda ∉ jpg.markerOrder)) = true := by decide +kernel

example : ∃ data jpg nz, Bytes data ∧ readJpeg data = .ok jpg ∧ estimatedNonzeros data.length jpg.blocks = .ok nz ∧
    (jpg.components.map fun c => sampleNumNonZeros c.coeffs (c.width * c.height)).sum + jpg.blocks / 4 + 1 ≤ nz := by
  obtain ⟨jpg, h1, h2⟩ := ok_of_test blank_square
  obtain ⟨h2, hn, h3⟩ := of_decide_eq_true h2
  have hz := readJpeg_blank h1 h3
  have hs : (jpg.components.map fun c => sampleNumNonZeros c.coeffs (c.width * c.height)) = jpg.components.map fun _ => 0 := List.map_congr_left fun c hc => by
    obtain ⟨e1, e2⟩ := h2 c hc
    exact sample_zero (hz c hc) (by rw [e1, e2])
  refine ⟨_, jpg, 1024, bytes_of_all (by decide +kernel), h1, ?_, ?_⟩
  · rw [hn, show (blankFile 256 256 1).length = 108 by decide +kernel]
    unfold estimatedNonzeros
    rw [if_neg (by decide)]
    exact congrArg Run.ok (by decide +kernel)
  · rw [hs, hn, List.map_const', List.sum_replicate_nat]
    omega

/-! ## Metadata -/

theorem transformAppAt_length {ref s o : List Nat} {k code : Nat} (hr : 2 ≤ ref.length) (h : transformAppAt ref k code s = some o) : o.length ≤ s.length := by
  unfold transformAppAt at h
  split at h
  · rename_i hc
    cases h
    rw [hc.1]
    exact hr
  · cases h

theorem transformApp_shorter (s : List Nat) : ((transformApp s).getD s).length ≤ ((transformApp0 s).getD s).length := by
  unfold transformApp
  cases transformApp0 s with
  | some o => exact Nat.le_refl _
  | none =>
    simp only [Option.getD_none]
    cases h2 : transformAppAt appDatae2 84 0x80 s with
    | some o => exact transformAppAt_length (by decide +kernel) h2
    | none =>
      simp only
      cases h3 : transformAppAt appDataec 15 0x81 s with
      | some o => exact transformAppAt_length (by decide +kernel) h3
      | none =>
        simp only
        cases h4 : transformAppAt appDataee 10 0x82 s with
        | some o => exact transformAppAt_length (by decide +kernel) h4
        | none => exact Nat.le_refl _

/-- **C64 (4), metadata.** If nothing follows the end of the image, the estimate covers what Brotli needs for the metadata that it is given.
Missing: bytes after the end of the image, which are metadata, too (`C64_metadata_false`). -/
theorem C64_metadata_partial (brotli : Nat → Nat) (hmono : ∀ a b, a ≤ b → brotli a ≤ brotli b) (jpg : JpegData) (ht : jpg.tailData = []) (size n : Nat)
    (he : estimateEncoder brotli size jpg = .ok n) (text : List Nat) (hm : joinMetadata jpg.appData jpg.comData jpg.tailData = some text) (h2 : 2 ≤ text.length) :
    brotli text.length ≤ n := by
  have hle : text.length ≤ jpg.metadataBytes := by
    unfold joinMetadata at hm
    simp only at hm
    split at hm
    · cases hm
    split at hm
    · cases hm
    split at hm
    · cases hm
    rw [List.append_nil] at hm
    cases hm
    rw [List.length_append, List.length_flatten, List.length_flatMap]
    exact Nat.add_le_add_right (sum_mono (fun s _ => transformApp_shorter s)) _
  unfold estimateEncoder at he
  obtain ⟨peak, -, he⟩ := Run.bind_ok he
  cases he
  rw [if_pos (by omega)]
  exact Nat.le_trans (hmono _ _ hle) (Nat.le_max_left _ _)

/-- A file with a comment of three bytes. -/
example : (readJpeg ([0xFF, 0xD8, 0xFF, 0xFE, 0, 5, 7, 8, 9] ++ (blankFile 8 8 1).drop 2)).test (fun jpg => decide (jpg.tailData = [] ∧
    joinMetadata jpg.appData jpg.comData jpg.tailData = some [0xFE, 0, 5, 7, 8, 9] ∧ jpg.metadataBytes = 6)) = true := by decide +kernel

theorem tail_read : (readJpeg (blankFile 8 8 1 ++ [1, 2, 3])).test (fun jpg => decide (jpg.metadataBytes = 0 ∧
    joinMetadata jpg.appData jpg.comData jpg.tailData = some [0xD9, 1, 2, 3])) = true := by decide +kernel

/-- **C64 is false of the code (metadata)**: bytes after the end of the image are given to Brotli, but the estimate does not ask Brotli at all. -/
theorem C64_metadata_false : ∃ data jpg text, Bytes data ∧ readJpeg data = .ok jpg ∧ joinMetadata jpg.appData jpg.comData jpg.tailData = some text ∧ 2 ≤ text.length ∧
    ∀ brotli brotli' size, estimateEncoder brotli size jpg = estimateEncoder brotli' size jpg := by
  obtain ⟨jpg, h1, h2⟩ := ok_of_test tail_read
  obtain ⟨h2, h3⟩ := of_decide_eq_true h2
  refine ⟨_, jpg, _, bytes_of_all (by decide +kernel), h1, h3, by decide, fun b b' size => ?_⟩
  unfold estimateEncoder
  rw [h2]
  rfl

end Brunsli
