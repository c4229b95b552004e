import Verif.GroupBig
import Verif.PropsQ
/-!
# C50: the groups mode is lossless; C51: room for its parts
-/

namespace Brunsli

open Groups

/-! ## C50 -/

/-- **C50**: what `EncodeGroups` writes for a JPEG file is decoded by `DecodeGroups` with the same group dimensions, in whatever order its tasks are
run, to data from which the file is written again byte for byte. -/
theorem C50_groups_roundtrip (par : Codec) (hl : par.Lossless) (hcl : par.Clusters) (data : List Nat) (hd : Bytes data) (jpg : JpegData) (hr : readJpeg data = .ok jpg)
    (hm : maxEncodedSize jpg < 2 ^ 63) (acDim dcDim cap : Nat) (out : List Nat) (h : encodeGroups par acDim dcDim cap jpg = .ok out)
    (dcOrder acOrder : List Nat) (hdo : dcOrder.Perm (List.range (jpg.header.tasks dcDim))) (hao : acOrder.Perm (List.range (jpg.header.tasks acDim))) :
    ∃ jpg', decodeGroups par acDim dcDim dcOrder acOrder out = .ok jpg' ∧ ∀ T, ∃ chunks, writeJpeg T jpg' = .ok chunks ∧ chunks.flatten = data := by
  refine ⟨_, decodeGroups_encodeGroups hl hcl (readJpeg_valid hd hr) hm h hdo hao, fun T => ?_⟩
  rw [writeJpeg_stored]
  exact readJpeg_writeJpeg hd hr T

/-- **C50 (schedules)**: the decoder's result does not depend on the order of its tasks. -/
theorem C50_schedules (par : Codec) (hl : par.Lossless) (hcl : par.Clusters) (data : List Nat) (hd : Bytes data) (jpg : JpegData) (hr : readJpeg data = .ok jpg)
    (hm : maxEncodedSize jpg < 2 ^ 63) (acDim dcDim cap : Nat) (out : List Nat) (h : encodeGroups par acDim dcDim cap jpg = .ok out)
    (dcOrder acOrder dcOrder' acOrder' : List Nat) (hdo : dcOrder.Perm (List.range (jpg.header.tasks dcDim))) (hao : acOrder.Perm (List.range (jpg.header.tasks acDim)))
    (hdo' : dcOrder'.Perm (List.range (jpg.header.tasks dcDim))) (hao' : acOrder'.Perm (List.range (jpg.header.tasks acDim))) :
    decodeGroups par acDim dcDim dcOrder acOrder out = decodeGroups par acDim dcDim dcOrder' acOrder' out := by
  rw [decodeGroups_encodeGroups hl hcl (readJpeg_valid hd hr) hm h hdo hao, decodeGroups_encodeGroups hl hcl (readJpeg_valid hd hr) hm h hdo' hao']

/-- **C50 (real clustering)**: with the clustering and normalisation of the code, and any Brotli that decompresses what it compressed. -/
theorem C50_real (F : Arith) (hF : F.Ok) (L : Nat → ℚ) (hL : LogOk L) (compress : Nat → List Nat → Option (List Nat)) (decompress : List Nat → Option (List (List Nat)))
    (hbrotli : ∀ room data packed, compress room data = some packed → packed ≠ [] ∧ ∃ chunks, decompress packed = some chunks ∧ chunks.flatten = data)
    (data : List Nat) (hd : Bytes data) (jpg : JpegData) (hr : readJpeg data = .ok jpg) (hm : maxEncodedSize jpg < 2 ^ 63) (acDim dcDim cap : Nat) (out : List Nat)
    (h : encodeGroups (realCodec F L compress decompress) acDim dcDim cap jpg = .ok out)
    (dcOrder acOrder : List Nat) (hdo : dcOrder.Perm (List.range (jpg.header.tasks dcDim))) (hao : acOrder.Perm (List.range (jpg.header.tasks acDim))) :
    ∃ jpg', decodeGroups (realCodec F L compress decompress) acDim dcDim dcOrder acOrder out = .ok jpg' ∧
      ∀ T, ∃ chunks, writeJpeg T jpg' = .ok chunks ∧ chunks.flatten = data :=
  C50_groups_roundtrip (realCodec F L compress decompress) hbrotli (realCodec_clusters hF hL _ _) data hd jpg hr hm acDim dcDim cap out h dcOrder acOrder hdo hao

/-! ## C51 -/

/-- C51 is false: with the dimensions `cbrunsli` uses, and however large the caller's buffer is, there is a well-formed JPEG file on which the encoder leaves one of the
buffers it allocates for the parts. -/
theorem C51_overrun_false (par : Codec) (hl : par.Lossless) (hcl : par.Clusters) (hw : par.Works) (cap : Nat) (hcap : 2 ^ 27 ≤ cap) :
    ∃ data jpg, Bytes data ∧ readJpeg data = .ok jpg ∧ encodeGroups par 32 128 cap jpg = .ub := by
  obtain ⟨N, hN⟩ : ∃ N, 1024 * 1024 = N := ⟨_, rfl⟩
  obtain ⟨f, jpg, hf, h1, h2⟩ := exists_group_overrun hl hcl hw hN (cap := cap) (by omega)
  exact ⟨bigFile f N, jpg, (bigFile_data hf N).bytes, h1, h2⟩

/-- C51 is false for the clustering of the code. -/
theorem C51_real_false (F : Arith) (hF : F.Ok) (L : Nat → ℚ) (hL : LogOk L) (compress : Nat → List Nat → Option (List Nat)) (decompress : List Nat → Option (List (List Nat)))
    (hbrotli : ∀ room data packed, compress room data = some packed → packed ≠ [] ∧ ∃ chunks, decompress packed = some chunks ∧ chunks.flatten = data)
    (cap : Nat) (hcap : 2 ^ 27 ≤ cap) :
    ∃ data jpg, Bytes data ∧ readJpeg data = .ok jpg ∧ encodeGroups (realCodec F L compress decompress) 32 128 cap jpg = .ub :=
  C51_overrun_false (realCodec F L compress decompress) hbrotli (realCodec_clusters hF hL _ _) (realCodec_works hF hL _ _) cap hcap

/-- C51 for small images: if the common part fits its buffer, the DC and AC parts of an image of few blocks fit theirs, and the encoder succeeds as soon as the caller's
buffer has room for all parts.  The bounds on the number of blocks are those of the proof. -/
theorem C51_small_images_partial (par : Codec) (hcl : par.Clusters) (hw : par.Works) (data : List Nat) (hd : Bytes data) (jpg : JpegData) (hr : readJpeg data = .ok jpg)
    (acDim dcDim : Nat) (hdims : dimsOk acDim dcDim (maxFactor (jpg.header.comps.map Prod.fst)) (maxFactor (jpg.header.comps.map Prod.snd)) = some true) (hdc0 : dcDim ≠ 0)
    (hp : jpg.GroupPredictable dcDim) (hb : jpg.blocks ≤ 98)
    (hcommon : ∀ c, groupCoefs par acDim dcDim jpg = .ok c → ∃ r, groupCommon par (groupCommonSize jpg) jpg c = .ok r) (cap : Nat)
    (hcap : groupCommonSize jpg + (jpg.header.tasks dcDim * groupDcSize jpg + jpg.header.tasks acDim * groupAcSize jpg) ≤ cap) :
    ∃ out, encodeGroups par acDim dcDim cap jpg = .ok out := by
  have hv := readJpeg_valid hd hr
  obtain ⟨hn1, hn4⟩ := hv.ncomp
  obtain ⟨⟨hac0, hac1, hac2⟩, ⟨hdcp, hdc1, hdc2⟩, hmH, hmV⟩ := C36_checked_dims acDim dcDim _ _ hdc0 hdims
  have hda : jpg.header.DimOk acDim := ⟨hac0, hac1, hac2, hmH, hmV⟩
  have hdd : jpg.header.DimOk dcDim := ⟨hdcp, hdc1, hdc2, hmH, hmV⟩
  obtain ⟨c, tabs, bits, ok⟩ := groupCoefs_some hcl hw hv hda hdd hp (by omega)
  obtain ⟨⟨tabs', common⟩, e1⟩ := hcommon c ok.coefs
  obtain ⟨rfl, l1⟩ := groupCommon_ok ok.hist e1
  have k1 : base128Size (groupDcSize jpg) ≤ 9 := base128Size_le9 (by unfold groupDcSize; omega)
  have k2 : base128Size (groupAcSize jpg) ≤ 9 := base128Size_le9 (by unfold groupAcSize; omega)
  obtain ⟨dcs, e2, n2, q2⟩ := Run.each_with (Q := fun s => Bytes s ∧ s.length ≤ groupDcSize jpg)
    (f := groupPart (groupDcSize jpg) 7 fun ctx => tabs.getD (c.map.getD ctx 0) []) (l := c.dc) fun ops ho => by
      obtain ⟨ws, h, hl⟩ := ok.dc ops ho
      refine (groupPart_run (cap := groupDcSize jpg) (tag := 7) (by decide) h).resolve_right fun ⟨hc, _⟩ => ?_
      unfold groupDcSize at *; omega
  obtain ⟨acs, e3, n3, q3⟩ := Run.each_with (Q := fun s => Bytes s ∧ s.length ≤ groupAcSize jpg)
    (f := groupPart (groupAcSize jpg) 8 fun ctx => tabs.getD (c.map.getD ctx 0) []) (l := c.ac) fun ops ho => by
      obtain ⟨ws, h, hl⟩ := ok.ac ops ho
      refine (groupPart_run (cap := groupAcSize jpg) (tag := 8) (by decide) h).resolve_right fun ⟨hc, _⟩ => ?_
      unfold groupAcSize at *; omega
  have l2 := flatten_length_le fun s hs => (q2 s hs).2
  have l3 := flatten_length_le fun s hs => (q3 s hs).2
  rw [n2, ok.dcs] at l2
  rw [n3, ok.acs] at l3
  unfold encodeGroups
  rw [hdims]
  dsimp only
  rw [if_neg hdc0, ok.coefs]
  dsimp only [Run.bind]
  rw [e1]
  dsimp only
  rw [e2]
  dsimp only
  rw [e3]
  dsimp only
  rw [if_neg (by rw [List.length_append, List.length_append]; omega)]
  exact ⟨_, rfl⟩

/-! ## The hypotheses are met -/

/-- The common part of a file fits, as one histogram is used for all contexts; its tiles are predictable; and there are few blocks. -/
def smallGroups (acDim dcDim : Nat) (jpg : JpegData) : Bool :=
  decide (dimsOk acDim dcDim (maxFactor (jpg.header.comps.map Prod.fst)) (maxFactor (jpg.header.comps.map Prod.snd)) = some true) && decide (dcDim ≠ 0) &&
  decide (∀ t < jpg.header.tasks dcDim, ∀ q ∈ jpg.components,
    predictDCCoeffs (crop 0 ((jpg.header.geometry (q.hSamp, q.vSamp)).coefPlace dcDim t) ((jpg.header.geometry (q.hSamp, q.vSamp)).size dcDim t * 64) q.coeffs)
      ((jpg.header.geometry (q.hSamp, q.vSamp)).cols dcDim t) ((jpg.header.geometry (q.hSamp, q.vSamp)).lines dcDim t) = true) &&
  decide (jpg.blocks ≤ 98) &&
  (match groupCommon plainCodec (groupCommonSize jpg) jpg ⟨jpg.groupSchemes acDim, List.replicate (contextCount (metas jpg.header (jpg.groupSchemes acDim))) 0, [flatCluster], [], []⟩ with
    | .ok _ => true
    | _ => false) &&
  decide (maxEncodedSize jpg < 2 ^ 63) &&
  decide (groupCommonSize jpg + (jpg.header.tasks dcDim * groupDcSize jpg + jpg.header.tasks acDim * groupAcSize jpg) ≤ 1000000)

def smallGroupsFile (acDim dcDim acTasks : Nat) (data : List Nat) : Bool :=
  match readJpeg data with
  | .ok jpg => smallGroups acDim dcDim jpg && decide (jpg.header.tasks acDim = acTasks)
  | _ => false

theorem smallGroups_accepted {acDim dcDim acTasks : Nat} {data : List Nat} (hd : Bytes data) (h : smallGroupsFile acDim dcDim acTasks data = true) :
    ∃ jpg out, readJpeg data = .ok jpg ∧ maxEncodedSize jpg < 2 ^ 63 ∧ jpg.header.tasks acDim = acTasks ∧ encodeGroups plainCodec acDim dcDim 1000000 jpg = .ok out := by
  unfold smallGroupsFile at h
  split at h
  swap
  · cases h
  rename_i jpg hr
  simp only [smallGroups, Bool.and_eq_true, decide_eq_true_eq] at h
  obtain ⟨⟨⟨⟨⟨⟨⟨h1, h2⟩, h3⟩, h4⟩, h5⟩, h6⟩, h7⟩, h8⟩ := h
  obtain ⟨out, ho⟩ := C51_small_images_partial plainCodec plainCodec_clusters plainCodec_works data hd jpg hr acDim dcDim h1 h2 h3 h4 (fun c hc => by
    unfold groupCoefs at hc
    obtain ⟨quants, -, hc⟩ := Run.bind_ok hc
    dsimp only at hc
    obtain ⟨dc, -, hc⟩ := Run.bind_ok hc
    obtain ⟨ac, -, hc⟩ := Run.bind_ok hc
    obtain ⟨⟨map, clusters⟩, hclu, hc⟩ := Run.bind_ok hc
    cases hc
    have e := Run.orUb_ok hclu
    simp only [plainCodec, Option.some.injEq, Prod.mk.injEq, (countSymbols_length _ _).1] at e
    obtain ⟨rfl, rfl⟩ := e
    split at h5
    · rename_i r hg
      exact ⟨r, hg⟩
    · cases h5) 1000000 h7
  exact ⟨jpg, out, hr, h6, h8, ho⟩

/-- C50 applies to the sequential sample file with two AC tasks, run in the wrong order. -/
example : ∃ jpg out, readJpeg sampleSequential = .ok jpg ∧ encodeGroups plainCodec 1 2 1000000 jpg = .ok out ∧ ∃ jpg', decodeGroups plainCodec 1 2 [0] [1, 0] out = .ok jpg' ∧
    ∀ T, ∃ chunks, writeJpeg T jpg' = .ok chunks ∧ chunks.flatten = sampleSequential := by
  have hb : Bytes sampleSequential := bytes_of_all (by decide +kernel)
  obtain ⟨jpg, out, h1, h2, h3, h4⟩ := smallGroups_accepted hb (acDim := 1) (dcDim := 2) (acTasks := 2) (by decide +kernel)
  obtain ⟨_, _, h1', _, h3', _⟩ := smallGroups_accepted hb (acDim := 2) (dcDim := 2) (acTasks := 1) (by decide +kernel)
  rw [h1] at h1'
  cases h1'
  exact ⟨jpg, out, h1, h4, C50_groups_roundtrip plainCodec plainCodec_lossless plainCodec_clusters _ hb jpg h1 h2 1 2 1000000 out h4 [0] [1, 0]
    (by rw [h3']; exact List.Perm.refl _) (by rw [h3]; exact List.Perm.swap 0 1 [])⟩

/-! ## C52 -/

/-- A signature, the header of an image of one block and four sections of unknown kinds. -/
def bareGroups : List Nat := [10, 4, 66, 210, 213, 78, 18, 8, 8, 8, 16, 8, 24, 0, 32, 0, 82, 0, 90, 0, 98, 0, 106, 0]

/-- C52 is false: 24 bytes without tables, with the dimensions `dbrunsli` uses: a quantization table that does not exist is read. -/
theorem C52_hostile_false (par : Codec) (dcOrder acOrder : List Nat) : Bytes bareGroups ∧ decodeGroups par 32 128 dcOrder acOrder bareGroups = .ub := by
  refine ⟨bytes_of_all (by decide), ?_⟩
  have h1 : splitSections 6 bareGroups = some ([[10, 4, 66, 210, 213, 78], [18, 8, 8, 8, 16, 8, 24, 0, 32, 0], [82, 0], [90, 0], [98, 0], [106, 0]], []) := by decide +kernel
  have h2 : readCommon par [[10, 4, 66, 210, 213, 78], [18, 8, 8, 8, 16, 8, 24, 0, 32, 0], [82, 0], [90, 0], [98, 0], [106, 0]].flatten =
      some (SectState.init ⟨0, 8, 8, [(1, 1)]⟩) := by rfl
  unfold decodeGroups
  rw [if_neg (by decide), if_neg (by decide), if_neg (by decide), if_neg (by decide), h1]
  dsimp only
  rw [h2]
  rfl

/-- C52 is false for the group dimension 0 as well. -/
theorem C52_zero_dimension_false (par : Codec) (dcDim : Nat) (h : notPowerOfTwo dcDim = false) (dcOrder acOrder data : List Nat) :
    decodeGroups par 0 dcDim dcOrder acOrder data = .ub := by
  unfold decodeGroups
  rw [if_neg (by decide), if_neg (by rw [h]; decide), if_pos rfl]

example : notPowerOfTwo 128 = false := by decide

end Brunsli
