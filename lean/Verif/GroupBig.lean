import Verif.GroupAccept
/-!
# The buffers of the groups encoder are too small for some files
-/

namespace Brunsli

open Groups

theorem BigJpeg.shape {jpg : JpegData} (h : BigJpeg jpg) (hv : jpg.Valid) : jpg.header.comps = [(1, 1)] ∧ jpg.header.mcuCols = 1024 ∧ jpg.header.mcuRows = 1024 := by
  obtain ⟨c, h1, h2, h3, h4, h5, -⟩ := h.comps
  have hm : c ∈ jpg.components := by rw [h1]; exact List.mem_singleton_self c
  have e1 := hv.width c hm
  have e2 := hv.height c hm
  refine ⟨?_, by rw [h2] at e1; omega, by rw [h3] at e2; omega⟩
  simp [JpegData.header, h1, h2, h3]

theorem BigJpeg.tasks {jpg : JpegData} (h : BigJpeg jpg) (hv : jpg.Valid) : jpg.header.tasks 32 = 1024 ∧ jpg.header.tasks 128 = 64 := by
  obtain ⟨h1, h2, h3⟩ := h.shape hv
  unfold Header.tasks
  rw [h1, h2, h3]
  decide

theorem BigJpeg.groupPredictable {jpg : JpegData} (h : BigJpeg jpg) (dim : Nat) : jpg.GroupPredictable dim := by
  obtain ⟨c, h1, -, -, -, -, h4⟩ := h.comps
  intro t _ q hq
  rw [h1, List.mem_singleton] at hq
  subst hq
  refine predictDCCoeffs_zero (by rw [crop_length]; rfl) fun i => ?_
  unfold crop
  rw [List.getD_eq_getElem?_getD, List.getElem?_map]
  by_cases hi : 64 * i < (jpg.header.geometry (q.hSamp, q.vSamp)).size dim t * 64
  · rw [List.getElem?_range hi, Option.map_some, Option.getD_some]
    unfold Geometry.coefPlace
    rw [Nat.mul_mod_right, Nat.add_zero, Nat.mul_comm _ 64]
    exact h4 _
  · rw [List.getElem?_eq_none (by rw [List.length_range]; omega)]
    rfl

/-- The size of all buffers for such a file. -/
theorem BigJpeg.room {jpg : JpegData} (h : BigJpeg jpg) (hv : jpg.Valid) :
    groupCommonSize jpg + (jpg.header.tasks 128 * groupDcSize jpg + jpg.header.tasks 32 * groupAcSize jpg) = 67260416 := by
  obtain ⟨h1, h2⟩ := h.tasks hv
  obtain ⟨c, hc, -⟩ := h.comps
  unfold groupCommonSize groupDcSize groupAcSize
  rw [h1, h2, h.inter, h.app, h.com, h.tail, hc]
  simp

theorem encodeGroups_big {par : Codec} (hcl : par.Clusters) (hw : par.Works) {f : Nat → Nat} (hf : ∀ i, f i < 2040) {N : Nat} (hN : 1024 * 1024 = N) {cap : Nat}
    (hcap : 67260416 ≤ cap) : ∃ jpg, readJpeg (bigFile f N) = .ok jpg ∧ jpg.header.tasks 32 = 1024 ∧ jpg.header.tasks 128 = 64 ∧ maxEncodedSize jpg < 2 ^ 63 ∧
      ((∃ out, encodeGroups par 32 128 cap jpg = .ok out ∧ Bytes out ∧ out.length ≤ 67260416) ∨ encodeGroups par 32 128 cap jpg = .ub) := by
  obtain ⟨jpg, hj, hb⟩ := bigFile_read hf hN
  have hv := readJpeg_valid (bigFile_data hf N).bytes hj
  obtain ⟨inner, he⟩ := hb.encodable hv par
  have hroom := hb.room hv
  refine ⟨jpg, hj, (hb.tasks hv).1, (hb.tasks hv).2, by rw [hb.max]; omega, ?_⟩
  have hib : Bytes inner := encodeInternals_bytes he.internals (by
    show ∀ s ∈ jpg.interMarker, Bytes s
    rw [hb.inter]; simp)
  have := encodeGroups_run hcl hw he hib ⟨hb.app, hb.com, hb.tail⟩ (acDim := 32) (dcDim := 128) (by rw [(hb.shape hv).1]; decide) (by decide) (hb.groupPredictable 128)
    (cap := cap) (by rw [hroom]; exact hcap)
  rwa [hroom] at this

/-- Outputs of the groups encoder determine the file. -/
theorem encodeGroups_inj {par : Codec} (hl : par.Lossless) (hcl : par.Clusters) {acDim dcDim cap : Nat} {d d' out : List Nat} (hd : Bytes d) (hd' : Bytes d')
    {jpg jpg' : JpegData} (hr : readJpeg d = .ok jpg) (hr' : readJpeg d' = .ok jpg') (hm : maxEncodedSize jpg < 2 ^ 63) (hm' : maxEncodedSize jpg' < 2 ^ 63)
    (ht1 : jpg.header.tasks dcDim = jpg'.header.tasks dcDim) (ht2 : jpg.header.tasks acDim = jpg'.header.tasks acDim) (h : encodeGroups par acDim dcDim cap jpg = .ok out) (h' : encodeGroups par acDim dcDim cap jpg' = .ok out) : d = d' := by
  have h1 := decodeGroups_encodeGroups hl hcl (readJpeg_valid hd hr) hm h (List.Perm.refl _) (List.Perm.refl _)
  have h2 := decodeGroups_encodeGroups hl hcl (readJpeg_valid hd' hr') hm' h' (List.Perm.refl _) (List.Perm.refl _)
  rw [ht1, ht2, h2] at h1
  injection h1 with e
  obtain ⟨cs, h3, h4⟩ := readJpeg_writeJpeg hd hr fun _ => ⟨fun _ => 0, fun _ => 0⟩
  obtain ⟨cs', h3', h4'⟩ := readJpeg_writeJpeg hd' hr' fun _ => ⟨fun _ => 0, fun _ => 0⟩
  rw [← writeJpeg_stored] at h3 h3'
  rw [e, h3] at h3'
  cases h3'
  rw [← h4, ← h4']

/-- Some of these files make the groups encoder leave one of its buffers. -/
theorem exists_group_overrun {par : Codec} (hl : par.Lossless) (hcl : par.Clusters) (hw : par.Works) {N : Nat} (hN : 1024 * 1024 = N) {cap : Nat} (hcap : 67260416 ≤ cap) :
    ∃ (f : Nat → Nat) (jpg : JpegData), (∀ i, f i < 2040) ∧ readJpeg (bigFile f N) = .ok jpg ∧ encodeGroups par 32 128 cap jpg = .ub := by
  by_contra hno
  let ext (f : _root_.Fin (63 * N) → _root_.Fin 2040) (i : Nat) : Nat := if h : i < 63 * N then (f ⟨i, h⟩).val else 0
  have hext : ∀ f i, ext f i < 2040 := by
    intro f i
    show (if h : i < 63 * N then (f ⟨i, h⟩).val else 0) < 2040
    split
    · exact (f _).isLt
    · omega
  have hall : ∀ f, ∃ out, (∃ jpg, readJpeg (bigFile (ext f) N) = .ok jpg ∧ jpg.header.tasks 32 = 1024 ∧ jpg.header.tasks 128 = 64 ∧ maxEncodedSize jpg < 2 ^ 63 ∧
      encodeGroups par 32 128 cap jpg = .ok out) ∧ Bytes out ∧ out.length ≤ 67260416 := by
    intro f
    obtain ⟨jpg, e1, e2, e3, e4, e5⟩ := encodeGroups_big hcl hw (hext f) hN hcap
    rcases e5 with ⟨out, a, b, c⟩ | h
    · exact ⟨out, ⟨jpg, e1, e2, e3, e4, a⟩, b, c⟩
    · exact absurd ⟨ext f, jpg, hext f, e1, h⟩ hno
  obtain ⟨f, g, hne, hfg⟩ := pigeon (N := N) (L := 67260416) (by omega) (by omega) (fun f => (hall f).choose)
    (fun f => (hall f).choose_spec.2.1) (fun f => (hall f).choose_spec.2.2)
  obtain ⟨j1, a1, a2, a3, a4, a5⟩ := (hall f).choose_spec.1
  obtain ⟨j2, b1, b2, b3, b4, b5⟩ := (hall g).choose_spec.1
  rw [← hfg] at b5
  have he := encodeGroups_inj hl hcl (bigFile_data (hext f) N).bytes (bigFile_data (hext g) N).bytes a1 b1 a4 b4 (by rw [a3, b3]) (by rw [a2, b2]) a5 b5
  apply hne
  funext i
  have := bigFile_inj he i.isLt
  have e : ∀ f, ext f i.val = (f i).val := by
    intro f
    show (if h : i.val < 63 * N then (f ⟨i.val, h⟩).val else 0) = _
    rw [dif_pos i.isLt]
  rw [e, e] at this
  exact _root_.Fin.ext this

end Brunsli
