import Verif.PropsV
import Verif.GroupSafe
/-!
# C52: the groups decoder with tables; C53: its result is the same in any schedule
-/

namespace Brunsli

open Groups

/-! ## C52 -/

/-- C52 for inputs with tables (1): with positive dimensions, and if the common part contains quantization tables and histograms, the decoder accepts or rejects the input. -/
theorem C52_driver_partial (par : Codec) (acDim dcDim : Nat) (ha : acDim ≠ 0) (hd : dcDim ≠ 0) (data dcOrder acOrder : List Nat)
    (ht : ∀ chunk rest s, splitSections 6 data = some (chunk, rest) → readCommon par chunk.flatten = some s → s.quant.isSome ∧ s.hist.isSome) :
    decodeGroups par acDim dcDim dcOrder acOrder data ≠ .ub := decodeGroups_defined ha hd ht

/-- C52 for inputs with tables (2): let the common part contain quantization tables and histograms, whatever they are, and let the dimensions pass the checks.  After any DC tasks
and any AC tasks, whatever was in their parts, a task that is run next leaves no table, whatever words it is given; it finds a histogram for every context; and the
coefficients and flags of its tile are within the arrays. -/
theorem C52_tasks_partial (par : Codec) (common : List Nat) (s : SectState) (hs : readCommon par common = some s) (tabs : List (List Nat)) (idx : List Nat) (r : HistogramData)
    (hq : s.quant = some (tabs, idx)) (hr : s.hist = some r) (acDim dcDim : Nat) (ha : acDim ≠ 0) (hd : dcDim ≠ 0) (hm : dcDim % acDim = 0)
    (h1 : acDim % maxFactor (s.header.comps.map Prod.fst) = 0) (h2 : acDim % maxFactor (s.header.comps.map Prod.snd) = 0) (dcParts acParts : List (List Nat))
    (hal : acParts.length = s.header.tasks acDim) (dcDone acDone : List Nat) (imgs : List (List Int)) (flags : List (List Bool))
    (hdc : dcDone.foldlM (decodeDcTask s.header r dcDim dcParts) (s.header.noImgs, s.header.noFlags) = some (imgs, flags)) :
    let ms := metas s.header r.schemes
    let maps := histMaps r.contextMap r.histograms
    let size := fun c : Nat × Nat => s.header.mcuCols * c.1 * (s.header.mcuRows * c.2)
    (∀ ctx < contextCount ms, (maps ctx).isSome) ∧
    (∀ t < s.header.tasks dcDim, ∀ words, decodeHitsUb maps (decodeDC (contextCount ms) (s.header.tileRows dcDim t) (s.header.tileMetas dcDim t ms)) words = false) ∧
    (∀ (dim : Nat), dim = acDim ∨ dim = dcDim → ∀ t < s.header.tasks dim, ∀ c ∈ s.header.comps, ∀ j < (s.header.geometry c).size dim t, (s.header.geometry c).place dim t j < size c) ∧
    (flags.map List.length = s.header.comps.map size) ∧
    ∀ imgs', acDone.foldlM (decodeAcTask s.header r (idx.map fun i => tabs.getD i []) acDim acParts flags) imgs = some imgs' →
      imgs'.map List.length = s.header.comps.map (fun c => size c * 64) ∧
      ∀ t < s.header.tasks acDim, ∀ words, decodeHitsUb maps (decodeAC (contextCount ms) false (s.header.tileRows acDim t) (s.header.tileMetas acDim t ms)
        (idx.map fun i => tabs.getD i []) (s.header.tileImgs acDim t imgs') (s.header.tileFlags acDim t flags)) words = false := by
  have hc := readCommon_common hs
  have sq := hc.quant _ hq
  have sr := hc.hist _ hr
  obtain ⟨da, dd⟩ := Header.dims_ok (h := s.header) ha hd hm h1 h2
  have lens : ∀ {α : Type} {ln : Nat × Nat → Nat} {L : List (List α)}, SizedAll s.header.comps ln L → L.map List.length = s.header.comps.map ln := by
    intro α ln L hL
    apply List.ext_getElem?
    intro i
    rw [List.getElem?_map, List.getElem?_map]
    cases hk : s.header.comps[i]? with
    | none => rw [List.getElem?_eq_none (by rw [hL.length]; exact List.getElem?_eq_none_iff.mp hk)]; rfl
    | some c =>
      obtain ⟨l, hl⟩ := getOf hL.length.symm hk
      rw [hl, Option.map_some, Option.map_some, hL.each i c l hk hl]
  obtain ⟨hi, hf⟩ := foldlM_keeps (I := fun (st : List (List Int) × List (List Bool)) => s.header.ImgsOk st.1 ∧ s.header.FlagsOk st.2) (fun st t st' hi he => decodeDcTask_ok sr hi he) dcDone
    (s.header.noImgs, s.header.noFlags) (imgs, flags) ⟨s.header.noImgs_ok, s.header.noFlags_sized⟩ hdc
  refine ⟨histMaps_some sr rfl, fun t ht words => decodeHitsUb_false sr.maps (dcTask_all sr) words, ?_, lens hf, fun imgs' hac => ?_⟩
  · rintro dim (rfl | rfl) t ht c hcm j hj
    · exact (s.header.flag_tiling hc.header da c hcm).lt t ht j hj
    · exact (s.header.flag_tiling hc.header dd c hcm).lt t ht j hj
  · have hi' := foldlM_keeps (I := s.header.ImgsOk) (fun imgs t imgs' hi he => decodeAcTask_ok hc.header sr sq da hal hi hf he) acDone imgs imgs' hi hac
    exact ⟨lens hi'.sized, fun t ht words => decodeHitsUb_false sr.maps (acTask_all hc.header sr sq da ht hi' hf) words⟩

/-! ## C53 -/

/-- **C53**: whatever the input is, the groups decoder comes to the same result in every order of its tasks: the same rejection or the same image. -/
theorem C53_schedule_independent (par : Codec) (acDim dcDim : Nat) (data dcOrder dcOrder' acOrder acOrder' : List Nat)
    (hdo : ∀ chunk rest s, splitSections 6 data = some (chunk, rest) → readCommon par chunk.flatten = some s →
      dcOrder.Perm (List.range (s.header.tasks dcDim)) ∧ acOrder.Perm (List.range (s.header.tasks acDim)) ∧
      dcOrder'.Perm (List.range (s.header.tasks dcDim)) ∧ acOrder'.Perm (List.range (s.header.tasks acDim))) :
    decodeGroups par acDim dcDim dcOrder acOrder data = decodeGroups par acDim dcDim dcOrder' acOrder' data := by
  cases h1 : splitSections 6 data with
  | none => unfold decodeGroups; rw [h1]
  | some y =>
    obtain ⟨chunk, rest⟩ := y
    cases h2 : readCommon par chunk.flatten with
    | none => unfold decodeGroups; rw [h1]; dsimp only; rw [h2]
    | some s =>
      obtain ⟨p1, p2, p3, p4⟩ := hdo chunk rest s h1 h2
      refine decodeGroups_order (fun chunk' rest' s' h1' h2' => ?_) (p1.trans p3.symm) (p2.trans p4.symm)
      rw [h1] at h1'
      cases h1'
      rw [h2] at h2'
      cases h2'
      exact ⟨fun t ht => List.mem_range.mp (p1.mem_iff.mp ht), fun t ht => List.mem_range.mp (p2.mem_iff.mp ht)⟩

/-! ## The hypotheses are met -/

/-- `sampleSequential` as the groups encoder writes it with both dimensions 1: two DC and two AC parts. -/
def twoTiles : List Nat :=
  [10, 4, 66, 210, 213, 78, 18, 8, 8, 16, 16, 8, 24, 8, 32, 0, 34, 152, 0, 27, 64, 116, 254, 175, 101, 1, 0, 64, 24, 41, 60, 246, 1, 126, 0, 0, 1, 104, 130, 247, 2, 7, 8,
   26, 139, 128, 0, 9, 1, 254, 0, 5, 1, 2, 3, 217, 1, 2, 42, 129, 0, 32, 50, 141, 128, 0, 224, 7, 0, 0, 0, 0, 182, 109, 219, 182, 109, 219, 6,
   58, 138, 128, 0, 91, 1, 152, 108, 0, 0, 252, 121, 255, 255, 58, 138, 128, 0, 19, 0, 0, 0, 0, 0, 255, 73, 255, 255,
   66, 138, 128, 0, 14, 1, 16, 56, 0, 0, 95, 171, 140, 123, 66, 138, 128, 0, 19, 0, 0, 0, 0, 0, 255, 255, 255, 255]

/-- What is in the common part of an input: whether there are tables, and the numbers of tasks. -/
def groupsCommon (acDim dcDim : Nat) (data : List Nat) : Option (Bool × Nat × Nat) :=
  match splitSections 6 data with
  | none => none
  | some (chunk, _) => (readCommon plainCodec chunk.flatten).map fun s => (s.quant.isSome && s.hist.isSome, s.header.tasks dcDim, s.header.tasks acDim)

theorem groupsCommon_spec {acDim dcDim : Nat} {data : List Nat} {x : Bool × Nat × Nat} (h : groupsCommon acDim dcDim data = some x) : ∀ chunk rest s,
    splitSections 6 data = some (chunk, rest) → readCommon plainCodec chunk.flatten = some s → (s.quant.isSome && s.hist.isSome) = x.1 ∧ s.header.tasks dcDim = x.2.1 ∧ s.header.tasks acDim = x.2.2 := by
  intro chunk rest s h1 h2
  unfold groupsCommon at h
  rw [h1] at h
  dsimp only at h
  rw [h2] at h
  cases h
  exact ⟨rfl, rfl, rfl⟩

theorem twoTiles_common : groupsCommon 1 1 twoTiles = some (true, 2, 2) := by decide +kernel

/-- With tables the decoder is defined: C52 applies to this input. -/
example : decodeGroups plainCodec 1 1 [1, 0] [0, 1] twoTiles ≠ .ub :=
  C52_driver_partial plainCodec 1 1 (by decide) (by decide) twoTiles _ _ fun chunk rest s h1 h2 => by
    have := (groupsCommon_spec twoTiles_common chunk rest s h1 h2).1
    simpa using this

/-- C53 applies to it. -/
example : decodeGroups plainCodec 1 1 [1, 0] [0, 1] twoTiles = decodeGroups plainCodec 1 1 [0, 1] [1, 0] twoTiles :=
  C53_schedule_independent plainCodec 1 1 twoTiles _ _ _ _ fun chunk rest s h1 h2 => by
    obtain ⟨-, e1, -⟩ := groupsCommon_spec twoTiles_common chunk rest s h1 h2
    rw [e1]
    exact ⟨List.Perm.swap 0 1 [], List.Perm.refl _, List.Perm.refl _, List.Perm.swap 0 1 []⟩

/-- It is decoded to the file it was made from, the second tiles first; with a flipped bit in the last part it is rejected. -/
example : (match decodeGroups plainCodec 1 1 [1, 0] [1, 0] twoTiles with
    | .ok jpg =>
      match writeJpeg (fun _ => ⟨fun _ => 0, fun _ => 0⟩) jpg with
      | .ok chunks => chunks.flatten == sampleSequential
      | _ => false
    | _ => false) = true ∧
    (match decodeGroups plainCodec 1 1 [0, 1] [0, 1] (twoTiles.set 130 1) with
    | .fail => true
    | _ => false) = true := by
  decide +kernel

/-- A state that C52 (2) speaks of: after one DC task and an AC task. -/
example : (match splitSections 6 twoTiles with
    | some (chunk, rest) =>
      match readCommon plainCodec chunk.flatten, splitSections 4 rest with
      | some s, some (parts, _) =>
        match s.quant, s.hist with
        | some (tabs, idx), some r =>
          match [1].foldlM (decodeDcTask s.header r 1 (parts.take 2)) (s.header.noImgs, s.header.noFlags) with
          | some (imgs, flags) => ([1].foldlM (decodeAcTask s.header r (idx.map fun i => tabs.getD i []) 1 (parts.drop 2) flags) imgs).isSome
          | none => false
        | _, _ => false
      | _, _ => false
    | none => false) = true := by
  decide +kernel

end Brunsli
