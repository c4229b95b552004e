import Verif.GroupRound
import Verif.PropsI
/-!
# Files of the groups mode: the decoder finds the parts, and the round trip
-/

namespace Brunsli

open Groups

/-! ## Sections -/

/-- The piece is skipped as a whole. -/
def Framed (s : List Nat) : Prop := ∀ rest, skipSection (s ++ rest) = some rest

theorem splitSections_framed : ∀ (l : List (List Nat)) (rest : List Nat), (∀ s ∈ l, Framed s) → splitSections l.length (l.flatten ++ rest) = some (l, rest) := by
  intro l
  induction l with
  | nil => intro rest _; rfl
  | cons s l ih =>
    intro rest h
    rw [List.length_cons, splitSections, List.flatten_cons, List.append_assoc, h s List.mem_cons_self]
    dsimp only
    rw [ih rest fun x hx => h x (List.mem_cons_of_mem _ hx), Option.map_some]
    congr 3
    rw [List.length_append (as := s), Nat.add_sub_cancel, List.take_left']
    rfl

theorem framed_signature : Framed kBrunsliSignature := by
  intro rest
  simp [kBrunsliSignature, skipSection, decodeBase128, decodeBase128Loop]

theorem framed_section {tag k : Nat} {p s : List Nat} (hk : 0 < k) (hk9 : k ≤ 9) (h1 : 0 < tag) (h2 : tag ≤ 15) (h : encodeSection tag k (some p) = some s) : Framed s :=
  fun rest => (encodeSection_frame (rest := rest) (met := []) hk hk9 h1 h2 (by simp) h).2.2.2

theorem sectionsSoFar_step {σ : Type} {body : σ → Nat → List Nat → Option σ} {fuel tag k : Nat} {met p sec rest : List Nat} {s s' : σ}
    (hk : 0 < k) (hk9 : k ≤ 9) (h1 : 0 < tag) (h2 : tag ≤ 6) (h3 : tag ∉ met) (hreq : ∀ r ∈ requires tag, r ∈ met)
    (he : encodeSection tag k (some p) = some sec) (hb : body s tag p = some s') :
    sectionsSoFar body (fuel + 1) met s (sec ++ rest) = sectionsSoFar body fuel (tag :: met) s' rest := by
  obtain ⟨a, b, -, -⟩ := encodeSection_frame (rest := rest) (met := met) hk hk9 h1 (by omega) h3 he
  rw [sectionsSoFar, a]
  dsimp only
  rw [if_pos rfl, b]
  dsimp only
  rw [if_neg (by omega), if_neg, if_neg, if_neg (by simp)]
  · rw [List.take_left' rfl, hb, List.drop_left' rfl]
    dsimp only
    rw [if_neg (by omega)]
  · rintro ⟨hw, -⟩
    unfold wordSection at hw
    simp at hw
    omega
  · intro ha
    obtain ⟨r, hr1, hr2⟩ := List.any_eq_true.mp ha
    exact absurd (hreq r hr1) (by simpa using hr2)

theorem readPart_section {tag k : Nat} {ws s : List Nat} (hk : 0 < k) (hk9 : k ≤ 9) (h1 : 0 < tag) (h2 : tag ≤ 15)
    (h : encodeSection tag k (some (wordBytes ws)) = some s) : readPart tag s = some (wordBytes ws) := by
  obtain ⟨a, b, -, -⟩ := encodeSection_frame (rest := []) (met := (List.range 16).filter (· ≠ tag)) hk hk9 h1 h2 (by simp) h
  rw [List.append_nil] at a
  unfold readPart
  rw [andThen_eq a]
  simp only [↓reduceIte]
  rw [andThen_eq b]
  rw [if_neg (by rw [wordBytes_length]; omega), bytes_append]

/-! ## The common part -/

/-- What `EncodeGroups` writes first, and what the decoder makes of it. -/
theorem common_read {par : Codec} (hl : par.Lossless) {jpg : JpegData} (hv : jpg.Valid) (hm : maxEncodedSize jpg < 2 ^ 63) {c : GroupCoded}
    {tabs : List (List Nat)} {out : List Nat} (h : groupCommon par (groupCommonSize jpg) jpg c = .ok (tabs, out)) :
    ∃ (bits : List Bool) (pieces : List (List Nat)), encodeHistogramData c.schemes c.map c.clusters = some (tabs, bits) ∧ out = pieces.flatten ∧ pieces.length = 6 ∧
      (∀ s ∈ pieces, Framed s) ∧ ∀ r : HistogramData, bits.length % 8 = 0 → decodeHistogramData jpg.header.comps.length bits = some (some r, []) →
        ∃ st, readCommon par out = some ⟨jpg.header, some jpg.internals, st, some (jpg.quant.map QuantTable.values, jpg.components.map Component.quantIdx),
          some r, none, none, false⟩ ∧ st.app = jpg.appData ∧ st.com = jpg.comData ∧ st.tail = jpg.tailData := by
  have hcap : groupCommonSize jpg < 2 ^ 63 := by
    unfold groupCommonSize
    unfold maxEncodedSize estimateAuxDataSize at hm
    omega
  unfold groupCommon at h
  split at h
  · exact absurd h nofun
  obtain ⟨o1, h1, h⟩ := Run.bind_ok h
  obtain ⟨o2, h2, h⟩ := Run.bind_ok h
  obtain ⟨o3, h3, h⟩ := Run.bind_ok h
  obtain ⟨o4, h4, h⟩ := Run.bind_ok h
  obtain ⟨⟨tabs', bits⟩, hh, h⟩ := Run.bind_ok h
  dsimp only at h
  obtain ⟨o5, h5, h⟩ := Run.bind_ok h
  cases h
  obtain ⟨p1, s1, a1, b1, rfl, c1⟩ := putSection_ok h1
  obtain ⟨p2, s2, a2, b2, rfl, c2⟩ := putSection_ok h2
  obtain ⟨p3, s3, a3, b3, rfl, c3⟩ := putSection_ok h3
  obtain ⟨p4, s4, a4, b4, rfl, c4⟩ := putSection_ok h4
  obtain ⟨p5, s5, a5, b5, rfl, c5⟩ := putSection_ok h5
  obtain ⟨qb, e4, rfl⟩ := Option.map_eq_some_iff.mp (Run.orFail_ok a4)
  injection a5 with a5
  subst a5
  have ks : ∀ n, n ≤ groupCommonSize jpg → 0 < base128Size n ∧ base128Size n ≤ 9 := fun n hn => ⟨base128Size_pos n, base128Size_le9 (by omega)⟩
  have k2 : 0 < base128Size (estimateAuxDataSize jpg) ∧ base128Size (estimateAuxDataSize jpg) ≤ 9 :=
    ⟨base128Size_pos _, base128Size_le9 (by unfold maxEncodedSize at hm; omega)⟩
  have k3 := ks _ (Nat.sub_le _ (kBrunsliSignature ++ s1 ++ s2).length)
  have k5 := ks _ (Nat.sub_le _ (kBrunsliSignature ++ s1 ++ s2 ++ s3 ++ s4).length)
  refine ⟨bits, [kBrunsliSignature, s1, s2, s3, s4, s5], Run.orUb_ok hh, by simp, rfl, ?_, ?_⟩
  · intro s hs
    simp only [List.mem_cons, List.not_mem_nil, or_false] at hs
    rcases hs with rfl | rfl | rfl | rfl | rfl | rfl
    · exact framed_signature
    · exact framed_section (by omega) (by omega) (by omega) (by omega) b1
    · exact framed_section k2.1 k2.2 (by omega) (by omega) b2
    · exact framed_section k3.1 k3.2 (by omega) (by omega) b3
    · exact framed_section (by omega) (by omega) (by omega) (by omega) b4
    · exact framed_section k5.1 k5.2 (by omega) (by omega) b5
  · intro r hb8 hr
    have hcomps : jpg.header.comps.length = jpg.components.length := by simp [JpegData.header]
    have ok2 := Run.orFail_ok a2
    obtain ⟨inner, i1, i2⟩ := internals_roundtrip (hv.internals hm ok2)
    rw [ok2] at i1
    cases i1
    have hids : jpg.internals.ids.length = jpg.components.length := by simp [JpegData.internals]
    rw [hids] at i2
    obtain ⟨st, m1, m2, m3, m4⟩ := C12_metadata_roundtrip (par.compress _) par.decompress (hl _) jpg.appData jpg.comData jpg.tailData _
      (fun s hs => hv.app s hs) (fun s hs => hv.com s hs)
      (by
        unfold maxEncodedSize at hm
        rw [List.length_flatten, List.length_flatten]
        omega) (Run.orFail_ok a3)
    have q1 := C08_quant_roundtrip (jpg.quant.map QuantTable.values) (jpg.internals.quant.map fun q => q.2.2) (jpg.components.map Component.quantIdx) qb
      (by simp [JpegData.internals]) (fun t ht => by obtain ⟨q, hq, rfl⟩ := List.mem_map.mp ht; exact (hv.quant q hq).length)
      (fun t ht v hvv => by obtain ⟨q, hq, rfl⟩ := List.mem_map.mp ht; have := (hv.quant q hq).range v hvv; omega)
      (fun c h1 h2 h3 v hvv => by
        have hc : c < jpg.quant.length := by simpa using h1
        have := hv.quant _ (List.getElem_mem hc)
        simp only [JpegData.internals, List.getElem_map] at h3 hvv
        have := this.small h3 v hvv
        omega)
      (fun i hi => by obtain ⟨c, hc, rfl⟩ := List.mem_map.mp hi; simpa using hv.quantIdx c hc) e4
    rw [List.length_map] at q1
    have hqp : qb.length % 8 = 0 := by
      have := e4
      unfold encodeQuantTables at this
      split at this
      · exact absurd this nofun
      · obtain ⟨t, -, e⟩ := Option.map_eq_some_iff.mp this
        rw [← e]
        exact padByte_mod _
    refine ⟨st, ?_, m2, m3, m4⟩
    unfold readCommon
    have hsec : encodeHeaderSection jpg.header = some s1 := by
      unfold encodeHeaderSection
      rw [Run.orFail_ok a1, b1]
    have hrd : Rd.andThen readSignature (fun _ => readHeader [1]) (kBrunsliSignature ++ s1 ++ s2 ++ s3 ++ s4 ++ s5) =
        .ok (jpg.header, [2, 1]) (s2 ++ (s3 ++ (s4 ++ (s5 ++ [])))) := by
      rw [List.append_nil]
      simp only [List.append_assoc]
      rw [andThen_eq readSignature_append]
      exact readHeader_encoded hv.header (by simp) hsec
    rw [hrd]
    dsimp only
    have hver := hv.header.version.2
    rw [if_neg (by omega)]
    rw [sectionsSoFar_step (s' := ⟨jpg.header, some jpg.internals, _, none, none, none, none, false⟩) k2.1 k2.2 (by omega) (by omega) (by simp) (by simp [requires]) b2 (by
      unfold decBody
      rw [if_neg (by decide), if_pos rfl]
      show Option.map _ (decodeInternals (paddingBitsLimit jpg.width jpg.height jpg.header.comps.length) jpg.header.comps.length _) = _
      rw [hcomps, i2]
      rfl)]
    rw [sectionsSoFar_step (s' := ⟨jpg.header, some jpg.internals, st, none, none, none, none, false⟩) k3.1 k3.2 (by omega) (by omega) (by simp) (by simp [requires]) b3 (by
      unfold decBody
      rw [if_pos rfl, m1]
      rfl)]
    rw [sectionsSoFar_step (s' := ⟨jpg.header, some jpg.internals, st, some (jpg.quant.map QuantTable.values, jpg.components.map Component.quantIdx), none, none, none, false⟩)
      (by omega) (by omega) (by omega) (by omega) (by simp) (by simp [requires]) b4 (by
      unfold decBody
      rw [if_neg (by decide), if_neg (by decide), if_pos rfl]
      dsimp only
      rw [hcomps, bytesBits_packBits hqp, q1])]
    rw [sectionsSoFar_step (s' := ⟨jpg.header, some jpg.internals, st, some (jpg.quant.map QuantTable.values, jpg.components.map Component.quantIdx), some r, none, none, false⟩)
      k5.1 k5.2 (by omega) (by omega) (by simp) (by simp [requires]) b5 (by
      unfold decBody
      rw [if_neg (by decide), if_neg (by decide), if_neg (by decide), if_pos rfl]
      dsimp only
      rw [bytesBits_packBits hb8, hr])]
    rw [sectionsSoFar]
    rfl

/-! ## Parts -/

/-- The parts of a stage. -/
theorem parts_ok {cap tag : Nat} (hcap : cap < 2 ^ 63) (h1 : 0 < tag) (h2 : tag ≤ 15) {tab : Nat → List Nat} {l : List (List Op)} {parts : List (List Nat)}
    (h : Run.each (groupPart cap tag tab) l = .ok parts) : parts.length = l.length ∧ (∀ s ∈ parts, Framed s) ∧
      ∀ (t : Nat) (ops : List Op), l[t]? = some ops → ∃ ws, encodeWords tab ops = some ws ∧ readPart tag (parts.getD t []) = some (wordBytes ws) := by
  obtain ⟨e1, e2⟩ := Run.each_ok h
  have key : ∀ (t : Nat) (ops : List Op), l[t]? = some ops → ∃ s ws, parts[t]? = some s ∧ encodeWords tab ops = some ws ∧
      encodeSection tag (base128Size cap) (some (wordBytes ws)) = some s := by
    intro t ops ht
    obtain ⟨s, hs, hp⟩ := e2 t ops ht
    unfold groupPart at hp
    obtain ⟨p, s', a, b, rfl, -⟩ := putSection_ok hp
    obtain ⟨ws, hw, rfl⟩ := Option.map_eq_some_iff.mp (Run.orUb_ok a)
    exact ⟨_, ws, hs, hw, b⟩
  have k1 := base128Size_pos cap
  have k9 := base128Size_le9 hcap
  refine ⟨e1, fun s hs => ?_, fun t ops ht => ?_⟩
  · obtain ⟨t, ht⟩ := List.getElem?_of_mem hs
    obtain ⟨ops, ho⟩ := getOf e1 ht
    obtain ⟨s', ws, h3, -, h4⟩ := key t ops ho
    rw [ht] at h3
    cases h3
    exact framed_section k1 k9 h1 h2 h4
  · obtain ⟨s, ws, h3, h4, h5⟩ := key t ops ht
    refine ⟨ws, h4, ?_⟩
    rw [List.getD_eq_getElem?_getD, h3]
    exact readPart_section k1 k9 h1 h2 h5

/-! ## The round trip -/

theorem groupSchemes_lt (jpg : JpegData) (dim : Nat) : ∀ s ∈ jpg.groupSchemes dim, s < 7 := by
  intro s hs
  obtain ⟨c, -, rfl⟩ := List.mem_map.mp hs
  exact selectContextBits_lt _

/-- **The groups decoder inverts the groups encoder**, in whatever order the tasks are run. -/
theorem decodeGroups_encodeGroups {par : Codec} (hl : par.Lossless) (hcl : par.Clusters) {jpg : JpegData} (hv : jpg.Valid) (hm : maxEncodedSize jpg < 2 ^ 63)
    {acDim dcDim cap : Nat} {out : List Nat} (h : encodeGroups par acDim dcDim cap jpg = .ok out) {dcOrder acOrder : List Nat}
    (hdo : dcOrder.Perm (List.range (jpg.header.tasks dcDim))) (hao : acOrder.Perm (List.range (jpg.header.tasks acDim))) :
    decodeGroups par acDim dcDim dcOrder acOrder out = .ok jpg.stored := by
  unfold encodeGroups at h
  split at h
  · exact absurd h nofun
  · exact absurd h nofun
  rename_i hdims
  split at h
  · exact absurd h nofun
  rename_i hdc0
  obtain ⟨⟨hac0, hac1, hac2⟩, ⟨hdcp, hdc1, hdc2⟩, hmH, hmV⟩ := C36_checked_dims acDim dcDim _ _ hdc0 hdims
  have hda : jpg.header.DimOk acDim := ⟨hac0, hac1, hac2, hmH, hmV⟩
  have hdd : jpg.header.DimOk dcDim := ⟨hdcp, hdc1, hdc2, hmH, hmV⟩
  obtain ⟨c, hc, h⟩ := Run.bind_ok h
  obtain ⟨⟨tabs, common⟩, hcom, h⟩ := Run.bind_ok h
  dsimp only at h
  obtain ⟨dcs, hdcs, h⟩ := Run.bind_ok h
  obtain ⟨acs, hacs, h⟩ := Run.bind_ok h
  split at h
  · exact absurd h nofun
  cases h
  unfold groupCoefs at hc
  obtain ⟨quants, hq, hc⟩ := Run.bind_ok hc
  dsimp only at hc
  obtain ⟨dc, hdc, hc⟩ := Run.bind_ok hc
  obtain ⟨ac, hac, hc⟩ := Run.bind_ok hc
  obtain ⟨⟨map, clusters⟩, hclu, hc⟩ := Run.bind_ok hc
  cases hc
  obtain ⟨dl, dt⟩ := Run.each_range hdc
  obtain ⟨al, at_⟩ := Run.each_range hac
  have hsl : (jpg.groupSchemes acDim).length = jpg.header.comps.length := by rw [jpg.comps_length]; simp [JpegData.groupSchemes]
  have hs := groupSchemes_lt jpg acDim
  generalize hsc : jpg.groupSchemes acDim = schemes at *
  obtain ⟨flags, hfl, hfs, hfe, hft⟩ := flags_whole hv hsl hdd dt
  rw [hfl] at at_
  have hquants : quants = (jpg.components.map Component.quantIdx).map fun i => (jpg.quant.map QuantTable.values).getD i [] := by
    have := quants_eq hv
    rw [Run.orFail_ok hq] at this
    exact Option.some.inj this
  have hlq : quants.length = jpg.header.comps.length := by rw [hquants, jpg.comps_length]; simp
  have hqo : ∀ q ∈ quants, QuantOk q := by
    intro q hq
    rw [hquants] at hq
    obtain ⟨i, hi, rfl⟩ := List.mem_map.mp hq
    obtain ⟨c, hc, rfl⟩ := List.mem_map.mp hi
    have hlt := hv.quantIdx c hc
    rw [List.getD_eq_getElem?_getD, List.getElem?_map, List.getElem?_eq_getElem hlt]
    have := hv.quant _ (List.getElem_mem hlt)
    exact ⟨this.length, fun v hv => this.range v hv⟩
  have hda' : ∀ t < jpg.header.tasks dcDim, ∃ fl ops, dc[t]? = some (fl, ops) ∧ encodeDcTask jpg (metas jpg.header schemes) dcDim t = .ok (fl, ops) := fun t ht => by
    obtain ⟨⟨fl, ops⟩, a, b⟩ := dt t ht
    exact ⟨fl, ops, a, b⟩
  obtain ⟨hops, hgr⟩ := group_symbols hv hsl hs hdd hda hlq hqo hfs hfe dl dt al at_
  have hgr : grand (countSymbols (contextCount (metas jpg.header schemes)) ((dc.map Prod.snd).flatten ++ ac.flatten)) ≤ 2 ^ 29 := by
    have := blocks_le hv
    omega
  -- the common part
  obtain ⟨bits, pieces, hhist, rfl, hpl, hpf, hread⟩ := common_read hl hv hm hcom
  obtain ⟨tabs', bits', hists, hhist', hd1, hd2, huse⟩ := tables_use hcl hsl hv.header.ncomp.2 hs hops hgr (Run.orUb_ok hclu) hv.header.ncomp.1
  dsimp only at hhist
  rw [hhist] at hhist'
  obtain ⟨rfl, rfl⟩ := Prod.mk.inj (Option.some.inj hhist')
  obtain ⟨st, hst, m2, m3, m4⟩ := hread _ hd2 hd1
  have hn4 : jpg.components.length ≤ 4 := by have := hv.header.ncomp.2; rwa [jpg.comps_length] at this
  obtain ⟨dpl, dpf, dpr⟩ := parts_ok (by unfold groupDcSize; omega) (by omega) (by omega) hdcs
  obtain ⟨apl, apf, apr⟩ := parts_ok (by unfold groupAcSize; omega) (by omega) (by omega) hacs
  dsimp only at dpl apl dpr apr
  have hspl1 := splitSections_framed pieces (dcs.flatten ++ acs.flatten) hpf
  rw [hpl] at hspl1
  have hspl2 := splitSections_framed dcs acs.flatten dpf
  rw [dpl, List.length_map, dl] at hspl2
  have hspl3 := splitSections_framed acs [] apf
  rw [apl, al, List.append_nil] at hspl3
  -- the DC stage
  have hft' := jpg.header.flag_tiling hv.header hdd
  have hct := jpg.header.coef_tiling hv.header hdd
  have hcta := jpg.header.coef_tiling hv.header hda
  obtain ⟨⟨im, fl⟩, done, hf1, ⟨mi, mf⟩, hall⟩ := foldlM_perm (f := decodeDcTask jpg.header ⟨schemes, map, hists⟩ dcDim dcs)
    (Inv := fun done (st : List (List Int) × List (List Bool)) =>
      MixedAll jpg.header.comps (jpg.header.tasks dcDim) (fun c => jpg.header.mcuCols * c.1 * (jpg.header.mcuRows * c.2) * 64)
        (fun c t => (jpg.header.geometry c).size dcDim t * 64) (fun c => (jpg.header.geometry c).coefPlace dcDim) done jpg.header.noImgs (jpg.planes.map dcOnly) st.1 ∧
      MixedAll jpg.header.comps (jpg.header.tasks dcDim) (fun c => jpg.header.mcuCols * c.1 * (jpg.header.mcuRows * c.2))
        (fun c => (jpg.header.geometry c).size dcDim) (fun c => (jpg.header.geometry c).place dcDim) done jpg.header.noFlags flags st.2)
    (fun done s t ht hn hi => by
      obtain ⟨fl, ops, a, b⟩ := hda' t ht
      obtain ⟨res, -, -, -, r1, r2, -, r3⟩ := dc_task hv hsl hdd ht b
      obtain ⟨ws, w1, w2⟩ := dpr t ops (by rw [List.getElem?_map, a]; rfl)
      have hmem : ∀ c s, Op.code c s ∈ ops → Op.code c s ∈ (dc.map Prod.snd).flatten ++ ac.flatten := fun c s h =>
        List.mem_append_left _ (List.mem_flatten.mpr ⟨ops, List.mem_map.mpr ⟨_, List.mem_of_getElem? a, rfl⟩, h⟩)
      obtain ⟨ws', v1, v2⟩ := r3 (histTab map hists) fun c s h => ⟨(huse c s (hmem c s h)).1, (huse c s (hmem c s h)).2.1⟩
      rw [encodeWords_congr fun c s h => (huse c s (hmem c s h)).2.2, v1] at w1
      cases w1
      rw [histTab_maps] at v2
      have e : decodeDcTask jpg.header ⟨schemes, map, hists⟩ dcDim dcs s t =
          some (jpg.header.pasteImgs dcDim t (res.map Prod.fst) s.1, jpg.header.pasteFlags dcDim t (res.map Prod.snd) s.2) := by
        unfold decodeDcTask
        dsimp only
        rw [w2, Option.bind_some, v2]
        rfl
      refine ⟨_, e, ?_, ?_⟩
      · rw [r1]
        exact hi.1.step hct jpg.header.noImgs_sized hv.dcPlanes ht 0
      · have e2 := hft t ht
        rw [List.getD_eq_getElem?_getD, a] at e2
        rw [r2, show fl = jpg.header.tileFlags dcDim t flags from e2.symm]
        exact hi.2.step hft' jpg.header.noFlags_sized hfs ht false) hdo (s := (jpg.header.noImgs, jpg.header.noFlags))
    ⟨MixedAll.start jpg.header.noImgs_sized, MixedAll.start jpg.header.noFlags_sized⟩
  have e1 : im = jpg.planes.map dcOnly := mi.all hct jpg.header.noImgs_sized hv.dcPlanes hall
  have e2 : fl = flags := mf.all hft' jpg.header.noFlags_sized hfs hall
  subst e1 e2
  -- the AC stage
  obtain ⟨im, done, hf2, mi, hall⟩ := foldlM_perm (f := decodeAcTask jpg.header ⟨schemes, map, hists⟩ quants acDim acs fl)
    (Inv := fun done (st : List (List Int)) =>
      MixedAll jpg.header.comps (jpg.header.tasks acDim) (fun c => jpg.header.mcuCols * c.1 * (jpg.header.mcuRows * c.2) * 64)
        (fun c t => (jpg.header.geometry c).size acDim t * 64) (fun c => (jpg.header.geometry c).coefPlace acDim) done (jpg.planes.map dcOnly) jpg.planes st)
    (fun done s t ht hn hi => by
      obtain ⟨ops, a, b⟩ := at_ t ht
      obtain ⟨-, -, r3⟩ := ac_task hv hsl hda ht hs hlq hqo hfs hfe b
      obtain ⟨ws, w1, w2⟩ := apr t ops a
      have hmem : ∀ c s, Op.code c s ∈ ops → Op.code c s ∈ (dc.map Prod.snd).flatten ++ ac.flatten := fun c s h =>
        List.mem_append_right _ (List.mem_flatten.mpr ⟨ops, List.mem_of_getElem? a, h⟩)
      obtain ⟨ws', v1, v2⟩ := r3 (histTab map hists) fun c s h => ⟨(huse c s (hmem c s h)).1, (huse c s (hmem c s h)).2.1⟩
      rw [encodeWords_congr fun c s h => (huse c s (hmem c s h)).2.2, v1] at w1
      cases w1
      rw [histTab_maps] at v2
      have hold : jpg.header.tileImgs acDim t s = jpg.header.tileImgs acDim t (jpg.planes.map dcOnly) := hi.crop_old hcta hv.dcPlanes hv.planes ht hn 0
      refine ⟨jpg.header.pasteImgs acDim t (jpg.header.tileImgs acDim t jpg.planes) s, ?_, hi.step hcta hv.dcPlanes hv.planes ht 0⟩
      unfold decodeAcTask
      dsimp only
      rw [w2, Option.bind_some, hold, v2]
      rfl) hao (s := jpg.planes.map dcOnly) (MixedAll.start hv.dcPlanes)
  have e3 : im = jpg.planes := mi.all hcta hv.dcPlanes hv.planes hall
  subst e3
  -- all together
  unfold dimsOk at hdims
  unfold decodeGroups
  split at hdims
  · cases hdims
  rename_i g1
  split at hdims
  · cases hdims
  rename_i g2
  split at hdims
  · cases hdims
  split at hdims
  · cases hdims
  rename_i g4
  rw [if_neg g1, if_neg g2, if_neg (by omega), if_neg g4, hspl1]
  dsimp only
  rw [hst]
  dsimp only
  rw [if_neg (by omega), if_neg (by omega), if_neg hdc0, hspl2]
  dsimp only
  rw [hspl3]
  dsimp only
  rw [if_neg (by simp), hf1]
  dsimp only
  rw [← hquants, hf2]
  dsimp only
  rw [result_restore hv _ rfl rfl rfl rfl m2 m3 m4]
  rfl

end Brunsli
