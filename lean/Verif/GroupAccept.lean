import Verif.GroupFile
import Verif.BigCount
/-!
# What the groups encoder accepts
-/

namespace Brunsli

open Groups

/-- The DC coefficients of each tile are close enough to their predictions (`PredictDCCoeffs`, c/experimental/groups.cc:281-287). -/
def JpegData.GroupPredictable (jpg : JpegData) (dim : Nat) : Prop :=
  ∀ t < jpg.header.tasks dim, ∀ q ∈ jpg.components,
    predictDCCoeffs (crop 0 ((jpg.header.geometry (q.hSamp, q.vSamp)).coefPlace dim t) ((jpg.header.geometry (q.hSamp, q.vSamp)).size dim t * 64) q.coeffs)
      ((jpg.header.geometry (q.hSamp, q.vSamp)).cols dim t) ((jpg.header.geometry (q.hSamp, q.vSamp)).lines dim t) = true

theorem JpegData.Valid.quants_ok {jpg : JpegData} (hv : jpg.Valid) :
    ∃ quants, jpg.quants = some quants ∧ quants.length = jpg.header.comps.length ∧ ∀ q ∈ quants, QuantOk q := by
  refine ⟨_, quants_eq hv, by rw [jpg.comps_length]; simp, ?_⟩
  intro q hq
  obtain ⟨i, hi, rfl⟩ := List.mem_map.mp hq
  obtain ⟨c, hc, rfl⟩ := List.mem_map.mp hi
  have hlt := hv.quantIdx c hc
  rw [List.getD_eq_getElem?_getD, List.getElem?_map, List.getElem?_eq_getElem hlt]
  have := hv.quant _ (List.getElem_mem hlt)
  exact ⟨this.length, fun v hv => this.range v hv⟩

theorem tile_blocks {jpg : JpegData} (hv : jpg.Valid) {schemes : List Nat} (hsl : schemes.length = jpg.header.comps.length) {dim t : Nat}
    (hd : jpg.header.DimOk dim) (ht : t < jpg.header.tasks dim) :
    (schedule (jpg.header.tileRows dim t) (jpg.header.tileMetas dim t (metas jpg.header schemes))).length ≤ jpg.blocks := by
  refine Nat.le_trans ?_ (tile_schedules hv hsl hd)
  exact List.le_sum_of_mem (List.mem_map.mpr ⟨t, List.mem_range.mpr ht, rfl⟩)

theorem dc_task_some {jpg : JpegData} (hv : jpg.Valid) {schemes : List Nat} (hsl : schemes.length = jpg.header.comps.length) {dim t : Nat}
    (hd : jpg.header.DimOk dim) (ht : t < jpg.header.tasks dim) (hp : jpg.GroupPredictable dim) :
    ∃ fl ops, encodeDcTask jpg (metas jpg.header schemes) dim t = .ok (fl, ops) ∧ ops.length ≤ 6 * jpg.blocks := by
  have hp' : ((jpg.header.tileMetas dim t (metas jpg.header schemes)).zip (jpg.header.tileImgs dim t jpg.planes)).all
      (fun (m, img) => predictDCCoeffs img m.w (jpg.header.tileRows dim t * m.vs)) = true := by
    rw [List.all_eq_true]
    rintro ⟨m, img⟩ hmem
    obtain ⟨c, hc⟩ := List.getElem?_of_mem hmem
    obtain ⟨h1, h2⟩ := List.getElem?_zip_eq_some.mp hc
    obtain ⟨q, q1, q2, rfl⟩ := tile_img hv h2
    obtain ⟨k, m0, k1, -, rfl, k3⟩ := tileMetas_get hv hsl h1
    rw [q2] at k1
    cases k1
    have := hp t ht q (List.mem_of_getElem? q1)
    rw [jpg.header.tile_lines hv.header hd ht (List.mem_of_getElem? q2)] at this
    dsimp only
    rw [k3]
    exact this
  obtain ⟨fl, ops, res, he, -⟩ := dc_task_sim hv hsl hd ht hp'
  have hc := encodeDC_cost _ _ _ _ _ he
  have hb := tile_blocks hv hsl hd ht
  refine ⟨fl, ops, ?_, by omega⟩
  unfold encodeDcTask
  dsimp only
  change (if ¬ ((jpg.header.tileMetas dim t (metas jpg.header schemes)).zip (jpg.header.tileImgs dim t jpg.planes)).all
      (fun (m, img) => predictDCCoeffs img m.w (jpg.header.tileRows dim t * m.vs)) = true then Run.fail else
      Run.orUb (encodeDC _ _ (jpg.header.tileImgs dim t jpg.planes))) = _
  rw [if_neg (by rw [hp']; simp), he]
  rfl

theorem ac_task_some {jpg : JpegData} (hv : jpg.Valid) {schemes : List Nat} (hsl : schemes.length = jpg.header.comps.length) {dim t : Nat}
    (hd : jpg.header.DimOk dim) (ht : t < jpg.header.tasks dim) (hs : ∀ s ∈ schemes, s < 7) {quants : List (List Nat)}
    (hlq : quants.length = jpg.header.comps.length) (hq : ∀ q ∈ quants, QuantOk q)
    {flags : List (List Bool)} (hfs : SizedAll jpg.header.comps (fun c => jpg.header.mcuCols * c.1 * (jpg.header.mcuRows * c.2)) flags)
    (hfe : ∀ (c : Nat) (k : Nat × Nat) (img : List Int) (f : List Bool), jpg.header.comps[c]? = some k → jpg.planes[c]? = some img → flags[c]? = some f →
      EmptyOk img f (jpg.header.mcuCols * k.1 * (jpg.header.mcuRows * k.2))) :
    ∃ ops, encodeAcTask jpg (metas jpg.header schemes) quants flags dim t = .ok ops ∧ ops.length ≤ 634 * jpg.components.length + 321 * jpg.blocks := by
  obtain ⟨ops, he, -⟩ := ac_task_sim hv hsl hd ht hs hlq hq hfs hfe
  have hc := encodeAC_cost (fun o ho => by
    obtain ⟨q, -, rfl⟩ := List.mem_map.mp ho
    rw [(computeCoeffOrder_ok _ (by simp [numZeros])).1.length_eq, List.length_range]) _ _ he
  have hb := tile_blocks hv hsl hd ht
  have hol : (jpg.groupOrders dim t).length = jpg.components.length := by simp [JpegData.groupOrders]
  rw [hol] at hc
  refine ⟨ops, ?_, by omega⟩
  unfold encodeAcTask
  change (Run.orUb (encodeAC _ _ _ _ _ _ (jpg.header.tileImgs dim t jpg.planes) _)).bind _ = _
  rw [he]
  rfl

/-- What is known of the tasks' results. -/
structure GroupCoded.Ok (par : Codec) (jpg : JpegData) (acDim dcDim : Nat) (c : GroupCoded) (tabs : List (List Nat)) (bits : List Bool) : Prop where
  coefs : groupCoefs par acDim dcDim jpg = .ok c
  schemes : c.schemes = jpg.groupSchemes acDim
  clustered : ∃ histos, histos.length = contextCount (metas jpg.header (jpg.groupSchemes acDim)) ∧
    par.cluster (0 :: (metas jpg.header (jpg.groupSchemes acDim)).map Meta.ctxOffset) histos = some (c.map, c.clusters)
  hist : encodeHistogramData c.schemes c.map c.clusters = some (tabs, bits)
  dcs : c.dc.length = jpg.header.tasks dcDim
  acs : c.ac.length = jpg.header.tasks acDim
  dc : ∀ ops ∈ c.dc, ∃ ws, encodeWords (fun ctx => tabs.getD (c.map.getD ctx 0) []) ops = some ws ∧ ws.length ≤ 6 * jpg.blocks + 5
  ac : ∀ ops ∈ c.ac, ∃ ws, encodeWords (fun ctx => tabs.getD (c.map.getD ctx 0) []) ops = some ws ∧
    ws.length ≤ 634 * jpg.components.length + 321 * jpg.blocks + 5

theorem groupCoefs_some {par : Codec} (hcl : par.Clusters) (hw : par.Works) {jpg : JpegData} (hv : jpg.Valid) {acDim dcDim : Nat} (hda : jpg.header.DimOk acDim)
    (hdd : jpg.header.DimOk dcDim) (hp : jpg.GroupPredictable dcDim) (hb : 64 * jpg.blocks ≤ 100000000) :
    ∃ c tabs bits, GroupCoded.Ok par jpg acDim dcDim c tabs bits := by
  have hsl : (jpg.groupSchemes acDim).length = jpg.header.comps.length := by rw [jpg.comps_length]; simp [JpegData.groupSchemes]
  have hs := groupSchemes_lt jpg acDim
  obtain ⟨quants, hqs, hlq, hqo⟩ := hv.quants_ok
  have hncomp := hv.header.ncomp
  generalize hsc : jpg.groupSchemes acDim = schemes at *
  obtain ⟨dc, hdc⟩ := Run.each_all (f := encodeDcTask jpg (metas jpg.header schemes) dcDim) (l := List.range (jpg.header.tasks dcDim)) fun t ht => by
    obtain ⟨fl, ops, h, -⟩ := dc_task_some hv hsl hdd (List.mem_range.mp ht) hp
    exact ⟨_, h⟩
  obtain ⟨dl, dt⟩ := Run.each_range hdc
  obtain ⟨flags, hfl, hfs, hfe, hft⟩ := flags_whole hv hsl hdd dt
  obtain ⟨ac, hac⟩ := Run.each_all (f := encodeAcTask jpg (metas jpg.header schemes) quants flags acDim) (l := List.range (jpg.header.tasks acDim)) fun t ht => by
    obtain ⟨ops, h, -⟩ := ac_task_some hv hsl hda (List.mem_range.mp ht) hs hlq hqo hfs hfe
    exact ⟨_, h⟩
  obtain ⟨al, at_⟩ := Run.each_range hac
  obtain ⟨hops, hgr⟩ := group_symbols hv hsl hs hdd hda hlq hqo hfs hfe dl dt al at_
  have hoff := layout_offsets (metas_layout hsl hs)
  have hN : numContexts schemes * kNumAvrgContexts = contextCount (metas jpg.header schemes) := by rw [contextCount, metas_bits hsl]
  have hN1 : 0 < contextCount (metas jpg.header schemes) := by rw [← hN, numContexts, kNumAvrgContexts]; omega
  have hN2 : contextCount (metas jpg.header schemes) ≤ 14868 := by
    rw [← hN, kNumAvrgContexts]
    have := numContexts_le schemes
    omega
  have hcs := countSymbols_length (contextCount (metas jpg.header schemes)) ((dc.map Prod.snd).flatten ++ ac.flatten)
  have hcne : countSymbols (contextCount (metas jpg.header schemes)) ((dc.map Prod.snd).flatten ++ ac.flatten) ≠ [] := by
    intro h; rw [h] at hcs; simp at hcs; omega
  obtain ⟨⟨map, clusters⟩, hrc⟩ := hw (0 :: (metas jpg.header schemes).map Meta.ctxOffset) _ hcne hcs.2 (by rw [hcs.1]; exact hoff) (by rw [hcs.1]; exact hN2) (by omega)
  obtain ⟨tabs, bits, hists, he, -, -, huse⟩ := tables_use hcl hsl hncomp.2 hs hops (by omega) hrc hncomp.1
  refine ⟨⟨schemes, map, clusters, dc.map Prod.snd, ac⟩, tabs, bits, ?_, hsc.symm, ⟨_, by rw [hsc]; exact hcs.1, by rw [hsc]; exact hrc⟩, he, by simp [dl], al, ?_, ?_⟩
  · unfold groupCoefs
    rw [hqs]
    dsimp only [Run.orFail, Run.bind]
    rw [hsc, hdc]
    dsimp only
    rw [hfl, hac]
    dsimp only
    rw [hrc]
    rfl
  · intro ops ho
    obtain ⟨x, hx, rfl⟩ := List.mem_map.mp ho
    obtain ⟨t, ht⟩ := List.getElem?_of_mem hx
    have htl : t < jpg.header.tasks dcDim := by rw [← dl]; exact (List.getElem?_eq_some_iff.mp ht).1
    obtain ⟨fl, ops, b, hlen⟩ := dc_task_some hv hsl hdd htl hp
    obtain ⟨y, a, b'⟩ := dt t htl
    rw [ht] at a
    cases a
    rw [b] at b'
    cases b'
    obtain ⟨res, -, -, -, -, -, -, r3⟩ := dc_task hv hsl hdd htl b
    have hmem : ∀ c s, Op.code c s ∈ ops → Op.code c s ∈ (dc.map Prod.snd).flatten ++ ac.flatten := fun c s h =>
      List.mem_append_left _ (List.mem_flatten.mpr ⟨ops, List.mem_map.mpr ⟨_, hx, rfl⟩, h⟩)
    obtain ⟨ws, v1, -⟩ := r3 (histTab map hists) fun c s h => ⟨(huse c s (hmem c s h)).1, (huse c s (hmem c s h)).2.1⟩
    have hl := encodeWords_length v1
    exact ⟨ws, (encodeWords_congr fun c s h => (huse c s (hmem c s h)).2.2).trans v1, by omega⟩
  · intro ops ho
    obtain ⟨t, ht⟩ := List.getElem?_of_mem ho
    have htl : t < jpg.header.tasks acDim := by rw [← al]; exact (List.getElem?_eq_some_iff.mp ht).1
    obtain ⟨ops, b, hlen⟩ := ac_task_some hv hsl hda htl hs hlq hqo hfs hfe
    obtain ⟨y, a, b'⟩ := at_ t htl
    rw [ht] at a
    cases a
    rw [b] at b'
    cases b'
    obtain ⟨-, -, r3⟩ := ac_task hv hsl hda htl hs hlq hqo hfs hfe b
    have hmem : ∀ c s, Op.code c s ∈ ops → Op.code c s ∈ (dc.map Prod.snd).flatten ++ ac.flatten := fun c s h =>
      List.mem_append_right _ (List.mem_flatten.mpr ⟨ops, ho, h⟩)
    obtain ⟨ws, v1, -⟩ := r3 (histTab map hists) fun c s h => ⟨(huse c s (hmem c s h)).1, (huse c s (hmem c s h)).2.1⟩
    have hl := encodeWords_length v1
    exact ⟨ws, (encodeWords_congr fun c s h => (huse c s (hmem c s h)).2.2).trans v1, by omega⟩

/-! ## The parts -/

theorem groupPart_run {cap tag : Nat} {tab : Nat → List Nat} {ops : List Op} {ws : List Nat} (ht : tag ≤ 15) (hw : encodeWords tab ops = some ws) :
    (∃ s, groupPart cap tag tab ops = .ok s ∧ Bytes s ∧ s.length ≤ cap) ∨
    (cap < 1 + base128Size cap + 2 * ws.length ∧ groupPart cap tag tab ops = .ub) := by
  have hl := wordBytes_length ws
  rcases putSection_run (cap := cap) (tag := tag) (k := base128Size cap) (slack := 0) (fn := fun _ => Run.orUb ((encodeWords tab ops).map wordBytes)) (out := [])
    (p := wordBytes ws) (fun _ => by rw [hw]; rfl) (fun h => Nat.lt_of_le_of_lt (show (wordBytes ws).length ≤ cap by omega) (base128_lt_size _)) with ⟨s, e, -⟩ | ⟨c, e⟩
  · left
    obtain ⟨p, s', a, b, c, d⟩ := putSection_ok e
    rw [hw] at a
    cases a
    have := encodeSection_length b
    simp only [List.nil_append, List.length_nil] at c d
    subst c
    exact ⟨s, e, encodeSection_bytes ht (wordBytes_bytes _) b, by omega⟩
  · exact .inr ⟨by simp only [List.length_nil] at c; omega, e⟩

theorem flatten_length_le {b : Nat} : ∀ {l : List (List Nat)}, (∀ s ∈ l, s.length ≤ b) → l.flatten.length ≤ l.length * b := by
  intro l
  induction l with
  | nil => intro _; simp
  | cons s l ih =>
    intro h
    have h1 := h s List.mem_cons_self
    have h2 := ih fun x hx => h x (List.mem_cons_of_mem _ hx)
    rw [List.flatten_cons, List.length_append, List.length_cons, Nat.add_mul]
    omega

theorem flatten_bytes {l : List (List Nat)} (h : ∀ s ∈ l, Bytes s) : Bytes l.flatten := by
  intro b hb
  obtain ⟨s, hs, hb⟩ := List.mem_flatten.mp hb
  exact h s hs b hb

theorem groupCommon_ok {par : Codec} {jpg : JpegData} {c : GroupCoded} {tabs tabs' : List (List Nat)} {bits : List Bool} {out : List Nat} {cap : Nat}
    (hhist : encodeHistogramData c.schemes c.map c.clusters = some (tabs, bits)) (h : groupCommon par cap jpg c = .ok (tabs', out)) : tabs = tabs' ∧ out.length ≤ cap := by
  unfold groupCommon at h
  split at h
  · exact absurd h nofun
  obtain ⟨o1, -, h⟩ := Run.bind_ok h
  obtain ⟨o2, -, h⟩ := Run.bind_ok h
  obtain ⟨o3, -, h⟩ := Run.bind_ok h
  obtain ⟨o4, -, h⟩ := Run.bind_ok h
  obtain ⟨⟨tabs', bits⟩, hh, h⟩ := Run.bind_ok h
  dsimp only at h
  obtain ⟨o5, h5, h⟩ := Run.bind_ok h
  cases h
  have := Run.orUb_ok hh
  rw [hhist] at this
  cases this
  obtain ⟨p5, s5, a5, b5, rfl, c5⟩ := putSection_ok h5
  have := encodeSection_length b5
  exact ⟨rfl, by rw [List.length_append]; omega⟩

/-- The common part of data without metadata. -/
theorem groupCommon_run {par : Codec} {jpg : JpegData} {inner : List Nat} (he : Encodable par jpg inner 0) (hib : Bytes inner)
    (hmb : jpg.appData = [] ∧ jpg.comData = [] ∧ jpg.tailData = []) {c : GroupCoded}
    {tabs : List (List Nat)} {bits : List Bool} (hhist : encodeHistogramData c.schemes c.map c.clusters = some (tabs, bits)) {cap : Nat} (h6 : 6 ≤ cap) :
    (∃ out, groupCommon par cap jpg c = .ok (tabs, out) ∧ Bytes out ∧ out.length ≤ cap) ∨ groupCommon par cap jpg c = .ub := by
  have hv := he.valid
  obtain ⟨hn1, hn4⟩ := hv.ncomp
  obtain ⟨hs, hh, -⟩ := C22_header_roundtrip jpg.header [] hv.header.version hv.header.width hv.header.height hv.header.ncomp hv.header.factors hv.header.blocks
  obtain ⟨p1, hp1⟩ := encodeHeader_some hv.header
  have hp1l : p1.length < 2 ^ (7 * 1) := by
    unfold encodeHeaderSection encodeSection at hh
    rw [hp1] at hh
    dsimp only at hh
    split at hh
    · cases hh
    · rename_i hd
      exact (Nat.div_eq_zero_iff_lt (by decide)).mp (by omega)
  obtain ⟨q, hq⟩ := C08_quant_accepted (jpg.quant.map QuantTable.values) (jpg.components.map Component.quantIdx)
    (by
      rw [List.length_map]
      obtain ⟨c, hc⟩ := List.exists_mem_of_length_pos (l := jpg.components) (by omega)
      have := hv.quantIdx c hc
      omega)
    (by rw [List.length_map]; exact hv.quants)
    (fun t ht v hvv => by
      obtain ⟨q, hq, rfl⟩ := List.mem_map.mp ht
      exact (hv.quant q hq).range v hvv)
  have hql := encodeQuantTables_length hq
  rw [List.length_map] at hql
  have hqp := packBits_length _ q (Nat.le_refl _)
  have hmeta : ∀ room, encodeMetadata (par.compress room) jpg.appData jpg.comData jpg.tailData = some [] := by
    intro room
    rw [hmb.1, hmb.2.1, hmb.2.2]
    rfl
  have F : ∀ {o p : List Nat} {slack : Nat}, o.length + 1 + base128Size (cap - o.length) + p.length + slack ≤ cap → p.length < 2 ^ (7 * base128Size (cap - o.length)) := by
    intro o p slack h
    exact Nat.lt_of_le_of_lt (show p.length ≤ cap - o.length by omega) (base128_lt_size _)
  have step : ∀ {tag k slack : Nat} {fn : Nat → Run (List Nat)} {o p o' : List Nat}, tag ≤ 15 → Bytes o → (∀ r, fn r = .ok p) → Bytes p →
      putSection cap tag k slack fn o = .ok o' → Bytes o' ∧ o'.length ≤ cap := by
    intro tag k slack fn o p o' h1 h2 h3 h4 h
    obtain ⟨p', s, a, b, rfl, d⟩ := putSection_ok h
    rw [h3] at a
    cases a
    have := encodeSection_length b
    exact ⟨h2.append (encodeSection_bytes h1 h4 b), by rw [List.length_append]; omega⟩
  unfold groupCommon
  rw [if_neg (by omega)]
  have B0 : Bytes kBrunsliSignature := by unfold kBrunsliSignature Bytes; decide
  generalize kBrunsliSignature = o0 at *
  rcases putSection_run (cap := cap) (tag := 2) (k := 1) (slack := 0) (fn := fun _ => Run.orFail (encodeHeader jpg.header)) (out := o0) (p := p1)
    (fun _ => by rw [hp1]; rfl) (fun _ => hp1l) with ⟨s1, e1, -⟩ | ⟨-, e1⟩
  swap
  · rw [e1]; exact .inr rfl
  obtain ⟨B1, -⟩ := step (by decide) B0 (fun _ => by rw [hp1]; rfl) (encodeHeader_bytes hp1) e1
  rw [e1]
  dsimp only [Run.bind]
  generalize o0 ++ s1 = o1 at *
  rcases putSection_run (cap := cap) (tag := 4) (k := base128Size (estimateAuxDataSize jpg)) (slack := 8) (fn := fun _ => Run.orFail (encodeInternals
      (paddingBitsLimit jpg.width jpg.height jpg.components.length) jpg.internals)) (out := o1) (p := inner)
    (fun _ => by rw [he.internals]; rfl) (fun _ => he.field) with ⟨s2, e2, -⟩ | ⟨-, e2⟩
  swap
  · rw [e2]; exact .inr rfl
  obtain ⟨B2, -⟩ := step (by decide) B1 (fun _ => by rw [he.internals]; rfl) hib e2
  rw [e2]
  dsimp only [Run.bind]
  generalize o1 ++ s2 = o2 at *
  rcases putSection_run (cap := cap) (tag := 3) (k := base128Size (cap - o2.length)) (slack := 0) (fn := fun room => Run.orFail (encodeMetadata (par.compress room)
      jpg.appData jpg.comData jpg.tailData)) (out := o2) (p := []) (fun _ => by rw [hmeta]; rfl) F with ⟨s3, e3, -⟩ | ⟨-, e3⟩
  swap
  · rw [e3]; exact .inr rfl
  obtain ⟨B3, -⟩ := step (by decide) B2 (fun _ => by rw [hmeta]; rfl) (fun b hb => by cases hb) e3
  rw [e3]
  dsimp only [Run.bind]
  generalize o2 ++ s3 = o3 at *
  rcases putSection_run (cap := cap) (tag := 5) (k := 2) (slack := 8) (fn := fun _ => Run.orFail ((encodeQuantTables (jpg.quant.map QuantTable.values)
      (jpg.components.map Component.quantIdx)).map packBits)) (out := o3) (p := packBits q) (fun _ => by rw [hq]; rfl)
      (fun _ => by rw [hqp]; show _ < 16384; omega) with ⟨s4, e4, -⟩ | ⟨-, e4⟩
  swap
  · rw [e4]; exact .inr rfl
  obtain ⟨B4, -⟩ := step (by decide) B3 (fun _ => by rw [hq]; rfl) (packBits_bytes q) e4
  rw [e4]
  dsimp only [Run.bind]
  generalize o3 ++ s4 = o4 at *
  rw [hhist]
  dsimp only [Run.orUb]
  rcases putSection_run (cap := cap) (tag := 6) (k := base128Size (cap - o4.length)) (slack := 8) (fn := fun _ => .ok (packBits bits)) (out := o4)
    (p := packBits bits) (fun _ => rfl) F with ⟨s5, e5, -⟩ | ⟨-, e5⟩
  swap
  · rw [e5]; exact .inr rfl
  obtain ⟨B5, l5⟩ := step (by decide) B4 (fun _ => rfl) (packBits_bytes bits) e5
  rw [e5]
  exact .inl ⟨_, rfl, B5, l5⟩

/-- Without metadata and with room for all parts the groups encoder succeeds, or one of the parts leaves its buffer. -/
theorem encodeGroups_run {par : Codec} (hcl : par.Clusters) (hw : par.Works) {jpg : JpegData} {inner : List Nat} (he : Encodable par jpg inner 0) (hib : Bytes inner)
    (hmb : jpg.appData = [] ∧ jpg.comData = [] ∧ jpg.tailData = []) {acDim dcDim : Nat}
    (hdims : dimsOk acDim dcDim (maxFactor (jpg.header.comps.map Prod.fst)) (maxFactor (jpg.header.comps.map Prod.snd)) = some true) (hdc0 : dcDim ≠ 0)
    (hp : jpg.GroupPredictable dcDim) {cap : Nat}
    (hcap : groupCommonSize jpg + (jpg.header.tasks dcDim * groupDcSize jpg + jpg.header.tasks acDim * groupAcSize jpg) ≤ cap) :
    (∃ out, encodeGroups par acDim dcDim cap jpg = .ok out ∧ Bytes out ∧
      out.length ≤ groupCommonSize jpg + (jpg.header.tasks dcDim * groupDcSize jpg + jpg.header.tasks acDim * groupAcSize jpg)) ∨
    encodeGroups par acDim dcDim cap jpg = .ub := by
  obtain ⟨⟨hac0, hac1, hac2⟩, ⟨hdcp, hdc1, hdc2⟩, hmH, hmV⟩ := C36_checked_dims acDim dcDim _ _ hdc0 hdims
  have hda : jpg.header.DimOk acDim := ⟨hac0, hac1, hac2, hmH, hmV⟩
  have hdd : jpg.header.DimOk dcDim := ⟨hdcp, hdc1, hdc2, hmH, hmV⟩
  obtain ⟨c, tabs, bits, ok⟩ := groupCoefs_some hcl hw he.valid hda hdd hp he.symbols
  unfold encodeGroups
  rw [hdims]
  dsimp only
  rw [if_neg hdc0, ok.coefs]
  dsimp only [Run.bind]
  rcases groupCommon_run he hib hmb ok.hist (cap := groupCommonSize jpg) (by unfold groupCommonSize; omega) with ⟨common, e1, b1, l1⟩ | e1
  swap
  · rw [e1]; exact .inr rfl
  rw [e1]
  dsimp only
  rcases Run.each_run (Q := fun s => Bytes s ∧ s.length ≤ groupDcSize jpg) (f := groupPart (groupDcSize jpg) 7 fun ctx => tabs.getD (c.map.getD ctx 0) []) (l := c.dc)
    (fun ops ho => by
      obtain ⟨ws, h, -⟩ := ok.dc ops ho
      rcases groupPart_run (cap := groupDcSize jpg) (tag := 7) (by decide) h with h | ⟨-, h⟩
      · exact .inl h
      · exact .inr h) with ⟨dcs, e2, n2, q2⟩ | e2
  swap
  · rw [e2]; exact .inr rfl
  rw [e2]
  dsimp only
  rcases Run.each_run (Q := fun s => Bytes s ∧ s.length ≤ groupAcSize jpg) (f := groupPart (groupAcSize jpg) 8 fun ctx => tabs.getD (c.map.getD ctx 0) []) (l := c.ac)
    (fun ops ho => by
      obtain ⟨ws, h, -⟩ := ok.ac ops ho
      rcases groupPart_run (cap := groupAcSize jpg) (tag := 8) (by decide) h with h | ⟨-, h⟩
      · exact .inl h
      · exact .inr h) with ⟨acs, e3, n3, q3⟩ | e3
  swap
  · rw [e3]; exact .inr rfl
  rw [e3]
  dsimp only
  have l2 := flatten_length_le fun s hs => (q2 s hs).2
  have l3 := flatten_length_le fun s hs => (q3 s hs).2
  rw [n2, ok.dcs] at l2
  rw [n3, ok.acs] at l3
  have hlen : (common ++ (dcs.flatten ++ acs.flatten)).length ≤
      groupCommonSize jpg + (jpg.header.tasks dcDim * groupDcSize jpg + jpg.header.tasks acDim * groupAcSize jpg) := by
    rw [List.length_append, List.length_append]
    omega
  rw [if_neg (by omega)]
  exact .inl ⟨_, rfl, b1.append ((flatten_bytes fun s hs => (q2 s hs).1).append (flatten_bytes fun s hs => (q3 s hs).1)), hlen⟩

end Brunsli
