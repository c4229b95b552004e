import Verif.GroupStage
/-!
# Tasks of the groups mode: what the decoder reads from the part of a task
-/

namespace Brunsli

open Groups

/-! ## Components -/

theorem JpegData.comps_get {jpg : JpegData} {c : Nat} {k : Nat × Nat} (h : jpg.header.comps[c]? = some k) :
    ∃ q, jpg.components[c]? = some q ∧ k = (q.hSamp, q.vSamp) := by
  change (jpg.components.map _)[c]? = _ at h
  rw [List.getElem?_map] at h
  obtain ⟨q, h1, h2⟩ := Option.map_eq_some_iff.mp h
  exact ⟨q, h1, h2.symm⟩

theorem JpegData.comps_length (jpg : JpegData) : jpg.header.comps.length = jpg.components.length := by simp [JpegData.header]

/-- The coefficients of the components. -/
def JpegData.planes (jpg : JpegData) : List (List Int) := jpg.components.map Component.coeffs

theorem JpegData.Valid.planes {jpg : JpegData} (hv : jpg.Valid) :
    SizedAll jpg.header.comps (fun c => jpg.header.mcuCols * c.1 * (jpg.header.mcuRows * c.2) * 64) jpg.planes := by
  refine ⟨by simp [JpegData.planes, JpegData.header], fun i k a hk ha => ?_⟩
  obtain ⟨q, hq, rfl⟩ := jpg.comps_get hk
  unfold JpegData.planes at ha
  rw [List.getElem?_map, hq] at ha
  cases ha
  have hm := List.mem_of_getElem? hq
  rw [hv.size q hm, hv.width q hm, hv.height q hm]

theorem dcOnly_length (img : List Int) : (dcOnly img).length = img.length := keep_length _ _

theorem dcOnly_getD (img : List Int) (i : Nat) : (dcOnly img).getD i 0 = if i % 64 = 0 then img.getD i 0 else 0 := by
  unfold dcOnly
  rw [List.getD_eq_getElem?_getD, keep_getElem?, List.getD_eq_getElem?_getD]
  cases img[i]? with
  | none => simp
  | some v => simp

theorem JpegData.Valid.dcPlanes {jpg : JpegData} (hv : jpg.Valid) :
    SizedAll jpg.header.comps (fun c => jpg.header.mcuCols * c.1 * (jpg.header.mcuRows * c.2) * 64) (jpg.planes.map dcOnly) := by
  refine ⟨by rw [List.length_map]; exact hv.planes.length, fun i k a hk ha => ?_⟩
  rw [List.getElem?_map] at ha
  obtain ⟨b, hb, rfl⟩ := Option.map_eq_some_iff.mp ha
  rw [dcOnly_length]
  exact hv.planes.each i k b hk hb

theorem Header.noImgs_sized (h : Header) : SizedAll h.comps (fun c => h.mcuCols * c.1 * (h.mcuRows * c.2) * 64) h.noImgs := by
  refine ⟨by simp [Header.noImgs], fun i k a hk ha => ?_⟩
  unfold Header.noImgs at ha
  rw [List.getElem?_map, hk] at ha
  cases ha
  simp

theorem Header.noFlags_sized (h : Header) : SizedAll h.comps (fun c => h.mcuCols * c.1 * (h.mcuRows * c.2)) h.noFlags := by
  refine ⟨by simp [Header.noFlags], fun i k a hk ha => ?_⟩
  unfold Header.noFlags at ha
  rw [List.getElem?_map, hk] at ha
  cases ha
  simp

theorem crop_dcOnly (g : Geometry) (dim t n : Nat) (img : List Int) :
    crop 0 (g.coefPlace dim t) n (dcOnly img) = dcOnly (crop 0 (g.coefPlace dim t) n img) := by
  apply List.ext_getElem?
  intro j
  unfold dcOnly
  rw [keep_getElem?]
  unfold crop
  rw [List.getElem?_map, List.getElem?_map]
  by_cases hj : j < n
  · rw [List.getElem?_range hj, Option.map_some, Option.map_some, Option.map_some]
    have := dcOnly_getD img (g.coefPlace dim t j)
    have e : g.coefPlace dim t j % 64 = j % 64 := by unfold Geometry.coefPlace; omega
    unfold dcOnly at this
    rw [this, e]
    simp
  · rw [List.getElem?_eq_none (by simpa using hj)]
    rfl

theorem tileImgs_dcOnly (h : Header) (dim t : Nat) (imgs : List (List Int)) : h.tileImgs dim t (imgs.map dcOnly) = (h.tileImgs dim t imgs).map dcOnly := by
  unfold Header.tileImgs
  rw [List.zipWith_map_right, List.map_zipWith]
  congr 1
  funext c img
  exact crop_dcOnly _ _ _ _ _

theorem crop_mem {l : List Int} {place : Nat → Nat} {n : Nat} {v : Int} (h : v ∈ crop 0 place n l) : v = 0 ∨ v ∈ l := by
  unfold crop at h
  obtain ⟨j, -, rfl⟩ := List.mem_map.mp h
  rw [List.getD_eq_getElem?_getD]
  cases e : l[place j]? with
  | none => exact .inl rfl
  | some w => exact .inr (List.mem_of_getElem? e)

/-! ## Metadata of a task -/

section
variable {jpg : JpegData} (hv : jpg.Valid) {schemes : List Nat} (hsl : schemes.length = jpg.header.comps.length) {dim t : Nat}
include hv hsl

theorem tileMetas_length : (jpg.header.tileMetas dim t (metas jpg.header schemes)).length = jpg.header.comps.length := by
  unfold Header.tileMetas
  rw [List.length_zipWith, metas_length hsl, Nat.min_self]

theorem tileMetas_get {c : Nat} {m : Meta} (h : (jpg.header.tileMetas dim t (metas jpg.header schemes))[c]? = some m) :
    ∃ k m0, jpg.header.comps[c]? = some k ∧ m0 ∈ metas jpg.header schemes ∧ m = { m0 with w := (jpg.header.geometry k).cols dim t } ∧ m0.vs = k.2 := by
  obtain ⟨k, m0, h1, h2, h3⟩ := List.getElem?_zipWith_eq_some.mp h
  refine ⟨k, m0, h1, List.mem_of_getElem? h2, h3.symm, ?_⟩
  obtain ⟨hc, e⟩ := List.getElem?_eq_some_iff.mp h1
  rw [metas_get hsl hc] at h2
  cases h2
  rw [e]

variable (hd : jpg.header.DimOk dim) (ht : t < jpg.header.tasks dim)
include hd ht

theorem tile_size {c : Nat} {m : Meta} {k : Nat × Nat} (h : (jpg.header.tileMetas dim t (metas jpg.header schemes))[c]? = some m)
    (hk : jpg.header.comps[c]? = some k) : m.w * (jpg.header.tileRows dim t * m.vs) = (jpg.header.geometry k).size dim t := by
  obtain ⟨k', m0, h1, -, rfl, h4⟩ := tileMetas_get hv hsl h
  rw [hk] at h1
  cases h1
  show (jpg.header.geometry k).cols dim t * (_ * m0.vs) = _
  rw [h4, ← jpg.header.tile_lines hv.header hd ht (List.mem_of_getElem? hk)]
  rfl

theorem tile_meta (hs : ∀ s ∈ schemes, s < 7) : ∀ m ∈ jpg.header.tileMetas dim t (metas jpg.header schemes), MetaOk (contextCount (metas jpg.header schemes)) m := by
  intro m hm
  obtain ⟨c, hc⟩ := List.getElem?_of_mem hm
  obtain ⟨k, m0, -, h2, rfl, -⟩ := tileMetas_get hv hsl hc
  obtain ⟨a, b⟩ := (metas_layout hsl hs).metaOk m0 h2
  exact ⟨a, b⟩

omit hsl hd ht in
theorem tile_img {c : Nat} {img : List Int} (h : (jpg.header.tileImgs dim t jpg.planes)[c]? = some img) :
    ∃ q, jpg.components[c]? = some q ∧ jpg.header.comps[c]? = some (q.hSamp, q.vSamp) ∧
      img = crop 0 ((jpg.header.geometry (q.hSamp, q.vSamp)).coefPlace dim t) ((jpg.header.geometry (q.hSamp, q.vSamp)).size dim t * 64) q.coeffs := by
  obtain ⟨k, l, h1, h2, rfl⟩ := cropAll_ok (pl := fun c => (jpg.header.geometry c).coefPlace dim t) (sz := fun c => (jpg.header.geometry c).size dim t * 64) h
  obtain ⟨q, hq, rfl⟩ := jpg.comps_get h1
  unfold JpegData.planes at h2
  rw [List.getElem?_map, hq] at h2
  cases h2
  exact ⟨q, hq, h1, rfl⟩

/-- The coding of a DC task. -/
theorem dc_task_sim (hp : ((jpg.header.tileMetas dim t (metas jpg.header schemes)).zip (jpg.header.tileImgs dim t jpg.planes)).all
      (fun (m, img) => predictDCCoeffs img m.w (jpg.header.tileRows dim t * m.vs)) = true) :
    ∃ (fl : List (List Bool)) (ops : List Op) (res : List (List Int × List Bool)),
      encodeDC (jpg.header.tileRows dim t) (jpg.header.tileMetas dim t (metas jpg.header schemes)) (jpg.header.tileImgs dim t jpg.planes) = some (fl, ops) ∧
      (∀ op ∈ ops, op.Fits (contextCount (metas jpg.header schemes))) ∧
      codes ops ≤ (schedule (jpg.header.tileRows dim t) (jpg.header.tileMetas dim t (metas jpg.header schemes))).length ∧
      fl.length = jpg.header.comps.length ∧ res.map Prod.fst = jpg.header.tileImgs dim t (jpg.planes.map dcOnly) ∧ res.map Prod.snd = fl ∧
      (∀ (c : Nat) (k : Nat × Nat) (img : List Int) (f : List Bool), jpg.header.comps[c]? = some k → (jpg.header.tileImgs dim t jpg.planes)[c]? = some img →
        fl[c]? = some f → f.length = (jpg.header.geometry k).size dim t ∧ EmptyOk img f ((jpg.header.geometry k).size dim t)) ∧
      ∀ tabs, Suits tabs ops → ∃ ws, encodeWords tabs ops = some ws ∧
        decodeWords (fun c => ansMap (tabs c)) (decodeDC (contextCount (metas jpg.header schemes)) (jpg.header.tileRows dim t)
          (jpg.header.tileMetas dim t (metas jpg.header schemes))) (bytesWords (wordBytes ws)) = some res := by
  have hml := tileMetas_length hv hsl (dim := dim) (t := t)
  have hil : (jpg.header.tileImgs dim t jpg.planes).length = jpg.header.comps.length := cropAll_length hv.planes.length
  have hN : (jpg.header.tileMetas dim t (metas jpg.header schemes)).length * 9 ≤ contextCount (metas jpg.header schemes) := by
    rw [hml, ← metas_length hsl]
    exact contextCount_dc _
  obtain ⟨fl, ops, res, he, ⟨r1, r2, r3, r4⟩, hf, hr⟩ := (dc_sim (rows := jpg.header.tileRows dim t) hN (by rw [hil, hml]) (imgs := jpg.header.tileImgs dim t jpg.planes)
    (fun c m img hm hi => by
      have hpred := List.all_eq_true.mp hp (m, img) (by
        apply List.mem_of_getElem? (i := c)
        rw [List.getElem?_zip_eq_some]
        exact ⟨hm, hi⟩)
      obtain ⟨q, hq, hk, rfl⟩ := tile_img hv hi
      refine ⟨?_, fun v hvm => ?_, hpred⟩
      · rw [crop_length, tile_size hv hsl hd ht hm hk]
      · rcases crop_mem hvm with rfl | hvm
        · omega
        · exact hv.range q (List.mem_of_getElem? hq) v hvm)).roundtrip
  refine ⟨fl, ops, res, he, ?_, ?_, by rw [r1, hml], by rw [r2, tileImgs_dcOnly], r3, ?_, hr⟩
  · intro op hop
    have := hf op hop
    cases op with
    | code c s => exact ⟨Nat.lt_of_lt_of_le this.1 hN, this.2⟩
    | bits n v => exact this
    | bit p b => exact this
  · have := encodeDC_codes _ _ _ _ _ he
    omega
  · intro c k img f hk hi hf
    obtain ⟨m, hm⟩ := getOf hml.symm hk
    have := r4 c m img f hm hi hf
    rwa [tile_size hv hsl hd ht hm hk] at this

/-- What passes the test of the DC predictions. -/
theorem encodeDcTask_ok {r : List (List Bool) × List Op} (h : encodeDcTask jpg (metas jpg.header schemes) dim t = .ok r) :
    ((jpg.header.tileMetas dim t (metas jpg.header schemes)).zip (jpg.header.tileImgs dim t jpg.planes)).all
      (fun (m, img) => predictDCCoeffs img m.w (jpg.header.tileRows dim t * m.vs)) = true ∧
    encodeDC (jpg.header.tileRows dim t) (jpg.header.tileMetas dim t (metas jpg.header schemes)) (jpg.header.tileImgs dim t jpg.planes) = some r := by
  unfold encodeDcTask at h
  dsimp only at h
  split at h
  · exact absurd h nofun
  rename_i hp
  exact ⟨by simpa [JpegData.planes] using hp, Run.orUb_ok h⟩

/-- A DC task. -/
theorem dc_task {fl : List (List Bool)} {ops : List Op} (h : encodeDcTask jpg (metas jpg.header schemes) dim t = .ok (fl, ops)) :
    ∃ res : List (List Int × List Bool), (∀ op ∈ ops, op.Fits (contextCount (metas jpg.header schemes))) ∧
      codes ops ≤ (schedule (jpg.header.tileRows dim t) (jpg.header.tileMetas dim t (metas jpg.header schemes))).length ∧
      fl.length = jpg.header.comps.length ∧ res.map Prod.fst = jpg.header.tileImgs dim t (jpg.planes.map dcOnly) ∧ res.map Prod.snd = fl ∧
      (∀ (c : Nat) (k : Nat × Nat) (img : List Int) (f : List Bool), jpg.header.comps[c]? = some k → (jpg.header.tileImgs dim t jpg.planes)[c]? = some img →
        fl[c]? = some f → f.length = (jpg.header.geometry k).size dim t ∧ EmptyOk img f ((jpg.header.geometry k).size dim t)) ∧
      ∀ tabs, Suits tabs ops → ∃ ws, encodeWords tabs ops = some ws ∧
        decodeWords (fun c => ansMap (tabs c)) (decodeDC (contextCount (metas jpg.header schemes)) (jpg.header.tileRows dim t)
          (jpg.header.tileMetas dim t (metas jpg.header schemes))) (bytesWords (wordBytes ws)) = some res := by
  obtain ⟨hp, he⟩ := encodeDcTask_ok hv hsl hd ht h
  obtain ⟨fl', ops', res, e, r⟩ := dc_task_sim hv hsl hd ht hp
  rw [he] at e
  cases e
  exact ⟨res, r⟩

/-- The coding of an AC task. -/
theorem ac_task_sim (hs : ∀ s ∈ schemes, s < 7) {quants : List (List Nat)} (hlq : quants.length = jpg.header.comps.length) (hq : ∀ q ∈ quants, QuantOk q)
    {flags : List (List Bool)} (hfs : SizedAll jpg.header.comps (fun c => jpg.header.mcuCols * c.1 * (jpg.header.mcuRows * c.2)) flags)
    (hfe : ∀ (c : Nat) (k : Nat × Nat) (img : List Int) (f : List Bool), jpg.header.comps[c]? = some k → jpg.planes[c]? = some img → flags[c]? = some f →
      EmptyOk img f (jpg.header.mcuCols * k.1 * (jpg.header.mcuRows * k.2))) :
    ∃ ops, encodeAC (contextCount (metas jpg.header schemes)) false (jpg.header.tileRows dim t) (jpg.header.tileMetas dim t (metas jpg.header schemes))
      (jpg.groupOrders dim t) quants (jpg.header.tileImgs dim t jpg.planes) (jpg.header.tileFlags dim t flags) = some ((), ops) ∧
    (∀ op ∈ ops, op.Fits (contextCount (metas jpg.header schemes))) ∧
      codes ops ≤ 63 * (schedule (jpg.header.tileRows dim t) (jpg.header.tileMetas dim t (metas jpg.header schemes))).length ∧
      ∀ tabs, Suits tabs ops → ∃ ws, encodeWords tabs ops = some ws ∧
        decodeWords (fun c => ansMap (tabs c)) (decodeAC (contextCount (metas jpg.header schemes)) false (jpg.header.tileRows dim t)
          (jpg.header.tileMetas dim t (metas jpg.header schemes)) quants (jpg.header.tileImgs dim t (jpg.planes.map dcOnly))
          (jpg.header.tileFlags dim t flags)) (bytesWords (wordBytes ws)) = some (jpg.header.tileImgs dim t jpg.planes) := by
  have hml := tileMetas_length hv hsl (dim := dim) (t := t)
  have hil : (jpg.header.tileImgs dim t jpg.planes).length = jpg.header.comps.length := cropAll_length hv.planes.length
  have hfl : (jpg.header.tileFlags dim t flags).length = jpg.header.comps.length := cropAll_length hfs.length
  obtain ⟨_, ops, res, he, r1, hf, hr⟩ := (ac_sim (rows := jpg.header.tileRows dim t) (N := contextCount (metas jpg.header schemes))
    (Nd := contextCount (metas jpg.header schemes)) (legacy := false) (ms := jpg.header.tileMetas dim t (metas jpg.header schemes))
    (orders := jpg.groupOrders dim t) (quants := quants) (imgs := jpg.header.tileImgs dim t jpg.planes) (flags := jpg.header.tileFlags dim t flags)
    (Nat.le_refl _) (tile_meta hv hsl hd ht hs) (by rw [hml, jpg.comps_length]; simp [JpegData.groupOrders]) (by rw [hml, hlq]) (by rw [hil, hml]) (by rw [hfl, hml])
    (by
      intro o ho
      obtain ⟨q, -, rfl⟩ := List.mem_map.mp ho
      exact computeCoeffOrder_ok _ (by simp [numZeros])) hq
    (fun c m img f hm hi hf => by
      obtain ⟨q, hq, hk, rfl⟩ := tile_img hv hi
      obtain ⟨k', l, hk', hl, rfl⟩ := cropAll_ok (pl := fun c => (jpg.header.geometry c).place dim t) (sz := fun c => (jpg.header.geometry c).size dim t) hf
      rw [hk] at hk'
      cases hk'
      have hsz := tile_size hv hsl hd ht hm hk
      have hpl : jpg.planes[c]? = some q.coeffs := by unfold JpegData.planes; rw [List.getElem?_map, hq]; rfl
      have htil := jpg.header.flag_tiling hv.header hd _ (List.mem_of_getElem? hk)
      have hll := hfs.each c _ l hk hl
      have hpll := hv.planes.each c _ _ hk hpl
      dsimp only at hll hpll
      refine ⟨by rw [crop_length, hsz], ?_, ?_, by rw [crop_length, hsz], ?_⟩
      · intro v hvm
        rcases crop_mem hvm with rfl | hvm
        · exact ⟨by decide, by decide⟩
        · exact hv.range q (List.mem_of_getElem? hq) v hvm
      · intro i v hiv h0
        unfold crop at hiv
        rw [List.getElem?_map] at hiv
        obtain ⟨j, hj, rfl⟩ := Option.map_eq_some_iff.mp hiv
        obtain ⟨hj1, hj2⟩ := List.getElem?_eq_some_iff.mp hj
        rw [List.getElem_range] at hj2
        subst hj2
        have := hv.ac q (List.mem_of_getElem? hq) ((jpg.header.geometry (q.hSamp, q.vSamp)).coefPlace dim t i) (by unfold Geometry.coefPlace; omega)
        omega
      · rw [hsz]
        intro b hb hfb k hk64 hk0
        have hp := htil.lt t ht b hb
        rw [crop_get hb (by rw [hll]; exact hp)] at hfb
        have := hfe c _ _ l hk hpl hl _ hp hfb k hk64 hk0
        have e : (jpg.header.geometry (q.hSamp, q.vSamp)).coefPlace dim t (b * 64 + k) = (jpg.header.geometry (q.hSamp, q.vSamp)).place dim t b * 64 + k := by
          unfold Geometry.coefPlace
          rw [show (b * 64 + k) / 64 = b by omega, show (b * 64 + k) % 64 = k by omega]
        rw [crop_get (by omega) (by rw [e, hpll]; dsimp only at hp; omega), e]
        exact this)).roundtrip
  subst r1
  refine ⟨ops, he, hf, encodeAC_codes _ _ _ _ _ _ _ _ _ _ he, fun tabs hsu => ?_⟩
  obtain ⟨ws, w1, w2⟩ := hr tabs hsu
  refine ⟨ws, w1, ?_⟩
  rw [tileImgs_dcOnly]
  exact w2

/-- An AC task. -/
theorem ac_task (hs : ∀ s ∈ schemes, s < 7) {quants : List (List Nat)} (hlq : quants.length = jpg.header.comps.length) (hq : ∀ q ∈ quants, QuantOk q)
    {flags : List (List Bool)} (hfs : SizedAll jpg.header.comps (fun c => jpg.header.mcuCols * c.1 * (jpg.header.mcuRows * c.2)) flags)
    (hfe : ∀ (c : Nat) (k : Nat × Nat) (img : List Int) (f : List Bool), jpg.header.comps[c]? = some k → jpg.planes[c]? = some img → flags[c]? = some f →
      EmptyOk img f (jpg.header.mcuCols * k.1 * (jpg.header.mcuRows * k.2)))
    {ops : List Op} (h : encodeAcTask jpg (metas jpg.header schemes) quants flags dim t = .ok ops) :
    (∀ op ∈ ops, op.Fits (contextCount (metas jpg.header schemes))) ∧
      codes ops ≤ 63 * (schedule (jpg.header.tileRows dim t) (jpg.header.tileMetas dim t (metas jpg.header schemes))).length ∧
      ∀ tabs, Suits tabs ops → ∃ ws, encodeWords tabs ops = some ws ∧
        decodeWords (fun c => ansMap (tabs c)) (decodeAC (contextCount (metas jpg.header schemes)) false (jpg.header.tileRows dim t)
          (jpg.header.tileMetas dim t (metas jpg.header schemes)) quants (jpg.header.tileImgs dim t (jpg.planes.map dcOnly))
          (jpg.header.tileFlags dim t flags)) (bytesWords (wordBytes ws)) = some (jpg.header.tileImgs dim t jpg.planes) := by
  unfold encodeAcTask at h
  obtain ⟨⟨⟨⟩, o⟩, h1, h2⟩ := Run.bind_ok h
  cases h2
  obtain ⟨ops', e, r⟩ := ac_task_sim hv hsl hd ht hs hlq hq hfs hfe
  have he := Run.orUb_ok h1
  change encodeAC _ _ _ _ _ _ (jpg.header.tileImgs dim t jpg.planes) _ = _ at he
  rw [he] at e
  cases e
  exact r

end

end Brunsli
