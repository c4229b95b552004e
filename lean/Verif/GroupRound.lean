import Verif.GroupTask
import Verif.Accept
/-!
# The stages of the groups mode: flags, number of symbols, tables
-/

namespace Brunsli

open Groups

theorem Run.each_ok {α β : Type} {f : α → Run β} : ∀ {l : List α} {bs : List β}, Run.each f l = .ok bs →
    bs.length = l.length ∧ ∀ (i : Nat) (a : α), l[i]? = some a → ∃ b, bs[i]? = some b ∧ f a = .ok b := by
  intro l
  induction l with
  | nil => intro bs h; cases h; exact ⟨rfl, fun i a h => by simp at h⟩
  | cons x l ih =>
    intro bs h
    unfold Run.each at h
    obtain ⟨b, h1, h⟩ := Run.bind_ok h
    obtain ⟨bs', h2, h⟩ := Run.bind_ok h
    cases h
    obtain ⟨i1, i2⟩ := ih h2
    refine ⟨by simp [i1], fun i a ha => ?_⟩
    cases i with
    | zero => cases ha; exact ⟨b, rfl, h1⟩
    | succ i => exact i2 i a (by simpa using ha)

theorem Run.each_all {α β : Type} {f : α → Run β} : ∀ {l : List α}, (∀ a ∈ l, ∃ b, f a = .ok b) → ∃ bs, Run.each f l = .ok bs := by
  intro l
  induction l with
  | nil => intro _; exact ⟨[], rfl⟩
  | cons a l ih =>
    intro h
    obtain ⟨b, hb⟩ := h a List.mem_cons_self
    obtain ⟨bs, hbs⟩ := ih fun x hx => h x (List.mem_cons_of_mem _ hx)
    refine ⟨b :: bs, ?_⟩
    unfold Run.each
    rw [hb, hbs]
    rfl

theorem Run.each_run {α β : Type} {f : α → Run β} {Q : β → Prop} : ∀ {l : List α}, (∀ a ∈ l, (∃ b, f a = .ok b ∧ Q b) ∨ f a = .ub) →
    (∃ bs, Run.each f l = .ok bs ∧ bs.length = l.length ∧ ∀ b ∈ bs, Q b) ∨ Run.each f l = .ub := by
  intro l
  induction l with
  | nil => intro _; exact .inl ⟨[], rfl, rfl, nofun⟩
  | cons a l ih =>
    intro h
    unfold Run.each
    rcases h a List.mem_cons_self with ⟨b, hb, hq⟩ | hb
    · rw [hb]
      rcases ih fun x hx => h x (List.mem_cons_of_mem _ hx) with ⟨bs, hbs, hl, hqs⟩ | hbs
      · rw [hbs]; exact .inl ⟨b :: bs, rfl, by simp [hl], fun x hx => by
          rcases List.mem_cons.mp hx with rfl | hx
          · exact hq
          · exact hqs x hx⟩
      · rw [hbs]; exact .inr rfl
    · rw [hb]; exact .inr rfl

theorem Run.each_with {α β : Type} {f : α → Run β} {Q : β → Prop} {l : List α} (h : ∀ a ∈ l, ∃ b, f a = .ok b ∧ Q b) :
    ∃ bs, Run.each f l = .ok bs ∧ bs.length = l.length ∧ ∀ b ∈ bs, Q b := by
  refine (Run.each_run fun a ha => .inl (h a ha)).resolve_right fun hub => ?_
  obtain ⟨bs, hbs⟩ := Run.each_all fun a ha => (h a ha).imp fun b hb => hb.1
  rw [hub] at hbs
  cases hbs

theorem Run.each_range {β : Type} {f : Nat → Run β} {n : Nat} {bs : List β} (h : Run.each f (List.range n) = .ok bs) :
    bs.length = n ∧ ∀ t < n, ∃ b, bs[t]? = some b ∧ f t = .ok b := by
  obtain ⟨h1, h2⟩ := Run.each_ok h
  exact ⟨by simpa using h1, fun t ht => h2 t t (by rw [List.getElem?_range ht])⟩

/-! ## Flags -/

/-- The flags of all DC tasks together. -/
theorem flags_whole {jpg : JpegData} (hv : jpg.Valid) {schemes : List Nat} (hsl : schemes.length = jpg.header.comps.length) {dim : Nat}
    (hd : jpg.header.DimOk dim) {dc : List (List (List Bool) × List Op)}
    (h : ∀ t < jpg.header.tasks dim, ∃ b, dc[t]? = some b ∧ encodeDcTask jpg (metas jpg.header schemes) dim t = .ok b) :
    ∃ flags, (List.range (jpg.header.tasks dim)).foldl (fun fl t => jpg.header.pasteFlags dim t (dc.getD t ([], [])).1 fl) jpg.header.noFlags = flags ∧
      SizedAll jpg.header.comps (fun c => jpg.header.mcuCols * c.1 * (jpg.header.mcuRows * c.2)) flags ∧
      (∀ (c : Nat) (k : Nat × Nat) (img : List Int) (f : List Bool), jpg.header.comps[c]? = some k → jpg.planes[c]? = some img → flags[c]? = some f →
        EmptyOk img f (jpg.header.mcuCols * k.1 * (jpg.header.mcuRows * k.2))) ∧
      ∀ t < jpg.header.tasks dim, jpg.header.tileFlags dim t flags = (dc.getD t ([], [])).1 := by
  have htil := jpg.header.flag_tiling hv.header hd
  have task : ∀ t < jpg.header.tasks dim, (dc.getD t ([], [])).1.length = jpg.header.comps.length ∧
      ∀ (c : Nat) (k : Nat × Nat) (img : List Int) (f : List Bool), jpg.header.comps[c]? = some k → (jpg.header.tileImgs dim t jpg.planes)[c]? = some img →
        (dc.getD t ([], [])).1[c]? = some f → f.length = (jpg.header.geometry k).size dim t ∧ EmptyOk img f ((jpg.header.geometry k).size dim t) := by
    intro t ht
    obtain ⟨⟨fl, ops⟩, e, ho⟩ := h t ht
    obtain ⟨res, -, -, r1, -, -, r2, -⟩ := dc_task hv hsl hd ht ho
    rw [List.getD_eq_getElem?_getD, e]
    exact ⟨r1, r2⟩
  have himg : ∀ (t c : Nat) (k : Nat × Nat), jpg.header.comps[c]? = some k → ∃ img, (jpg.header.tileImgs dim t jpg.planes)[c]? = some img := by
    intro t c k hk
    exact getOf (m := jpg.header.tileImgs dim t jpg.planes) (cropAll_length hv.planes.length).symm hk
  obtain ⟨B, hB, hcrop⟩ := assembleAll (T := jpg.header.tasks dim) (ln := fun c => jpg.header.mcuCols * c.1 * (jpg.header.mcuRows * c.2))
    (sz := fun c => (jpg.header.geometry c).size dim) (pl := fun c => (jpg.header.geometry c).place dim) htil false (fun t => (dc.getD t ([], [])).1)
    (fun t ht => (task t ht).1) (fun t ht i c p hc hp => by
      obtain ⟨img, hi⟩ := himg t i c hc
      exact ((task t ht).2 i c img p hc hi hp).1)
  refine ⟨B, ?_, hB, ?_, hcrop⟩
  · obtain ⟨s', done, e, hm, hall⟩ := foldlM_perm (f := fun fl t => some (jpg.header.pasteFlags dim t (dc.getD t ([], [])).1 fl))
      (Inv := fun done L => MixedAll jpg.header.comps (jpg.header.tasks dim) (fun c => jpg.header.mcuCols * c.1 * (jpg.header.mcuRows * c.2))
        (fun c => (jpg.header.geometry c).size dim) (fun c => (jpg.header.geometry c).place dim) done jpg.header.noFlags B L)
      (fun done s t ht hn hi => by
        refine ⟨_, rfl, ?_⟩
        have := hi.step htil jpg.header.noFlags_sized hB ht false
        rw [hcrop t ht] at this
        exact this) (List.Perm.refl _) (MixedAll.start jpg.header.noFlags_sized)
    rw [foldl_of_foldlM] at e
    rw [Option.some.inj e]
    exact hm.all htil jpg.header.noFlags_sized hB hall
  · intro c k img f hk himg' hf b hb hfb j hj hj0
    have hkm := List.mem_of_getElem? hk
    obtain ⟨t, ht, i, hi, rfl⟩ := (htil k hkm).cover b hb
    have hp := hv.planes.each c k img hk himg'
    have hfl := hB.each c k f hk hf
    have e1 : (jpg.header.tileImgs dim t jpg.planes)[c]? = some (crop 0 ((jpg.header.geometry k).coefPlace dim t) ((jpg.header.geometry k).size dim t * 64) img) :=
      cropAll_get (pl := fun c => (jpg.header.geometry c).coefPlace dim t) (sz := fun c => (jpg.header.geometry c).size dim t * 64) hk himg'
    have e2 : (dc.getD t ([], [])).1[c]? = some (crop false ((jpg.header.geometry k).place dim t) ((jpg.header.geometry k).size dim t) f) := by
      rw [← hcrop t ht]
      exact cropAll_get hk hf
    have := ((task t ht).2 c k _ _ hk e1 e2).2 i hi (by rw [crop_get hi (by rw [hfl]; exact hb)]; exact hfb) j hj hj0
    have e : (jpg.header.geometry k).coefPlace dim t (i * 64 + j) = (jpg.header.geometry k).place dim t i * 64 + j := by
      unfold Geometry.coefPlace
      rw [show (i * 64 + j) / 64 = i by omega, show (i * 64 + j) % 64 = j by omega]
    rwa [crop_get (by omega) (by rw [e, hp]; omega), e] at this

/-! ## Number of symbols -/

theorem sum_swap_le {κ : Type} (T : Nat) (f : κ → Nat → Nat) (g : κ → Nat) : ∀ cs : List κ, (∀ c ∈ cs, ((List.range T).map (f c)).sum ≤ g c) →
    ((List.range T).map fun t => (cs.map fun c => f c t).sum).sum ≤ (cs.map g).sum := by
  intro cs
  induction cs with
  | nil =>
    intro _
    simp only [List.map_nil, List.sum_nil]
    have : ∀ l : List Nat, (l.map fun _ => 0).sum = 0 := by intro l; induction l <;> simp_all
    exact Nat.le_of_eq (this _)
  | cons c cs ih =>
    intro h
    have h1 := h c List.mem_cons_self
    have h2 := ih fun d hd => h d (List.mem_cons_of_mem _ hd)
    have : ∀ l : List Nat, (l.map fun t => ((c :: cs).map fun c => f c t).sum).sum = (l.map (f c)).sum + (l.map fun t => (cs.map fun c => f c t).sum).sum := by
      intro l
      induction l with
      | nil => rfl
      | cons t l ih => simp only [List.map_cons, List.sum_cons] at ih ⊢; omega
    rw [this, List.map_cons, List.sum_cons]
    omega

theorem sum_mul_left (a : Nat) : ∀ l : List Nat, a * l.sum = (l.map (a * ·)).sum := by
  intro l
  induction l with
  | nil => simp
  | cons x l ih => rw [List.map_cons, List.sum_cons, List.sum_cons, Nat.mul_add, ih]

theorem tile_schedule {jpg : JpegData} (hv : jpg.Valid) {schemes : List Nat} (hsl : schemes.length = jpg.header.comps.length) {dim t : Nat}
    (hd : jpg.header.DimOk dim) (ht : t < jpg.header.tasks dim) :
    (schedule (jpg.header.tileRows dim t) (jpg.header.tileMetas dim t (metas jpg.header schemes))).length =
      (jpg.header.comps.map fun c => (jpg.header.geometry c).size dim t).sum := by
  rw [schedule_length, sum_mul_left, List.map_map]
  congr 1
  apply List.ext_getElem?
  intro i
  rw [List.getElem?_map, List.getElem?_map]
  cases hc : jpg.header.comps[i]? with
  | none =>
    have := List.getElem?_eq_none_iff.mp hc
    rw [List.getElem?_eq_none (by rw [tileMetas_length hv hsl]; omega)]
    rfl
  | some k =>
    obtain ⟨m, hm⟩ := getOf (tileMetas_length hv hsl (dim := dim) (t := t)).symm hc
    rw [hm, Option.map_some, Option.map_some, ← tile_size hv hsl hd ht hm hc]
    refine congrArg some ?_
    show jpg.header.tileRows dim t * (m.vs * m.w) = _
    rw [Nat.mul_comm m.w, Nat.mul_assoc]

theorem blocks_sum {jpg : JpegData} (hv : jpg.Valid) :
    (jpg.header.comps.map fun c => jpg.header.mcuCols * c.1 * (jpg.header.mcuRows * c.2)).sum = jpg.blocks := by
  show ((jpg.components.map _).map _).sum = (jpg.components.map _).sum
  rw [List.map_map]
  congr 1
  apply List.map_congr_left
  intro c hc
  rw [hv.width c hc, hv.height c hc]
  rfl

theorem tile_schedules {jpg : JpegData} (hv : jpg.Valid) {schemes : List Nat} (hsl : schemes.length = jpg.header.comps.length) {dim : Nat}
    (hd : jpg.header.DimOk dim) : ((List.range (jpg.header.tasks dim)).map fun t =>
      (schedule (jpg.header.tileRows dim t) (jpg.header.tileMetas dim t (metas jpg.header schemes))).length).sum ≤ jpg.blocks := by
  rw [List.map_congr_left fun t ht => tile_schedule hv hsl hd (List.mem_range.mp ht), ← blocks_sum hv]
  exact sum_swap_le (jpg.header.tasks dim) (fun c t => (jpg.header.geometry c).size dim t) _ jpg.header.comps fun c hc =>
    (jpg.header.flag_tiling hv.header hd c hc).total

theorem blocks_le {jpg : JpegData} (hv : jpg.Valid) : jpg.blocks ≤ 2 ^ 23 := by
  rw [← schedule_blocks hv]
  exact schedule_le hv.header _

theorem codes_flatten : ∀ l : List (List Op), codes l.flatten = (l.map codes).sum := by
  intro l
  induction l with
  | nil => rfl
  | cons a l ih => rw [List.flatten_cons, codes_append, List.map_cons, List.sum_cons, ih]

theorem sum_get_le {l : List Nat} {f : Nat → Nat} {T : Nat} (hl : l.length = T) (h : ∀ t < T, ∀ v, l[t]? = some v → v ≤ f t) : l.sum ≤ ((List.range T).map f).sum := by
  induction T generalizing l with
  | zero => rw [List.eq_nil_of_length_eq_zero hl]; simp
  | succ n ih =>
    have e : l = l.take n ++ [l[n]] := by
      have := List.take_concat_get' l n (by omega); rw [this, List.take_of_length_le (by omega)]
    rw [List.range_succ, List.map_append, List.sum_append, e, List.sum_append]
    have h1 := ih (l := l.take n) (by simp; omega) (fun t ht v hv => h t (by omega) v (by rwa [List.getElem?_take_of_lt ht] at hv))
    have h2 := h n (by omega) l[n] (List.getElem?_eq_getElem (by omega))
    simp only [List.sum_cons, List.sum_nil, List.map_cons, List.map_nil] at *
    omega

/-! ## Tables -/

/-- The histograms the decoder reads suit all symbols that were counted. -/
theorem tables_use {par : Codec} (hcl : par.Clusters) {h : Header} {schemes : List Nat} (hsl : schemes.length = h.comps.length) (hn : h.comps.length ≤ 4)
    (hs : ∀ s ∈ schemes, s < 7) {ops : List Op} (hfits : ∀ op ∈ ops, op.Fits (contextCount (metas h schemes)))
    (hgr : grand (countSymbols (contextCount (metas h schemes)) ops) ≤ 2 ^ 29) {map : List Nat} {clusters : List Cluster}
    (hc : par.cluster (0 :: (metas h schemes).map Meta.ctxOffset) (countSymbols (contextCount (metas h schemes)) ops) = some (map, clusters))
    (hpos : 0 < h.comps.length) :
    ∃ tabs bits hists, encodeHistogramData schemes map clusters = some (tabs, bits) ∧ decodeHistogramData h.comps.length bits = some (some ⟨schemes, map, hists⟩, []) ∧ bits.length % 8 = 0 ∧
      ∀ c s, Op.code c s ∈ ops → (histTab map hists c).sum = 1024 ∧ 0 < (histTab map hists c).getD s 0 ∧ tabs.getD (map.getD c 0) [] = histTab map hists c := by
  have hoff := layout_offsets (metas_layout hsl hs)
  generalize hnc : contextCount (metas h schemes) = N at *
  have hN : numContexts schemes * kNumAvrgContexts = N := by rw [← hnc, contextCount, metas_bits hsl]
  have hN1 : 0 < N := by rw [← hN, numContexts, kNumAvrgContexts]; omega
  have hN3 : N ≤ 14868 := by
    rw [← hN, kNumAvrgContexts]
    have := numContexts_le schemes
    omega
  have hN2 : N < 2 ^ 31 := by omega
  have hcs := countSymbols_length N ops
  have hr := hcl (0 :: (metas h schemes).map Meta.ctxOffset) (countSymbols N ops)
    (by intro h; rw [h] at hcs; simp at hcs; omega) hcs.2 (by rw [hcs.1]; exact hoff) (by rw [hcs.1]; exact hN3) hgr (map, clusters) hc
  have hmap : map.length = N := by rw [← hcs.1]; exact hr.length
  obtain ⟨tabs, bits, hists, he, h2, h3, h4, h5⟩ := C14_section_roundtrip schemes map clusters hs hr.pos hr.le hr.index
    (by rw [hmap, hN]) (by rw [hmap]; exact hN2) hr.ok
  refine ⟨tabs, bits, hists, he, by rw [← hsl]; exact h2, ?_, ?_⟩
  · unfold encodeHistogramData at he
    split at he
    · rw [← (Prod.mk.inj (Option.some.inj he)).2]
      exact padByte_mod _
    · exact absurd he nofun
  · intro c s hm
    obtain ⟨hc, hs⟩ := hfits _ hm
    have hcm : map[c]? = some map[c] := List.getElem?_eq_getElem (by omega)
    have hi : map[c] < clusters.length := hr.index _ (List.getElem_mem _)
    have hne := hr.covers c s _ _ (countSymbols_ne hc hs hm) hcm (List.getElem?_eq_getElem hi)
    obtain ⟨k1, k2, k3⟩ := h5 _ hi
    have ht : histTab map hists c = hists.getD map[c] [] := by
      unfold histTab
      rw [hcm, Option.bind_some, List.getD_eq_getElem?_getD]
    rw [ht]
    refine ⟨k1, k3 s hs hne, ?_⟩
    rw [k2 ⟨s, hs, hne⟩, List.getD_eq_getElem?_getD (l := map), hcm]
    rfl

/-- All tasks together. -/
theorem group_symbols {jpg : JpegData} (hv : jpg.Valid) {schemes : List Nat} (hsl : schemes.length = jpg.header.comps.length) (hs : ∀ s ∈ schemes, s < 7)
    {dcDim acDim : Nat} (hdd : jpg.header.DimOk dcDim) (hda : jpg.header.DimOk acDim) {quants : List (List Nat)}
    (hlq : quants.length = jpg.header.comps.length) (hqo : ∀ q ∈ quants, QuantOk q)
    {flags : List (List Bool)} (hfs : SizedAll jpg.header.comps (fun c => jpg.header.mcuCols * c.1 * (jpg.header.mcuRows * c.2)) flags)
    (hfe : ∀ (c : Nat) (k : Nat × Nat) (img : List Int) (f : List Bool), jpg.header.comps[c]? = some k → jpg.planes[c]? = some img → flags[c]? = some f →
      EmptyOk img f (jpg.header.mcuCols * k.1 * (jpg.header.mcuRows * k.2)))
    {dc : List (List (List Bool) × List Op)} {ac : List (List Op)} (dl : dc.length = jpg.header.tasks dcDim)
    (dt : ∀ t < jpg.header.tasks dcDim, ∃ b, dc[t]? = some b ∧ encodeDcTask jpg (metas jpg.header schemes) dcDim t = .ok b) (al : ac.length = jpg.header.tasks acDim)
    (at_ : ∀ t < jpg.header.tasks acDim, ∃ b, ac[t]? = some b ∧ encodeAcTask jpg (metas jpg.header schemes) quants flags acDim t = .ok b) :
    (∀ op ∈ (dc.map Prod.snd).flatten ++ ac.flatten, op.Fits (contextCount (metas jpg.header schemes))) ∧
    grand (countSymbols (contextCount (metas jpg.header schemes)) ((dc.map Prod.snd).flatten ++ ac.flatten)) ≤ 64 * jpg.blocks := by
  have hda' : ∀ t < jpg.header.tasks dcDim, ∃ fl ops, dc[t]? = some (fl, ops) ∧ encodeDcTask jpg (metas jpg.header schemes) dcDim t = .ok (fl, ops) := fun t ht => by
    obtain ⟨⟨fl, ops⟩, a, b⟩ := dt t ht
    exact ⟨fl, ops, a, b⟩
  refine ⟨?_, ?_⟩
  · intro op hop
    rcases List.mem_append.mp hop with hop | hop
    · obtain ⟨ops, ho, hop⟩ := List.mem_flatten.mp hop
      obtain ⟨x, hx, rfl⟩ := List.mem_map.mp ho
      obtain ⟨t, ht⟩ := List.getElem?_of_mem hx
      have htl : t < jpg.header.tasks dcDim := by rw [← dl]; exact (List.getElem?_eq_some_iff.mp ht).1
      obtain ⟨fl, ops, a, b⟩ := hda' t htl
      rw [ht] at a
      cases a
      obtain ⟨res, r1, -⟩ := dc_task hv hsl hdd htl b
      exact r1 op hop
    · obtain ⟨ops, ho, hop⟩ := List.mem_flatten.mp hop
      obtain ⟨t, ht⟩ := List.getElem?_of_mem ho
      have htl : t < jpg.header.tasks acDim := by rw [← al]; exact (List.getElem?_eq_some_iff.mp ht).1
      obtain ⟨ops', a, b⟩ := at_ t htl
      rw [ht] at a
      cases a
      exact (ac_task hv hsl hda htl hs hlq hqo hfs hfe b).1 op hop
  · refine Nat.le_trans (countSymbols_grand _ _) ?_
    rw [codes_append, codes_flatten, codes_flatten]
    have b1 : ((dc.map Prod.snd).map codes).sum ≤ jpg.blocks := by
      refine Nat.le_trans (sum_get_le (T := jpg.header.tasks dcDim) (by simp [dl]) fun t ht v hv' => ?_) (tile_schedules hv hsl hdd)
      obtain ⟨fl, ops, a, b⟩ := hda' t ht
      rw [List.getElem?_map, List.getElem?_map, a] at hv'
      cases hv'
      obtain ⟨res, -, r2, -⟩ := dc_task hv hsl hdd ht b
      exact r2
    have b2 : (ac.map codes).sum ≤ 63 * jpg.blocks := by
      refine Nat.le_trans (sum_get_le (T := jpg.header.tasks acDim)
        (f := fun t => 63 * (schedule (jpg.header.tileRows acDim t) (jpg.header.tileMetas acDim t (metas jpg.header schemes))).length) (by simp [al]) fun t ht v hv' => ?_) ?_
      · obtain ⟨ops, a, b⟩ := at_ t ht
        rw [List.getElem?_map, a] at hv'
        cases hv'
        exact (ac_task hv hsl hda ht hs hlq hqo hfs hfe b).2.1
      · have := tile_schedules hv hsl hda
        have e : ∀ l : List Nat, (l.map fun t => 63 * (schedule (jpg.header.tileRows acDim t) (jpg.header.tileMetas acDim t (metas jpg.header schemes))).length).sum =
            63 * (l.map fun t => (schedule (jpg.header.tileRows acDim t) (jpg.header.tileMetas acDim t (metas jpg.header schemes))).length).sum := by
          intro l
          rw [sum_mul_left, List.map_map]
          rfl
        rw [e]
        omega
    omega

end Brunsli
