import Verif.GroupCodec
import Verif.E2E
/-!
# Stages of tasks

All components at once: what is put together from the pieces of the tasks, in any order, is the whole.
-/

namespace Brunsli

namespace Groups

variable {α κ : Type}

/-- The pieces of one task. -/
def cropAll (d : α) (cs : List κ) (pl : κ → Nat → Nat) (sz : κ → Nat) (L : List (List α)) : List (List α) :=
  List.zipWith (fun c l => crop d (pl c) (sz c) l) cs L

/-- The arrays with the pieces of one task replaced. -/
def pasteAll (d : α) (cs : List κ) (pl : κ → Nat → Nat) (sz : κ → Nat) (parts L : List (List α)) : List (List α) :=
  List.zipWith (fun c (p : List α × List α) => paste d (pl c) (sz c) p.1 p.2) cs (parts.zip L)

theorem cropAll_length {d : α} {cs : List κ} {pl : κ → Nat → Nat} {sz : κ → Nat} {L : List (List α)} (h : L.length = cs.length) :
    (cropAll d cs pl sz L).length = cs.length := by
  unfold cropAll
  rw [List.length_zipWith, h, Nat.min_self]

theorem cropAll_get {d : α} {cs : List κ} {pl : κ → Nat → Nat} {sz : κ → Nat} {L : List (List α)} {i : Nat} {c : κ} {l : List α} (h1 : cs[i]? = some c)
    (h2 : L[i]? = some l) : (cropAll d cs pl sz L)[i]? = some (crop d (pl c) (sz c) l) :=
  List.getElem?_zipWith_eq_some.mpr ⟨c, l, h1, h2, rfl⟩

theorem cropAll_ok {d : α} {cs : List κ} {pl : κ → Nat → Nat} {sz : κ → Nat} {L : List (List α)} {i : Nat} {p : List α}
    (h : (cropAll d cs pl sz L)[i]? = some p) : ∃ c l, cs[i]? = some c ∧ L[i]? = some l ∧ p = crop d (pl c) (sz c) l := by
  obtain ⟨c, l, h1, h2, h3⟩ := List.getElem?_zipWith_eq_some.mp h
  exact ⟨c, l, h1, h2, h3.symm⟩

/-- The arrays of all components during a stage. -/
structure MixedAll (cs : List κ) (T : Nat) (ln : κ → Nat) (sz : κ → Nat → Nat) (pl : κ → Nat → Nat → Nat) (done : List Nat) (A B L : List (List α)) : Prop where
  length : L.length = cs.length
  each : ∀ (i : Nat) (c : κ) (a b l : List α), cs[i]? = some c → A[i]? = some a → B[i]? = some b → L[i]? = some l → Mixed (ln c) T (sz c) (pl c) done a b l

/-- Arrays of the right sizes. -/
structure SizedAll (cs : List κ) (ln : κ → Nat) (A : List (List α)) : Prop where
  length : A.length = cs.length
  each : ∀ (i : Nat) (c : κ) (a : List α), cs[i]? = some c → A[i]? = some a → a.length = ln c

variable {cs : List κ} {T : Nat} {ln : κ → Nat} {sz : κ → Nat → Nat} {pl : κ → Nat → Nat → Nat} {done : List Nat} {A B L : List (List α)}

theorem getOf {β γ : Type} {l : List β} {m : List γ} (h : l.length = m.length) {i : Nat} {b : β} (hb : l[i]? = some b) : ∃ c, m[i]? = some c := by
  obtain ⟨h1, -⟩ := List.getElem?_eq_some_iff.mp hb
  exact ⟨m[i], List.getElem?_eq_getElem (by omega)⟩

theorem MixedAll.start (hA : SizedAll cs ln A) : MixedAll cs T ln sz pl [] A B A :=
  ⟨hA.length, fun i c a b l hc ha _ hl => by
    rw [ha] at hl
    cases hl
    exact Mixed.start (hA.each i c a hc ha)⟩

theorem MixedAll.step (h : MixedAll cs T ln sz pl done A B L) (ht : ∀ c ∈ cs, Tiling (ln c) T (sz c) (pl c)) (hA : SizedAll cs ln A) (hB : SizedAll cs ln B)
    {t : Nat} (hlt : t < T) (d : α) :
    MixedAll cs T ln sz pl (t :: done) A B (pasteAll d cs (fun c => pl c t) (fun c => sz c t) (cropAll d cs (fun c => pl c t) (fun c => sz c t) B) L) where
  length := by
    unfold pasteAll
    rw [List.length_zipWith, List.length_zip, cropAll_length hB.length, h.length, Nat.min_self, Nat.min_self]
  each := by
    intro i c a b l hc ha hb hl
    obtain ⟨c', p, hc', hp, rfl⟩ := List.getElem?_zipWith_eq_some.mp hl
    rw [hc] at hc'
    cases hc'
    obtain ⟨p1, p2⟩ := p
    obtain ⟨hp1, hp2⟩ := List.getElem?_zip_eq_some.mp hp
    rw [cropAll_get hc hb] at hp1
    cases hp1
    exact (h.each i c a b p2 hc ha hb hp2).step (ht c (List.mem_of_getElem? hc)) (hB.each i c b hc hb) hlt d

theorem MixedAll.crop_old (h : MixedAll cs T ln sz pl done A B L) (ht : ∀ c ∈ cs, Tiling (ln c) T (sz c) (pl c)) (hA : SizedAll cs ln A) (hB : SizedAll cs ln B)
    {t : Nat} (hlt : t < T) (hd : t ∉ done) (d : α) :
    cropAll d cs (fun c => pl c t) (fun c => sz c t) L = cropAll d cs (fun c => pl c t) (fun c => sz c t) A := by
  apply List.ext_getElem?
  intro i
  cases hc : cs[i]? with
  | none =>
    have := List.getElem?_eq_none_iff.mp hc
    rw [List.getElem?_eq_none (by rw [cropAll_length h.length]; omega), List.getElem?_eq_none (by rw [cropAll_length hA.length]; omega)]
  | some c =>
    obtain ⟨a, ha⟩ := getOf hA.length.symm hc
    obtain ⟨b, hb⟩ := getOf hB.length.symm hc
    obtain ⟨l, hl⟩ := getOf h.length.symm hc
    rw [cropAll_get hc hl, cropAll_get hc ha, (h.each i c a b l hc ha hb hl).crop_old (ht c (List.mem_of_getElem? hc)) (hA.each i c a hc ha) hlt hd]

theorem MixedAll.all (h : MixedAll cs T ln sz pl done A B L) (ht : ∀ c ∈ cs, Tiling (ln c) T (sz c) (pl c)) (hA : SizedAll cs ln A) (hB : SizedAll cs ln B)
    (hd : ∀ t < T, t ∈ done) : L = B := by
  apply List.ext_getElem?
  intro i
  cases hc : cs[i]? with
  | none =>
    have := List.getElem?_eq_none_iff.mp hc
    rw [List.getElem?_eq_none (by rw [h.length]; omega), List.getElem?_eq_none (by rw [hB.length]; omega)]
  | some c =>
    obtain ⟨a, ha⟩ := getOf hA.length.symm hc
    obtain ⟨b, hb⟩ := getOf hB.length.symm hc
    obtain ⟨l, hl⟩ := getOf h.length.symm hc
    rw [hl, hb, (h.each i c a b l hc ha hb hl).all (ht c (List.mem_of_getElem? hc)) (hB.each i c b hc hb) hd]

/-- Pieces make up an array. -/
theorem Tiling.assemble {len : Nat} {size : Nat → Nat} {place : Nat → Nat → Nat} (ht : Tiling len T size place) (d : α) (P : Nat → List α)
    (hP : ∀ t < T, (P t).length = size t) : ∃ b : List α, b.length = len ∧ ∀ t < T, crop d (place t) (size t) b = P t := by
  classical
  let g : Nat → α := fun i => if h : i < len then (P (Classical.choose (ht.cover i h))).getD (Classical.choose (Classical.choose_spec (ht.cover i h)).2) d else d
  refine ⟨(List.range len).map g, by simp, fun t hlt => ?_⟩
  apply List.ext_getElem?
  intro j
  by_cases hj : j < size t
  · have hpl := ht.lt t hlt j hj
    rw [crop_get hj (by simpa using hpl), List.getElem?_map, List.getElem?_range hpl, Option.map_some]
    have h1 := Classical.choose_spec (ht.cover (place t j) hpl)
    have h2 := Classical.choose_spec h1.2
    obtain ⟨e1, e2⟩ := ht.inj _ h1.1 _ h2.1 t hlt j hj h2.2
    show some (if h : place t j < len then _ else _) = _
    rw [dif_pos hpl, e2, e1, List.getD_eq_getElem?_getD, List.getElem?_eq_getElem (by rw [hP t hlt]; exact hj)]
    rfl
  · rw [List.getElem?_eq_none (by rw [crop_length]; omega), List.getElem?_eq_none (by rw [hP t hlt]; omega)]

theorem assembleAll (ht : ∀ c ∈ cs, Tiling (ln c) T (sz c) (pl c)) (d : α) (P : Nat → List (List α)) (hl : ∀ t < T, (P t).length = cs.length)
    (hP : ∀ t < T, ∀ (i : Nat) (c : κ) (p : List α), cs[i]? = some c → (P t)[i]? = some p → p.length = sz c t) :
    ∃ B, SizedAll cs ln B ∧ ∀ t < T, cropAll d cs (fun c => pl c t) (fun c => sz c t) B = P t := by
  have H : ∀ i : _root_.Fin cs.length, ∃ b : List α, b.length = ln cs[i] ∧ ∀ t < T, crop d (pl cs[i] t) (sz cs[i] t) b = (P t).getD i [] := by
    intro i
    refine (ht cs[i] (List.getElem_mem _)).assemble d (fun t => (P t).getD i []) fun t hlt => ?_
    have hi : (i : Nat) < (P t).length := by rw [hl t hlt]; exact i.isLt
    refine hP t hlt i cs[i] _ (List.getElem?_eq_getElem i.isLt) ?_
    rw [List.getD_eq_getElem?_getD, List.getElem?_eq_getElem hi]
    rfl
  have hg : ∀ (i : Nat) (b : List α), (List.ofFn fun i => Classical.choose (H i))[i]? = some b → ∃ h : i < cs.length, b = Classical.choose (H ⟨i, h⟩) := by
    intro i b hb
    obtain ⟨h1, h2⟩ := List.getElem?_eq_some_iff.mp hb
    have h1' : i < cs.length := by simpa using h1
    refine ⟨h1', ?_⟩
    rw [← h2, List.getElem_ofFn]
  refine ⟨List.ofFn fun i => Classical.choose (H i), ⟨by simp, fun i c b hc hb => ?_⟩, fun t hlt => ?_⟩
  · obtain ⟨h, rfl⟩ := hg i b hb
    rw [(Classical.choose_spec (H ⟨i, h⟩)).1]
    rw [List.getElem?_eq_getElem h] at hc
    cases hc
    rfl
  · apply List.ext_getElem?
    intro i
    cases hc : cs[i]? with
    | none =>
      have := List.getElem?_eq_none_iff.mp hc
      rw [List.getElem?_eq_none (by rw [cropAll_length (by simp)]; omega), List.getElem?_eq_none (by rw [hl t hlt]; omega)]
    | some c =>
      obtain ⟨b, hb⟩ := getOf (m := List.ofFn fun i => Classical.choose (H i)) (by simp) hc
      rw [cropAll_get hc hb]
      obtain ⟨h, rfl⟩ := hg i b hb
      have := (Classical.choose_spec (H ⟨i, h⟩)).2 t hlt
      rw [List.getElem?_eq_getElem h] at hc
      cases hc
      have hi : i < (P t).length := by rw [hl t hlt]; exact h
      rw [List.getD_eq_getElem?_getD, List.getElem?_eq_getElem hi] at this
      rw [List.getElem?_eq_getElem hi]
      exact congrArg some this

/-- Steps in any order. -/
theorem foldlM_order {σ : Type} {T : Nat} {f : σ → Nat → Option σ} {Inv : List Nat → σ → Prop}
    (step : ∀ done s t, t < T → t ∉ done → Inv done s → ∃ s', f s t = some s' ∧ Inv (t :: done) s') : ∀ (order : List Nat), order.Nodup → (∀ t ∈ order, t < T) →
    ∀ done s, Inv done s → (∀ t ∈ order, t ∉ done) → ∃ s', order.foldlM f s = some s' ∧ Inv (order.reverse ++ done) s' := by
  intro order
  induction order with
  | nil => intro _ _ done s hi _; exact ⟨s, rfl, hi⟩
  | cons t order ih =>
    intro hn hlt done s hi hd
    obtain ⟨s1, e1, i1⟩ := step done s t (hlt t List.mem_cons_self) (hd t List.mem_cons_self) hi
    obtain ⟨hn1, hn2⟩ := List.nodup_cons.mp hn
    obtain ⟨s2, e2, i2⟩ := ih hn2 (fun u hu => hlt u (List.mem_cons_of_mem _ hu)) (t :: done) s1 i1 fun u hu hm => by
      rcases List.mem_cons.mp hm with rfl | hm
      · exact hn1 hu
      · exact hd u (List.mem_cons_of_mem _ hu) hm
    refine ⟨s2, ?_, ?_⟩
    · rw [List.foldlM_cons, e1]; exact e2
    · rw [List.reverse_cons, List.append_assoc]; exact i2

theorem foldlM_perm {σ : Type} {T : Nat} {f : σ → Nat → Option σ} {Inv : List Nat → σ → Prop}
    (step : ∀ done s t, t < T → t ∉ done → Inv done s → ∃ s', f s t = some s' ∧ Inv (t :: done) s') {order : List Nat} (hp : order.Perm (List.range T)) {s : σ}
    (hi : Inv [] s) : ∃ s' done, order.foldlM f s = some s' ∧ Inv done s' ∧ ∀ t < T, t ∈ done := by
  obtain ⟨s', e, i⟩ := foldlM_order step order (hp.nodup_iff.mpr List.nodup_range) (fun t ht => List.mem_range.mp (hp.mem_iff.mp ht)) [] s hi (fun _ _ => by simp)
  refine ⟨s', _, e, i, fun t ht => ?_⟩
  rw [List.append_nil, List.mem_reverse]
  exact hp.mem_iff.mpr (List.mem_range.mpr ht)

theorem foldl_of_foldlM {σ : Type} (g : σ → Nat → σ) : ∀ (l : List Nat) (s : σ), l.foldlM (fun s t => some (g s t)) s = some (l.foldl g s) := by
  intro l
  induction l with
  | nil => intro s; rfl
  | cons t l ih => intro s; rw [List.foldlM_cons, List.foldl_cons]; exact ih _

end Groups

open Groups

/-! ## Components of an image -/

/-- Dimensions of groups that pass the checks. -/
structure Header.DimOk (h : Header) (dim : Nat) : Prop where
  pos : 0 < dim
  divH : dim % maxFactor (h.comps.map Prod.fst) = 0
  divV : dim % maxFactor (h.comps.map Prod.snd) = 0
  maxH : 0 < maxFactor (h.comps.map Prod.fst)
  maxV : 0 < maxFactor (h.comps.map Prod.snd)

theorem mcu_pos {a b : Nat} (ha : 1 ≤ a) (hb : 0 < b) : 0 < divCeil a (b * 8) := by
  unfold divCeil
  exact Nat.div_pos (by omega) (by omega)

theorem Header.geometry_ok {h : Header} (hh : h.Ok) {dim : Nat} (hd : h.DimOk dim) {c : Nat × Nat} (hc : c ∈ h.comps) : (h.geometry c).Ok dim := by
  obtain ⟨f1, -, f3, -⟩ := hh.factors c hc
  have hb := hh.blocks (h.mcuCols * c.1, h.mcuRows * c.2) (List.mem_map.mpr ⟨c, hc, rfl⟩)
  dsimp only at hb
  have w : 0 < h.mcuCols * c.1 := Nat.mul_pos (mcu_pos hh.width.1 hd.maxH) f1
  have r : 0 < h.mcuRows * c.2 := Nat.mul_pos (mcu_pos hh.height.1 hd.maxV) f3
  have b1 : h.mcuCols * c.1 ≤ kBrunsliMaxNumBlocks := Nat.le_trans (Nat.le_mul_of_pos_right _ r) hb
  have b2 : h.mcuRows * c.2 ≤ kBrunsliMaxNumBlocks := Nat.le_trans (Nat.le_mul_of_pos_left _ w) hb
  rw [kBrunsliMaxNumBlocks] at b1 b2
  exact ⟨hd.pos, hd.divH, hd.divV, hd.maxH, hd.maxV, f1, f3, show h.mcuCols * c.1 < 2 ^ 64 by omega, show h.mcuRows * c.2 < 2 ^ 64 by omega⟩

theorem Groups.Geometry.lines_eq {g : Geometry} {dim t : Nat} (hg : g.Ok dim) (ht : t < g.tasks dim) : g.lines dim t =
    (min (t / numTiles g.mcuCols g.maxH dim * (dim / g.maxV) + dim / g.maxV) g.mcuRows - t / numTiles g.mcuCols g.maxH dim * (dim / g.maxV)) * g.v := by
  have hpos : 0 < numTiles g.mcuCols g.maxH dim := by
    rcases Nat.eq_zero_or_pos (numTiles g.mcuCols g.maxH dim) with h | h
    · rw [Geometry.tasks, h, Nat.zero_mul] at ht; omega
    · exact h
  have hy : t / numTiles g.mcuCols g.maxH dim < numTiles g.mcuRows g.maxV dim := (Nat.div_lt_iff_lt_mul hpos).mpr (by
    rw [Nat.mul_comm]; exact ht)
  have e := (extent_eq hg.pos hg.maxV hg.divV hg.v hg.height hy).1
  unfold Geometry.lines
  change extent g.v dim g.maxV g.height _ = _ at e
  rw [e, last, first, tile_dim hg.maxV hg.divV]
  generalize dim / g.maxV = q
  generalize t / numTiles g.mcuCols g.maxH dim = y
  rw [Nat.sub_mul, Nat.mul_comm g.v q, ← Nat.mul_assoc, ← Nat.add_mul, Nat.mul_min_mul_right]

/-- The rows of MCUs of a task suit all components. -/
theorem Header.tile_lines {h : Header} (hh : h.Ok) {dim t : Nat} (hd : h.DimOk dim) (ht : t < h.tasks dim) {c : Nat × Nat} (hc : c ∈ h.comps) :
    (h.geometry c).lines dim t = h.tileRows dim t * c.2 := by
  obtain ⟨c0, cs, e⟩ := List.exists_cons_of_length_pos (l := h.comps) (by have := hh.ncomp.1; omega)
  have hc0 : c0 ∈ h.comps := by rw [e]; exact List.mem_cons_self
  have hrows : h.tileRows dim t = (h.geometry c0).lines dim t / c0.2 := by
    unfold Header.tileRows
    split
    · rename_i e2; rw [e] at e2; cases e2
    · rename_i e2
      rw [e] at e2
      cases e2
      rfl
  have l0 := Geometry.lines_eq (h.geometry_ok hh hd hc0) (t := t) ht
  have l1 := Geometry.lines_eq (h.geometry_ok hh hd hc) (t := t) ht
  rw [hrows, l0, l1]
  show _ = _ * c0.2 / c0.2 * c.2
  rw [Nat.mul_div_cancel _ (hh.factors c0 hc0).2.2.1]
  rfl

theorem Header.flag_tiling {h : Header} (hh : h.Ok) {dim : Nat} (hd : h.DimOk dim) : ∀ c ∈ h.comps,
    Tiling (h.mcuCols * c.1 * (h.mcuRows * c.2)) (h.tasks dim) ((h.geometry c).size dim) ((h.geometry c).place dim) :=
  fun _ hc => geometry_tiling (h.geometry_ok hh hd hc)

theorem Header.coef_tiling {h : Header} (hh : h.Ok) {dim : Nat} (hd : h.DimOk dim) : ∀ c ∈ h.comps,
    Tiling (h.mcuCols * c.1 * (h.mcuRows * c.2) * 64) (h.tasks dim) (fun t => (h.geometry c).size dim t * 64) ((h.geometry c).coefPlace dim) :=
  fun _ hc => (geometry_tiling (h.geometry_ok hh hd hc)).scale

end Brunsli
