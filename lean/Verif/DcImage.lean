import Verif.Dc
/-!
# DC coefficients of whole images
-/

namespace Brunsli

/-- The coefficients with some positions cleared. -/
def keep (q : Nat → Bool) (img : List Int) : List Int := img.mapIdx fun i v => if q i then v else 0

theorem keep_getElem? (q : Nat → Bool) (img : List Int) (i : Nat) : (keep q img)[i]? = (img[i]?).map fun v => if q i then v else 0 := by
  unfold keep; rw [List.getElem?_mapIdx]

theorem keep_length (q : Nat → Bool) (img : List Int) : (keep q img).length = img.length := by
  unfold keep; rw [List.length_mapIdx]

theorem keep_getElem?_of {q : Nat → Bool} {img : List Int} {i : Nat} (h : q i = true) : (keep q img)[i]? = img[i]? := by
  rw [keep_getElem?, h]
  simp

theorem keep_congr {q r : Nat → Bool} {img : List Int} (h : ∀ i < img.length, q i = r i) : keep q img = keep r img := by
  apply List.ext_getElem?
  intro i
  rw [keep_getElem?, keep_getElem?]
  by_cases hi : i < img.length
  · rw [h i hi]
  · rw [List.getElem?_eq_none (by omega)]; rfl

theorem keep_set {q r : Nat → Bool} {img : List Int} {j : Nat} {v : Int} (hv : img[j]? = some v) (hj : r j = true)
    (h : ∀ i < img.length, i ≠ j → r i = q i) : (keep q img).set j v = keep r img := by
  apply List.ext_getElem?
  intro i
  rw [List.getElem?_set, keep_getElem?, keep_getElem?, keep_length]
  by_cases hij : j = i
  · subst hij
    rw [if_pos rfl, hv, hj]
    have : j < img.length := by
      apply Decidable.byContradiction; intro hn
      rw [List.getElem?_eq_none (by omega)] at hv; cases hv
    rw [if_pos this]; rfl
  · rw [if_neg hij]
    by_cases hi : i < img.length
    · rw [h i hi (fun e => hij e.symm)]
    · rw [List.getElem?_eq_none (by omega)]; rfl

theorem keep_none {img : List Int} {q : Nat → Bool} (h : ∀ i < img.length, q i = false) : keep q img = List.replicate img.length 0 := by
  apply List.ext_getElem?
  intro i
  rw [keep_getElem?, List.getElem?_replicate]
  by_cases hi : i < img.length
  · rw [h i hi, List.getElem?_eq_getElem hi, if_pos hi]; rfl
  · rw [List.getElem?_eq_none (by omega), if_neg hi]; rfl

/-- DC coefficients of the first `n` blocks. -/
def dcUpTo (n i : Nat) : Bool := decide (i % 64 = 0) && decide (i / 64 < n)

/-- All DC coefficients, the rest cleared. -/
def dcOnly (img : List Int) : List Int := keep (fun i => decide (i % 64 = 0)) img

/-- An image component: its size, coefficients that fit `coeff_t`, and DC coefficients the encoder accepts. -/
structure PlaneOk (rows : Nat) (m : Meta) (img : List Int) : Prop where
  size : img.length = m.w * (rows * m.vs) * 64
  range : ∀ v ∈ img, -32768 ≤ v ∧ v < 32768
  dc : predictDCCoeffs img m.w (rows * m.vs) = true

theorem pos_lt {w h x y : Nat} (hx : x < w) (hy : y < h) : y * w + x < w * h := by
  have : (y + 1) * w ≤ h * w := Nat.mul_le_mul_right w hy
  rw [Nat.add_mul] at this
  rw [Nat.mul_comm w h]
  omega

theorem predictDCCoeffs_err {img : List Int} {w h y x : Nat} (hp : predictDCCoeffs img w h = true) (hx : x < w) (hy : y < h) :
    ∃ e, dcErr img w y x = some e ∧ e.natAbs ≤ 2054 := by
  unfold predictDCCoeffs at hp
  have := List.all_eq_true.mp (List.all_eq_true.mp hp y (List.mem_range.mpr hy)) x (List.mem_range.mpr hx)
  cases he : dcErr img w y x with
  | none => rw [he] at this; simp at this
  | some e => rw [he] at this; exact ⟨e, rfl, by simpa using this⟩

theorem wrap16_id {v : Int} (h1 : -32768 ≤ v) (h2 : v < 32768) : wrap16 v = v := by
  unfold wrap16 Int.bmod
  simp only
  split <;> omega

theorem dcUpTo_true {n i : Nat} (h1 : i % 64 = 0) (h2 : i / 64 < n) : dcUpTo n i = true := by
  unfold dcUpTo; simp [h1, h2]

theorem predictDC_partial {img : List Int} {w y x : Nat} (hxw : x < w) :
    predictDC (keep (dcUpTo (y * w + x)) img) w y x = predictDC img w y x := by
  have hw : y ≠ 0 → w ≤ y * w := fun hy => by
    have := Nat.mul_le_mul_right w (show 1 ≤ y by omega)
    omega
  have h1 : x ≠ 0 → (keep (dcUpTo (y * w + x)) img)[(y * w + x) * 64 - 64]? = img[(y * w + x) * 64 - 64]? := fun hx =>
    keep_getElem?_of (dcUpTo_true (by omega) (by omega))
  have h2 : y ≠ 0 → (keep (dcUpTo (y * w + x)) img)[(y * w + x) * 64 - w * 64]? = img[(y * w + x) * 64 - w * 64]? := fun hy =>
    keep_getElem?_of (dcUpTo_true (by omega) (by have := hw hy; omega))
  have h3 : y ≠ 0 → x ≠ 0 → (keep (dcUpTo (y * w + x)) img)[(y * w + x) * 64 - w * 64 - 64]? = img[(y * w + x) * 64 - w * 64 - 64]? :=
    fun hy hx => keep_getElem?_of (dcUpTo_true (by omega) (by have := hw hy; omega))
  unfold predictDC
  by_cases hy : y ≠ 0
  · simp only [if_pos hy]
    by_cases hx : x ≠ 0
    · simp only [if_pos hx]
      rw [h1 hx, h2 hy, h3 hy hx]
    · simp only [if_neg hx]
      exact h2 hy
  · simp only [if_neg hy]
    by_cases hx : x ≠ 0
    · simp only [if_pos hx]
      exact h1 hx
    · simp only [if_neg hx]

/-- The median of coefficients is between the smallest and the largest of its neighbours, or close to them; nothing overflows. -/
theorem adaptiveMedian_some {w n nw : Int} (hw : -32768 ≤ w ∧ w < 32768) (hn : -32768 ≤ n ∧ n < 32768) (hnw : -32768 ≤ nw ∧ nw < 32768) :
    ∃ p, adaptiveMedian w n nw = some p ∧ -32768 ≤ p ∧ p < 32768 := by
  unfold adaptiveMedian
  have hm : ∀ mx : Int, (mx = w ∧ w > n ∨ mx = n ∧ ¬ w > n) → ∃ p, ((int32 (w + n)).bind fun s => (int32 (s - mx)).bind fun mn =>
      if nw > mx then some mn else if nw < mn then some mx else (int32 (n + w)).bind fun t => int32 (t - nw)) = some p ∧ -32768 ≤ p ∧ p < 32768 := by
    intro mx hmx
    rw [int32_some (by omega) (by omega), Option.bind_some, int32_some (by omega) (by omega), Option.bind_some]
    by_cases h1 : nw > mx
    · rw [if_pos h1]; exact ⟨_, rfl, by omega, by omega⟩
    · rw [if_neg h1]
      by_cases h2 : nw < w + n - mx
      · rw [if_pos h2]; exact ⟨_, rfl, by omega, by omega⟩
      · rw [if_neg h2, int32_some (by omega) (by omega), Option.bind_some, int32_some (by omega) (by omega)]
        exact ⟨_, rfl, by omega, by omega⟩
  refine hm _ ?_
  by_cases h : w > n
  · rw [if_pos h]; exact .inl ⟨rfl, h⟩
  · rw [if_neg h]; exact .inr ⟨rfl, h⟩

theorem predictDC_some {cs : List Int} {w h y x : Nat} (hl : Arr (w * h * 64) (fun v => -32768 ≤ v ∧ v < 32768) cs) (hx : x < w) (hy : y < h) :
    ∃ p, predictDC cs w y x = some p ∧ -32768 ≤ p ∧ p < 32768 := by
  have hp := pos_lt hx hy
  unfold predictDC
  obtain ⟨a, ha, ha'⟩ := hl.get (i := (y * w + x) * 64 - 64) (by omega)
  obtain ⟨b, hb, hb'⟩ := hl.get (i := (y * w + x) * 64 - w * 64) (by omega)
  obtain ⟨c, hc, hc'⟩ := hl.get (i := (y * w + x) * 64 - w * 64 - 64) (by omega)
  rw [ha, hb, hc]
  by_cases hy : y ≠ 0
  · simp only [if_pos hy]
    by_cases hx : x ≠ 0
    · simp only [if_pos hx]; exact adaptiveMedian_some ha' hb' hc'
    · simp only [if_neg hx]; exact ⟨_, rfl, hb'⟩
  · simp only [if_neg hy]
    by_cases hx : x ≠ 0
    · simp only [if_pos hx]; exact ⟨_, rfl, ha'⟩
    · simp only [if_neg hx]; exact ⟨_, rfl, by decide, by decide⟩

theorem blockOf_some {img : List Int} {n b : Nat} (hl : img.length = n * 64) (hb : b < n) :
    blockOf img b = some ((img.drop (b * 64)).take 64) := by
  unfold blockOf
  rw [if_pos (by omega)]

/-! ## Encoder and decoder in step -/

/-- All AC coefficients of the blocks marked empty among the first `n` are zero. -/
def EmptyOk (img : List Int) (fl : List Bool) (n : Nat) : Prop := ∀ b < n, fl[b]? = some true → ∀ k < 64, k ≠ 0 → img[b * 64 + k]? = some 0

/-- One component, `n` blocks done. -/
structure DcRel (rows : Nat) (m : Meta) (img : List Int) (n : Nat) (e : DcEnc) (d : DcDec) : Prop where
  st : d.st = e.st
  inv : DcInv m.w e.st
  coeffs : d.coeffs = keep (dcUpTo n) img
  flags : d.empty = e.empty
  size : e.empty.length = m.w * (rows * m.vs)
  empty : EmptyOk img e.empty n

/-- Elementwise relation of the per-component states. -/
structure DcRels (rows : Nat) (ms : List Meta) (imgs : List (List Int)) (n : Nat → Nat) (a : List DcEnc) (b : List DcDec) : Prop where
  lenA : a.length = ms.length
  lenB : b.length = ms.length
  rel : ∀ (c : Nat) (m : Meta), ms[c]? = some m → ∃ img e d, imgs[c]? = some img ∧ PlaneOk rows m img ∧ a[c]? = some e ∧ b[c]? = some d ∧
    DcRel rows m img (n c) e d

theorem emptyOk_step {img : List Int} {fl : List Bool} {n b : Nat} {empty : Bool} (h : EmptyOk img fl b) (hb : b < fl.length)
    (hl : img.length = n * 64) (hbn : b < n) (hem : empty = true → (((img.drop (b * 64)).take 64).drop 1).all (· == 0) = true) :
    EmptyOk img (fl.set b empty) (b + 1) := by
  intro j hj hf k hk hk0
  rw [List.getElem?_set] at hf
  by_cases hjb : b = j
  · subst hjb
    rw [if_pos rfl, if_pos hb] at hf
    have hall := List.all_eq_true.mp (hem (by simpa using hf))
    have hlt : b * 64 + k < img.length := by omega
    have hmem : img[b * 64 + k] ∈ ((img.drop (b * 64)).take 64).drop 1 := by
      apply List.mem_of_getElem? (i := k - 1)
      rw [List.getElem?_drop, List.getElem?_take, if_pos (by omega), List.getElem?_drop, ← List.getElem?_eq_getElem hlt]
      congr 1; omega
    have := hall _ hmem
    rw [List.getElem?_eq_getElem hlt]
    simpa using this
  · rw [if_neg hjb] at hf
    exact h j (by omega) hf k hk hk0

theorem dcStep_sim {rows Nd : Nat} {ms : List Meta} {imgs : List (List Int)} (hd : ms.length * 9 ≤ Nd)
    (n : Nat → Nat) (a : List DcEnc) (b : List DcDec) (c y x : Nat) (m : Meta) (hr : DcRels rows ms imgs n a b)
    (hm : ms[c]? = some m) (hx : x < m.w) (hy : y < rows * m.vs) (hn : n c = y * m.w + x) :
    Sim (ms.length * 9) (DcRels rows ms imgs (Function.update n c (n c + 1)))
      (encDcStep (ms.length * 9) ms imgs a (c, y, x)) (decDcStep Nd ms b (c, y, x)) := by
  obtain ⟨img, e, d, hi, hp, ha, hb, hrel⟩ := hr.rel c m hm
  have hc : c < ms.length := by
    apply Decidable.byContradiction; intro h; rw [List.getElem?_eq_none (by omega)] at hm; cases hm
  obtain ⟨err, he, hle⟩ := predictDCCoeffs_err hp.dc hx hy
  have hpos := pos_lt hx hy
  have hblk := blockOf_some hp.size hpos
  unfold encDcStep decDcStep
  simp only
  refine Sim.liftL hm (Sim.liftR hm (Sim.liftL hi (Sim.liftL ha (Sim.liftR hb (Sim.liftL he (Sim.liftL hblk ?_))))))
  generalize hem : (decide (err = 0) && (List.drop 1 (List.take 64 (List.drop ((y * m.w + x) * 64) img))).all fun x => x == 0) = empty
  rw [hrel.st]
  refine Sim.bind (dcBlock_sim (N := ms.length * 9) (empty := empty) (by omega) hd hx hrel.inv hle
    (fun h => by rw [h, Bool.and_eq_true] at hem; simpa using hem.1)) fun st r hr' => ?_
  obtain ⟨rfl, hinv⟩ := hr'
  simp only
  have hw1 : putAt e.empty (y * m.w + x) empty = some (e.empty.set (y * m.w + x) empty) := by
    unfold putAt; rw [if_pos (by rw [hrel.size]; exact hpos)]
  have hw2 : putAt d.empty (y * m.w + x) empty = some (e.empty.set (y * m.w + x) empty) := by rw [hrel.flags]; exact hw1
  have hpr : predictDC d.coeffs m.w y x = predictDC img m.w y x := by
    rw [hrel.coeffs, hn]; exact predictDC_partial hx
  obtain ⟨v, p, hv, hpp, hev⟩ : ∃ v p, img[(y * m.w + x) * 64]? = some v ∧ predictDC img m.w y x = some p ∧ err = v - p := by
    unfold dcErr at he
    cases h1 : img[(y * m.w + x) * 64]? with
    | none => rw [h1] at he; simp at he
    | some v =>
      cases h2 : predictDC img m.w y x with
      | none => rw [h1, h2] at he; simp at he
      | some p => rw [h1, h2] at he; exact ⟨v, p, rfl, rfl, int32_eq he⟩
  rw [hpp] at hpr
  have hvr := hp.range v (List.mem_of_getElem? hv)
  have hwv : wrap16 (err + p) = v := by rw [hev, Int.sub_add_cancel]; exact wrap16_id hvr.1 hvr.2
  have hset : d.coeffs.set ((y * m.w + x) * 64) v = keep (dcUpTo (y * m.w + x + 1)) img := by
    rw [hrel.coeffs, hn]
    refine keep_set hv (dcUpTo_true (by omega) (by omega)) fun i _ hij => ?_
    unfold dcUpTo
    by_cases h64 : i % 64 = 0
    · simp only [h64, decide_true, Bool.true_and, decide_eq_decide]; omega
    · simp only [h64, decide_false, Bool.false_and]
  have hw3 : putAt d.coeffs ((y * m.w + x) * 64) (wrap16 (err + p)) = some (keep (dcUpTo (y * m.w + x + 1)) img) := by
    unfold putAt
    rw [if_pos, hwv, hset]
    rw [hrel.coeffs, keep_length, hp.size]; omega
  have hsum : int32 (err + p) = some (err + p) := by rw [hev, Int.sub_add_cancel]; exact int32_some (by omega) (by omega)
  refine Sim.liftL hw1 (Sim.liftR hw2 (Sim.liftR hpr (Sim.liftR hsum (Sim.liftR hw3 ?_))))
  refine Sim.lift ⟨a.set c ⟨st, e.empty.set (y * m.w + x) empty⟩,
    b.set c ⟨st, keep (dcUpTo (y * m.w + x + 1)) img, e.empty.set (y * m.w + x) empty⟩, ?_, ?_, ?_⟩
  · unfold putAt; rw [if_pos (by rw [hr.lenA]; exact hc)]
  · unfold putAt; rw [if_pos (by rw [hr.lenB]; exact hc)]
  · refine ⟨by rw [List.length_set]; exact hr.lenA, by rw [List.length_set]; exact hr.lenB, fun c' m' hm' => ?_⟩
    by_cases hcc : c = c'
    · subst hcc
      rw [hm] at hm'
      cases hm'
      refine ⟨img, _, _, hi, hp, List.getElem?_set_self (by rw [hr.lenA]; exact hc), List.getElem?_set_self (by rw [hr.lenB]; exact hc), ?_⟩
      rw [Function.update_self, hn]
      refine ⟨rfl, hinv, rfl, rfl, by rw [List.length_set]; exact hrel.size, ?_⟩
      refine emptyOk_step (by rw [← hn]; exact hrel.empty) (by rw [hrel.size]; exact hpos) hp.size hpos fun h => ?_
      rw [h, Bool.and_eq_true] at hem
      exact hem.2
    · obtain ⟨img', e', d', k1, k2, k3, k4, k5⟩ := hr.rel c' m' hm'
      refine ⟨img', e', d', k1, k2, ?_, ?_, ?_⟩
      · rw [List.getElem?_set_ne hcc]; exact k3
      · rw [List.getElem?_set_ne hcc]; exact k4
      · rw [Function.update_of_ne (fun h => hcc h.symm)]; exact k5

/-- `decodeDC` follows `encodeDC`. -/
theorem dc_sim {rows Nd : Nat} {ms : List Meta} {imgs : List (List Int)} (hd : ms.length * 9 ≤ Nd)
    (hlen : imgs.length = ms.length) (hp : ∀ (c : Nat) (m : Meta) (img : List Int), ms[c]? = some m → imgs[c]? = some img → PlaneOk rows m img) :
    Sim (ms.length * 9) (fun fl r => fl.length = ms.length ∧ r.map Prod.fst = imgs.map dcOnly ∧ r.map Prod.snd = fl ∧
        ∀ (c : Nat) (m : Meta) (img : List Int) (f : List Bool), ms[c]? = some m → imgs[c]? = some img → fl[c]? = some f →
          f.length = m.w * (rows * m.vs) ∧ EmptyOk img f (m.w * (rows * m.vs)))
      (encodeDC rows ms imgs) (decodeDC Nd rows ms) := by
  unfold encodeDC decodeDC
  have himg : ∀ (c : Nat) (m : Meta), ms[c]? = some m → ∃ img, imgs[c]? = some img := fun c m hm => by
    have : c < ms.length := by
      apply Decidable.byContradiction; intro h; rw [List.getElem?_eq_none (by omega)] at hm; cases hm
    exact ⟨imgs[c], List.getElem?_eq_getElem (by omega)⟩
  refine Sim.bind (Sim.loop (rows := rows) (ms := ms) (R := DcRels rows ms imgs) (fun n a b c y x m => dcStep_sim hd n a b c y x m)
    (d := fun _ => 0) sched_all ⟨by simp, by simp, ?_⟩) fun a b hr => ?_
  · intro c m hm
    obtain ⟨img, hi⟩ := himg c m hm
    have hpl := hp c m img hm hi
    refine ⟨img, _, _, hi, hpl, by rw [List.getElem?_map, hm]; rfl, by rw [List.getElem?_map, hm]; rfl, rfl, dcInv_init _, ?_, rfl,
      by simp, by intro b hb; omega⟩
    simp only
    rw [keep_none (fun i _ => by unfold dcUpTo; simp), hpl.size]
  · have hvis : ∀ (c : Nat) (m : Meta), ms[c]? = some m → visited ms rows c = m.w * (rows * m.vs) := by
      intro c m hm; unfold visited; rw [hm]; exact Nat.mul_comm _ _
    refine Sim.pure ⟨by rw [List.length_map]; exact hr.lenA, ?_, ?_, ?_⟩
    · rw [List.map_map]
      apply List.ext_getElem?
      intro c
      rw [List.getElem?_map, List.getElem?_map]
      by_cases hc : c < ms.length
      · obtain ⟨img, e, d, h1, h2, h3, h4, h5⟩ := hr.rel c ms[c] (List.getElem?_eq_getElem hc)
        rw [h4, h1]
        simp only [Option.map_some, Function.comp_apply, Option.some.injEq]
        rw [h5.coeffs, hvis c ms[c] (List.getElem?_eq_getElem hc)]
        refine keep_congr fun i hi => ?_
        unfold dcUpTo
        rw [h2.size] at hi
        rw [decide_eq_true (p := i / 64 < _) (by omega), Bool.and_true]
      · rw [List.getElem?_eq_none (by rw [hr.lenB]; omega), List.getElem?_eq_none (by omega)]; rfl
    · rw [List.map_map]
      apply List.ext_getElem?
      intro c
      rw [List.getElem?_map, List.getElem?_map]
      by_cases hc : c < ms.length
      · obtain ⟨img, e, d, h1, h2, h3, h4, h5⟩ := hr.rel c ms[c] (List.getElem?_eq_getElem hc)
        rw [h3, h4]
        simp only [Option.map_some, Function.comp_apply, h5.flags]
      · rw [List.getElem?_eq_none (by rw [hr.lenB]; omega), List.getElem?_eq_none (by rw [hr.lenA]; omega)]; rfl
    · intro c m img f hm hi hf
      obtain ⟨img', e, d, h1, h2, h3, h4, h5⟩ := hr.rel c m hm
      rw [hi] at h1; cases h1
      rw [List.getElem?_map, h3] at hf
      cases hf
      rw [hvis c m hm] at h5
      exact ⟨h5.size, h5.empty⟩

/-! ## Arbitrary streams -/

/-- Buffer sizes and value ranges of one component. -/
structure DcSafe (rows : Nat) (m : Meta) (d : DcDec) : Prop where
  inv : DcInv m.w d.st
  coeffs : Arr (m.w * (rows * m.vs) * 64) (fun v => -32768 ≤ v ∧ v < 32768) d.coeffs
  empty : d.empty.length = m.w * (rows * m.vs)

/-- The same for all components. -/
def DcSafes (rows : Nat) (ms : List Meta) (s : List DcDec) : Prop :=
  s.length = ms.length ∧ ∀ (c : Nat) (m : Meta), ms[c]? = some m → ∃ d, s[c]? = some d ∧ DcSafe rows m d

theorem wrap16_range (v : Int) : -32768 ≤ wrap16 v ∧ wrap16 v < 32768 := by
  unfold wrap16 Int.bmod
  simp only
  split <;> omega

theorem decDcStep_all {rows Nd : Nat} {ms : List Meta} (hd : ms.length * 9 ≤ Nd) {c y x : Nat} {m : Meta} (hm : ms[c]? = some m)
    (hx : x < m.w) (hy : y < rows * m.vs) (s : List DcDec) (hs : DcSafes rows ms s) :
    (decDcStep Nd ms s (c, y, x)).All (DcSafes rows ms) := by
  have hc : c < ms.length := by
    apply Decidable.byContradiction; intro h; rw [List.getElem?_eq_none (by omega)] at hm; cases hm
  obtain ⟨d, hdc, hsafe⟩ := hs.2 c m hm
  have hpos := pos_lt hx hy
  unfold decDcStep
  refine Prog.All.bind (Prog.lift_all (q := fun r => r = m) ⟨m, hm, rfl⟩) fun m' hr => ?_
  subst m'
  refine Prog.All.bind (Prog.lift_all (q := fun r => r = d) ⟨d, hdc, rfl⟩) fun d' hr => ?_
  subst d'
  simp only
  refine Prog.All.bind (decDcBlock_all (by omega) hx hsafe.inv) fun b ⟨hb, hb'⟩ => ?_
  obtain ⟨fl, e1, h1⟩ := Arr.wr (q := fun _ => True) (l := d.empty) (v := b.2.1) ⟨hsafe.empty, fun _ _ => trivial⟩ hpos trivial
  refine Prog.All.bind (Prog.lift_all (q := fun f => f.length = _) ⟨fl, e1, h1.1⟩) fun fl h1 => ?_
  obtain ⟨p, hp, hp'⟩ := predictDC_some hsafe.coeffs hx hy
  refine Prog.All.bind (Prog.lift_all (q := fun p : Int => -32768 ≤ p ∧ p < 32768) ⟨p, hp, hp'⟩) fun p hp' => ?_
  refine Prog.All.bind (Prog.lift_all (q := fun _ => True) ⟨_, int32_some (by omega) (by omega), trivial⟩) fun val _ => ?_
  obtain ⟨cs, e2, h2⟩ := hsafe.coeffs.wr (i := (y * m.w + x) * 64) (v := wrap16 val) (by omega) (wrap16_range _)
  refine Prog.All.bind (Prog.lift_all (q := fun l => Arr (m.w * (rows * m.vs) * 64) (fun v => -32768 ≤ v ∧ v < 32768) l)
    ⟨cs, e2, h2⟩) fun cs h2 => ?_
  refine Prog.lift_all ⟨s.set c ⟨b.1, cs, fl⟩, ?_, by rw [List.length_set]; exact hs.1, fun c' m' hm' => ?_⟩
  · unfold putAt; rw [if_pos (by rw [hs.1]; exact hc)]
  · by_cases hcc : c = c'
    · subst hcc
      rw [hm] at hm'; cases hm'
      exact ⟨_, List.getElem?_set_self (by rw [hs.1]; exact hc), hb, h2, h1⟩
    · rw [List.getElem?_set_ne hcc]
      exact hs.2 c' m' hm'

theorem decodeDC_all {rows Nd : Nat} {ms : List Meta} (hd : ms.length * 9 ≤ Nd) :
    (decodeDC Nd rows ms).All fun r => r.length = ms.length ∧ ∀ (c : Nat) (m : Meta) (p : List Int × List Bool), ms[c]? = some m → r[c]? = some p →
      Arr (m.w * (rows * m.vs) * 64) (fun v => -32768 ≤ v ∧ v < 32768) p.1 ∧ p.2.length = m.w * (rows * m.vs) := by
  unfold decodeDC
  refine Prog.All.bind (Prog.loop_all (q := DcSafes rows ms) (fun i hi s hs => ?_) ⟨by simp, fun c m hm => ?_⟩) fun s hs => ?_
  · obtain ⟨m, h1, h2, h3⟩ := sched_all.mem i hi
    exact decDcStep_all hd h1 h2 h3 s hs
  · refine ⟨_, by rw [List.getElem?_map, hm]; rfl, dcInv_init _, ?_, by simp⟩
    exact Arr.replicate (q := fun v : Int => -32768 ≤ v ∧ v < 32768) (by decide)
  · refine Prog.All.pure ⟨by rw [List.length_map]; exact hs.1, fun c m p hm hp => ?_⟩
    obtain ⟨d, h1, h2⟩ := hs.2 c m hm
    rw [List.getElem?_map, h1] at hp
    cases hp
    exact ⟨h2.coeffs, h2.empty⟩

end Brunsli
