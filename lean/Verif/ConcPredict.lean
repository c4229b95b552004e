import Verif.ConcTiles
import Verif.DcImage
/-!
# Prediction of DC coefficients as a task

`PredictDCCoeffs` access by access, as the tasks of `EncodeGroups` run it on their tiles.
-/

namespace Brunsli
open Groups

/-- `PredictWithAdaptiveMedian` (c/common/predict.cc:29-42) with its accesses: `coeffs` points to the block in column `x`, row `y`, `offset1` is the
block to the left, `offset2` the one above.  `none` is an overflow. -/
def predictReads {α : Type} (c x y : Nat) (k : Option Int → Task TCell Int α) : Task TCell Int α :=
  if y ≠ 0 then
    if x ≠ 0 then
      .read (.coef c (x - 1) y 0) fun a => .read (.coef c x (y - 1) 0) fun b => .read (.coef c (x - 1) (y - 1) 0) fun d => k (adaptiveMedian a b d)
    else .read (.coef c x (y - 1) 0) fun b => k (some b)
  else if x ≠ 0 then .read (.coef c (x - 1) y 0) fun a => k (some a) else k (some 0)

/-- `PredictDCCoeffs` (c/enc/brunsli_encode.cc:1037-1062) for a list of blocks, given by component, row and column: `some true` if all errors are in range, `some false`
as soon as one is not, `none` on overflow. -/
def predictTask : List (Nat × Nat × Nat) → Task TCell Int (Option Bool)
  | [] => .ret (some true)
  | (c, y, x) :: l =>
    .read (.coef c x y 0) fun v => predictReads c x y fun p =>
      match p.bind fun p => int32 (v - p) with
      | none => .ret none
      | some e => if e.natAbs ≤ 2054 then .write (.error c x y) e (predictTask l) else .ret (some false)

/-- Width of the tile of task `idx`, the `width_in_blocks` it is given (c/experimental/groups.cc:179). -/
def Groups.Geometry.tileW (g : Geometry) (dim idx : Nat) : Nat := extent g.h dim g.maxH g.width (idx % numTiles g.mcuCols g.maxH dim)

/-- Height of the tile of task `idx` (c/experimental/groups.cc:180). -/
def Groups.Geometry.tileH (g : Geometry) (dim idx : Nat) : Nat := extent g.v dim g.maxV g.height (idx / numTiles g.mcuCols g.maxH dim)

/-- The loops over components, rows and columns (c/enc/brunsli_encode.cc:1039-1048). -/
def tileBlocks (gs : Nat → Geometry) (n dim idx : Nat) : List (Nat × Nat × Nat) :=
  (List.range n).flatMap fun c => (List.range ((gs c).tileH dim idx)).flatMap fun y => (List.range ((gs c).tileW dim idx)).map fun x => (c, y, x)

theorem mem_tileBlocks {gs : Nat → Geometry} {n dim idx c y x : Nat} :
    (c, y, x) ∈ tileBlocks gs n dim idx ↔ c < n ∧ (gs c).inTile dim idx x y := by
  simp only [tileBlocks, List.mem_flatMap, List.mem_range, List.mem_map, Geometry.inTile, Geometry.tileW, Geometry.tileH]
  constructor
  · rintro ⟨c', hc, y', hy, x', hx, e⟩
    cases e
    exact ⟨hc, hx, hy⟩
  · rintro ⟨hc, hx, hy⟩
    exact ⟨c, hc, y, hy, x, hx, rfl⟩

/-- The prediction as a function of memory. -/
def memPredict (m : TCell → Int) (c y x : Nat) : Option Int :=
  if y ≠ 0 then
    if x ≠ 0 then adaptiveMedian (m (.coef c (x - 1) y 0)) (m (.coef c x (y - 1) 0)) (m (.coef c (x - 1) (y - 1) 0)) else some (m (.coef c x (y - 1) 0))
  else if x ≠ 0 then some (m (.coef c (x - 1) y 0)) else some 0

/-- The prediction error as a function of memory. -/
def memErr (m : TCell → Int) (c y x : Nat) : Option Int := (memPredict m c y x).bind fun p => int32 (m (.coef c x y 0) - p)

theorem memErr_update (m : TCell → Int) (c y x c' x' y' : Nat) (e : Int) : memErr (Function.update m (.error c' x' y') e) c y x = memErr m c y x := by
  simp [memErr, memPredict, Function.update]

theorem run_predictReads {α : Type} (c x y : Nat) (k : Option Int → Task TCell Int α) (m : TCell → Int) :
    (predictReads c x y k).run m = (k (memPredict m c y x)).run m := by
  unfold predictReads memPredict
  by_cases hy : y ≠ 0 <;> by_cases hx : x ≠ 0
  · rw [if_pos hy, if_pos hx, if_pos hy, if_pos hx]; rfl
  · rw [if_pos hy, if_neg hx, if_pos hy, if_neg hx]; rfl
  · rw [if_neg hy, if_pos hx, if_neg hy, if_pos hx]; rfl
  · rw [if_neg hy, if_neg hx, if_neg hy, if_neg hx]

theorem safe_predictReads {α : Type} {own shared : TCell → Prop} {c x y : Nat} {k : Option Int → Task TCell Int α} {m : TCell → Int}
    (h : ∀ x' y', x' ≤ x → y' ≤ y → own (.coef c x' y' 0)) (hk : (k (memPredict m c y x)).Safe own shared m) : (predictReads c x y k).Safe own shared m := by
  unfold predictReads
  unfold memPredict at hk
  by_cases hy : y ≠ 0 <;> by_cases hx : x ≠ 0
  · rw [if_pos hy, if_pos hx] at hk ⊢
    exact ⟨Or.inl (h _ _ (Nat.sub_le x 1) (Nat.le_refl _)), Or.inl (h _ _ (Nat.le_refl _) (Nat.sub_le y 1)), Or.inl (h _ _ (Nat.sub_le x 1) (Nat.sub_le y 1)), hk⟩
  · rw [if_pos hy, if_neg hx] at hk ⊢
    exact ⟨Or.inl (h _ _ (Nat.le_refl _) (Nat.sub_le y 1)), hk⟩
  · rw [if_neg hy, if_pos hx] at hk ⊢
    exact ⟨Or.inl (h _ _ (Nat.sub_le x 1) (Nat.le_refl _)), hk⟩
  · rw [if_neg hy, if_neg hx] at hk ⊢
    exact hk

theorem safe_predictTask {gs : Nat → Geometry} {n dim idx : Nat} (l : List (Nat × Nat × Nat)) : ∀ (m : TCell → Int),
    (∀ c y x, (c, y, x) ∈ l → c < n ∧ (gs c).inTile dim idx x y) → (predictTask l).Safe (TCell.Inside gs n dim idx) TCell.Common m := by
  induction l with
  | nil => intro _ _; trivial
  | cons b l ih =>
    intro m h
    obtain ⟨c, y, x⟩ := b
    obtain ⟨hc, hx, hy⟩ := h c y x (List.mem_cons_self ..)
    have hin : ∀ x' y', x' ≤ x → y' ≤ y → TCell.Inside gs n dim idx (.coef c x' y' 0) := fun x' y' h1 h2 =>
      ⟨hc, ⟨Nat.lt_of_le_of_lt h1 hx, Nat.lt_of_le_of_lt h2 hy⟩, by decide⟩
    rw [predictTask]
    refine ⟨Or.inl (hin x y (Nat.le_refl _) (Nat.le_refl _)), safe_predictReads hin ?_⟩
    cases (memPredict m c y x).bind fun p => int32 (m (.coef c x y 0) - p) with
    | none => trivial
    | some e =>
      dsimp only
      split
      · exact ⟨⟨hc, hx, hy⟩, ih _ fun c y x hm => h c y x (List.mem_cons_of_mem _ hm)⟩
      · trivial

/-- What `predictTask` comes to, when no sum overflows. -/
theorem run_predictTask (l : List (Nat × Nat × Nat)) : ∀ (m : TCell → Int), (∀ c y x, (c, y, x) ∈ l → memErr m c y x ≠ none) →
    ((predictTask l).run m).1 = some (l.all fun b => (memErr m b.1 b.2.1 b.2.2).any fun e => decide (e.natAbs ≤ 2054)) ∧
      (((predictTask l).run m).1 = some true → ∀ c y x, (c, y, x) ∈ l → memErr m c y x = some (((predictTask l).run m).2 (.error c x y))) ∧
      (∀ c y x, (c, y, x) ∉ l → ((predictTask l).run m).2 (.error c x y) = m (.error c x y)) ∧
      (∀ c x y k, ((predictTask l).run m).2 (.coef c x y k) = m (.coef c x y k)) := by
  induction l with
  | nil => intro m _; exact ⟨rfl, fun _ _ _ _ h => (nomatch h), fun _ _ _ _ => rfl, fun _ _ _ _ => rfl⟩
  | cons b l ih =>
    intro m h
    obtain ⟨c, y, x⟩ := b
    obtain ⟨e, he⟩ := Option.ne_none_iff_exists'.1 (h c y x (List.mem_cons_self ..))
    have step : (predictTask ((c, y, x) :: l)).run m =
        if e.natAbs ≤ 2054 then (predictTask l).run (Function.update m (.error c x y) e) else (some false, m) := by
      rw [predictTask]
      show (predictReads c x y _).run m = _
      rw [run_predictReads]
      have he' : ((memPredict m c y x).bind fun p => int32 (m (.coef c x y 0) - p)) = some e := he
      rw [he']
      dsimp only
      split <;> rfl
    rw [step]
    by_cases hs : e.natAbs ≤ 2054
    · rw [if_pos hs]
      obtain ⟨i1, i2, i3, i4⟩ := ih (Function.update m (.error c x y) e) fun c' y' x' hm => by
        rw [memErr_update]; exact h c' y' x' (List.mem_cons_of_mem _ hm)
      simp only [memErr_update] at i1 i2
      refine ⟨?_, fun ht c' y' x' hm => ?_, fun c' y' x' hm => ?_, fun c' x' y' k => ?_⟩
      · rw [i1, List.all_cons, he]
        simp [hs]
      · by_cases hl : (c', y', x') ∈ l
        · exact i2 ht c' y' x' hl
        · rcases List.mem_cons.1 hm with e1 | hm
          · cases e1
            rw [i3 _ _ _ hl, Function.update_self, he]
          · exact absurd hm hl
      · have hl : (c', y', x') ∉ l := fun hm' => hm (List.mem_cons_of_mem _ hm')
        rw [i3 _ _ _ hl]
        refine Function.update_of_ne (fun heq => hm ?_) _ _
        obtain ⟨rfl, rfl, rfl⟩ := TCell.error.inj heq
        exact List.mem_cons_self ..
      · rw [i4]
        exact Function.update_of_ne TCell.noConfusion _ _
    · rw [if_neg hs]
      refine ⟨?_, fun ht => (nomatch ht), fun _ _ _ _ => rfl, fun _ _ _ _ => rfl⟩
      rw [List.all_cons, he]
      simp [hs]

/-- The coefficients of component `c` of the tile of task `idx`, as an image of its own. -/
def tileImage (gs : Nat → Geometry) (dim idx : Nat) (m : Cell → Int) (c : Nat) : List Int :=
  (List.range ((gs c).tileW dim idx * (gs c).tileH dim idx * 64)).map fun o =>
    m (tileCell gs dim idx (.coef c (o / 64 % (gs c).tileW dim idx) (o / 64 / (gs c).tileW dim idx) (o % 64)))

theorem tileImage_get {gs : Nat → Geometry} {dim idx c x y : Nat} (m : Cell → Int) (hx : x < (gs c).tileW dim idx) (hy : y < (gs c).tileH dim idx) :
    (tileImage gs dim idx m c)[(y * (gs c).tileW dim idx + x) * 64]? = some (m (tileCell gs dim idx (.coef c x y 0))) := by
  unfold tileImage
  generalize (gs c).tileW dim idx = w at *
  generalize (gs c).tileH dim idx = h at *
  have hp : (y * w + x) * 64 < w * h * 64 := by
    have : (y + 1) * w ≤ h * w := Nat.mul_le_mul_right w hy
    rw [Nat.add_mul, Nat.one_mul] at this
    rw [Nat.mul_comm w h]
    omega
  rw [List.getElem?_map, List.getElem?_range hp]
  show some (m (tileCell gs dim idx (.coef c ((y * w + x) * 64 / 64 % w) ((y * w + x) * 64 / 64 / w) ((y * w + x) * 64 % 64)))) = _
  rw [Nat.mul_div_cancel _ (by decide), Nat.mul_mod_left, Nat.mul_comm y w, Nat.mul_add_mod, Nat.mod_eq_of_lt hx, Nat.mul_add_div (by omega), Nat.div_eq_of_lt hx, Nat.add_zero]

theorem tileImage_err {gs : Nat → Geometry} {dim idx c x y : Nat} (m : Cell → Int) (hx : x < (gs c).tileW dim idx) (hy : y < (gs c).tileH dim idx) :
    dcErr (tileImage gs dim idx m c) ((gs c).tileW dim idx) y x = memErr (fun a => m (tileCell gs dim idx a)) c y x := by
  have g := fun x y => @tileImage_get gs dim idx c x y
  have g0 := g x y m hx hy
  unfold dcErr memErr predictDC memPredict
  rw [g0]
  have e1 : x ≠ 0 → (y * (gs c).tileW dim idx + x) * 64 - 64 = (y * (gs c).tileW dim idx + (x - 1)) * 64 := fun _ => by omega
  have e2 : y ≠ 0 → (y * (gs c).tileW dim idx + x) * 64 - (gs c).tileW dim idx * 64 = ((y - 1) * (gs c).tileW dim idx + x) * 64 := fun h => by
    obtain ⟨z, rfl⟩ := Nat.exists_eq_succ_of_ne_zero h
    rw [Nat.succ_sub_one, Nat.succ_mul]; omega
  have e3 : x ≠ 0 → ((y - 1) * (gs c).tileW dim idx + x) * 64 - 64 = ((y - 1) * (gs c).tileW dim idx + (x - 1)) * 64 := fun _ => by omega
  by_cases hy0 : y ≠ 0 <;> by_cases hx0 : x ≠ 0
  · simp only [if_pos hy0, if_pos hx0]
    rw [e1 hx0, e2 hy0, e3 hx0, g (x - 1) y m (by omega) hy, g x (y - 1) m hx (by omega), g (x - 1) (y - 1) m (by omega) (by omega)]
    rfl
  · simp only [if_pos hy0, if_neg hx0]
    rw [e2 hy0, g x (y - 1) m hx (by omega)]
    rfl
  · simp only [if_neg hy0, if_pos hx0]
    rw [e1 hx0, g (x - 1) y m (by omega) hy]
    rfl
  · simp only [if_neg hy0, if_neg hx0]
    rfl

theorem memErr_some (m : TCell → Int) (hm : ∀ c x y k, -32768 ≤ m (.coef c x y k) ∧ m (.coef c x y k) < 32768) (c y x : Nat) : memErr m c y x ≠ none := by
  have hp : ∃ p, memPredict m c y x = some p ∧ -32768 ≤ p ∧ p < 32768 := by
    unfold memPredict
    by_cases hy : y ≠ 0 <;> by_cases hx : x ≠ 0
    · rw [if_pos hy, if_pos hx]; exact adaptiveMedian_some (hm ..) (hm ..) (hm ..)
    · rw [if_pos hy, if_neg hx]; exact ⟨_, rfl, hm ..⟩
    · rw [if_neg hy, if_pos hx]; exact ⟨_, rfl, hm ..⟩
    · rw [if_neg hy, if_neg hx]; exact ⟨_, rfl, by decide, by decide⟩
  obtain ⟨p, h1, h2, h3⟩ := hp
  have := hm c x y 0
  rw [memErr, h1]
  show int32 _ ≠ none
  rw [int32, if_pos (by omega)]
  exact Option.some_ne_none _

theorem all_tileBlocks {gs : Nat → Geometry} {n dim idx : Nat} (m : Cell → Int) :
    ((tileBlocks gs n dim idx).all fun b => (memErr (fun a => m (tileCell gs dim idx a)) b.1 b.2.1 b.2.2).any fun e => decide (e.natAbs ≤ 2054)) =
      (List.range n).all fun c => predictDCCoeffs (tileImage gs dim idx m c) ((gs c).tileW dim idx) ((gs c).tileH dim idx) := by
  unfold predictDCCoeffs
  rw [Bool.eq_iff_iff]
  simp only [List.all_eq_true, List.mem_range]
  constructor
  · intro h c hc y hy x hx
    rw [tileImage_err m hx hy]
    exact h (c, y, x) (mem_tileBlocks.2 ⟨hc, hx, hy⟩)
  · rintro h ⟨c, y, x⟩ hb
    obtain ⟨hc, hx, hy⟩ := mem_tileBlocks.1 hb
    have := h c hc y hy x hx
    rw [tileImage_err m hx hy] at this
    exact this

end Brunsli
