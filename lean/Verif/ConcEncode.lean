import Verif.ConcPredict
/-!
# `EncodeDC` as a task

The accesses of `EncodeDC` to memory that is not its own (c/enc/brunsli_encode.cc:1086-1178): it reads prediction errors and coefficients and writes block states.  What it
does with its own state (probabilities, entropy source, data stream) is any function.
-/

namespace Brunsli
open Groups

/-- `CollectAllCoeffs` (c/enc/brunsli_encode.cc:737-743): stops at the first coefficient that is not zero. -/
def collectReads {α : Type} (c x y : Nat) : List Nat → (Int → Task TCell Int α) → Task TCell Int α
  | [], f => f 0
  | k :: ks, f => .read (.coef c x y k) fun v => if v ≠ 0 then f v else collectReads c x y ks f

/-- The body of the loops of `EncodeDC` (c/enc/brunsli_encode.cc:1131-1170) for a list of blocks.  `f` takes the state of the task, the block, the prediction error and whether
the block is empty to the next state.  The disjunction of two numbers is 0 if both are. -/
def encodeDcReads {σ : Type} (f : σ → Nat × Nat × Nat → Int → Bool → σ) : List (Nat × Nat × Nat) → σ → Task TCell Int σ
  | [], s => .ret s
  | (c, y, x) :: l, s =>
    .read (.error c x y) fun e => collectReads c x y ((List.range 63).map (· + 1)) fun r =>
      .write (.state c x y) (if e = 0 ∧ r = 0 then 1 else 0) (encodeDcReads f l (f s (c, y, x) e (decide (e = 0 ∧ r = 0))))

/-- The order of the blocks in a tile (c/enc/brunsli_encode.cc:1089, 1114-1129): row of MCUs, component, row of blocks, column. -/
def encodeOrder (gs : Nat → Geometry) (n dim idx : Nat) : List (Nat × Nat × Nat) :=
  (List.range ((gs 0).tileH dim idx / (gs 0).v)).flatMap fun my => (List.range n).flatMap fun c => (List.range (gs c).v).flatMap fun iy =>
    (List.range ((gs c).tileW dim idx)).map fun x => (c, my * (gs c).v + iy, x)

/-- All components belong to the same image. -/
structure SameImage (gs : Nat → Geometry) (n : Nat) : Prop where
  cols : ∀ c < n, (gs c).mcuCols = (gs 0).mcuCols
  rows : ∀ c < n, (gs c).mcuRows = (gs 0).mcuRows
  maxH : ∀ c < n, (gs c).maxH = (gs 0).maxH
  maxV : ∀ c < n, (gs c).maxV = (gs 0).maxV

/-- A tile consists of whole MCUs, as many for each component. -/
theorem extent_mcus {mcus samp dim maxSamp i : Nat} (hdim : 0 < dim) (hm : 0 < maxSamp) (hd : dim % maxSamp = 0) (hs : 0 < samp)
    (hw : mcus * samp < 2 ^ 64) (hi : i < numTiles mcus maxSamp dim) :
    extent samp dim maxSamp (mcus * samp) i = (min ((i + 1) * (dim / maxSamp)) mcus - i * (dim / maxSamp)) * samp := by
  rw [(extent_eq hdim hm hd hs hw hi).1, last, first, tile_dim hm hd]
  generalize dim / maxSamp = q
  rw [Nat.sub_mul, show i * (samp * q) + samp * q = (i + 1) * q * samp by rw [Nat.add_mul, Nat.one_mul, Nat.add_mul, Nat.mul_assoc, Nat.mul_comm q samp],
    show i * (samp * q) = i * q * samp by rw [Nat.mul_assoc, Nat.mul_comm q samp]]
  congr 1
  rcases Nat.le_total ((i + 1) * q) mcus with h | h
  · rw [Nat.min_eq_left h, Nat.min_eq_left (Nat.mul_le_mul_right _ h)]
  · rw [Nat.min_eq_right h, Nat.min_eq_right (Nat.mul_le_mul_right _ h)]

theorem mem_encodeOrder {gs : Nat → Geometry} {n dim tasks idx : Nat} (ht : Tiled gs n dim tasks) (hsame : SameImage gs n) (hidx : idx < tasks) {c y x : Nat} :
    (c, y, x) ∈ encodeOrder gs n dim idx ↔ c < n ∧ (gs c).inTile dim idx x y := by
  by_cases hn : n = 0
  · subst hn
    simp [encodeOrder]
  have hn0 : 0 < n := Nat.pos_of_ne_zero hn
  -- The number of rows of MCUs in the tile.
  have hY : ∀ c < n, idx / numTiles (gs c).mcuCols (gs c).maxH dim < numTiles (gs c).mcuRows (gs c).maxV dim := by
    intro c hc
    have h := ht.tasks c hc
    rw [← h, Geometry.tasks] at hidx
    exact Nat.div_lt_of_lt_mul hidx
  have rows : ∀ c < n, (gs c).tileH dim idx = (gs 0).tileH dim idx / (gs 0).v * (gs c).v := by
    intro c hc
    have e0 := extent_mcus (ht.ok 0 hn0).pos (ht.ok 0 hn0).maxV (ht.ok 0 hn0).divV (ht.ok 0 hn0).v (ht.ok 0 hn0).height (hY 0 hn0)
    have ec := extent_mcus (ht.ok c hc).pos (ht.ok c hc).maxV (ht.ok c hc).divV (ht.ok c hc).v (ht.ok c hc).height (hY c hc)
    have f0 : (gs 0).tileH dim idx = _ := e0
    have fc : (gs c).tileH dim idx = _ := ec
    rw [f0, fc, Nat.mul_div_cancel _ (ht.ok 0 hn0).v, hsame.cols c hc, hsame.maxH c hc, hsame.rows c hc, hsame.maxV c hc]
  simp only [encodeOrder, List.mem_flatMap, List.mem_range, List.mem_map]
  constructor
  · rintro ⟨my, hmy, c', hc, iy, hiy, x', hx, e⟩
    cases e
    refine ⟨hc, hx, ?_⟩
    show _ < (gs c).tileH dim idx
    rw [rows c hc]
    have : (my + 1) * (gs c).v ≤ (gs 0).tileH dim idx / (gs 0).v * (gs c).v := Nat.mul_le_mul_right _ hmy
    rw [Nat.add_mul, Nat.one_mul] at this
    omega
  · rintro ⟨hc, hx, hy⟩
    have hy : y < (gs c).tileH dim idx := hy
    rw [rows c hc] at hy
    have hv := (ht.ok c hc).v
    refine ⟨y / (gs c).v, Nat.div_lt_of_lt_mul (by rw [Nat.mul_comm]; exact hy), c, hc, y % (gs c).v, Nat.mod_lt _ hv, x, hx, ?_⟩
    rw [Nat.mul_comm, Nat.div_add_mod]

/-- The block is empty: no prediction error, no AC coefficient. -/
def memEmpty (m : TCell → Int) (b : Nat × Nat × Nat) : Bool :=
  decide (m (.error b.1 b.2.2 b.2.1) = 0) && (List.range 63).all fun k => decide (m (.coef b.1 b.2.2 b.2.1 (k + 1)) = 0)

theorem run_collectReads {α : Type} (c x y : Nat) (m : TCell → Int) (f : Int → Task TCell Int α) (ks : List Nat) :
    ∃ r, (collectReads c x y ks f).run m = (f r).run m ∧ (r = 0 ↔ ∀ k ∈ ks, m (.coef c x y k) = 0) := by
  induction ks with
  | nil => exact ⟨0, rfl, fun _ _ h => (nomatch h), fun _ => rfl⟩
  | cons k ks ih =>
    by_cases hv : m (.coef c x y k) ≠ 0
    · refine ⟨m (.coef c x y k), ?_, fun h => absurd h hv, fun h => h k (List.mem_cons_self ..)⟩
      show (if m (.coef c x y k) ≠ 0 then _ else _ : Task TCell Int α).run m = _
      rw [if_pos hv]
    · obtain ⟨r, h1, h2⟩ := ih
      refine ⟨r, ?_, ?_⟩
      · show (if m (.coef c x y k) ≠ 0 then _ else _ : Task TCell Int α).run m = _
        rw [if_neg hv]; exact h1
      · rw [h2, List.forall_mem_cons]
        exact ⟨fun h => ⟨Decidable.not_not.1 hv, h⟩, fun h => h.2⟩

theorem safe_collectReads {α : Type} {own shared : TCell → Prop} {c x y : Nat} {m : TCell → Int} {f : Int → Task TCell Int α} (hf : ∀ r, (f r).Safe own shared m) (ks : List Nat)
    (h : ∀ k ∈ ks, own (.coef c x y k)) : (collectReads c x y ks f).Safe own shared m := by
  induction ks with
  | nil => exact hf 0
  | cons k ks ih =>
    refine ⟨Or.inl (h k (List.mem_cons_self ..)), ?_⟩
    beta_reduce
    split
    · exact hf _
    · exact ih fun k hk => h k (List.mem_cons_of_mem _ hk)

theorem safe_encodeDcReads {σ : Type} {gs : Nat → Geometry} {n dim idx : Nat} (f : σ → Nat × Nat × Nat → Int → Bool → σ) (l : List (Nat × Nat × Nat)) :
    ∀ (s : σ) (m : TCell → Int), (∀ c y x, (c, y, x) ∈ l → c < n ∧ (gs c).inTile dim idx x y) → (encodeDcReads f l s).Safe (TCell.Inside gs n dim idx) TCell.Common m := by
  induction l with
  | nil => intro _ _ _; trivial
  | cons b l ih =>
    intro s m h
    obtain ⟨c, y, x⟩ := b
    obtain ⟨hc, hin⟩ := h c y x (List.mem_cons_self ..)
    rw [encodeDcReads]
    refine ⟨Or.inl ⟨hc, hin⟩, ?_⟩
    refine safe_collectReads ?_ _ fun k hk => ?_
    · intro r
      exact ⟨⟨hc, hin⟩, ih _ _ fun c y x hm => h c y x (List.mem_cons_of_mem _ hm)⟩
    obtain ⟨j, hj, rfl⟩ := List.mem_map.1 hk
    exact ⟨hc, hin, by have := List.mem_range.1 hj; omega⟩

theorem memEmpty_update (m : TCell → Int) (b : Nat × Nat × Nat) (c x y : Nat) (v : Int) : memEmpty (Function.update m (.state c x y) v) b = memEmpty m b := by
  simp [memEmpty, Function.update]

theorem run_encodeDcReads {σ : Type} (f : σ → Nat × Nat × Nat → Int → Bool → σ) (l : List (Nat × Nat × Nat)) : ∀ (s : σ) (m : TCell → Int),
    ((encodeDcReads f l s).run m).1 = l.foldl (fun s b => f s b (m (.error b.1 b.2.2 b.2.1)) (memEmpty m b)) s ∧
      (∀ c y x, (c, y, x) ∈ l → ((encodeDcReads f l s).run m).2 (.state c x y) = if memEmpty m (c, y, x) then 1 else 0) ∧
      (∀ c y x, (c, y, x) ∉ l → ((encodeDcReads f l s).run m).2 (.state c x y) = m (.state c x y)) := by
  induction l with
  | nil => intro s m; exact ⟨rfl, fun _ _ _ h => (nomatch h), fun _ _ _ _ => rfl⟩
  | cons b l ih =>
    intro s m
    obtain ⟨c, y, x⟩ := b
    have step : (encodeDcReads f ((c, y, x) :: l) s).run m =
        (encodeDcReads f l (f s (c, y, x) (m (.error c x y)) (memEmpty m (c, y, x)))).run
          (Function.update m (.state c x y) (if memEmpty m (c, y, x) then 1 else 0)) := by
      rw [encodeDcReads]
      show (collectReads c x y _ _).run m = _
      obtain ⟨r, h1, h2⟩ := run_collectReads c x y m (fun r => Task.write (.state c x y) (if m (.error c x y) = 0 ∧ r = 0 then 1 else 0)
        (encodeDcReads f l (f s (c, y, x) (m (.error c x y)) (decide (m (.error c x y) = 0 ∧ r = 0))))) ((List.range 63).map (· + 1))
      rw [h1]
      have he : memEmpty m (c, y, x) = decide (m (.error c x y) = 0 ∧ r = 0) := by
        rw [Bool.eq_iff_iff, memEmpty, Bool.and_eq_true, decide_eq_true_iff, decide_eq_true_iff, List.all_eq_true]
        refine and_congr Iff.rfl ?_
        rw [h2]
        constructor
        · intro h k hk
          obtain ⟨j, hj, rfl⟩ := List.mem_map.1 hk
          exact of_decide_eq_true (h j hj)
        · intro h j hj
          exact decide_eq_true (h (j + 1) (List.mem_map.2 ⟨j, hj, rfl⟩))
      rw [he]
      by_cases hq : m (.error c x y) = 0 ∧ r = 0
      · simp only [hq, and_self, decide_true, if_true, Task.run]
      · simp only [hq, decide_false, if_false, Task.run, Bool.false_eq_true]
    obtain ⟨i1, i2, i3⟩ := ih (f s (c, y, x) (m (.error c x y)) (memEmpty m (c, y, x))) (Function.update m (.state c x y) (if memEmpty m (c, y, x) then 1 else 0))
    rw [step]
    refine ⟨?_, fun c' y' x' hm => ?_, fun c' y' x' hm => ?_⟩
    · rw [i1, List.foldl_cons]
      congr 1
    · by_cases hl : (c', y', x') ∈ l
      · rw [i2 c' y' x' hl, memEmpty_update]
      · rcases List.mem_cons.1 hm with e | hm
        · cases e
          rw [i3 _ _ _ hl, Function.update_self]
        · exact absurd hm hl
    · rw [i3 c' y' x' fun h => hm (List.mem_cons_of_mem _ h)]
      refine Function.update_of_ne (fun heq => hm ?_) _ _
      obtain ⟨rfl, rfl, rfl⟩ := TCell.state.inj heq
      exact List.mem_cons_self ..

end Brunsli
