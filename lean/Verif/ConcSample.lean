import Verif.ConcPredict
import Verif.Serialize
/-!
# Sampling of coefficients as a task

`SampleNumNonZeros` access by access, as the tasks `sample_nonzeros` of `EncodeGroups` run it (c/experimental/groups.cc:212-218).  The counts are kept in the state of the
task, which no other task knows.
-/

namespace Brunsli
open Groups

/-- The loop over the coefficients (c/enc/brunsli_encode.cc:1012-1020), given by column, row and index; `nz` is `num_zeros`. -/
def sampleReads {α : Type} (c : Nat) : List (Nat × Nat × Nat) → (Nat → Nat) → ((Nat → Nat) → Task TCell Int α) → Task TCell Int α
  | [], nz, f => f nz
  | (x, y, k) :: l, nz, f => .read (.coef c x y k) fun v => sampleReads c l (if v = 0 then Function.update nz k (nz k + 1) else nz) f

/-- The coefficients that are looked at: those of one block in 5 (c/enc/brunsli_encode.cc:1012-1016). -/
def sampleCells (w n : Nat) : List (Nat × Nat × Nat) := (List.range ((n + 4) / 5)).flatMap fun i => (List.range 64).map fun k => (i * 5 % w, i * 5 / w, k)

/-- `SampleNumNonZeros` (c/enc/brunsli_encode.cc:1000-1024) on a component of a tile of `w` by `h` blocks: what it returns, and `num_zeros`. -/
def sampleTask {α : Type} (c w h : Nat) (f : Nat × List Nat → Task TCell Int α) : Task TCell Int α :=
  if w * h < 1024 then f (64 * (w * h), (List.range 64).map fun _ => 0)
  else sampleReads c (sampleCells w (w * h)) (fun _ => 0) fun nz =>
    f ((64 * ((w * h + 4) / 5) - ((List.range 64).map nz).sum) * 5, (List.range 64).map (Function.update nz 0 0))

/-- The loop over components (c/experimental/groups.cc:213-216). -/
def sampleComps (gs : Nat → Geometry) (dim idx : Nat) : List Nat → Task TCell Int (List (Nat × List Nat))
  | [] => .ret []
  | c :: cs => sampleTask c ((gs c).tileW dim idx) ((gs c).tileH dim idx) fun r => sampleRest r (sampleComps gs dim idx cs)
where
  /-- Append to the results. -/
  sampleRest (r : Nat × List Nat) : Task TCell Int (List (Nat × List Nat)) → Task TCell Int (List (Nat × List Nat))
    | .ret l => .ret (r :: l)
    | .read a k => .read a fun v => sampleRest r (k v)
    | .write a v t => .write a v (sampleRest r t)

theorem run_sampleReads {α : Type} (c : Nat) (m : TCell → Int) (f : (Nat → Nat) → Task TCell Int α) (l : List (Nat × Nat × Nat)) : ∀ nz : Nat → Nat,
    (sampleReads c l nz f).run m = (f fun k => nz k + l.countP fun p => decide (p.2.2 = k) && decide (m (.coef c p.1 p.2.1 p.2.2) = 0)).run m := by
  induction l with
  | nil => intro nz; rfl
  | cons b l ih =>
    intro nz
    obtain ⟨x, y, k⟩ := b
    show (sampleReads c l _ f).run m = _
    rw [ih]
    congr 2
    funext j
    rw [List.countP_cons]
    by_cases hv : m (.coef c x y k) = 0
    · rw [if_pos hv]
      by_cases hj : k = j
      · subst hj; simp [hv]; omega
      · rw [Function.update_of_ne (Ne.symm hj)]; simp [hj]
    · rw [if_neg hv]; simp [hv]

theorem safe_sampleReads {α : Type} {own shared : TCell → Prop} (c : Nat) (m : TCell → Int) (f : (Nat → Nat) → Task TCell Int α) (hf : ∀ nz, (f nz).Safe own shared m)
    (l : List (Nat × Nat × Nat)) : ∀ nz : Nat → Nat, (∀ x y k, (x, y, k) ∈ l → own (.coef c x y k)) → (sampleReads c l nz f).Safe own shared m := by
  induction l with
  | nil => intro nz _; exact hf nz
  | cons b l ih =>
    intro nz h
    obtain ⟨x, y, k⟩ := b
    exact ⟨Or.inl (h x y k (List.mem_cons_self ..)), ih _ fun x y k hm => h x y k (List.mem_cons_of_mem _ hm)⟩

theorem countP_range_eq (P : Nat → Bool) (k : Nat) : ∀ N, (List.range N).countP (fun j => decide (j = k) && P j) = if k < N ∧ P k = true then 1 else 0 := by
  intro N
  induction N with
  | zero => simp
  | succ N ih =>
    rw [List.range_succ, List.countP_append, ih, List.countP_singleton]
    by_cases hk : N = k
    · subst hk; simp
    · have : (k < N + 1) ↔ (k < N) := by omega
      simp [hk, this]

theorem countP_sampleCells (Q : Nat → Nat → Nat → Bool) (w n k : Nat) (hk : k < 64) :
    (sampleCells w n).countP (fun p => decide (p.2.2 = k) && Q p.1 p.2.1 p.2.2) = (List.range ((n + 4) / 5)).countP fun i => Q (i * 5 % w) (i * 5 / w) k := by
  unfold sampleCells
  generalize List.range ((n + 4) / 5) = l
  induction l with
  | nil => rfl
  | cons i l ih =>
    rw [List.flatMap_cons, List.countP_append, ih, List.countP_map, List.countP_cons]
    have := countP_range_eq (fun j => Q (i * 5 % w) (i * 5 / w) j) k 64
    rw [show ((fun p : Nat × Nat × Nat => decide (p.2.2 = k) && Q p.1 p.2.1 p.2.2) ∘ fun k => (i * 5 % w, i * 5 / w, k)) =
      fun j => decide (j = k) && Q (i * 5 % w) (i * 5 / w) j from rfl, this]
    simp only [hk, true_and]
    omega

theorem mem_sampleCells {w h x y k : Nat} (hm : (x, y, k) ∈ sampleCells w (w * h)) : x < w ∧ y < h ∧ k < 64 := by
  simp only [sampleCells, List.mem_flatMap, List.mem_range, List.mem_map] at hm
  obtain ⟨i, hi, k', hk, e⟩ := hm
  cases e
  have hn : i * 5 < w * h := by omega
  have hw : 0 < w := Nat.pos_of_ne_zero fun e => by rw [e, Nat.zero_mul] at hn; omega
  exact ⟨Nat.mod_lt _ hw, Nat.div_lt_of_lt_mul hn, hk⟩

theorem tileImage_coefAt {gs : Nat → Geometry} {dim idx c b k : Nat} (m : Cell → Int) (hb : b < (gs c).tileW dim idx * (gs c).tileH dim idx) (hk : k < 64) :
    coefAt (tileImage gs dim idx m c) b k = m (tileCell gs dim idx (.coef c (b % (gs c).tileW dim idx) (b / (gs c).tileW dim idx) k)) := by
  unfold coefAt tileImage
  generalize (gs c).tileW dim idx = w at *
  generalize (gs c).tileH dim idx = h at *
  rw [List.getD_eq_getElem?_getD, List.getElem?_map, List.getElem?_range (show b * 64 + k < w * h * 64 by omega)]
  show m (tileCell gs dim idx (.coef c ((b * 64 + k) / 64 % w) ((b * 64 + k) / 64 / w) ((b * 64 + k) % 64))) = _
  rw [show (b * 64 + k) / 64 = b by omega, show (b * 64 + k) % 64 = k by omega]

/-- What sampling a component of a tile gives, by the functions for whole images. -/
def sampled (gs : Nat → Geometry) (dim idx : Nat) (m : Cell → Int) (c : Nat) : Nat × List Nat :=
  (sampleNumNonZeros (tileImage gs dim idx m c) ((gs c).tileW dim idx * (gs c).tileH dim idx),
    (List.range 64).map (numZeros (tileImage gs dim idx m c) ((gs c).tileW dim idx * (gs c).tileH dim idx)))

theorem run_sampleTask {α : Type} {gs : Nat → Geometry} {dim idx : Nat} (m : Cell → Int) (c : Nat) (f : Nat × List Nat → Task TCell Int α) :
    (sampleTask c ((gs c).tileW dim idx) ((gs c).tileH dim idx) f).run (fun a => m (tileCell gs dim idx a)) = (f (sampled gs dim idx m c)).run fun a => m (tileCell gs dim idx a) := by
  unfold sampleTask sampled sampleNumNonZeros
  have key := fun b k hb hk => @tileImage_coefAt gs dim idx c b k m hb hk
  generalize (gs c).tileW dim idx = w at *
  generalize (gs c).tileH dim idx = h at *
  by_cases hn : w * h < 1024
  · rw [if_pos hn, if_pos hn]
    congr 3
    refine List.map_congr_left fun k _ => ?_
    rw [numZeros, sampleZeros, if_pos hn, ite_self]
  · rw [if_neg hn, if_neg hn, run_sampleReads]
    have hz : ∀ k ∈ List.range 64, (0 + (sampleCells w (w * h)).countP fun p => decide (p.2.2 = k) && decide (m (tileCell gs dim idx (.coef c p.1 p.2.1 p.2.2)) = 0)) =
        sampleZeros (tileImage gs dim idx m c) (w * h) k := by
      intro k hk
      have hk := List.mem_range.1 hk
      rw [countP_sampleCells (fun x y k => decide (m (tileCell gs dim idx (.coef c x y k)) = 0)) _ _ _ hk, sampleZeros, if_neg hn, Nat.zero_add]
      refine List.countP_congr fun i hi => ?_
      have hi := List.mem_range.1 hi
      rw [key (i * 5) k (by omega) hk]
    have e1 : (List.range 64).map (fun k => 0 + (sampleCells w (w * h)).countP fun p => decide (p.2.2 = k) && decide (m (tileCell gs dim idx (.coef c p.1 p.2.1 p.2.2)) = 0)) =
        (List.range 64).map (sampleZeros (tileImage gs dim idx m c) (w * h)) := List.map_congr_left hz
    have e2 : (List.range 64).map (Function.update (fun k => 0 + (sampleCells w (w * h)).countP fun p => decide (p.2.2 = k) &&
          decide (m (tileCell gs dim idx (.coef c p.1 p.2.1 p.2.2)) = 0)) 0 0) =
        (List.range 64).map (numZeros (tileImage gs dim idx m c) (w * h)) := by
      refine List.map_congr_left fun k hk => ?_
      rw [numZeros]
      by_cases h0 : k = 0
      · subst h0; rw [Function.update_self, if_pos rfl]
      · rw [Function.update_of_ne h0, if_neg h0]; exact hz k hk
    rw [e1, e2]

theorem run_sampleRest (r : Nat × List Nat) (t : Task TCell Int (List (Nat × List Nat))) : ∀ m : TCell → Int,
    ((sampleComps.sampleRest r t).run m).1 = r :: (t.run m).1 := by
  induction t with
  | ret l => intro m; rfl
  | read a k ih => intro m; exact ih (m a) m
  | write a v t ih => intro m; exact ih _

theorem safe_sampleRest {own shared : TCell → Prop} (r : Nat × List Nat) (t : Task TCell Int (List (Nat × List Nat))) : ∀ m : TCell → Int, t.Safe own shared m →
    (sampleComps.sampleRest r t).Safe own shared m := by
  induction t with
  | ret l => intro m _; trivial
  | read a k ih => intro m h; exact ⟨h.1, ih (m a) m h.2⟩
  | write a v t ih => intro m h; exact ⟨h.1, ih _ h.2⟩

theorem run_sampleComps {gs : Nat → Geometry} {dim idx : Nat} (m : Cell → Int) (cs : List Nat) :
    ((sampleComps gs dim idx cs).run fun a => m (tileCell gs dim idx a)).1 = cs.map (sampled gs dim idx m) := by
  induction cs with
  | nil => rfl
  | cons c cs ih => rw [sampleComps, run_sampleTask, run_sampleRest, ih]; rfl

theorem safe_sampleComps {gs : Nat → Geometry} {n dim idx : Nat} (m : TCell → Int) (cs : List Nat) (hc : ∀ c ∈ cs, c < n) :
    (sampleComps gs dim idx cs).Safe (TCell.Inside gs n dim idx) TCell.Common m := by
  induction cs with
  | nil => trivial
  | cons c cs ih =>
    have ih := ih fun c h => hc c (List.mem_cons_of_mem _ h)
    have hcn := hc c (List.mem_cons_self ..)
    rw [sampleComps, sampleTask]
    split
    · exact safe_sampleRest _ _ _ ih
    · refine safe_sampleReads c m _ (fun nz => safe_sampleRest _ _ _ ih) _ _ fun x y k hm => ?_
      obtain ⟨hx, hy, hk⟩ := mem_sampleCells hm
      exact ⟨hcn, ⟨hx, hy⟩, hk⟩

end Brunsli
