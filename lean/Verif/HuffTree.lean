import Verif.HuffCode
/-!
# `CreateHuffmanTree` (c/enc/huffman_tree.cc:18-131)
-/

namespace Brunsli

/-- A node of the pool, with its children in place of their indices (c/enc/huffman_tree.h). -/
inductive HTree where
  | leaf (sym : Nat)
  | node (l r : HTree)
deriving DecidableEq, Repr

/-- `SetDepth` (c/enc/huffman_tree.cc:18-29): the assignments `depth[symbol] = level`, in order. -/
def HTree.depths : HTree → Nat → List (Nat × Nat)
  | .leaf s, level => [(s, level)]
  | .node l r, level => l.depths (level + 1) ++ r.depths (level + 1)

/-- A pool node with its `total_count`. -/
abbrev WTree := Nat × HTree

/-- Choosing the next node from the sorted leaves (index `i`) and the parents (index `j`)
(c/enc/huffman_tree.cc:96-109).  The sentinels, whose count is the largest 32-bit number, are the ends of the
two lists; counts are unbounded here, so this is the C++ code as long as all sums are below `2^32 - 1`. -/
def popMin : List WTree → List WTree → Option (WTree × List WTree × List WTree)
  | [], [] => none
  | x :: ls, [] => some (x, ls, [])
  | [], y :: ps => some (y, [], ps)
  | x :: ls, y :: ps => if x.1 ≤ y.1 then some (x, ls, y :: ps) else some (y, x :: ls, ps)

/-- The merging loop (c/enc/huffman_tree.cc:94-120), `k` iterations; new parents go to the end. -/
def mergeLoop : Nat → List WTree → List WTree → Option (List WTree × List WTree)
  | 0, ls, ps => some (ls, ps)
  | k + 1, ls, ps =>
    match popMin ls ps with
    | none => none
    | some (a, ls, ps) =>
      match popMin ls ps with
      | none => none
      | some (b, ls, ps) => mergeLoop k ls (ps ++ [(a.1 + b.1, .node a.2 b.2)])

/-- The leaves (c/enc/huffman_tree.cc:64-70): from the last symbol to the first. -/
def mkLeaves (data : List Nat) (countLimit : Nat) : List WTree :=
  ((List.range data.length).reverse.filter fun i => data.getD i 0 ≠ 0).map fun i =>
    (max (data.getD i 0) (countLimit - 1), .leaf i)

/-- `std::stable_sort` by count (c/enc/huffman_tree.cc:79). -/
def sortLeaves (ls : List WTree) : List WTree := ls.mergeSort fun a b => a.1 ≤ b.1

/-- One round of the outer loop: the tree. -/
def buildTree (data : List Nat) (countLimit : Nat) : Option HTree :=
  let ls := sortLeaves (mkLeaves data countLimit)
  match mergeLoop (ls.length - 1) ls [] with
  | some ([], [t]) => some t.2
  | _ => none

/-- `depth[i]` after `SetDepth`, starting from an array of zeros. -/
def depthsOf (n : Nat) (l : List (Nat × Nat)) : List Nat :=
  (List.range n).map fun i => ((l.find? fun p => p.1 = i).map Prod.snd).getD 0

/-- The outer loop (c/enc/huffman_tree.cc:60-130), at most `fuel` rounds. -/
def createLoop (data : List Nat) (limit : Nat) : Nat → Nat → Option (List Nat)
  | 0, _ => none
  | fuel + 1, countLimit =>
    match buildTree data countLimit with
    | none => none
    | some t =>
      let depth := depthsOf data.length (t.depths 0)
      if ∀ d ∈ depth, d ≤ limit then some depth else createLoop data limit fuel (countLimit * 2)

/-- `CreateHuffmanTree` (c/enc/huffman_tree.cc:52-131).  The counter `count_limit` has 32 bits, so there are at
most 32 rounds before it becomes 0; `none` would be running out of rounds. -/
def createHuffmanTree (data : List Nat) (limit : Nat) : Option (List Nat) :=
  match mkLeaves data 1 with
  | [(_, .leaf s)] => some (depthsOf data.length [(s, 1)])
  | _ => createLoop data limit 32 1

/-! ## Every tree is a complete code -/

def HTree.leaves : HTree → List Nat
  | .leaf s => [s]
  | .node l r => l.leaves ++ r.leaves

def HTree.height : HTree → Nat
  | .leaf _ => 0
  | .node l r => max l.height r.height + 1

theorem HTree.depths_leaves (t : HTree) : ∀ lv, (t.depths lv).map Prod.fst = t.leaves := by
  induction t with
  | leaf s => intro lv; rfl
  | node l r ihl ihr => intro lv; simp [depths, leaves, ihl, ihr]

theorem HTree.depths_kraft (M : Nat) (t : HTree) : ∀ lv, (∀ p ∈ t.depths lv, p.2 ≤ M) →
    ((t.depths lv).map fun p => 2 ^ (M - p.2)).sum = 2 ^ (M - lv) ∧ lv ≤ M := by
  induction t with
  | leaf s => intro lv h; exact ⟨by simp [depths], h _ List.mem_cons_self⟩
  | node l r ihl ihr =>
    intro lv h
    obtain ⟨h1, h2⟩ := ihl (lv + 1) fun p hp => h p (List.mem_append_left _ hp)
    obtain ⟨h3, _⟩ := ihr (lv + 1) fun p hp => h p (List.mem_append_right _ hp)
    refine ⟨?_, by omega⟩
    rw [depths, List.map_append, List.sum_append_nat, h1, h3, ← Nat.two_mul, ← Nat.pow_succ']
    congr 1; omega

theorem HTree.depths_le (t : HTree) : ∀ lv, ∀ p ∈ t.depths lv, lv ≤ p.2 ∧ p.2 ≤ lv + t.height := by
  induction t with
  | leaf s => intro lv p hp; simp [depths] at hp; subst hp; simp [height]
  | node l r ihl ihr =>
    intro lv p hp
    simp only [depths, List.mem_append] at hp
    simp only [height]
    rcases hp with hp | hp
    · have := ihl _ p hp; omega
    · have := ihr _ p hp; omega

/-- All symbols in a pool. -/
def poolLeaves (l : List WTree) : List Nat := l.flatMap fun w => w.2.leaves

theorem popMin_spec {ls ps : List WTree} {a : WTree} {ls' ps' : List WTree} (h : popMin ls ps = some (a, ls', ps')) :
    (ls ++ ps).Perm (a :: (ls' ++ ps')) ∧
      (∀ w ∈ ls', w ∈ ls) ∧ (∀ w ∈ ps', w ∈ ps) ∧ (a ∈ ls ∨ a ∈ ps) := by
  unfold popMin at h
  split at h
  · cases h
  · simp only [Option.some.injEq, Prod.mk.injEq] at h
    obtain ⟨rfl, rfl, rfl⟩ := h
    simp +contextual
  · simp only [Option.some.injEq, Prod.mk.injEq] at h
    obtain ⟨rfl, rfl, rfl⟩ := h
    simp +contextual
  · split at h
    · simp only [Option.some.injEq, Prod.mk.injEq] at h
      obtain ⟨rfl, rfl, rfl⟩ := h
      simp +contextual
    · simp only [Option.some.injEq, Prod.mk.injEq] at h
      obtain ⟨rfl, rfl, rfl⟩ := h
      refine ⟨?_, by simp, by simp +contextual, by simp⟩
      exact List.perm_middle

theorem popMin_some {ls ps : List WTree} (h : 0 < ls.length + ps.length) :
    ∃ a ls' ps', popMin ls ps = some (a, ls', ps') := by
  cases ls with
  | nil =>
    cases ps with
    | nil => simp at h
    | cons y ps => exact ⟨_, _, _, rfl⟩
  | cons x ls =>
    cases ps with
    | nil => exact ⟨_, _, _, rfl⟩
    | cons y ps =>
      simp only [popMin]
      split <;> exact ⟨_, _, _, rfl⟩

theorem poolLeaves_perm {l l' : List WTree} (h : l.Perm l') : (poolLeaves l).Perm (poolLeaves l') :=
  h.flatMap_right _

theorem mergeLoop_spec (k : Nat) : ∀ ls ps : List WTree, ls.length + ps.length = k + 1 →
    ∃ ls' ps', mergeLoop k ls ps = some (ls', ps') ∧ ls'.length + ps'.length = 1 ∧
      (poolLeaves (ls ++ ps)).Perm (poolLeaves (ls' ++ ps')) ∧ (0 < k → ls' = []) := by
  induction k with
  | zero => intro ls ps h; exact ⟨ls, ps, rfl, h, List.Perm.refl _, by simp⟩
  | succ k ih =>
    intro ls ps h
    obtain ⟨a, l1, p1, e1⟩ := popMin_some (ls := ls) (ps := ps) (by omega)
    have s1 := popMin_spec e1
    have n1 := s1.1.length_eq
    simp only [List.length_append, List.length_cons] at n1
    obtain ⟨b, l2, p2, e2⟩ := popMin_some (ls := l1) (ps := p1) (by omega)
    have s2 := popMin_spec e2
    have n2 := s2.1.length_eq
    simp only [List.length_append, List.length_cons] at n2
    obtain ⟨l', p', h1, h2, h3, h4⟩ := ih l2 (p2 ++ [(a.1 + b.1, .node a.2 b.2)]) (by
      simp only [List.length_append, List.length_singleton]; omega)
    refine ⟨l', p', ?_, h2, ?_, ?_⟩
    · simp only [mergeLoop, e1, e2]; exact h1
    · refine List.Perm.trans ?_ h3
      refine (poolLeaves_perm (s1.1.trans (s2.1.cons a))).trans ?_
      simp only [poolLeaves, List.flatMap_cons, List.flatMap_append, List.flatMap_nil, HTree.leaves, List.append_nil]
      rw [← List.append_assoc a.2.leaves, ← List.append_assoc (List.flatMap _ l2)]
      exact List.perm_append_comm
    · intro _
      by_cases hk : 0 < k
      · exact h4 hk
      · have : k = 0 := by omega
        subst this
        simp only [mergeLoop, Option.some.injEq, Prod.mk.injEq] at h1
        rw [← h1.1, ← h1.2] at h2
        simp only [List.length_append, List.length_singleton] at h2
        rw [← h1.1]
        exact List.eq_nil_of_length_eq_zero (by omega)

theorem mkLeaves_leaves (data : List Nat) (c : Nat) : poolLeaves (mkLeaves data c) =
    (List.range data.length).reverse.filter fun i => data.getD i 0 ≠ 0 := by
  unfold poolLeaves mkLeaves
  rw [List.flatMap_map]
  simp [HTree.leaves, List.flatMap_singleton']

theorem sortLeaves_perm (ls : List WTree) : (sortLeaves ls).Perm ls := List.mergeSort_perm _ _

theorem mkLeaves_length (data : List Nat) (c c' : Nat) : (mkLeaves data c).length = (mkLeaves data c').length := by
  simp [mkLeaves]

/-- Each round succeeds and its tree has exactly the symbols that occur. -/
theorem buildTree_spec (data : List Nat) (c : Nat) (h : 2 ≤ (mkLeaves data c).length) :
    ∃ t, buildTree data c = some t ∧
      t.leaves.Perm ((List.range data.length).filter fun i => data.getD i 0 ≠ 0) ∧ 1 ≤ t.height := by
  have hp := sortLeaves_perm (mkLeaves data c)
  have hl := hp.length_eq
  obtain ⟨l', p', e1, e2, e3, e4⟩ := mergeLoop_spec ((sortLeaves (mkLeaves data c)).length - 1)
    (sortLeaves (mkLeaves data c)) [] (by simp; omega)
  have hnil := e4 (by omega)
  subst hnil
  have : ∃ t, p' = [t] := List.length_eq_one_iff.mp (by simpa using e2)
  obtain ⟨t, rfl⟩ := this
  have hperm : t.2.leaves.Perm ((List.range data.length).filter fun i => data.getD i 0 ≠ 0) := by
    simp only [List.append_nil, List.nil_append] at e3
    have e5 := e3.symm.trans (poolLeaves_perm hp)
    rw [mkLeaves_leaves] at e5
    simp only [poolLeaves, List.flatMap_cons, List.flatMap_nil, List.append_nil] at e5
    exact e5.trans ((List.reverse_perm _).filter _)
  refine ⟨t.2, ?_, hperm, ?_⟩
  · unfold buildTree; simp only [e1]
  · have hlen := hperm.length_eq
    have : (mkLeaves data c).length = ((List.range data.length).filter fun i => data.getD i 0 ≠ 0).length := by
      unfold mkLeaves
      rw [List.length_map]
      exact ((List.reverse_perm _).filter _).length_eq
    cases ht : t.2 with
    | leaf s => rw [ht] at hlen; simp only [HTree.leaves, List.length_singleton] at hlen; omega
    | node l r => simp [HTree.height]

/-! ## Depth vectors of trees -/

/-- What the caller relies on: symbols that occur get a depth between 1 and the limit, the others 0, and the
Kraft sum is 1. -/
structure DepthsOk (data depth : List Nat) (limit : Nat) : Prop where
  length : depth.length = data.length
  support : ∀ i < data.length, depth.getD i 0 ≠ 0 ↔ data.getD i 0 ≠ 0
  le : ∀ d ∈ depth, d ≤ limit
  kraft : kraftLens limit depth = 2 ^ limit

theorem depthsOf_length (n : Nat) (l : List (Nat × Nat)) : (depthsOf n l).length = n := by simp [depthsOf]

theorem depthsOf_getD {n : Nat} {l : List (Nat × Nat)} {i : Nat} (hi : i < n) :
    (depthsOf n l).getD i 0 = ((l.find? fun p => p.1 = i).map Prod.snd).getD 0 := by
  rw [depthsOf, List.getD_eq_getElem?_getD, List.getElem?_map, List.getElem?_range hi]
  rfl

theorem find_of_mem {l : List (Nat × Nat)} (hn : (l.map Prod.fst).Nodup) {p : Nat × Nat} (hp : p ∈ l) :
    l.find? (fun q => decide (q.1 = p.1)) = some p := by
  induction l with
  | nil => cases hp
  | cons a l ih =>
    rw [List.map_cons, List.nodup_cons] at hn
    rw [List.find?_cons]
    rw [List.mem_cons] at hp
    rcases hp with rfl | hp
    · simp
    · have hne : a.1 ≠ p.1 := by
        intro h; apply hn.1; rw [h]; exact List.mem_map_of_mem hp
      simp only [hne, decide_false]
      exact ih hn.2 hp

theorem tree_depthsOk {data : List Nat} {limit : Nat} {t : HTree}
    (hp : t.leaves.Perm ((List.range data.length).filter fun i => data.getD i 0 ≠ 0)) (hh : 1 ≤ t.height)
    (hle : ∀ d ∈ depthsOf data.length (t.depths 0), d ≤ limit) :
    DepthsOk data (depthsOf data.length (t.depths 0)) limit := by
  have hmap := t.depths_leaves 0
  have hnd : ((t.depths 0).map Prod.fst).Nodup := by
    rw [hmap, hp.nodup_iff]; exact List.nodup_range.filter _
  have hmem : ∀ i, i ∈ (t.depths 0).map Prod.fst ↔ i < data.length ∧ data.getD i 0 ≠ 0 := by
    intro i
    rw [hmap, hp.mem_iff, List.mem_filter, List.mem_range]
    simp
  have hpos : ∀ p ∈ t.depths 0, 1 ≤ p.2 := by
    intro p hp
    cases t with
    | leaf s => simp [HTree.height] at hh
    | node l r =>
      simp only [HTree.depths, List.mem_append] at hp
      rcases hp with hp | hp
      · exact (HTree.depths_le l _ p hp).1
      · exact (HTree.depths_le r _ p hp).1
  have hget : ∀ p ∈ t.depths 0, (depthsOf data.length (t.depths 0)).getD p.1 0 = p.2 := by
    intro p hp
    rw [depthsOf_getD ((hmem p.1).mp (List.mem_map_of_mem hp)).1, find_of_mem hnd hp]
    rfl
  have hzero : ∀ i < data.length, i ∉ (t.depths 0).map Prod.fst → (depthsOf data.length (t.depths 0)).getD i 0 = 0 := by
    intro i hi hn
    rw [depthsOf_getD hi]
    have : (t.depths 0).find? (fun p => decide (p.1 = i)) = none := by
      rw [List.find?_eq_none]
      intro p hp h
      apply hn
      simp at h
      rw [← h]; exact List.mem_map_of_mem hp
    rw [this]; rfl
  refine ⟨depthsOf_length _ _, ?_, hle, ?_⟩
  · intro i hi
    by_cases h : i ∈ (t.depths 0).map Prod.fst
    · obtain ⟨p, hp, rfl⟩ := List.mem_map.mp h
      rw [hget p hp]
      have := hpos p hp
      have := ((hmem p.1).mp h).2
      simp only [ne_eq, this, not_false_eq_true, iff_true]
      omega
    · rw [hzero i hi h]
      have : ¬ data.getD i 0 ≠ 0 := fun hd => h ((hmem i).mpr ⟨hi, hd⟩)
      simp only [ne_eq, not_true_eq_false, false_iff]
      exact this
  · have hall : ∀ p ∈ t.depths 0, p.2 ≤ limit := by
      intro p hp
      rw [← hget p hp]
      apply hle
      apply getD_mem
      rw [depthsOf_length]
      exact ((hmem p.1).mp (List.mem_map_of_mem hp)).1
    have hk := (HTree.depths_kraft limit t 0 hall).1
    rw [Nat.sub_zero] at hk
    rw [← hk, kraftLens, ← sum_range_getD (fun l => if l = 0 then 0 else 2 ^ (limit - l)), depthsOf_length]
    have h1 : ((List.range data.length).map fun s =>
        if (depthsOf data.length (t.depths 0)).getD s 0 = 0 then 0
        else 2 ^ (limit - (depthsOf data.length (t.depths 0)).getD s 0)).sum =
      (((List.range data.length).filter fun i => decide (data.getD i 0 ≠ 0)).map fun s =>
        2 ^ (limit - (depthsOf data.length (t.depths 0)).getD s 0)).sum := by
      rw [sum_filter_map]
      congr 1
      apply List.map_congr_left
      intro s hs
      have hs := List.mem_range.mp hs
      by_cases h : s ∈ (t.depths 0).map Prod.fst
      · have h2 := ((hmem s).mp h).2
        obtain ⟨p, hp, rfl⟩ := List.mem_map.mp h
        have := hpos p hp
        rw [hget p hp, if_neg (by omega), if_pos (by simpa using h2)]
      · have h2 : ¬ data.getD s 0 ≠ 0 := fun hd => h ((hmem s).mpr ⟨hs, hd⟩)
        rw [hzero s hs h, if_pos rfl, if_neg (by simpa using h2)]
    rw [h1, ← List.Perm.sum_nat (List.Perm.map _ hp), ← hmap, List.map_map]
    congr 1
    apply List.map_congr_left
    intro p hp
    simp only [Function.comp_apply]
    rw [hget p hp]

/-! ## The loop ends -/

/-- Equal weights: the pool is a queue. -/
theorem popMin_queue {w : Nat} {ls ps : List WTree} (h1 : ∀ x ∈ ls, x.1 = w) (h2 : ∀ x ∈ ps, w ≤ x.1) {a : WTree} {q : List WTree}
    (hq : ls ++ ps = a :: q) : ∃ ls' ps', popMin ls ps = some (a, ls', ps') ∧ ls' ++ ps' = q ∧
      (∀ x ∈ ls', x.1 = w) ∧ (∀ x ∈ ps', w ≤ x.1) := by
  cases ls with
  | nil =>
    simp only [List.nil_append] at hq
    subst hq
    exact ⟨[], q, rfl, rfl, by simp, fun x hx => h2 x (List.mem_cons_of_mem _ hx)⟩
  | cons x ls =>
    simp only [List.cons_append, List.cons.injEq] at hq
    obtain ⟨rfl, rfl⟩ := hq
    refine ⟨ls, ps, ?_, rfl, fun y hy => h1 y (List.mem_cons_of_mem _ hy), h2⟩
    cases ps with
    | nil => rfl
    | cons y ps =>
      simp only [popMin]
      rw [if_pos]
      rw [h1 x List.mem_cons_self]
      exact h2 y List.mem_cons_self

/-- Merging a queue of `a` trees of height at most `h` followed by `b` trees of height at most `h + 1`. -/
theorem mergeLoop_height {w : Nat} (H k : Nat) : ∀ (ls ps : List WTree) (h : Nat) (A B : List WTree),
    ls.length + ps.length = k + 1 → (∀ x ∈ ls, x.1 = w) → (∀ x ∈ ps, w ≤ x.1) →
    ls ++ ps = A ++ B → (∀ x ∈ A, x.2.height ≤ h) → (∀ x ∈ B, x.2.height ≤ h + 1) → h ≤ H →
    A.length + 2 * B.length ≤ 2 ^ (H - h) →
    ∀ ls' ps', mergeLoop k ls ps = some (ls', ps') → ∀ x ∈ ls' ++ ps', x.2.height ≤ H := by
  induction k with
  | zero =>
    intro ls ps h A B hl _ _ hq hA hB hH hsz ls' ps' he x hx
    simp only [mergeLoop, Option.some.injEq, Prod.mk.injEq] at he
    obtain ⟨rfl, rfl⟩ := he
    have hlen := congrArg List.length hq
    simp only [List.length_append] at hlen
    rw [hq, List.mem_append] at hx
    rcases hx with hx | hx
    · exact Nat.le_trans (hA x hx) hH
    · have hb : 0 < B.length := List.length_pos_of_mem hx
      have : h ≠ H := by
        intro heq; subst heq; simp at hsz; omega
      have := hB x hx
      omega
  | succ k ih =>
    intro ls ps h A B hl hw1 hw2 hq hA hB hH hsz ls' ps' he
    have hlen := congrArg List.length hq
    simp only [List.length_append] at hlen
    -- general step: pop the first two
    have step : ∀ a b q, ls ++ ps = a :: b :: q → ∀ h' A' B', q ++ [(a.1 + b.1, HTree.node a.2 b.2)] = A' ++ B' →
        (∀ x ∈ A', x.2.height ≤ h') → (∀ x ∈ B', x.2.height ≤ h' + 1) → h' ≤ H →
        A'.length + 2 * B'.length ≤ 2 ^ (H - h') → ∀ x ∈ ls' ++ ps', x.2.height ≤ H := by
      intro a b q hqq h' A' B' hq' hA' hB' hH' hsz'
      obtain ⟨l1, p1, e1, f1, g1, k1⟩ := popMin_queue hw1 hw2 hqq
      obtain ⟨l2, p2, e2, f2, g2, k2⟩ := popMin_queue g1 k1 f1
      simp only [mergeLoop, e1, e2] at he
      have haw : w ≤ a.1 := by
        have : a ∈ ls ++ ps := by rw [hqq]; simp
        rcases List.mem_append.mp this with h | h
        · exact Nat.le_of_eq (hw1 a h).symm
        · exact hw2 a h
      refine ih l2 (p2 ++ [(a.1 + b.1, .node a.2 b.2)]) h' A' B' ?_ g2 ?_ ?_ hA' hB' hH' hsz' ls' ps' he
      · have := congrArg List.length hqq
        have := congrArg List.length f2
        simp only [List.length_append, List.length_cons, List.length_nil] at *
        omega
      · intro x hx
        rw [List.mem_append, List.mem_singleton] at hx
        rcases hx with hx | rfl
        · exact k2 x hx
        · exact Nat.le_trans haw (Nat.le_add_right _ _)
      · rw [← List.append_assoc, f2]; exact hq'
    match A, hq, hA, hsz, hlen with
    | a :: b :: A, hq, hA, hsz, hlen =>
      refine step a b (A ++ B) (by simpa using hq) h A (B ++ [_]) (List.append_assoc _ _ _) ?_ ?_ hH ?_
      · intro x hx; exact hA x (by simp [hx])
      · intro x hx
        rw [List.mem_append, List.mem_singleton] at hx
        rcases hx with hx | rfl
        · exact hB x hx
        · have h1 := hA a (by simp)
          have h2 := hA b (by simp)
          simp only [HTree.height]; omega
      · simp only [List.length_cons, List.length_append, List.length_nil] at *; omega
    | [a], hq, hA, hsz, hlen =>
      match B, hq, hB, hsz, hlen with
      | [], _, _, _, hlen => simp only [List.length_nil, List.length_cons] at hlen; omega
      | b :: B, hq, hB, hsz, hlen =>
        have hne : h ≠ H := by intro heq; subst heq; simp at hsz; omega
        have hpw : 2 ^ (H - h) = 2 * 2 ^ (H - (h + 1)) := by rw [← Nat.pow_succ']; congr 1; omega
        refine step a b B (by simpa using hq) (h + 1) B [_] rfl ?_ ?_ (by omega) ?_
        · intro x hx; exact hB x (by simp [hx])
        · intro x hx
          rw [List.mem_singleton] at hx
          subst hx
          have h1 := hA a (by simp)
          have h2 := hB b (by simp)
          simp only [HTree.height]; omega
        · simp only [List.length_cons, List.length_nil] at *; omega
    | [], hq, hA, hsz, hlen =>
      match B, hq, hB, hsz, hlen with
      | [], _, _, _, hlen => simp only [List.length_nil] at hlen; omega
      | [b], _, _, _, hlen => simp only [List.length_nil, List.length_cons] at hlen; omega
      | a :: b :: B, hq, hB, hsz, hlen =>
        have hne : h ≠ H := by intro heq; subst heq; simp at hsz; omega
        have hpw : 2 ^ (H - h) = 2 * 2 ^ (H - (h + 1)) := by rw [← Nat.pow_succ']; congr 1; omega
        refine step a b B (by simpa using hq) (h + 1) B [_] rfl ?_ ?_ (by omega) ?_
        · intro x hx; exact hB x (by simp [hx])
        · intro x hx
          rw [List.mem_singleton] at hx
          subst hx
          have h1 := hB a (by simp)
          have h2 := hB b (by simp)
          simp only [HTree.height]; omega
        · simp only [List.length_cons, List.length_nil] at *; omega

theorem buildTree_height {data : List Nat} {c limit : Nat} {t : HTree} (h : 2 ≤ (mkLeaves data c).length)
    (hsmall : ∀ d ∈ data, d ≤ c - 1) (hn : (mkLeaves data c).length ≤ 2 ^ limit) (ht : buildTree data c = some t) :
    t.height ≤ limit := by
  have hp := sortLeaves_perm (mkLeaves data c)
  have hl := hp.length_eq
  have hmem : ∀ x ∈ sortLeaves (mkLeaves data c), x.1 = c - 1 ∧ x.2.height ≤ 0 := by
    intro x hx
    have hx := hp.mem_iff.mp hx
    unfold mkLeaves at hx
    obtain ⟨i, hi, rfl⟩ := List.mem_map.mp hx
    have h1 := (List.mem_filter.mp hi).1
    have hi : i < data.length := by simpa using h1
    have := hsmall _ (getD_mem hi)
    exact ⟨Nat.max_eq_right this, Nat.le_refl 0⟩
  unfold buildTree at ht
  simp only at ht
  split at ht
  · rename_i t' he
    simp only [Option.some.injEq] at ht
    subst ht
    exact mergeLoop_height limit _ _ [] 0 (sortLeaves (mkLeaves data c)) [] (by simp; omega)
      (fun x hx => (hmem x hx).1) (by simp) rfl (fun x hx => (hmem x hx).2) (by simp) (Nat.zero_le _)
      (by simp; omega) _ _ he t' (by simp)
  · simp at ht

theorem createLoop_some {data : List Nat} {limit : Nat} (h2 : ∀ c, 2 ≤ (mkLeaves data c).length)
    (hn : ∀ c, (mkLeaves data c).length ≤ 2 ^ limit) (fuel : Nat) : ∀ c, 0 < fuel → (∀ d ∈ data, d ≤ c * 2 ^ (fuel - 1) - 1) →
    ∃ depth, createLoop data limit fuel c = some depth ∧ DepthsOk data depth limit := by
  induction fuel with
  | zero => intro c h; omega
  | succ fuel ih =>
    intro c _ hd
    obtain ⟨t, e1, e2, e3⟩ := buildTree_spec data c (h2 c)
    simp only [createLoop, e1]
    by_cases hle : ∀ d ∈ depthsOf data.length (t.depths 0), d ≤ limit
    · rw [if_pos hle]
      exact ⟨_, rfl, tree_depthsOk e2 e3 hle⟩
    · rw [if_neg hle]
      apply ih
      · apply Nat.pos_of_ne_zero
        rintro rfl
        apply hle
        have hh := buildTree_height (h2 c) (by simpa using hd) (hn c) e1
        intro d hd
        rw [depthsOf, List.mem_map] at hd
        obtain ⟨i, _, rfl⟩ := hd
        cases hf : (t.depths 0).find? (fun p => decide (p.1 = i)) with
        | none => simp
        | some p =>
          have := (HTree.depths_le t 0 p (List.mem_of_find?_eq_some hf)).2
          simp; omega
      · by_cases hf : fuel = 0
        · subst hf
          simp only [Nat.zero_add, Nat.sub_self, Nat.pow_zero, Nat.mul_one] at hd ⊢
          intro d hdm
          have := hd d hdm; omega
        · intro d hdm
          have := hd d hdm
          rw [Nat.mul_assoc, ← Nat.pow_succ', show (fuel - 1).succ = fuel + 1 - 1 by omega]
          exact this

theorem mkLeaves_countP (data : List Nat) (c : Nat) : (mkLeaves data c).length = data.countP (· ≠ 0) := by
  unfold mkLeaves
  rw [List.length_map, ((List.reverse_perm _).filter _).length_eq]
  have : ∀ n ≤ data.length, ((List.range n).filter fun i => decide (data.getD i 0 ≠ 0)).length =
      (data.take n).countP (· ≠ 0) := by
    intro n
    induction n with
    | zero => intro _; simp
    | succ n ih =>
      intro hn
      have hlt : n < data.length := by omega
      rw [List.range_succ, List.filter_append, List.length_append, ih (by omega), List.take_add_one, List.countP_append,
        List.getElem?_eq_getElem hlt, List.filter_singleton, List.getD_eq_getElem?_getD, List.getElem?_eq_getElem hlt]
      by_cases h : data[n] = 0 <;> simp [h]
  rw [this data.length (Nat.le_refl _), List.take_length]

/-- **`CreateHuffmanTree` always ends, with a complete code within the depth limit**, for two or more symbols. -/
theorem createHuffmanTree_ok {data : List Nat} {limit : Nat} (h2 : 2 ≤ data.countP (· ≠ 0)) (hn : data.countP (· ≠ 0) ≤ 2 ^ limit)
    (hd : ∀ d ∈ data, d < 2 ^ 31) : ∃ depth, createHuffmanTree data limit = some depth ∧ DepthsOk data depth limit := by
  have hlen : ∀ c, (mkLeaves data c).length = data.countP (· ≠ 0) := mkLeaves_countP data
  unfold createHuffmanTree
  split
  · rename_i w s he
    have := hlen 1
    rw [he] at this
    simp only [List.length_singleton] at this
    omega
  · apply createLoop_some
    · intro c; rw [hlen]; exact h2
    · intro c; rw [hlen]; exact hn
    · decide
    · intro d hdm
      have := hd d hdm
      omega

/-- With a single symbol its depth is 1 (c/enc/huffman_tree.cc:71-76). -/
theorem createHuffmanTree_single {data : List Nat} {limit : Nat} (h1 : data.countP (· ≠ 0) = 1) :
    ∃ s, s < data.length ∧ data.getD s 0 ≠ 0 ∧ (∀ i, data.getD i 0 ≠ 0 → i = s) ∧
      createHuffmanTree data limit = some (depthsOf data.length [(s, 1)]) := by
  have hlen := mkLeaves_countP data 1
  rw [h1] at hlen
  obtain ⟨⟨w, t⟩, ht⟩ := List.length_eq_one_iff.mp hlen
  have hleaves := mkLeaves_leaves data 1
  rw [ht] at hleaves
  have hm : (w, t) ∈ mkLeaves data 1 := by rw [ht]; simp
  unfold mkLeaves at hm
  obtain ⟨s, hs, he⟩ := List.mem_map.mp hm
  simp only [Prod.mk.injEq] at he
  obtain ⟨rfl, rfl⟩ := he
  simp only [poolLeaves, List.flatMap_cons, HTree.leaves, List.flatMap_nil, List.append_nil] at hleaves
  have hs2 := List.mem_filter.mp hs
  refine ⟨s, by simpa using hs2.1, by simpa using hs2.2, ?_, ?_⟩
  · intro i hi
    have hlt : i < data.length := by
      by_contra h
      apply hi
      rw [List.getD_eq_getElem?_getD, List.getElem?_eq_none (by omega)]; rfl
    have : i ∈ (List.range data.length).reverse.filter fun i => decide (data.getD i 0 ≠ 0) := by
      rw [List.mem_filter]; simpa using ⟨hlt, hi⟩
    rw [← hleaves, List.mem_singleton] at this
    exact this
  · unfold createHuffmanTree
    rw [ht]

end Brunsli
