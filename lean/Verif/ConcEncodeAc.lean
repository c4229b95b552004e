import Verif.ConcEncode
/-!
# `EncodeAC` as a task

The accesses of `EncodeAC` to the arrays of the image (c/enc/brunsli_encode.cc:1180-1346): it reads block states and coefficients, those of the block and of its
neighbours above and to the left, and writes none.  What it does with its own state is any function.
-/

namespace Brunsli
open Groups

/-- Read coefficients one after the other. -/
def readCells {α : Type} (c : Nat) : List (Nat × Nat × Nat) → (List Int → Task TCell Int α) → Task TCell Int α
  | [], f => f []
  | (x, y, k) :: l, f => .read (.coef c x y k) fun v => readCells c l fun vs => f (v :: vs)

/-- The coefficients of neighbours that are looked at for the contexts of a block with the coefficients `cs` (c/enc/brunsli_encode.cc:1265, 1274, 1278-1297, c/common/context.h:239-281):
the code reads the first of the eight last. -/
def acCells (modes order : Nat → Nat) (x y : Nat) (cs : List Int) : List (Nat × Nat × Nat) :=
  (List.range 63).reverse.flatMap fun j =>
    if cs.getD j 0 = 0 then [] else
    if modes (order (j + 1)) % 2 = 1 ∧ 0 < y then (List.range 8).map fun t => (x, y - 1, order (j + 1) % 8 + 8 * t)
    else if modes (order (j + 1)) / 2 % 2 = 1 ∧ 0 < x then (List.range 8).map fun t => (x - 1, y, order (j + 1) / 8 * 8 + t)
    else []

/-- The coefficients of the block itself, in the order in which they are coded (c/enc/brunsli_encode.cc:1247-1251). -/
def ownCells (order : Nat → Nat) (x y : Nat) : List (Nat × Nat × Nat) := (List.range 63).map fun j => (x, y, order (j + 1))

/-- The body of the loops of `EncodeAC` (c/enc/brunsli_encode.cc:1242-1334) for a list of blocks.  `modes` is `context_modes`, `order c` the order of coefficients of the component.  `f` takes
the state of the task, the block and, unless the block is empty, its coefficients and those of the neighbours to the next state.  The code reads coefficients of neighbours between the steps
of coding the block; here all are read first. -/
def encodeAcReads {σ : Type} (modes : Nat → Nat) (order : Nat → Nat → Nat) (f : σ → Nat × Nat × Nat → Option (List Int × List Int) → σ) :
    List (Nat × Nat × Nat) → σ → Task TCell Int σ
  | [], s => .ret s
  | (c, y, x) :: l, s =>
    .read (.state c x y) fun st =>
      if st ≠ 0 then encodeAcReads modes order f l (f s (c, y, x) none) else
      readCells c (ownCells (order c) x y) fun cs => readCells c (acCells modes (order c) x y cs) fun ns =>
        encodeAcReads modes order f l (f s (c, y, x) (some (cs, ns)))

theorem run_readCells {α : Type} (c : Nat) (m : TCell → Int) (l : List (Nat × Nat × Nat)) : ∀ f : List Int → Task TCell Int α,
    (readCells c l f).run m = (f (l.map fun p => m (.coef c p.1 p.2.1 p.2.2))).run m := by
  induction l with
  | nil => intro f; rfl
  | cons p l ih => intro f; obtain ⟨x, y, k⟩ := p; exact ih _

theorem safe_readCells {α : Type} {own shared : TCell → Prop} {c : Nat} {m : TCell → Int} (l : List (Nat × Nat × Nat)) : ∀ {f : List Int → Task TCell Int α},
    (∀ vs, (f vs).Safe own shared m) → (∀ x y k, (x, y, k) ∈ l → own (.coef c x y k)) → (readCells c l f).Safe own shared m := by
  induction l with
  | nil => intro f hf _; exact hf []
  | cons p l ih =>
    intro f hf h
    obtain ⟨x, y, k⟩ := p
    exact ⟨Or.inl (h x y k (List.mem_cons_self ..)), ih (fun vs => hf _) fun x y k hk => h x y k (List.mem_cons_of_mem _ hk)⟩

/-- Neighbours are within the tile. -/
theorem mem_acCells {modes order : Nat → Nat} {x y : Nat} {cs : List Int} (ho : ∀ k, order k < 64) {x' y' k : Nat} (h : (x', y', k) ∈ acCells modes order x y cs) :
    x' ≤ x ∧ y' ≤ y ∧ k < 64 := by
  simp only [acCells, List.mem_flatMap] at h
  obtain ⟨j, -, h⟩ := h
  have := ho (j + 1)
  split at h
  · exact nomatch h
  · split at h
    · obtain ⟨t, ht, e⟩ := List.mem_map.1 h
      have := List.mem_range.1 ht
      cases e
      omega
    · split at h
      · obtain ⟨t, ht, e⟩ := List.mem_map.1 h
        have := List.mem_range.1 ht
        cases e
        omega
      · exact nomatch h

theorem safe_encodeAcReads {σ : Type} {gs : Nat → Geometry} {n dim idx : Nat} (modes : Nat → Nat) (order : Nat → Nat → Nat) (ho : ∀ c k, order c k < 64)
    (f : σ → Nat × Nat × Nat → Option (List Int × List Int) → σ) (m : TCell → Int) (l : List (Nat × Nat × Nat)) :
    ∀ s : σ, (∀ c y x, (c, y, x) ∈ l → c < n ∧ (gs c).inTile dim idx x y) → (encodeAcReads modes order f l s).Safe (TCell.Inside gs n dim idx) TCell.Common m := by
  induction l with
  | nil => intro _ _; trivial
  | cons b l ih =>
    intro s h
    obtain ⟨c, y, x⟩ := b
    obtain ⟨hc, hin⟩ := h c y x (List.mem_cons_self ..)
    have ih := fun s => ih s fun c y x hm => h c y x (List.mem_cons_of_mem _ hm)
    rw [encodeAcReads]
    refine ⟨Or.inl ⟨hc, hin⟩, ?_⟩
    beta_reduce
    split
    · exact ih _
    · refine safe_readCells _ (fun cs => safe_readCells _ (fun ns => ih _) fun x' y' k hk => ?_) fun x' y' k hk => ?_
      · obtain ⟨h1, h2, h3⟩ := mem_acCells (ho c) hk
        exact ⟨hc, ⟨Nat.lt_of_le_of_lt h1 hin.1, Nat.lt_of_le_of_lt h2 hin.2⟩, h3⟩
      · obtain ⟨j, -, e⟩ := List.mem_map.1 hk
        cases e
        exact ⟨hc, hin, ho c _⟩

/-- What the task sees of a block in the memory `m`. -/
def acSeen (modes : Nat → Nat) (order : Nat → Nat → Nat) (m : TCell → Int) (b : Nat × Nat × Nat) : Option (List Int × List Int) :=
  if m (.state b.1 b.2.2 b.2.1) ≠ 0 then none else
    let cs := (ownCells (order b.1) b.2.2 b.2.1).map fun p => m (.coef b.1 p.1 p.2.1 p.2.2)
    some (cs, (acCells modes (order b.1) b.2.2 b.2.1 cs).map fun p => m (.coef b.1 p.1 p.2.1 p.2.2))

theorem run_encodeAcReads {σ : Type} (modes : Nat → Nat) (order : Nat → Nat → Nat) (f : σ → Nat × Nat × Nat → Option (List Int × List Int) → σ) (m : TCell → Int)
    (l : List (Nat × Nat × Nat)) : ∀ s : σ, (encodeAcReads modes order f l s).run m = (l.foldl (fun s b => f s b (acSeen modes order m b)) s, m) := by
  induction l with
  | nil => intro s; rfl
  | cons b l ih =>
    intro s
    obtain ⟨c, y, x⟩ := b
    rw [encodeAcReads, List.foldl_cons, acSeen]
    show (if m (.state c x y) ≠ 0 then _ else _ : Task TCell Int σ).run m = _
    split
    · exact ih _
    · rw [run_readCells, run_readCells]
      exact ih _

end Brunsli
