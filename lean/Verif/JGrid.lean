import Verif.JOrder
import Verif.Container
import Mathlib.Data.List.Nodup
/-!
# The order of blocks in a scan
-/

namespace Brunsli

/-- The blocks of a component in one MCU. -/
def unitsIn (comps : List ScanComp) (n : Nat) : Nat := if 1 < comps.length then n else 1

theorem mem_mcuVisits {dims : Nat → CompDim} {comps : List ScanComp} {my mx : Nat} {v : Visit} :
    v ∈ mcuVisits dims comps my mx ↔ ∃ s ∈ comps, ∃ iy < unitsIn comps (dims s.compIdx).v, ∃ ix < unitsIn comps (dims s.compIdx).h,
      v = ⟨s.compIdx, (false, s.dcTbl), (true, s.acTbl),
        (my * unitsIn comps (dims s.compIdx).v + iy) * (dims s.compIdx).width + (mx * unitsIn comps (dims s.compIdx).h + ix)⟩ := by
  unfold mcuVisits unitsIn
  simp only [List.mem_flatMap, List.mem_map, List.mem_range]
  constructor
  · rintro ⟨s, hs, iy, h1, ix, h2, rfl⟩
    exact ⟨s, hs, iy, h1, ix, h2, rfl⟩
  · rintro ⟨s, hs, iy, h1, ix, h2, rfl⟩
    exact ⟨s, hs, iy, h1, ix, h2, rfl⟩

theorem mem_mcuGrid {dims : Nat → CompDim} {comps : List ScanComp} {rows cols : Nat} {v : Visit} :
    v ∈ (mcuGrid dims comps rows cols).flatten ↔ ∃ my < rows, ∃ mx < cols, v ∈ mcuVisits dims comps my mx := by
  unfold mcuGrid
  simp only [List.mem_flatten, List.mem_flatMap, List.mem_map, List.mem_range]
  constructor
  · rintro ⟨l, ⟨my, h1, mx, h2, rfl⟩, h3⟩
    exact ⟨my, h1, mx, h2, h3⟩
  · rintro ⟨my, h1, mx, h2, h3⟩
    exact ⟨_, ⟨my, h1, mx, h2, rfl⟩, h3⟩

theorem mulAdd_inj {n a b x y : Nat} (hx : x < n) (hy : y < n) (h : a * n + x = b * n + y) : a = b ∧ x = y := by
  have h1 := congrArg (· / n) h
  have h2 := congrArg (· % n) h
  simp only [Nat.mul_comm _ n, Nat.mul_add_div (Nat.zero_lt_of_lt hx), Nat.div_eq_of_lt hx, Nat.div_eq_of_lt hy, Nat.mul_add_mod, Nat.mod_eq_of_lt hx, Nat.mod_eq_of_lt hy] at h1 h2
  exact ⟨by omega, h2⟩

theorem mulAdd_lt {n a b x : Nat} (ha : a < b) (hx : x < n) : a * n + x < b * n := by
  have : (a + 1) * n ≤ b * n := Nat.mul_le_mul_right n ha
  rw [Nat.add_mul, Nat.one_mul] at this
  omega

/-- **No block is visited twice.** -/
theorem mcuGrid_nodup {dims : Nat → CompDim} {comps : List ScanComp} {rows cols : Nat} (hc : (comps.map ScanComp.compIdx).Nodup)
    (hw : ∀ s ∈ comps, cols * unitsIn comps (dims s.compIdx).h ≤ (dims s.compIdx).width) : ((mcuGrid dims comps rows cols).flatten.map Visit.key).Nodup := by
  -- the position in a component
  have hpos : ∀ s ∈ comps, ∀ {my mx iy ix my' mx' iy' ix' : Nat}, mx < cols → mx' < cols → iy < unitsIn comps (dims s.compIdx).v → iy' < unitsIn comps (dims s.compIdx).v →
      ix < unitsIn comps (dims s.compIdx).h → ix' < unitsIn comps (dims s.compIdx).h →
      (my * unitsIn comps (dims s.compIdx).v + iy) * (dims s.compIdx).width + (mx * unitsIn comps (dims s.compIdx).h + ix) =
        (my' * unitsIn comps (dims s.compIdx).v + iy') * (dims s.compIdx).width + (mx' * unitsIn comps (dims s.compIdx).h + ix') →
      my = my' ∧ iy = iy' ∧ mx = mx' ∧ ix = ix' := by
    intro s hs my mx iy ix my' mx' iy' ix' h1 h2 h3 h4 h5 h6 h
    have hw := hw s hs
    obtain ⟨e1, e2⟩ := mulAdd_inj (lt_of_lt_of_le (mulAdd_lt h1 h5) hw) (lt_of_lt_of_le (mulAdd_lt h2 h6) hw) h
    obtain ⟨e3, e4⟩ := mulAdd_inj h3 h4 e1
    obtain ⟨e5, e6⟩ := mulAdd_inj h5 h6 e2
    exact ⟨e3, e4, e5, e6⟩
  have hsame : ∀ s ∈ comps, ∀ s' ∈ comps, s.compIdx = s'.compIdx → s = s' := fun s hs s' hs' e => List.inj_on_of_nodup_map hc hs hs' e
  have hcomps : comps.Nodup := List.Nodup.of_map _ hc
  have e : (mcuGrid dims comps rows cols).flatten.map Visit.key =
      (List.range rows).flatMap fun my => (List.range cols).flatMap fun mx => (mcuVisits dims comps my mx).map Visit.key := by
    unfold mcuGrid
    induction (List.range rows) with
    | nil => rfl
    | cons r rs ih =>
      rw [List.flatMap_cons, List.flatten_append, List.map_append, ih, List.flatMap_cons]
      congr 1
      rw [List.flatMap_def, List.map_flatten, List.map_map]
      rfl
  rw [e]
  rw [List.nodup_flatMap]
  constructor
  · intro my _
    rw [List.nodup_flatMap]
    constructor
    · intro mx hmx
      rw [List.mem_range] at hmx
      unfold mcuVisits
      rw [List.map_flatMap, List.nodup_flatMap]
      constructor
      · intro s hs
        rw [List.map_flatMap, List.nodup_flatMap]
        have hpos := @hpos s hs
        unfold unitsIn at hpos
        constructor
        · intro iy hiy
          rw [List.mem_range] at hiy
          rw [List.map_map]
          refine List.Nodup.map_on ?_ List.nodup_range
          intro ix hix ix' hix' h
          rw [List.mem_range] at hix hix'
          exact (hpos hmx hmx hiy hiy hix hix' (congrArg Prod.snd h)).2.2.2
        · refine List.Nodup.pairwise_of_forall_ne List.nodup_range ?_
          intro iy hiy iy' hiy' hne k hk hk'
          rw [List.mem_range] at hiy hiy'
          obtain ⟨v, hv, rfl⟩ := List.mem_map.mp hk
          obtain ⟨v', hv', h⟩ := List.mem_map.mp hk'
          obtain ⟨ix, hix, rfl⟩ := List.mem_map.mp hv
          obtain ⟨ix', hix', rfl⟩ := List.mem_map.mp hv'
          rw [List.mem_range] at hix hix'
          exact hne (hpos hmx hmx hiy' hiy hix' hix (congrArg Prod.snd h)).2.1.symm
      · refine List.Nodup.pairwise_of_forall_ne hcomps ?_
        intro s hs s' hs' hne k hk hk'
        obtain ⟨v, hv, rfl⟩ := List.mem_map.mp hk
        obtain ⟨v', hv', h⟩ := List.mem_map.mp hk'
        obtain ⟨iy, -, hv⟩ := List.mem_flatMap.mp hv
        obtain ⟨iy', -, hv'⟩ := List.mem_flatMap.mp hv'
        obtain ⟨ix, -, rfl⟩ := List.mem_map.mp hv
        obtain ⟨ix', -, rfl⟩ := List.mem_map.mp hv'
        exact hne (hsame s hs s' hs' (congrArg Prod.fst h).symm)
    · refine List.Nodup.pairwise_of_forall_ne List.nodup_range ?_
      intro mx hmx mx' hmx' hne k hk hk'
      rw [List.mem_range] at hmx hmx'
      obtain ⟨v, hv, rfl⟩ := List.mem_map.mp hk
      obtain ⟨v', hv', h⟩ := List.mem_map.mp hk'
      obtain ⟨s, hs, iy, hiy, ix, hix, rfl⟩ := mem_mcuVisits.mp hv
      obtain ⟨s', hs', iy', hiy', ix', hix', rfl⟩ := mem_mcuVisits.mp hv'
      obtain rfl := hsame s' hs' s hs (congrArg Prod.fst h)
      exact hne (hpos s' hs hmx' hmx hiy' hiy hix' hix (congrArg Prod.snd h)).2.2.1.symm
  · refine List.Nodup.pairwise_of_forall_ne List.nodup_range ?_
    intro my hmy my' hmy' hne k hk hk'
    obtain ⟨mx, hmx, hk⟩ := List.mem_flatMap.mp hk
    obtain ⟨mx', hmx', hk'⟩ := List.mem_flatMap.mp hk'
    rw [List.mem_range] at hmx hmx'
    obtain ⟨v, hv, rfl⟩ := List.mem_map.mp hk
    obtain ⟨v', hv', h⟩ := List.mem_map.mp hk'
    obtain ⟨s, hs, iy, hiy, ix, hix, rfl⟩ := mem_mcuVisits.mp hv
    obtain ⟨s', hs', iy', hiy', ix', hix', rfl⟩ := mem_mcuVisits.mp hv'
    obtain rfl := hsame s' hs' s hs (congrArg Prod.fst h)
    exact hne (hpos s' hs hmx' hmx hiy' hiy hix' hix (congrArg Prod.snd h)).1.symm

/-- The blocks visited exist. -/
theorem mcuGrid_bound {dims : Nat → CompDim} {comps : List ScanComp} {rows cols : Nat} {height : Nat → Nat}
    (hw : ∀ s ∈ comps, cols * unitsIn comps (dims s.compIdx).h ≤ (dims s.compIdx).width) (hh : ∀ s ∈ comps, rows * unitsIn comps (dims s.compIdx).v ≤ height s.compIdx) :
    ∀ v ∈ (mcuGrid dims comps rows cols).flatten, (∃ s ∈ comps, v.comp = s.compIdx) ∧ v.blk < height v.comp * (dims v.comp).width := by
  intro v hv
  obtain ⟨my, hmy, mx, hmx, hv⟩ := mem_mcuGrid.mp hv
  obtain ⟨s, hs, iy, hiy, ix, hix, rfl⟩ := mem_mcuVisits.mp hv
  refine ⟨⟨s, hs, rfl⟩, ?_⟩
  have h1 := lt_of_lt_of_le (mulAdd_lt hmx hix) (hw s hs)
  have h2 := lt_of_lt_of_le (mulAdd_lt hmy hiy) (hh s hs)
  exact mulAdd_lt h2 h1

theorem mcuGrid_nonempty {dims : Nat → CompDim} {comps : List ScanComp} {rows cols : Nat} (hc : comps ≠ []) (hr : 0 < rows) (hcol : 0 < cols)
    (hs : ∀ s ∈ comps, 0 < (dims s.compIdx).h ∧ 0 < (dims s.compIdx).v) :
    (∀ m ∈ mcuGrid dims comps rows cols, m ≠ []) ∧ mcuGrid dims comps rows cols ≠ [] := by
  have h0 : ∀ my mx, mcuVisits dims comps my mx ≠ [] := by
    intro my mx h
    obtain ⟨s, cs, rfl⟩ := List.exists_cons_of_ne_nil hc
    have hss := hs s List.mem_cons_self
    have hu : ∀ n, 0 < n → 0 < unitsIn (s :: cs) n := fun n hn => by unfold unitsIn; split <;> omega
    have := (mem_mcuVisits (my := my) (mx := mx)).mpr ⟨s, List.mem_cons_self, 0, hu _ hss.2, 0, hu _ hss.1, rfl⟩
    rw [h] at this
    cases this
  constructor
  · intro m hm
    unfold mcuGrid at hm
    obtain ⟨my, -, hm⟩ := List.mem_flatMap.mp hm
    obtain ⟨mx, -, rfl⟩ := List.mem_map.mp hm
    exact h0 my mx
  · intro h
    have : mcuVisits dims comps 0 0 ∈ mcuGrid dims comps rows cols := by
      unfold mcuGrid
      exact List.mem_flatMap.mpr ⟨0, List.mem_range.mpr hr, List.mem_map.mpr ⟨0, List.mem_range.mpr hcol, rfl⟩⟩
    rw [h] at this
    cases this

end Brunsli
