import Verif.JFile
import Verif.JSof
import Verif.JTab
/-!
# The blocks of a scan lie within the components
-/

namespace Brunsli

theorem divCeil_le_iff {a b y : Nat} (hb : 0 < b) : divCeil a b ≤ y ↔ a ≤ y * b := by
  unfold divCeil
  rw [Nat.div_le_iff_le_mul_add_pred hb]
  constructor
  · intro h; rw [Nat.mul_comm] at h; omega
  · intro h; rw [Nat.mul_comm] at h; omega

theorem le_divCeil_mul (a : Nat) {b : Nat} (hb : 0 < b) : a ≤ divCeil a b * b := (divCeil_le_iff hb).mp (Nat.le_refl _)

theorem divCeil_mul_le (a h : Nat) {b : Nat} (hb : 0 < b) : divCeil (a * h) b ≤ divCeil a b * h := by
  rw [divCeil_le_iff hb, Nat.mul_right_comm]
  exact Nat.mul_le_mul_right h (le_divCeil_mul a hb)

theorem divCeil_pos {a b : Nat} (ha : 0 < a) (hb : 0 < b) : 0 < divCeil a b := by
  have := le_divCeil_mul a hb
  rcases Nat.eq_zero_or_pos (divCeil a b) with h | h
  · rw [h] at this; omega
  · exact h

theorem foldl_max_ge (l : List Nat) : ∀ (a : Nat), a ≤ l.foldl max a ∧ ∀ x ∈ l, x ≤ l.foldl max a := by
  induction l with
  | nil => intro a; exact ⟨Nat.le_refl _, (fun _ h => (List.not_mem_nil h).elim)⟩
  | cons b l ih =>
    intro a
    rw [List.foldl_cons]
    obtain ⟨h1, h2⟩ := ih (max a b)
    refine ⟨by omega, fun x hx => ?_⟩
    rcases List.mem_cons.mp hx with rfl | hx
    · omega
    · exact h2 x hx

theorem maxH_pos (cs : List Component) : 0 < maxH cs := (foldl_max_ge _ 1).1

theorem maxV_pos (cs : List Component) : 0 < maxV cs := (foldl_max_ge _ 1).1

/-- The height of a component in blocks. -/
def heightOf (cs : List Component) (c : Nat) : Nat := ((cs[c]?).map Component.height).getD 0

theorem blocksOf_eq (cs : List Component) (c : Nat) : blocksOf cs c = heightOf cs c * (dimsOf cs c).width := by
  unfold blocksOf heightOf dimsOf
  cases cs[c]? with
  | none => rfl
  | some x => exact Nat.mul_comm _ _

/-- What a scan needs of a frame. -/
theorem scan_grid {w h : Nat} {cs : List Component} {hs : List HuffCode} {s : ScanInfo} (hf : FrameOk w h cs) (hs : ScanHeadOk cs hs s) :
    let n := readerMcus w h cs s
    let mcus := mcuGrid (dimsOf cs) s.comps n.1 n.2
    (mcus.flatten.map Visit.key).Nodup ∧ (∀ v ∈ mcus.flatten, v.comp ∈ s.comps.map ScanComp.compIdx ∧ v.blk < blocksOf cs v.comp) ∧ (∀ m ∈ mcus, m ≠ []) ∧ mcus ≠ [] := by
  intro n mcus
  have hmem : ∀ c ∈ s.comps, ∃ x ∈ cs, cs[c.compIdx]? = some x := by
    intro c hc
    have := (hs.comp c hc).1
    exact ⟨cs[c.compIdx], List.getElem_mem this, List.getElem?_eq_getElem this⟩
  have hH := maxH_pos cs
  have hV := maxV_pos cs
  have hgeo : ∀ c ∈ s.comps, n.2 * unitsIn s.comps (dimsOf cs c.compIdx).h ≤ (dimsOf cs c.compIdx).width ∧ n.1 * unitsIn s.comps (dimsOf cs c.compIdx).v ≤ heightOf cs c.compIdx := by
    intro c hc
    obtain ⟨x, hx, he⟩ := hmem c hc
    have e1 := hf.cols x hx
    have e2 := hf.rows x hx
    unfold unitsIn heightOf
    simp only [dimsOf, he, Option.map_some, Option.getD_some]
    by_cases h1 : 1 < s.comps.length
    · show (readerMcus w h cs s).2 * _ ≤ _ ∧ (readerMcus w h cs s).1 * _ ≤ _
      unfold readerMcus
      rw [if_pos h1, if_pos h1, if_pos h1, e1, e2]
      exact ⟨Nat.le_refl _, Nat.le_refl _⟩
    · show (readerMcus w h cs s).2 * _ ≤ _ ∧ (readerMcus w h cs s).1 * _ ≤ _
      unfold readerMcus
      rw [if_neg h1, if_neg h1, if_neg h1, Nat.mul_one, Nat.mul_one, e1, e2]
      -- the only component
      have hc1 : (s.comps.map ScanComp.compIdx).headD 0 = c.compIdx := by
        have hcnt := hs.count
        match hsc : s.comps with
        | [] => rw [hsc] at hc; cases hc
        | [c'] =>
          rw [hsc] at hc
          rw [List.mem_singleton.mp hc]
          rfl
        | _ :: _ :: _ => rw [hsc] at h1; simp at h1
      simp only [hc1, dimsOf, he]
      rw [Nat.mul_comm 8 (maxV cs), Nat.mul_comm 8 (maxH cs)]
      exact ⟨divCeil_mul_le _ _ (by omega), divCeil_mul_le _ _ (by omega)⟩
  have hpos : ∀ c ∈ s.comps, 0 < (dimsOf cs c.compIdx).h ∧ 0 < (dimsOf cs c.compIdx).v := by
    intro c hc
    obtain ⟨x, hx, he⟩ := hmem c hc
    simp only [dimsOf, he]
    exact ⟨(hf.raw x hx).h.1, (hf.raw x hx).v.1⟩
  have hne : s.comps ≠ [] := fun h => by have := hs.count.1; rw [h] at this; exact absurd this (by decide)
  have hnp : 0 < n.1 ∧ 0 < n.2 := by
    show 0 < (readerMcus w h cs s).1 ∧ 0 < (readerMcus w h cs s).2
    unfold readerMcus
    split
    · exact ⟨divCeil_pos hf.height.1 (by omega), divCeil_pos hf.width.1 (by omega)⟩
    · obtain ⟨c, l, hl⟩ := List.exists_cons_of_ne_nil hne
      have := hpos c (by rw [hl]; exact List.mem_cons_self)
      simp only [hl, List.map_cons, List.headD_cons]
      exact ⟨divCeil_pos (Nat.mul_pos hf.height.1 this.2) (by omega), divCeil_pos (Nat.mul_pos hf.width.1 this.1) (by omega)⟩
  refine ⟨mcuGrid_nodup hs.nodup fun c hc => (hgeo c hc).1, fun v hv => ?_, ?_⟩
  · obtain ⟨⟨c, hc, e⟩, h2⟩ := mcuGrid_bound (height := heightOf cs) (fun c hc => (hgeo c hc).1) (fun c hc => (hgeo c hc).2) v hv
    refine ⟨List.mem_map.mpr ⟨c, hc, e.symm⟩, ?_⟩
    rw [blocksOf_eq]
    exact h2
  · exact mcuGrid_nonempty hne hnp.1 hnp.2 hpos

end Brunsli
