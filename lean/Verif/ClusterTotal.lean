import Verif.PopCost
/-!
# The clustering of the code

When `PopulationCost` is defined wherever it is called the clustering meets its specification.
-/

namespace Brunsli

/-- The same costs, defined everywhere. -/
def Costs.total {D : Type} (K : Costs D) : Costs D := { K with dom := fun _ => true }

section
variable {D : Type} [LinearOrder D] {K : Costs D}

theorem bind_mono {α β : Type} {a a' : Option α} {f f' : α → Option β} {r : β} (ha : ∀ x, a = some x → a' = some x) (hf : ∀ x, f x = some r → f' x = some r)
    (h : a.bind f = some r) : a'.bind f' = some r := by
  obtain ⟨x, h1, h2⟩ := Option.bind_eq_some_iff.mp h
  exact Option.bind_eq_some_iff.mpr ⟨x, ha x h1, hf x h2⟩

theorem map_mono {α β : Type} {a a' : Option α} {f : α → β} {r : β} (ha : ∀ x, a = some x → a' = some x) (h : a.map f = some r) : a'.map f = some r := by
  obtain ⟨x, h1, h2⟩ := Option.map_eq_some_iff.mp h
  exact Option.map_eq_some_iff.mpr ⟨x, ha x h1, h2⟩

theorem pairCombo_total {ha hb : CHist D} {l : D} {r : Option D} (h : pairCombo K ha hb l = some r) : pairCombo K.total ha hb l = some r := by
  unfold pairCombo at h ⊢
  split
  · rwa [if_pos ‹_›] at h
  · rw [if_neg ‹_›] at h
    split
    · rwa [if_pos ‹_›] at h
    · rw [if_neg ‹_›] at h
      by_cases hd : K.dom (addCounts ha.data hb.data)
      · rw [if_pos hd] at h
        exact h
      · rw [if_neg hd] at h
        cases h

theorem comparePush_total {out : List (CHist D)} {sizes : List Nat} {i1 i2 : Nat} {pairs r : List (HPair D)} (h : comparePush K out sizes i1 i2 pairs = some r) :
    comparePush K.total out sizes i1 i2 pairs = some r := by
  unfold comparePush at h ⊢
  by_cases he : i1 = i2
  · rwa [if_pos he] at h ⊢
  · rw [if_neg he] at h ⊢
    generalize out[min i1 i2]? = a at *
    generalize out[max i1 i2]? = b at *
    generalize sizes[min i1 i2]? = c at *
    generalize sizes[max i1 i2]? = d at *
    cases a with
    | none => cases h
    | some a =>
      cases b with
      | none => cases h
      | some b =>
        cases c with
        | none => cases h
        | some c =>
          cases d with
          | none => cases h
          | some d =>
            dsimp only at h ⊢
            exact map_mono (fun _ => pairCombo_total) h

theorem comparePushAll_total {out : List (CHist D)} {sizes : List Nat} {i1 : Nat} {r : List (HPair D)} (is : List Nat) : ∀ {pairs : List (HPair D)},
    comparePushAll K out sizes i1 is pairs = some r → comparePushAll K.total out sizes i1 is pairs = some r := by
  induction is with
  | nil => intro pairs h; exact h
  | cons i is ih => intro pairs h; exact bind_mono (fun _ => comparePush_total) (fun _ => ih) h

theorem allPairs_total {out : List (CHist D)} {sizes : List Nat} {r : List (HPair D)} (is : List Nat) : ∀ {pairs : List (HPair D)},
    allPairs K out sizes is pairs = some r → allPairs K.total out sizes is pairs = some r := by
  induction is with
  | nil => intro pairs h; exact h
  | cons i is ih => intro pairs h; exact bind_mono (fun _ => comparePushAll_total is) (fun _ => ih) h

theorem combineStep_total {s r : CombineState D} {best : HPair D} (h : combineStep K s best = some r) : combineStep K.total s best = some r := by
  unfold combineStep at h ⊢
  generalize s.out[best.i1]? = a at *
  generalize s.out[best.i2]? = b at *
  generalize s.sizes[best.i1]? = c at *
  generalize s.sizes[best.i2]? = d at *
  cases a with
  | none => cases h
  | some a =>
    cases b with
    | none => cases h
    | some b =>
      cases c with
      | none => cases h
      | some c =>
        cases d with
        | none => cases h
        | some d =>
          dsimp only at h ⊢
          exact map_mono (fun _ => comparePushAll_total _) h

theorem combineLoop_total {m : Nat} {r : CombineState D} (fuel : Nat) : ∀ {s : CombineState D}, combineLoop K m fuel s = some r → combineLoop K.total m fuel s = some r := by
  induction fuel with
  | zero => intro s h; cases h
  | succ fuel ih =>
    intro s h
    unfold combineLoop at h ⊢
    by_cases h1 : s.clusters.length ≤ s.minSize
    · rwa [if_pos h1] at h ⊢
    · rw [if_neg h1] at h ⊢
      generalize s.pairs = ps at *
      cases ps with
      | nil => cases h
      | cons best rest =>
        dsimp only at h ⊢
        by_cases h2 : s.threshold ≤ best.diff
        · rw [if_pos h2] at h ⊢
          exact ih h
        · rw [if_neg h2] at h ⊢
          exact bind_mono (fun _ => combineStep_total) (fun _ => ih) h

theorem histogramCombine_total {m : Nat} {out : List (CHist D)} {sizes syms : List Nat} {r : List (CHist D) × List Nat × List Nat × Nat} (h : histogramCombine K m out sizes syms = some r) :
    histogramCombine K.total m out sizes syms = some r := by
  unfold histogramCombine at h ⊢
  exact bind_mono (fun _ => allPairs_total _) (fun _ => map_mono fun _ => combineLoop_total _) h

theorem costDistance_total {h : List Nat} {cand : CHist D} {d : D} (hd : costDistance K h cand = some d) : costDistance K.total h cand = some d := by
  unfold costDistance at hd ⊢
  by_cases h0 : h.sum = 0
  · rwa [if_pos h0] at hd ⊢
  · rw [if_neg h0] at hd ⊢
    by_cases h1 : K.dom (addCounts h cand.data)
    · rw [if_pos h1] at hd
      exact hd
    · rw [if_neg h1] at hd
      cases hd

theorem bestOut_total {out : List (CHist D)} {h : List Nat} {r : Nat} (ks : List Nat) : ∀ {best : Nat} {bits : D}, bestOut K out h ks best bits = some r → bestOut K.total out h ks best bits = some r := by
  induction ks with
  | nil => intro best bits h; exact h
  | cons k ks ih =>
    intro best bits h
    unfold bestOut at h ⊢
    generalize out[k]? = o at *
    cases o with
    | none => cases h
    | some o =>
      dsimp only at h ⊢
      refine bind_mono (fun _ => costDistance_total) (fun d => ?_) h
      intro h
      by_cases hd : d < bits
      · rw [if_pos hd] at h ⊢
        exact ih h
      · rw [if_neg hd] at h ⊢
        exact ih h

theorem remapSyms_total {out : List (CHist D)} {all : List Nat} (hs : List (List Nat)) : ∀ {prev : Nat} {r : List Nat}, remapSyms K out all hs prev = some r → remapSyms K.total out all hs prev = some r := by
  induction hs with
  | nil => intro prev r h; exact h
  | cons h hs ih =>
    intro prev r hr
    unfold remapSyms at hr ⊢
    generalize out[prev]? = o at *
    cases o with
    | none => cases hr
    | some o =>
      dsimp only at hr ⊢
      exact bind_mono (fun _ => costDistance_total) (fun d => bind_mono (fun _ => bestOut_total _) fun _ => map_mono fun _ => ih) hr

theorem histogramRemap_total {ins : List (List Nat)} {out : List (CHist D)} {syms : List Nat} {r : List (CHist D) × List Nat} (h : histogramRemap K ins out syms = some r) :
    histogramRemap K.total ins out syms = some r := by
  unfold histogramRemap at h ⊢
  exact bind_mono (fun _ => remapSyms_total _) (fun _ h => h) h

theorem clusterRange_total {ins : List (List Nat)} {remap : Bool} {off len : Nat} {s : ClusterState D} {r : ClusterState D × Nat} (h : clusterRange K ins remap off len s = some r) :
    clusterRange K.total ins remap off len s = some r := by
  unfold clusterRange at h ⊢
  refine bind_mono (fun _ => histogramCombine_total) (fun x => ?_) h
  obtain ⟨out, sizes, syms, n⟩ := x
  dsimp only
  intro h
  by_cases hc : remap = true ∧ 2 ≤ n ∧ n < 24
  · rw [if_pos hc] at h ⊢
    exact map_mono (fun _ => histogramRemap_total) h
  · rwa [if_neg hc] at h ⊢

theorem clusterBlocks_total {ins : List (List Nat)} {r : ClusterState D} (n : Nat) : ∀ {off : Nat} {s : ClusterState D}, clusterBlocks K ins n off s = some r → clusterBlocks K.total ins n off s = some r := by
  induction n with
  | zero => intro off s h; exact h
  | succ n ih => intro off s h; exact bind_mono (fun _ => clusterRange_total) (fun _ => ih) h

theorem clusterGroups_total {ins : List (List Nat)} {r : ClusterState D × Nat} (os : List Nat) : ∀ {s : ClusterState D} {t : Nat}, clusterGroups K ins os s t = some r →
    clusterGroups K.total ins os s t = some r := by
  induction os with
  | nil => intro s t h; exact h
  | cons o os ih => intro s t h; exact bind_mono (fun _ => clusterRange_total) (fun _ => ih) h

theorem clusterHistograms_total {offsets : List Nat} {ins : List (List Nat)} {r : List Nat × List (List Nat)} (h : clusterHistograms K offsets ins = some r) :
    clusterHistograms K.total offsets ins = some r := by
  unfold clusterHistograms at h ⊢
  by_cases hd : ins.all K.dom
  · rw [if_neg (not_not.mpr hd)] at h
    rw [if_neg (not_not.mpr (by simp [Costs.total]))]
    refine bind_mono (fun _ => clusterBlocks_total _) (fun s => bind_mono (fun x hx => ?_) fun x hx => bind_mono (fun y hy => ?_) (fun _ h => h) hx) h
    · by_cases h1 : 1 < offsets.length
      · rw [if_pos h1] at hx ⊢
        exact clusterGroups_total _ hx
      · rwa [if_neg h1] at hx ⊢
    · by_cases h1 : offsets.length ≤ 1 ∨ 256 < x.2
      · rw [if_pos h1] at hy ⊢
        exact clusterRange_total hy
      · rwa [if_neg h1] at hy ⊢
  · rw [if_pos hd] at h
    cases h

end

/-- The clustering of the code: the context map and the normalised clusters; `none` is an overflow (`ClusterHistograms`, and
`NormalizeCounts` for every cluster, c/enc/brunsli_encode.cc:563-585). -/
def realCluster (F : Arith) (L : Nat → ℚ) (offsets : List Nat) (histos : List (List Nat)) : Option (List Nat × List Cluster) :=
  (clusterHistograms (realCosts F L) offsets histos).map fun r => (r.1, r.2.map (floatCluster F))

theorem total_ne {map : List Nat} : ∀ {ins : List (List Nat)} {c i x : Nat}, map[c]? = some i → (ins.getD c []).getD x 0 ≠ 0 → total map ins i x ≠ 0 := by
  induction map with
  | nil => intro ins c i x h; cases h
  | cons y ys ih =>
    intro ins c i x h hne
    cases ins with
    | nil => simp at hne
    | cons g gs =>
      rw [total]
      cases c with
      | zero =>
        have : y = i := by simpa using h
        rw [if_pos this]
        have : g.getD x 0 ≠ 0 := by simpa using hne
        omega
      | succ c =>
        have := ih (ins := gs) (c := c) (i := i) (x := x) (by simpa using h) (by simpa using hne)
        omega

theorem floatCluster_histo (F : Arith) (h : List Nat) : (floatCluster F h).histo = h := rfl

theorem clusterHistograms_sound {F : Arith} (hF : F.Ok) {L : Nat → ℚ} (hL : LogOk L) {offsets : List Nat} {histos : List (List Nat)} (h18 : ∀ h ∈ histos, h.length = 18)
    (ho : OffsetsOk offsets histos.length) (hn : histos.length ≤ 14868) {map : List Nat} {hists : List (List Nat)} (h1 : clusterHistograms (realCosts F L) offsets histos = some (map, hists)) :
    map.length = histos.length ∧ hists.length ≤ 256 ∧ (∀ j, j ∈ map ↔ j < hists.length) ∧ (∀ h ∈ hists, h.length = 18) ∧
      ∀ j h, hists[j]? = some h → ∀ x, h.getD x 0 = total map histos j x := by
  have hK : (realCosts F L).total.Ok (grand histos) histos.length :=
    ⟨fun sa sb h1 h2 h hs _ _ _ => (realCosts_small hF hL (by omega) h1 h2 h).1, fun sa sb h1 h2 h hs _ _ _ => (realCosts_small hF hL (by omega) h1 h2 h).2, fun _ _ _ => rfl⟩
  obtain ⟨map', hists', e1, e⟩ := clusterHistograms_spec hK h18 ho
  rw [clusterHistograms_total h1] at e1
  obtain ⟨rfl, rfl⟩ := Prod.mk.inj (Option.some.inj e1)
  exact e

theorem realCluster_sound {F : Arith} (hF : F.Ok) {L : Nat → ℚ} (hL : LogOk L) {offsets : List Nat} {histos : List (List Nat)} (hne : histos ≠ []) (h18 : ∀ h ∈ histos, h.length = 18)
    (ho : OffsetsOk offsets histos.length) (hn : histos.length ≤ 14868) {r : List Nat × List Cluster} (h : realCluster F L offsets histos = some r) : Clustering histos r := by
  obtain ⟨⟨map, hists⟩, h1, rfl⟩ := Option.map_eq_some_iff.mp h
  obtain ⟨e2, e3, e4, e5, e6⟩ := clusterHistograms_sound hF hL h18 ho hn h1
  refine ⟨?_, by simpa using e3, e2, ?_, ?_, ?_⟩
  · show 1 ≤ (hists.map _).length
    rw [List.length_map]
    cases hm : map with
    | nil =>
      rw [hm] at e2
      exact absurd (List.eq_nil_of_length_eq_zero e2.symm) hne
    | cons j js =>
      have := (e4 j).mp (by rw [hm]; exact List.mem_cons_self)
      omega
  · intro i hi
    show i < (hists.map _).length
    rw [List.length_map]
    exact (e4 i).mp hi
  · intro c hc
    obtain ⟨g, hg, rfl⟩ := List.mem_map.mp hc
    exact floatCluster_ok hF (e5 g hg)
  · intro c s i k hs hi hk
    have hk : (hists.map (floatCluster F))[i]? = some k := hk
    rw [List.getElem?_map] at hk
    obtain ⟨g, hg, rfl⟩ := Option.map_eq_some_iff.mp hk
    rw [floatCluster_histo, e6 i g hg s]
    exact total_ne hi hs

theorem realCluster_some {F : Arith} (hF : F.Ok) {L : Nat → ℚ} (hL : LogOk L) {offsets : List Nat} {histos : List (List Nat)} (h18 : ∀ h ∈ histos, h.length = 18)
    (ho : OffsetsOk offsets histos.length) (hn : histos.length ≤ 14868) (hB : grand histos ≤ 100000000) : ∃ r, realCluster F L offsets histos = some r := by
  obtain ⟨map, hists, e1, -⟩ := clusterHistograms_spec (realCosts_ok hF hL hB (by omega)) h18 ho
  exact ⟨_, by rw [realCluster, e1]; rfl⟩

end Brunsli
