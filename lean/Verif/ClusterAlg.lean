import Verif.Rebalance
import Verif.E2E
import Mathlib.Data.List.Dedup
import Mathlib.Data.List.Perm.Subperm
/-!
# Clustering of histograms

c/enc/cluster.h.  Costs are of an arbitrary linearly ordered type with arbitrary operations; all that is used of them is that the constant
`1e99` is larger than the costs (`Costs.Ok`) and that no cost is NaN.  `none` is an access out of bounds, another operation that is not
defined or a loop that does not end.
-/

namespace Brunsli

/-- `PopulationCost` and the histograms for which it is defined, `0.5 * ClusterCostDiff - bit_cost1 - bit_cost2`, sum, difference, 0 and
`1e99` in double precision. -/
structure Costs (D : Type) where
  pop : List Nat → D
  dom : List Nat → Bool
  diff : Nat → Nat → D → D → D
  add : D → D → D
  sub : D → D → D
  zero : D
  big : D

/-- Costs of histograms of at most `B` symbols, for clusters of at most `N` histograms, are small in comparison with `1e99`; costs of two such
histograms together are defined. -/
structure Costs.Ok {D : Type} [LinearOrder D] (K : Costs D) (B N : Nat) : Prop where
  combo : ∀ sa sb h1 h2 h, sa + sb ≤ N → h1.sum ≤ B → h2.sum ≤ B → h.sum ≤ B → K.pop h < K.sub K.big (K.diff sa sb (K.pop h1) (K.pop h2))
  diff : ∀ sa sb h1 h2 h, sa + sb ≤ N → h1.sum ≤ B → h2.sum ≤ B → h.sum ≤ B → K.add (K.diff sa sb (K.pop h1) (K.pop h2)) (K.pop h) < K.big
  dom : ∀ h : List Nat, h.length = 18 → h.sum ≤ 2 * B → K.dom h = true

/-- `Histogram` (c/enc/state.h:48-58); `total_count_` is the sum of `data_`. -/
structure CHist (D : Type) where
  data : List Nat
  cost : D

/-- `AddHistogram` on the counts (c/enc/brunsli_encode.cc:518-523). -/
def addCounts (a b : List Nat) : List Nat := (List.range 18).map fun s => a.getD s 0 + b.getD s 0

/-- `HistogramPair` (c/enc/cluster.h:25-30). -/
structure HPair (D : Type) where
  i1 : Nat
  i2 : Nat
  combo : D
  diff : D

/-- `operator<` (c/enc/cluster.h:32-39). -/
def HPair.lt {D : Type} [LinearOrder D] (p q : HPair D) : Bool :=
  if p.diff ≠ q.diff then decide (q.diff < p.diff) else decide (q.i2 - q.i1 < p.i2 - p.i1)

section
variable {D : Type} [LinearOrder D] (K : Costs D)

/-- Storing a pair in the queue (c/enc/cluster.h:88-96). -/
def pushPair (p : HPair D) : List (HPair D) → List (HPair D)
  | [] => [p]
  | f :: rest => if f.lt p then p :: (rest ++ [f]) else f :: (rest ++ [p])

/-- The cost a new pair has to stay below (c/enc/cluster.h:79-80). -/
def pairThreshold : List (HPair D) → D
  | [] => K.big
  | p :: _ => max K.zero p.diff

/-- The cost of the combined histogram, if the pair is to be stored (c/enc/cluster.h:71-88). -/
def pairCombo (ha hb : CHist D) (limit : D) : Option (Option D) :=
  if ha.data.sum = 0 then some (some hb.cost) else if hb.data.sum = 0 then some (some ha.cost)
  else if K.dom (addCounts ha.data hb.data) then
    some (if K.pop (addCounts ha.data hb.data) < limit then some (K.pop (addCounts ha.data hb.data)) else none)
  else none

/-- `CompareAndPushToQueue` (c/enc/cluster.h:57-98). -/
def comparePush (out : List (CHist D)) (sizes : List Nat) (i1 i2 : Nat) (pairs : List (HPair D)) : Option (List (HPair D)) :=
  if i1 = i2 then some pairs
  else
    match out[min i1 i2]?, out[max i1 i2]?, sizes[min i1 i2]?, sizes[max i1 i2]? with
    | some ha, some hb, some sa, some sb =>
      let d := K.diff sa sb ha.cost hb.cost
      (pairCombo K ha hb (K.sub (pairThreshold K pairs) d)).map fun combo =>
        match combo with
        | none => pairs
        | some c => pushPair ⟨min i1 i2, max i1 i2, c, K.add d c⟩ pairs
    | _, _, _, _ => none

/-- A loop over second indices. -/
def comparePushAll (out : List (CHist D)) (sizes : List Nat) (i1 : Nat) : List Nat → List (HPair D) → Option (List (HPair D))
  | [], pairs => some pairs
  | i2 :: is, pairs => (comparePush K out sizes i1 i2 pairs).bind (comparePushAll out sizes i1 is)

/-- All pairs of clusters (c/enc/cluster.h:118-123). -/
def allPairs (out : List (CHist D)) (sizes : List Nat) : List Nat → List (HPair D) → Option (List (HPair D))
  | [], pairs => some pairs
  | i1 :: is, pairs => (comparePushAll K out sizes i1 is pairs).bind (allPairs out sizes is)

/-- Removal of the pairs that meet the best one (c/enc/cluster.h:151-170).  `front` is `pairs.front()`, `acc` what has been copied
(`acc` begins with `front` unless it is empty). -/
def filterPairs (b1 b2 : Nat) : List (HPair D) → HPair D → List (HPair D) → List (HPair D)
  | [], _, acc => acc
  | p :: ps, front, acc =>
    if p.i1 = b1 ∨ p.i2 = b1 ∨ p.i1 = b2 ∨ p.i2 = b2 then filterPairs b1 b2 ps front acc
    else if front.lt p then
      match acc with
      | [] => filterPairs b1 b2 ps front [front]
      | _ :: rest => filterPairs b1 b2 ps p (p :: (rest ++ [front]))
    else
      match acc with
      | [] => filterPairs b1 b2 ps p [p]
      | a :: rest => filterPairs b1 b2 ps front (a :: (rest ++ [p]))

/-- Removal of the first cluster that is at least `b` (c/enc/cluster.h:143-149). -/
def eraseFrom (b : Nat) : List Nat → List Nat
  | [] => []
  | c :: cs => if b ≤ c then cs else c :: eraseFrom b cs

/-- Sorted without repetitions (`std::sort`, `std::unique`). -/
def insertUniq (x : Nat) : List Nat → List Nat
  | [] => [x]
  | c :: cs => if x < c then x :: c :: cs else if x = c then c :: cs else c :: insertUniq x cs

def sortUniq (l : List Nat) : List Nat := l.foldr insertUniq []

/-- The variables of `HistogramCombine`. -/
structure CombineState (D : Type) where
  out : List (CHist D)
  sizes : List Nat
  syms : List Nat
  clusters : List Nat
  pairs : List (HPair D)
  threshold : D
  minSize : Nat

/-- One merge (c/enc/cluster.h:132-176). -/
def combineStep (s : CombineState D) (best : HPair D) : Option (CombineState D) :=
  match s.out[best.i1]?, s.out[best.i2]?, s.sizes[best.i1]?, s.sizes[best.i2]? with
  | some h1, some h2, some s1, some s2 =>
    let out := s.out.set best.i1 ⟨addCounts h1.data h2.data, best.combo⟩
    let sizes := s.sizes.set best.i1 (s1 + s2)
    let clusters := eraseFrom best.i2 s.clusters
    (comparePushAll K out sizes best.i1 clusters (filterPairs best.i1 best.i2 s.pairs best [])).map fun pairs =>
      { s with out := out, sizes := sizes, syms := s.syms.map fun x => if x = best.i2 then best.i1 else x, clusters := clusters, pairs := pairs }
  | _, _, _, _ => none

/-- The loop of `HistogramCombine` (c/enc/cluster.h:125-177). -/
def combineLoop (maxClusters : Nat) : Nat → CombineState D → Option (CombineState D)
  | 0, _ => none
  | fuel + 1, s =>
    if s.clusters.length ≤ s.minSize then some s
    else
      match s.pairs with
      | [] => none
      | best :: _ =>
        if s.threshold ≤ best.diff then combineLoop maxClusters fuel { s with threshold := K.big, minSize := maxClusters }
        else (combineStep K s best).bind (combineLoop maxClusters fuel)

/-- `HistogramCombine` (c/enc/cluster.h:100-179): histograms, sizes, symbols and the number of clusters. -/
def histogramCombine (maxClusters : Nat) (out : List (CHist D)) (sizes syms : List Nat) : Option (List (CHist D) × List Nat × List Nat × Nat) :=
  let clusters := sortUniq syms
  (allPairs K out sizes clusters []).bind fun pairs =>
    (combineLoop K maxClusters (clusters.length + 2) ⟨out, sizes, syms, clusters, pairs, K.zero, 1⟩).map fun s => (s.out, s.sizes, s.syms, s.clusters.length)

/-- `HistogramBitCostDistance` (c/enc/cluster.h:185-194). -/
def costDistance (h : List Nat) (cand : CHist D) : Option D :=
  if h.sum = 0 then some K.zero
  else if K.dom (addCounts h cand.data) then some (K.sub (K.pop (addCounts h cand.data)) cand.cost)
  else none

/-- The search for the best cluster (c/enc/cluster.h:209-216). -/
def bestOut (out : List (CHist D)) (h : List Nat) : List Nat → Nat → D → Option Nat
  | [], best, _ => some best
  | k :: ks, best, bits =>
    match out[k]? with
    | none => none
    | some cand => (costDistance K h cand).bind fun d => if d < bits then bestOut out h ks k d else bestOut out h ks best bits

/-- The new symbols (c/enc/cluster.h:207-219); `prev` is the first symbol, then the one just found. -/
def remapSyms (out : List (CHist D)) (all : List Nat) : List (List Nat) → Nat → Option (List Nat)
  | [], _ => some []
  | h :: hs, prev =>
    match out[prev]? with
    | none => none
    | some cand => (costDistance K h cand).bind fun d => (bestOut K out h all prev d).bind fun b => (remapSyms out all hs b).map (b :: ·)

/-- `Clear` (c/enc/brunsli_encode.cc:513-516) of several histograms. -/
def clearAll (out : List (CHist D)) : List Nat → Option (List (CHist D))
  | [] => some out
  | k :: ks =>
    match out[k]? with
    | none => none
    | some h => clearAll (out.set k ⟨List.replicate 18 0, h.cost⟩) ks

/-- `out[symbols[i]].AddHistogram(in[i])` (c/enc/cluster.h:225-227). -/
def addAll (out : List (CHist D)) : List (List Nat) → List Nat → Option (List (CHist D))
  | h :: hs, k :: ks =>
    match out[k]? with
    | none => none
    | some o => addAll (out.set k ⟨addCounts o.data h, o.cost⟩) hs ks
  | _, _ => some out

/-- `HistogramRemap` (c/enc/cluster.h:196-228). -/
def histogramRemap (ins : List (List Nat)) (out : List (CHist D)) (syms : List Nat) : Option (List (CHist D) × List Nat) :=
  let all := sortUniq syms
  (remapSyms K out all ins (syms.getD 0 0)).bind fun syms' =>
    (clearAll out all).bind fun out => (addAll out ins syms').map fun out => (out, syms')

/-- The variables of `ClusterHistograms`. -/
structure ClusterState (D : Type) where
  out : List (CHist D)
  sizes : List Nat
  syms : List Nat

/-- Combining the histograms `off .. off + len`, and remapping them if `remap` (c/enc/cluster.h:270-272, 281-300, 306-313);
`kMinClustersForHistogramRemap` is 24. -/
def clusterRange (ins : List (List Nat)) (remap : Bool) (off len : Nat) (s : ClusterState D) : Option (ClusterState D × Nat) :=
  (histogramCombine K 256 s.out s.sizes ((s.syms.drop off).take len)).bind fun (out, sizes, syms, n) =>
    let put (new : List Nat) := s.syms.take off ++ new ++ s.syms.drop (off + len)
    if remap ∧ 2 ≤ n ∧ n < 24 then (histogramRemap K ((ins.drop off).take len) out syms).map fun r => (⟨r.1, sizes, put r.2⟩, n)
    else some (⟨out, sizes, put syms⟩, n)

/-- The ranges of `num_contexts` (9) histograms (c/enc/cluster.h:268-274). -/
def clusterBlocks (ins : List (List Nat)) : Nat → Nat → ClusterState D → Option (ClusterState D)
  | 0, _, s => some s
  | n + 1, off, s => (clusterRange K ins false off 9 s).bind fun r => clusterBlocks ins n (off + 9) r.1

/-- The groups of blocks (c/enc/cluster.h:279-302), with the number of clusters. -/
def clusterGroups (ins : List (List Nat)) : List Nat → ClusterState D → Nat → Option (ClusterState D × Nat)
  | [], s, total => some (s, total)
  | o :: os, s, total =>
    let next := match os with
      | [] => ins.length
      | o' :: _ => o' * 9
    (clusterRange K ins true (o * 9) (next - o * 9) s).bind fun r => clusterGroups ins os r.1 (total + r.2)

/-- The distinct symbols in the order of their first occurrence. -/
def firsts : List Nat → List Nat → List Nat
  | [], acc => acc
  | x :: xs, acc => if x ∈ acc then firsts xs acc else firsts xs (acc ++ [x])

/-- `HistogramReindex` (c/enc/cluster.h:230-250). -/
def histogramReindex (s : ClusterState D) : Option (List Nat × List (List Nat)) :=
  let fs := firsts s.syms []
  (fs.mapM fun k => (s.out[k]?).map CHist.data).map fun hs => (s.syms.map fun x => fs.idxOf x, hs)

/-- `ClusterHistograms` (c/enc/cluster.h:252-319) with 9 contexts and at most 256 clusters: the context map and the clusters. -/
def clusterHistograms (offsets : List Nat) (ins : List (List Nat)) : Option (List Nat × List (List Nat)) :=
  if ¬ ins.all K.dom then none
  else (clusterBlocks K ins (ins.length / 9) 0 ⟨ins.map fun h => ⟨h, K.pop h⟩, List.replicate ins.length 1, List.range ins.length⟩).bind fun s =>
    (if 1 < offsets.length then clusterGroups K ins offsets s 0 else some (s, 0)).bind fun (s, n) =>
      (if offsets.length ≤ 1 ∨ 256 < n then clusterRange K ins true 0 ins.length s else some (s, n)).bind fun (s, _) => histogramReindex s

end

end Brunsli
