import Verif.PropsA
import Verif.HistSection
/-!
# Properties C14 - C16: histograms, context maps, prefix codes
-/

namespace Brunsli

open P

/-! ## C16: prefix codes -/

/-- **C16 (round trip).** For every histogram of 1 to 2^15 symbols the encoder builds a prefix code; the decoder
reads its description, and then any message over the symbols that occur, and gets that message and nothing more. -/
theorem C16_message_roundtrip (histo : List Nat) (h1 : 1 ≤ histo.length) (h2 : histo.length ≤ 2 ^ 15) (hc : ∀ c ∈ histo, c < 2 ^ 31)
    (msg : List Nat) (hm : ∀ s ∈ msg, s < histo.length ∧ histo.getD s 0 ≠ 0) :
    ∃ depth bits m, buildAndStore histo = some (depth, bits) ∧ ∀ rest, ∃ tail,
      readCode histo.length (bits ++ msg.flatMap (huffWord depth) ++ rest) = some (some m, tail) ∧
      P.replicate msg.length (readHuff m 8) tail = some (msg, rest) := by
  obtain ⟨depth, bits, m, e, r, _, hs⟩ := buildAndStore_reads h1 h2 hc
  refine ⟨depth, bits, m, e, fun rest => ⟨msg.flatMap (huffWord depth) ++ rest, ?_, ?_⟩⟩
  · rw [List.append_assoc]; exact r _
  · exact (Reads.replicate (huffWord depth) msg fun s hs' => hs s (hm s hs').1 (hm s hs').2) rest

/-- **C16 (arbitrary input).** Whatever the description says, a code the decoder accepts has a table that never
overflowed and in which every bit pattern leads, inside the table, to a symbol of the alphabet after at most 15 bits. -/
theorem C16_any_description (n : Nat) (bs rest : List Bool) (r : Option Mem) (h : readCode n bs = some (r, rest)) :
    ∃ m, r = some m ∧ ∀ window, ∃ len sym, lookup m 8 window = some (len, sym) ∧ len ≤ 15 ∧ sym < n :=
  readCode_safe h

/-- Non-vacuity: six symbols of which five occur. -/
example : ∃ depth bits m, buildAndStore [5, 1, 0, 9, 2, 1] = some (depth, bits) ∧ ∀ rest, ∃ tail,
    readCode 6 (bits ++ [3, 0, 5, 4, 3, 1].flatMap (huffWord depth) ++ rest) = some (some m, tail) ∧
      P.replicate 6 (readHuff m 8) tail = some ([3, 0, 5, 4, 3, 1], rest) :=
  C16_message_roundtrip [5, 1, 0, 9, 2, 1] (by decide) (by decide) (by decide) [3, 0, 5, 4, 3, 1] (by decide)
example : ∃ r rest, readCode 6 (bitsOf 2 1 ++ bitsOf 2 0 ++ bitsOf 3 5 ++ [true]) = some (r, rest) ∧ rest = [true] := by
  refine ⟨_, _, rfl, ?_⟩; decide +kernel
/-- A description that uses a symbol outside the alphabet is rejected. -/
example : readCode 6 (bitsOf 2 1 ++ bitsOf 2 0 ++ bitsOf 3 7) = none := by rfl

/-! ## C15: context maps -/

/-- **C15 (round trip).** -/
theorem C15_contextMap_roundtrip (cm : List Nat) (clusters : Nat) (h1 : 1 ≤ clusters) (h2 : clusters ≤ 256)
    (hx : ∀ x ∈ cm, x < clusters) (hl : cm.length < 2 ^ 31) :
    ∃ bits, encodeContextMap cm clusters = some bits ∧
      ∀ rest, decodeContextMap cm.length (bits ++ rest) = some (some (clusters, cm), rest) :=
  contextMap_reads h1 h2 hx hl

/-- **C15 (arbitrary input).** An accepted map has one entry per context, each naming one of the announced
histograms, and decoding never left its tables. -/
theorem C15_contextMap_any (n : Nat) (bs rest : List Bool) (r : Option (Nat × List Nat)) (h : decodeContextMap n bs = some (r, rest)) :
    ∃ clusters map, r = some (clusters, map) ∧ 1 ≤ clusters ∧ clusters ≤ 256 ∧ map.length = n ∧ ∀ x ∈ map, x < clusters :=
  contextMap_safe h

/-- Non-vacuity: a map with a run of zeros, three clusters. -/
example : ∃ bits, encodeContextMap [0, 0, 0, 0, 0, 2, 2, 1, 0] 3 = some bits ∧
    decodeContextMap 9 bits = some (some (3, [0, 0, 0, 0, 0, 2, 2, 1, 0]), []) := by
  obtain ⟨bits, e, r⟩ := C15_contextMap_roundtrip [0, 0, 0, 0, 0, 2, 2, 1, 0] 3 (by decide) (by decide) (by decide) (by decide)
  exact ⟨bits, e, by simpa using r []⟩

/-! ## C14: histograms -/

/-- **C14 (round trip).** Whatever roundings the floating-point normalisation chose, if it does not abort, every
table of the section is read back with the counts the encoder's own table has (a histogram without symbols is never
used and comes back as that of symbol 0); the schemes and the context map come back; the section ends where the
encoder ended it; and each symbol that occurs has a positive count, out of 1024, in the table of its cluster. -/
theorem C14_section_roundtrip (schemes cm : List Nat) (clusters : List Cluster) (hs : ∀ s ∈ schemes, s < 7)
    (hn : 1 ≤ clusters.length) (hn2 : clusters.length ≤ 256) (hcm : ∀ x ∈ cm, x < clusters.length)
    (hlen : cm.length = numContexts schemes * kNumAvrgContexts) (hlen2 : cm.length < 2 ^ 31) (hc : ∀ c ∈ clusters, c.Ok) :
    ∃ tabs bits hists, encodeHistogramData schemes cm clusters = some (tabs, bits) ∧
      decodeHistogramData schemes.length bits = some (some ⟨schemes, cm, hists⟩, []) ∧
      tabs.length = clusters.length ∧ hists.length = clusters.length ∧
      ∀ i (hi : i < clusters.length), (hists.getD i []).sum = 1024 ∧
        ((∃ s < 18, clusters[i].histo.getD s 0 ≠ 0) → hists.getD i [] = tabs.getD i []) ∧
        ∀ s < 18, clusters[i].histo.getD s 0 ≠ 0 → 0 < (hists.getD i []).getD s 0 := by
  obtain ⟨tabs, bits, hists, e, d, l1, l2, hall⟩ := histogramData_reads hs hn hn2 hcm hlen hlen2 hc
  refine ⟨tabs, bits, hists, e, d, l1, l2, fun i hi => ?_⟩
  obtain ⟨k1, k2, k3⟩ := hall i hi
  have key : ∀ s < 18, clusters[i].histo.getD s 0 ≠ 0 → hists.getD i [] = tabs.getD i [] := by
    intro s hs h
    rw [k1]
    unfold decodedCounts
    rw [if_neg]
    intro ho
    have := (mem_occurring (histo := clusters[i].histo) (s := s)).mpr ⟨by rw [(hc _ (List.getElem_mem hi)).length]; exact hs, h⟩
    rw [ho] at this
    simp at this
  refine ⟨k2, fun ⟨s, hs, h⟩ => key s hs h, fun s hs h => ?_⟩
  rw [key s hs h]
  exact Nat.pos_of_ne_zero (k3 s hs h)

/-- **C14 (arbitrary input).** Every histogram of an accepted section has 18 counts that sum to 1024, and the
context map only names existing ones. -/
theorem C14_section_any (ncomp : Nat) (bs rest : List Bool) (r : Option HistogramData)
    (h : decodeHistogramData ncomp bs = some (r, rest)) :
    ∃ d, r = some d ∧ (∀ s ∈ d.schemes, s < 7) ∧ d.contextMap.length = numContexts d.schemes * kNumAvrgContexts ∧
      (∀ x ∈ d.contextMap, x < d.histograms.length) ∧ ∀ h ∈ d.histograms, h.length = 18 ∧ h.sum = 1024 := by
  obtain ⟨d, e, _, k⟩ := histogramData_safe h
  exact ⟨d, e, k⟩

/-- Non-vacuity: a cluster with three symbols, one with two and one with none. -/
def sampleClusters : List Cluster :=
  let pad (l : List (Option Target)) := l ++ List.replicate (18 - l.length) none
  [⟨[10, 3, 0, 1] ++ List.replicate 14 0, pad [some ⟨731, true⟩, some ⟨219, false⟩, none, some ⟨73, false⟩], pad [some ⟨731, true⟩, some ⟨219, false⟩, none, some ⟨73, false⟩]⟩,
   ⟨[0, 3, 0, 1] ++ List.replicate 14 0, pad [none, some ⟨768, false⟩, none, some ⟨256, false⟩], pad [none, some ⟨768, false⟩, none, some ⟨256, false⟩]⟩,
   ⟨List.replicate 18 0, List.replicate 18 none, List.replicate 18 none⟩]

theorem targetsFor_iff {histo : List Nat} {ts : List (Option Target)} (h : ts.length = 18 ∧ (ts.all fun t => t.all fun t => t.rounded ≤ 1024) = true ∧
    (List.range 18).all (fun i => decide (histo.getD i 0 ≠ 0) == (ts.getD i none).isSome) = true) : TargetsFor histo ts := by
  obtain ⟨h1, h2, h3⟩ := h
  refine ⟨h1, ?_, ?_⟩
  · intro t ht
    have := List.all_eq_true.mp h2 _ ht
    simpa using this
  · intro i hi
    have := List.all_eq_true.mp h3 i (List.mem_range.mpr hi)
    rw [List.getD_eq_getElem?_getD] at this ⊢
    rw [List.getElem?_eq_getElem (show i < ts.length by omega)]
    rw [List.getD_eq_getElem?_getD, List.getElem?_eq_getElem (show i < ts.length by omega)] at this
    simp only [Option.getD_some, beq_iff_eq] at this
    cases hx : ts[i] with
    | none => rw [hx] at this; simpa using this
    | some t => rw [hx] at this; simpa using this

example : ∀ c ∈ sampleClusters, c.Ok := by
  intro c hc
  simp only [sampleClusters, List.mem_cons, List.not_mem_nil, or_false] at hc
  rcases hc with rfl | rfl | rfl <;>
    exact ⟨by decide, targetsFor_iff (by decide +kernel), targetsFor_iff (by decide +kernel), by decide +kernel⟩

end Brunsli
