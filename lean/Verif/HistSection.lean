import Verif.Histogram
import Verif.ANS
/-!
# The histogram section

`EncodeHistogramData` (c/enc/brunsli_encode.cc:925-939) and `DecodeHistogramDataSection`
(c/dec/brunsli_decode.cc:1798-1925), on the bits of the section.  The decoder's stages are modelled for the whole
section being available; suspending is the subject of another property.
-/

namespace Brunsli

open P

/-- `kNumNonzeroContextSkip` (c/common/context.h:129-130). -/
def kNumNonzeroContextSkip : List Nat := [8, 15, 31, 61, 120, 231, 412]

/-- `kNumAvrgContexts` (c/common/context.h:18-20). -/
def kNumAvrgContexts : Nat := 9

/-- One clustered histogram with the decisions floating point makes when normalising it. -/
structure Cluster where
  histo : List Nat
  first : List (Option Target)
  second : List (Option Target)
deriving DecidableEq, Repr

/-- Targets are positive where symbols occur, and do not exceed the table size. -/
def TargetsFor (histo : List Nat) (ts : List (Option Target)) : Prop :=
  ts.length = 18 ∧ (∀ t, some t ∈ ts → t.rounded ≤ 1024) ∧ ∀ i < 18, histo.getD i 0 ≠ 0 ↔ ∃ t, ts[i]? = some (some t)

/-- `BuildAndStoreANSEncodingData` (c/enc/ans_encode.cc:43-54): the counts of the encoding table and the bits. -/
def storeCluster (c : Cluster) : Option (List Nat × List Bool) :=
  match normalizeCounts c.histo c.first c.second with
  | none => none
  | some (counts, om) =>
    match encodeCounts counts om (occurring c.histo) with
    | none => none
    | some bits => some (counts, bits)

/-- `BuildAndStoreEntropyCodes` (c/enc/brunsli_encode.cc:591-597). -/
def storeClusters : List Cluster → Option (List (List Nat) × List Bool)
  | [] => some ([], [])
  | c :: cs =>
    match storeCluster c, storeClusters cs with
    | some (counts, bits), some (tabs, rest) => some (counts :: tabs, bits ++ rest)
    | _, _ => none

/-- Zero bits up to the next byte (`Storage::GetBytesUsed`, c/enc/write_bits.h:26-28). -/
def padByte (bs : List Bool) : List Bool := bs ++ List.replicate ((8 - bs.length % 8) % 8) false

/-- `EncodeHistogramData` (c/enc/brunsli_encode.cc:925-939): the encoding tables and the bits of the section. -/
def encodeHistogramData (schemes cm : List Nat) (clusters : List Cluster) : Option (List (List Nat) × List Bool) :=
  match encodeContextMap cm clusters.length, storeClusters clusters with
  | some m, some (tabs, h) => some (tabs, padByte (schemes.flatMap (bitsOf 3) ++ (m ++ h)))
  | _, _ => none

/-- Reading the schemes (c/dec/brunsli_decode.cc:1826-1834). -/
def readScheme : P Bool Nat := do
  let s ← readBits 3
  P.guard (s < 7)
  Pure.pure s

/-- `num_contexts` (c/dec/brunsli_decode.cc:1807, 1832-1833). -/
def numContexts (schemes : List Nat) : Nat := schemes.length + (schemes.map fun s => kNumNonzeroContextSkip.getD s 0).sum

/-- Reading the histograms and initialising their tables (c/dec/brunsli_decode.cc:1905-1917). -/
def readHistograms : Nat → P Bool (Option (List (List Nat)))
  | 0 => Pure.pure (some [])
  | n + 1 => do
    let h ← readHistogram
    match h with
    | none => Pure.pure none
    | some h => do
      P.guard ((ansMap h).isSome)
      let r ← readHistograms n
      match r with
      | none => Pure.pure none
      | some r => Pure.pure (some (h :: r))

/-- `BrunsliBitReaderFinish` at the end of the section (c/dec/bit_reader.cc:57-68,
c/dec/brunsli_decode.cc:1918-1922): less than a byte is left, and it is zero. -/
def finishBits : P Bool Unit := fun bs => if bs.length < 8 ∧ ∀ b ∈ bs, b = false then some ((), []) else none

/-- What the histogram section provides. -/
structure HistogramData where
  schemes : List Nat
  contextMap : List Nat
  histograms : List (List Nat)
deriving DecidableEq, Repr

/-- `DecodeHistogramDataSection` (c/dec/brunsli_decode.cc:1798-1925). -/
def decodeHistogramData (ncomp : Nat) : P Bool (Option HistogramData) := do
  let schemes ← P.replicate ncomp readScheme
  let m ← decodeContextMap (numContexts schemes * kNumAvrgContexts)
  match m with
  | none => Pure.pure none
  | some (nh, map) => do
    let hs ← readHistograms nh
    match hs with
    | none => Pure.pure none
    | some hs => do
      finishBits
      Pure.pure (some ⟨schemes, map, hs⟩)

/-! ## Round trip of one histogram -/

/-- What the decoder makes of the counts: a histogram without symbols is written as that of symbol 0. -/
def decodedCounts (histo counts : List Nat) : List Nat :=
  if occurring histo = [] then (List.replicate 18 0).set 0 1024 else counts

theorem occurring_congr {a b : List Nat} (hl : a.length = b.length) (h : ∀ i < a.length, a.getD i 0 ≠ 0 ↔ b.getD i 0 ≠ 0) :
    occurring a = occurring b := by
  unfold occurring
  rw [← hl]
  apply List.filter_congr
  intro i hi
  rw [List.mem_range] at hi
  have := h i hi
  simp only [ne_eq, decide_eq_decide]
  exact this

theorem list18_ext {a b : List Nat} (ha : a.length = 18) (hb : b.length = 18) (h : ∀ i < 18, a.getD i 0 = b.getD i 0) : a = b := by
  apply List.ext_getElem (by omega)
  intro i h1 h2
  have := h i (by omega)
  rw [List.getD_eq_getElem?_getD, List.getD_eq_getElem?_getD, List.getElem?_eq_getElem h1, List.getElem?_eq_getElem h2] at this
  simpa using this

theorem replicate_getD (n i : Nat) : (List.replicate n 0).getD i 0 = 0 := by
  rw [List.getD_eq_getElem?_getD, List.getElem?_replicate]; split <;> rfl

theorem sum_two {counts : List Nat} {a b : Nat} (hab : a ≠ b) (ha : a < counts.length) (hb : b < counts.length)
    (h : ∀ i, i ≠ a → i ≠ b → counts.getD i 0 = 0) : counts.sum = counts.getD a 0 + counts.getD b 0 := by
  have s1 := sum_set ha 0
  have s2 := sum_set (l := counts.set a 0) (i := b) (by simpa using hb) 0
  rw [getD_set ha, if_neg (fun e => hab e.symm)] at s2
  have hz : ((counts.set a 0).set b 0).sum = 0 := by
    have : ∀ l : List Nat, (∀ i < l.length, l.getD i 0 = 0) → l.sum = 0 := by
      intro l
      induction l with
      | nil => intro _; rfl
      | cons x l ih =>
        intro hx
        have h0 := hx 0 (by simp)
        have := ih fun i hi => by simpa using hx (i + 1) (by simpa using hi)
        simp only [List.getD_cons_zero] at h0
        simp [h0, this]
    apply this
    intro i _
    rw [getD_set (by simpa using hb)]
    split
    · rfl
    · rw [getD_set ha]
      split
      · rfl
      · exact h i (by assumption) (by assumption)
  omega

theorem cluster_reads {c : Cluster} (hl : c.histo.length = 18) (h1 : TargetsFor c.histo c.first) (h2 : TargetsFor c.histo c.second)
    {counts : List Nat} {om : Nat} (hn : normalizeCounts c.histo c.first c.second = some (counts, om)) :
    ∃ bits, storeCluster c = some (counts, bits) ∧ Reads readHistogram bits (some (decodedCounts c.histo counts)) ∧
      (decodedCounts c.histo counts).length = 18 ∧ (decodedCounts c.histo counts).sum = 1024 ∧
      ∀ i < 18, c.histo.getD i 0 ≠ 0 → counts.getD i 0 ≠ 0 := by
  unfold storeCluster
  rw [hn]
  simp only
  unfold normalizeCounts at hn
  unfold decodedCounts
  have hmem : ∀ s, s ∈ occurring c.histo ↔ s < 18 ∧ c.histo.getD s 0 ≠ 0 := by intro s; rw [mem_occurring, hl]
  have hnd := occurring_nodup c.histo
  cases ho : occurring c.histo with
  | nil =>
    rw [ho] at hn hmem
    simp only [Option.some.injEq, Prod.mk.injEq] at hn
    refine ⟨_, rfl, ?_, by simp, by rw [if_pos rfl]; decide, ?_⟩
    · unfold readHistogram
      refine Reads.bind (readBits_reads (by decide)) ?_
      rw [if_pos rfl, if_pos rfl]
      refine Reads.bind' ?_ (Reads.pure _) (List.append_nil _).symm
      unfold readShortHistogram
      rw [show bitsOf 6 0 = bitsOf 1 0 ++ bitsOf 5 0 by decide]
      refine Reads.bind (readBits_reads (by decide)) ?_
      rw [if_pos rfl]
      exact Reads.bind' (readBits_reads (by decide)) (Reads.pure _) (List.append_nil _).symm
    · intro i hi h
      exact absurd ((hmem i).mpr ⟨hi, h⟩) (by simp)
  | cons a t =>
    have ha := (hmem a).mp (by rw [ho]; simp)
    rw [if_neg (by simp)]
    cases t with
    | nil =>
      rw [ho] at hn hmem
      simp only [Option.some.injEq, Prod.mk.injEq] at hn
      have hz : ∀ i, i ≠ a → c.histo.getD i 0 = 0 := by
        intro i hi
        by_cases h18 : i < 18
        · apply Decidable.byContradiction
          intro h
          have := (hmem i).mpr ⟨h18, h⟩
          simp at this; exact hi this
        · rw [List.getD_eq_getElem?_getD, List.getElem?_eq_none (by omega)]; rfl
      have hc : counts = (List.replicate 18 0).set a 1024 := by
        rw [← hn.1]
        apply list18_ext (by simpa using hl) (by simp)
        intro i hi
        rw [getD_set (by omega), getD_set (by simp; omega)]
        split
        · rfl
        · rw [hz i (by assumption), replicate_getD]
      refine ⟨_, rfl, ?_, by rw [hc]; simp, ?_, ?_⟩
      · unfold readHistogram
        refine Reads.bind (readBits_reads (by decide)) ?_
        rw [if_pos rfl]
        refine Reads.bind' ?_ (Reads.pure _) (List.append_nil _).symm
        unfold readShortHistogram
        refine Reads.bind (readBits_reads (by decide)) ?_
        rw [if_pos rfl]
        refine Reads.bind' (readBits_reads (by omega)) (Reads.pure' ?_) (List.append_nil _).symm
        rw [Nat.mod_eq_of_lt ha.1, hc]
      · rw [hc]
        have := sum_set (l := List.replicate 18 0) (i := a) (by rw [List.length_replicate]; omega) 1024
        rw [replicate_getD, List.sum_replicate_nat] at this
        omega
      · intro i hi h
        have : i = a := by have := (hmem i).mpr ⟨hi, h⟩; simpa using this
        rw [this, hc, getD_set (by rw [List.length_replicate]; omega), if_pos rfl]; decide
    | cons b t =>
      rw [ho] at hn
      simp only at hn
      have hnorm : NormOk counts om ∧ ∀ i < 18, counts.getD i 0 ≠ 0 ↔ c.histo.getD i 0 ≠ 0 := by
        have step : ∀ ts, TargetsFor c.histo ts → rebalance ts = some (counts, om) →
            NormOk counts om ∧ ∀ i < 18, counts.getD i 0 ≠ 0 ↔ c.histo.getD i 0 ≠ 0 := by
          intro ts hts hr
          obtain ⟨t0, ht0⟩ := (hts.2.2 a ha.1).mp ha.2
          obtain ⟨k1, k2⟩ := rebalance_ok hts.1 hts.2.1 ⟨t0, List.mem_of_getElem? ht0⟩ hr
          exact ⟨k1, fun i hi => (k2 i hi).trans (hts.2.2 i hi).symm⟩
        cases hr1 : rebalance c.first with
        | some r => rw [hr1] at hn; exact step _ h1 (hr1.trans hn)
        | none => rw [hr1] at hn; exact step _ h2 hn
      obtain ⟨hok, hsup⟩ := hnorm
      have hocc : occurring counts = a :: b :: t := by
        rw [← ho]
        exact occurring_congr (by rw [hok.length, hl]) fun i hi => hsup i (by rw [hok.length] at hi; exact hi)
      have hb := (hmem b).mp (by rw [ho]; simp)
      have hlast : ∀ i < 18, c.histo.getD i 0 ≠ 0 → counts.getD i 0 ≠ 0 := fun i hi h => (hsup i hi).mpr h
      cases t with
      | cons d t =>
        obtain ⟨bits, e, hr⟩ := longHistogram_reads hok hocc
        rw [hocc] at e
        refine ⟨_, by rw [e], ?_, hok.length, hok.sum, hlast⟩
        unfold readHistogram
        refine Reads.bind (readBits_reads (by decide)) ?_
        rw [if_neg (by decide)]
        exact hr
      | nil =>
        have hab : a ≠ b := by
          rw [ho] at hnd
          simp at hnd; exact hnd
        have hz : ∀ i, i ≠ a → i ≠ b → counts.getD i 0 = 0 := by
          intro i hia hib
          by_cases h18 : i < 18
          · apply Decidable.byContradiction
            intro h
            have := (hmem i).mpr ⟨h18, (hsup i h18).mp h⟩
            rw [ho] at this
            simp at this; omega
          · rw [List.getD_eq_getElem?_getD, List.getElem?_eq_none (by rw [hok.length]; omega)]; rfl
        have hsum := sum_two hab (by rw [hok.length]; exact ha.1) (by rw [hok.length]; exact hb.1) hz
        rw [hok.sum] at hsum
        have hbpos := (hsup b hb.1).mpr hb.2
        refine ⟨_, rfl, ?_, hok.length, hok.sum, hlast⟩
        unfold readHistogram
        refine Reads.bind (readBits_reads (by decide)) ?_
        rw [if_pos rfl]
        refine Reads.bind' ?_ (Reads.pure _) (List.append_nil _).symm
        unfold readShortHistogram
        refine Reads.bind (readBits_reads (by decide)) ?_
        rw [if_neg (by decide)]
        refine Reads.bind (readBits_reads (by omega)) ?_
        refine Reads.bind (readBits_reads (by omega)) ?_
        rw [Nat.mod_eq_of_lt ha.1, Nat.mod_eq_of_lt hb.1]
        refine Reads.seqGuard hab ?_
        refine Reads.bind' (readBits_reads (by omega)) (Reads.pure' ?_) (List.append_nil _).symm
        apply list18_ext (by simp) hok.length
        intro i hi
        rw [getD_set (by simp; omega)]
        by_cases hib : i = b
        · rw [if_pos hib, hib]; omega
        · rw [if_neg hib, getD_set (by simp; omega)]
          by_cases hia : i = a
          · rw [if_pos hia, hia]
          · rw [if_neg hia, replicate_getD, hz i hia hib]

/-! ## Round trip of the section -/

theorem padByte_reads {p : P Bool α} {e : List Bool} {a : α} (h : Reads p e a) : ∃ pad, padByte e = e ++ pad ∧ p (padByte e) = some (a, pad) ∧
    finishBits pad = some ((), []) := by
  refine ⟨_, rfl, h _, ?_⟩
  unfold finishBits
  rw [if_pos]
  constructor
  · simp; omega
  · intro b hb; exact (List.mem_replicate.mp hb).2

/-- A histogram cluster as the encoder has it. -/
structure Cluster.Ok (c : Cluster) : Prop where
  length : c.histo.length = 18
  first : TargetsFor c.histo c.first
  second : TargetsFor c.histo c.second
  /-- `BRUNSLI_CHECK` in `NormalizeCounts` does not abort. -/
  norm : (normalizeCounts c.histo c.first c.second).isSome

theorem ansMap_isSome {counts : List Nat} (h : counts.sum = 1024) : (ansMap counts).isSome = true := by
  unfold ansMap
  simp [ansMapFrom_length, h]

theorem storeClusters_reads (cs : List Cluster) (h : ∀ c ∈ cs, c.Ok) : ∃ tabs bits hs, storeClusters cs = some (tabs, bits) ∧
    Reads (readHistograms cs.length) bits (some hs) ∧ tabs.length = cs.length ∧ hs.length = cs.length ∧
    ∀ i (hi : i < cs.length), hs.getD i [] = decodedCounts cs[i].histo (tabs.getD i []) ∧ (hs.getD i []).sum = 1024 ∧
      ∀ s < 18, cs[i].histo.getD s 0 ≠ 0 → (tabs.getD i []).getD s 0 ≠ 0 := by
  induction cs with
  | nil => exact ⟨[], [], [], rfl, Reads.pure _, rfl, rfl, by intro i hi; simp at hi⟩
  | cons c cs ih =>
    obtain ⟨tabs, bits, hs, e, hr, l1, l2, hall⟩ := ih fun x hx => h x (List.mem_cons_of_mem _ hx)
    have hc := h c List.mem_cons_self
    obtain ⟨⟨counts, om⟩, hn⟩ := Option.isSome_iff_exists.mp hc.norm
    obtain ⟨b, e1, hr1, len1, sum1, pos1⟩ := cluster_reads hc.length hc.first hc.second hn
    refine ⟨counts :: tabs, b ++ bits, decodedCounts c.histo counts :: hs, ?_, ?_, by simp [l1], by simp [l2], ?_⟩
    · simp only [storeClusters, e1, e]
    · simp only [List.length_cons, readHistograms]
      refine Reads.bind hr1 ?_
      simp only
      refine Reads.seqGuard (ansMap_isSome sum1) ?_
      refine Reads.bind' hr ?_ (List.append_nil _).symm
      exact Reads.pure _
    · intro i hi
      cases i with
      | zero => exact ⟨rfl, sum1, pos1⟩
      | succ i =>
        have := hall i (by simpa using hi)
        simpa using this

/-- **The histogram section is read back.** -/
theorem histogramData_reads {schemes cm : List Nat} {clusters : List Cluster} (hs : ∀ s ∈ schemes, s < 7)
    (hn : 1 ≤ clusters.length) (hn2 : clusters.length ≤ 256) (hcm : ∀ x ∈ cm, x < clusters.length)
    (hlen : cm.length = numContexts schemes * kNumAvrgContexts) (hlen2 : cm.length < 2 ^ 31) (hc : ∀ c ∈ clusters, c.Ok) :
    ∃ tabs bits hists, encodeHistogramData schemes cm clusters = some (tabs, bits) ∧
      decodeHistogramData schemes.length bits = some (some ⟨schemes, cm, hists⟩, []) ∧
      tabs.length = clusters.length ∧ hists.length = clusters.length ∧
      ∀ i (hi : i < clusters.length), hists.getD i [] = decodedCounts clusters[i].histo (tabs.getD i []) ∧
        (hists.getD i []).sum = 1024 ∧ ∀ s < 18, clusters[i].histo.getD s 0 ≠ 0 → (tabs.getD i []).getD s 0 ≠ 0 := by
  obtain ⟨m, e1, r1⟩ := contextMap_reads hn hn2 hcm hlen2
  obtain ⟨tabs, hb, hists, e2, r2, l1, l2, hall⟩ := storeClusters_reads clusters hc
  refine ⟨tabs, padByte (schemes.flatMap (bitsOf 3) ++ (m ++ hb)), hists, ?_, ?_, l1, l2, hall⟩
  · unfold encodeHistogramData
    rw [e1, e2]
  · have hsch : Reads (P.replicate schemes.length readScheme) (schemes.flatMap (bitsOf 3)) schemes := by
      apply Reads.replicate
      intro s hs'
      have := hs s hs'
      exact Reads.bind' (readBits_reads (by omega)) (Reads.seqGuard this (Reads.pure _)) (List.append_nil _).symm
    unfold decodeHistogramData padByte
    rw [bind_apply, List.append_assoc, hsch]
    simp only
    rw [bind_apply, List.append_assoc, ← hlen, r1]
    simp only
    rw [bind_apply, r2]
    simp only
    rw [bind_apply]
    have : finishBits (List.replicate ((8 - (List.flatMap (bitsOf 3) schemes ++ (m ++ hb)).length % 8) % 8) false) = some ((), []) := by
      unfold finishBits
      rw [if_pos]
      constructor
      · rw [List.length_replicate]; omega
      · intro b hb; exact (List.mem_replicate.mp hb).2
    rw [this]
    rfl

/-! ## Arbitrary input -/

theorem readHistograms_safe (n : Nat) : ∀ {bs rest : List Bool} {r : Option (List (List Nat))}, readHistograms n bs = some (r, rest) →
    ∃ hs, r = some hs ∧ hs.length = n ∧ ∀ h ∈ hs, h.length = 18 ∧ h.sum = 1024 := by
  induction n with
  | zero => intro bs rest r h; obtain ⟨e, _⟩ := pure_some h; exact ⟨[], e.symm, rfl, by simp⟩
  | succ n ih =>
    intro bs rest r h
    rw [readHistograms] at h
    obtain ⟨x, bs1, hx, h⟩ := bind_some h
    obtain ⟨counts, rfl, h1, h2⟩ := readHistogram_safe hx
    simp only at h
    obtain ⟨_, bs2, hg, h⟩ := bind_some h
    obtain ⟨r', bs3, hr, h⟩ := bind_some h
    obtain ⟨hs, rfl, k1, k2⟩ := ih hr
    simp only at h
    obtain ⟨e, _⟩ := pure_some h
    refine ⟨counts :: hs, e.symm, by simp [k1], ?_⟩
    intro y hy
    rcases List.mem_cons.mp hy with rfl | hy
    · exact ⟨h1, h2⟩
    · exact k2 y hy

theorem histogramData_safe {ncomp : Nat} {bs rest : List Bool} {r : Option HistogramData} (h : decodeHistogramData ncomp bs = some (r, rest)) :
    ∃ d, r = some d ∧ d.schemes.length = ncomp ∧ (∀ s ∈ d.schemes, s < 7) ∧
      d.contextMap.length = numContexts d.schemes * kNumAvrgContexts ∧ (∀ x ∈ d.contextMap, x < d.histograms.length) ∧
      ∀ h ∈ d.histograms, h.length = 18 ∧ h.sum = 1024 := by
  unfold decodeHistogramData at h
  obtain ⟨schemes, bs1, hs, h⟩ := bind_some h
  obtain ⟨s1, s2⟩ := replicate_all (q := fun s => s < 7) (by
    intro s x r hx
    obtain ⟨v, s1, hv, hx⟩ := bind_some hx
    obtain ⟨_, s2, hg, hx⟩ := bind_some hx
    have := (guard_some hg).1
    rw [← (pure_some hx).1]; exact this) _ _ _ _ hs
  obtain ⟨m, bs2, hm, h⟩ := bind_some h
  obtain ⟨nh, map, rfl, _, _, m1, m2⟩ := contextMap_safe hm
  simp only at h
  obtain ⟨x, bs3, hx, h⟩ := bind_some h
  obtain ⟨hists, rfl, k1, k2⟩ := readHistograms_safe nh hx
  simp only at h
  obtain ⟨_, bs4, _, h⟩ := bind_some h
  obtain ⟨e, _⟩ := pure_some h
  exact ⟨⟨schemes, map, hists⟩, e.symm, s1, s2, m1, by rw [k1]; exact m2, k2⟩

end Brunsli
