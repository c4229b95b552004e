import Verif.Accept
/-!
# Size of the section of internals

`EstimateAuxDataSize` (c/enc/brunsli_encode.cc:52-67) is meant to be an upper bound of the size of the section.
-/

namespace Brunsli

theorem encodeVarint_length' (l n : Nat) (hl : 0 < l) : (encodeVarint l n).length ≤ 2 * l - 1 := by
  induction l generalizing n with
  | zero => omega
  | succ l ih =>
    rw [encodeVarint]
    split
    · simp; omega
    · cases l with
      | zero => simp [encodeVarint]
      | succ l =>
        have := ih (n / 2) (by omega)
        rw [List.length_append, List.length_cons, if_neg (by omega)]
        simp only [List.length_cons, List.length_nil]
        omega

theorem encodeLimitedVarint_length (nbits l : Nat) : ∀ v, (encodeLimitedVarint nbits l v).length ≤ (nbits + 1) * l := by
  induction l with
  | zero => intro v; simp [encodeLimitedVarint]
  | succ l ih =>
    intro v
    rw [encodeLimitedVarint, Nat.mul_succ]
    split
    · simp; omega
    · have := ih (v / 2 ^ nbits)
      rw [List.length_cons, List.length_append, bitsOf_length]
      omega

theorem permBits_le {n : Nat} (h : n ≤ 256) : permBits n ≤ 8 := by
  unfold permBits
  split
  · omega
  · have := (Nat.log2_lt (n := n - 1) (k := 8) (by omega)).mpr (by omega)
    omega

theorem encPerm_length : ∀ {vs avail : List Nat} {bits : List Bool}, avail.length ≤ 256 → encPerm avail vs = some bits → bits.length ≤ 12 * vs.length := by
  intro vs
  induction vs with
  | nil => intro avail bits _ h; cases h; exact Nat.le_refl 0
  | cons v vs ih =>
    intro avail bits ha h
    rw [encPerm] at h
    split at h
    · cases h
    · rename_i k hk
      obtain ⟨b, hb, rfl⟩ := Option.map_eq_some_iff.mp h
      have h1 := ih (Nat.le_trans (List.length_eraseIdx_le avail k) ha) hb
      have h2 := encodeLimitedVarint_length 2 ((permBits avail.length + 1) / 2) k
      have h3 := permBits_le ha
      rw [List.length_append, List.length_cons]
      omega

theorem encHuffCounts_length {counts : List Nat} {maxLen maxCount : Nat} (hm : maxCount ≤ 256) : ∀ {is : List Nat} {total space t : Nat} {bits : List Bool},
    total ≤ maxCount → encHuffCounts counts maxLen maxCount is total space = some (bits, t) → bits.length ≤ 9 * is.length ∧ t ≤ maxCount := by
  intro is
  induction is with
  | nil => intro total space t bits ht h; cases h; exact ⟨Nat.le_refl 0, ht⟩
  | cons i is ih =>
    intro total space t bits ht h
    rw [encHuffCounts] at h
    dsimp only at h
    generalize counts.getD i 0 - (if i = maxLen then 1 else 0) = count at h
    split at h
    · cases h
    · rename_i hc
      split at h
      · obtain ⟨⟨b, t'⟩, hb, e⟩ := Option.map_eq_some_iff.mp h
        cases e
        have := ih (by omega) hb
        have hl : (min (maxCount - total) (space / 2 ^ (16 - i))).log2 < 9 := (Nat.log2_lt (by omega)).mpr (by
          have := Nat.min_le_left (maxCount - total) (space / 2 ^ (16 - i)); omega)
        rw [List.length_append, bitsOf_length, List.length_cons]
        dsimp only
        omega
      · have := ih ht h
        rw [List.length_cons]
        omega

theorem huffMaxLen_le (counts : List Nat) : ∀ n, huffMaxLen counts n ≤ n := by
  intro n
  induction n with
  | zero => exact Nat.le_refl 0
  | succ n ih => rw [huffMaxLen]; split <;> omega

/-- One Huffman code takes at most 3227 bits. -/
theorem encHuffCode_length {h : HuffCode} {last : Bool} {bits : List Bool} (he : encHuffCode h last = some bits) : bits.length ≤ 3227 := by
  unfold encHuffCode at he
  split at he
  · cases he
  · dsimp only at he
    have hh : (bitsOf 2 (h.slotId % 16) ++ (bitsOf 1 (h.slotId / 16) ++ (if last then [] else [h.isLast]))).length ≤ 4 := by
      rw [List.length_append, List.length_append, bitsOf_length, bitsOf_length]
      split <;> simp
    generalize bitsOf 2 (h.slotId % 16) ++ (bitsOf 1 (h.slotId / 16) ++ (if last then [] else [h.isLast])) = head at *
    split at he
    · cases he
      rw [List.length_append, List.length_cons, bitsOf_length]
      omega
    · obtain ⟨b, hb, rfl⟩ := Option.map_eq_some_iff.mp he
      unfold encCustomHuff at hb
      dsimp only at hb
      split at hb
      · cases hb
      · split at hb
        · cases hb
        · rename_i cb total hc
          split at hb
          · cases hb
          · obtain ⟨pb, hp, rfl⟩ := Option.map_eq_some_iff.mp hb
            have hm := huffMaxLen_le h.counts 16
            generalize decide (h.slotId / 16 = 0) = dc at *
            have h256 : huffMaxCount dc ≤ 256 := by cases dc <;> decide
            obtain ⟨c1, c2⟩ := encHuffCounts_length h256 (Nat.zero_le _) hc
            rw [List.length_range'] at c1
            have p1 := encPerm_length (by cases dc <;> decide +kernel) hp
            rw [List.length_take] at p1
            rw [List.length_append, List.length_cons, List.length_append, List.length_append, bitsOf_length]
            omega

theorem encHuffCodes_length : ∀ {hs : List HuffCode} {bits : List Bool}, encHuffCodes hs = some bits → bits.length ≤ 3228 * hs.length := by
  intro hs
  induction hs with
  | nil => intro bits h; cases h; exact Nat.le_refl 0
  | cons h hs ih =>
    intro bits he
    cases hs with
    | nil =>
      rw [encHuffCodes] at he
      obtain ⟨b, hb, rfl⟩ := Option.map_eq_some_iff.mp he
      have := encHuffCode_length hb
      simp only [List.length_cons, List.length_nil]
      omega
    | cons h' hs =>
      rw [encHuffCodes] at he
      · split at he
        · rename_i a b ha hb
          cases he
          have := ih hb
          have := encHuffCode_length ha
          rw [List.length_cons, List.length_append, List.length_cons]
          omega
        · cases he
      · simp

theorem encResets_length : ∀ (is : List Nat) (next : Nat), (encResets next is).length ≤ 1 + 56 * is.length := by
  intro is
  induction is with
  | nil => intro next; simp [encResets]
  | cons i is ih =>
    intro next
    rw [encResets, List.length_cons, List.length_append, List.length_cons]
    have := ih (i + 1)
    have := encodeVarint_length' 28 (i - next) (by decide)
    omega

theorem encRuns_more (is : List Nat) (last k : Nat) : (encRuns last (List.replicate k last ++ is)).length = 2 * k + (encRuns last is).length := by
  induction k with
  | zero => simp
  | succ k ih =>
    rw [List.replicate_succ, List.cons_append, encRuns, List.length_cons, List.length_append, ih, Nat.sub_self]
    simp [encodeVarint]
    omega

theorem encRuns_length : ∀ (runs : List (Nat × Nat)) (last : Nat), (encRuns last (expandRuns runs)).length ≤ 1 + 56 * runs.length + 2 * (runs.map Prod.snd).sum := by
  intro runs
  induction runs with
  | nil => intro last; simp [encRuns, expandRuns]
  | cons r runs ih =>
    intro last
    have e : expandRuns (r :: runs) = List.replicate r.2 r.1 ++ expandRuns runs := rfl
    rw [e, List.length_cons, List.map_cons, List.sum_cons]
    have h1 := ih r.1
    cases hr : r.2 with
    | zero =>
      have := ih last
      simp only [List.replicate_zero, List.nil_append]
      omega
    | succ k =>
      rw [List.replicate_succ, List.cons_append, encRuns, List.length_cons, List.length_append, encRuns_more]
      have := encodeVarint_length' 28 (r.1 - last) (by decide)
      omega

/-- Runs of zeros in a scan, counted with repetitions. -/
def ScanInfo.runCount (s : ScanInfo) : Nat := (s.extraZeroRuns.map Prod.snd).sum

theorem encScanInfo_length {s : ScanInfo} (h : s.comps.length ≤ 4) :
    (encScanInfo s).length ≤ 48 + 56 * s.resetPoints.length + 56 * s.extraZeroRuns.length + 2 * s.runCount := by
  unfold encScanInfo
  have h1 := encResets_length s.resetPoints 0
  have h2 := encRuns_length s.extraZeroRuns 0
  have h3 := flatMap_length_le (f := encScanComp) (l := s.comps) (k := 6) fun c _ => by simp [encScanComp]
  simp only [List.length_append, bitsOf_length]
  unfold ScanInfo.runCount
  omega

theorem encScans_length : ∀ scans : List ScanInfo, (∀ s ∈ scans, s.comps.length ≤ 4) → (scans.flatMap encScanInfo).length ≤
    48 * scans.length + 8 * (scans.map fun s => 7 * s.resetPoints.length + 7 * s.extraZeroRuns.length).sum + 2 * (scans.map ScanInfo.runCount).sum := by
  intro scans
  induction scans with
  | nil => intro _; simp
  | cons s scans ih =>
    intro h
    have h1 := encScanInfo_length (h s List.mem_cons_self)
    have h2 := ih fun s hs => h s (List.mem_cons_of_mem _ hs)
    rw [List.flatMap_cons, List.length_append, List.length_cons, List.map_cons, List.sum_cons, List.map_cons, List.sum_cons]
    omega

theorem encQuantHeads_length : ∀ {qs : List (Nat × Bool × Nat)} {bits : List Bool}, encQuantHeads qs = some bits → bits.length ≤ 7 * qs.length := by
  intro qs
  induction qs with
  | nil => intro bits h; cases h; exact Nat.le_refl 0
  | cons q qs ih =>
    obtain ⟨i, l, p⟩ := q
    intro bits h
    cases qs with
    | nil =>
      rw [encQuantHeads] at h
      split at h
      · cases h; simp
      · cases h
    | cons q' qs =>
      rw [encQuantHeads] at h
      · obtain ⟨b, hb, rfl⟩ := Option.map_eq_some_iff.mp h
        have := ih hb
        simp only [List.length_append, List.length_cons, bitsOf_length] at this ⊢
        omega
      · simp

theorem interMarker_length : ∀ {l : List (List Nat)}, (∀ s ∈ l, s.length < 2 ^ 35) →
    (l.flatMap fun s => encodeBase128 s.length ++ s).length ≤ (l.map fun s => 5 + s.length).sum := by
  intro l
  induction l with
  | nil => intro _; simp
  | cons s l ih =>
    intro h
    have h1 := h s List.mem_cons_self
    have h2 := ih fun s hs => h s (List.mem_cons_of_mem _ hs)
    have h3 : (encodeBase128 s.length).length ≤ 5 := by
      rw [encodeBase128_length]
      exact base128Size_le 4 _ (by norm_num; omega)
    rw [List.flatMap_cons, List.length_append, List.length_append, List.map_cons, List.sum_cons]
    omega

/-- All runs of zeros, with repetitions. -/
def JpegData.runCount (jpg : JpegData) : Nat := (jpg.scans.map ScanInfo.runCount).sum

/-- How far the section may exceed its estimate: 132 bytes for each Huffman code, and 2 bits for each run of zeros. -/
theorem internals_size {jpg : JpegData} (hv : jpg.Valid) (hi : ∀ s ∈ jpg.interMarker, s.length < 2 ^ 35) {limit : Nat} {inner : List Nat}
    (h : encodeInternals limit jpg.internals = some inner) : inner.length ≤ estimateAuxDataSize jpg + 132 * jpg.huffman.length + jpg.runCount / 4 := by
  unfold encodeInternals at h
  obtain ⟨b, hb, rfl⟩ := Option.map_eq_some_iff.mp h
  unfold encInternalsBits at hb
  rw [List.length_append]
  have h1 := interMarker_length hi
  have h2 := packBits_length _ (padByte b) (Nat.le_refl _)
  have h3 := padByte_length b
  rw [show jpg.internals.interMarker = jpg.interMarker from rfl]
  rw [h2]
  split at hb
  · cases hb
  split at hb
  · cases hb
  split at hb
  · cases hb
  split at hb
  · cases hb
  split at hb
  swap
  · cases hb
  rename_i hf qh e1 e2
  have c1 := encHuffCodes_length e1
  have c2 := encQuantHeads_length e2
  have c3 := encScans_length jpg.internals.scans fun s hs => (hv.scans s hs).ncomp.2
  have c4 := flatMap_length_le (f := fun m => bitsOf 6 (m - 0xc0)) (l := jpg.internals.markers) (k := 6) fun m _ => by rw [bitsOf_length]
  have c5 := encodeLimitedVarint_length 8 4 jpg.internals.padding.length
  have c6 := flatMap_length_le (f := bitsOf 8) (l := jpg.internals.ids) (k := 8) fun m _ => by rw [bitsOf_length]
  have g1 : jpg.internals.ids.length ≤ 4 := by
    have := hv.ncomp.2
    simpa [JpegData.internals] using this
  have g2 : jpg.internals.quant.length ≤ 4 := by
    have := hv.quants
    simpa [JpegData.internals] using this
  have g3 : jpg.internals.padding.length = if jpg.hasZeroPaddingBit then jpg.paddingBits.length else 0 := by
    unfold JpegData.internals
    dsimp only
    split <;> simp
  have c7 : (if 0xdd ∈ jpg.internals.markers then bitsOf 16 jpg.internals.restartInterval else []).length ≤ 16 := by split <;> simp
  have c8 : (if matchComponentIds jpg.internals.ids = 3 then jpg.internals.ids.flatMap (bitsOf 8) else []).length ≤ 32 := by
    split
    · omega
    · simp
  have hbl := congrArg List.length (Option.some.inj hb)
  simp only [List.length_append, bitsOf_length] at hbl
  unfold estimateAuxDataSize JpegData.runCount
  rw [show jpg.internals.markers = jpg.markerOrder from rfl] at *
  rw [show jpg.internals.huffman = jpg.huffman from rfl] at *
  rw [show jpg.internals.scans = jpg.scans from rfl] at *
  rw [g3] at c5 hbl
  omega

end Brunsli
