import Verif.OutFile
import Verif.StreamReady
import Verif.Estimate
import Verif.GroupSafe
/-!
# How much is read

What a section can announce is bounded by its length: markers, Huffman codes, scans and zero runs are all written out, with some bits for each (c/dec/brunsli_decode.cc:297-541,
1408-1633).
-/

namespace Brunsli

open P

/-! ## Bits of the internals -/

theorem readMarkers_counts : ∀ {fuel : Nat} {bs rest : List Bool} {ms : List Nat}, readMarkers fuel bs = some (ms, rest) →
    6 * ms.length + rest.length = bs.length ∧ ms.count 0xd9 = 1
  | 0, _, _, _, h => by cases h
  | fuel + 1, bs, rest, ms, h => by
    rw [readMarkers] at h
    obtain ⟨m, b1, h1, h⟩ := bind_some h
    have l1 := readBits_length h1
    split at h
    · obtain ⟨rfl, rfl⟩ := pure_some h
      exact ⟨by simp; omega, by decide⟩
    · rename_i hne
      obtain ⟨ms', b2, h2, h⟩ := bind_some h
      obtain ⟨rfl, rfl⟩ := pure_some h
      obtain ⟨l2, c2⟩ := readMarkers_counts h2
      refine ⟨by rw [List.length_cons]; omega, ?_⟩
      rw [List.count_cons, c2, if_neg (by simpa using hne)]

theorem readHuffBody_length {dc : Bool} {bs rest : List Bool} {cv : List Nat × List Nat} (h : readHuffBody dc bs = some (cv, rest)) : rest.length ≤ bs.length := by
  rw [← huffBodyBP_run] at h
  obtain ⟨u, e⟩ := BP.run_suffix _ (huffBodyBP_within dc) h
  rw [e, List.length_append]; omega

theorem readHuffCode_length {last : Bool} {bs rest : List Bool} {c : HuffCode} (h : readHuffCode last bs = some (c, rest)) : 3 + rest.length ≤ bs.length := by
  rw [readHuffCode] at h
  obtain ⟨slot, b1, h1, h⟩ := bind_some h
  obtain ⟨ac, b2, h2, h⟩ := bind_some h
  obtain ⟨l, b3, h3, h⟩ := bind_some h
  obtain ⟨cv, b4, h4, h⟩ := bind_some h
  obtain ⟨-, rfl⟩ := pure_some h
  have l1 := readBits_length h1
  have l2 := readBits_length h2
  have l4 := readHuffBody_length h4
  have l3 : b3.length ≤ b2.length := by
    split at h3
    · obtain ⟨-, rfl⟩ := pure_some h3; exact Nat.le_refl _
    · have := readBit_length h3; omega
  omega

theorem readHuffCodes_length : ∀ {fuel : Nat} {bs rest : List Bool} {l : List HuffCode}, readHuffCodes fuel bs = some (l, rest) → 4 * l.length + rest.length ≤ bs.length
  | 0, _, _, _, h => by cases h
  | fuel + 1, bs, rest, l, h => by
    rw [readHuffCodes] at h
    obtain ⟨last, b1, h1, h⟩ := bind_some h
    obtain ⟨c, b2, h2, h⟩ := bind_some h
    have l1 := readBit_length h1
    have l2 := readHuffCode_length h2
    split at h
    · obtain ⟨rfl, rfl⟩ := pure_some h
      simp; omega
    · obtain ⟨l', b3, h3, h⟩ := bind_some h
      obtain ⟨rfl, rfl⟩ := pure_some h
      have l3 := readHuffCodes_length h3
      rw [List.length_cons]; omega

theorem HuffCode.Decoded.small {h : HuffCode} (hd : h.Decoded) : h.counts.sum ≤ 257 := by
  have h1 := congrArg List.length hd.values
  rw [hd.valuesLength, List.length_append, List.length_cons, List.length_replicate, HuffCode.symbols, List.length_take, hd.valuesLength] at h1
  omega

theorem huffBytes_le {l : List HuffCode} (h : ∀ c ∈ l, c.Decoded) : huffBytes l ≤ 273 * l.length := by
  unfold huffBytes
  induction l with
  | nil => simp
  | cons a l ih =>
    have ha := (h a List.mem_cons_self).small
    have := ih fun c hc => h c (List.mem_cons_of_mem _ hc)
    rw [List.map_cons, List.sum_cons, List.length_cons]
    omega

theorem readResetsLoop_length : ∀ {fuel next : Nat} {bs rest : List Bool} {l : List Nat}, readResetsLoop fuel next bs = some (l, rest) → rest.length ≤ bs.length
  | 0, _, _, _, _, h => by cases h
  | fuel + 1, next, bs, rest, l, h => by
    rw [readResetsLoop] at h
    obtain ⟨b, b1, h1, h⟩ := bind_some h
    have l1 := readBit_length h1
    split at h
    · obtain ⟨v, b2, h2, h⟩ := bind_some h
      obtain ⟨_, b3, h3, h'⟩ := bind_some h
      rw [(guard_some h3).2] at h'
      clear h
      obtain ⟨l', b4, h4, h⟩ := bind_some h'
      obtain ⟨-, rfl⟩ := pure_some h
      have l2 := varint_length h2
      have l4 := readResetsLoop_length h4
      omega
    · obtain ⟨-, rfl⟩ := pure_some h
      omega

/-- The zero runs announced. -/
def runsIn (l : List (Nat × Nat)) : Nat := (l.map Prod.snd).sum

theorem pendingRun_runs (last num : Nat) : runsIn (pendingRun last num) = num := by
  unfold pendingRun runsIn
  split
  · simp
  · simp; omega

theorem readRunsLoop_length : ∀ {fuel last num : Nat} {bs rest : List Bool} {l : List (Nat × Nat)}, readRunsLoop fuel last num bs = some (l, rest) →
    runsIn l + rest.length ≤ bs.length + num
  | 0, _, _, _, _, _, h => by cases h
  | fuel + 1, last, num, bs, rest, l, h => by
    rw [readRunsLoop] at h
    obtain ⟨b, b1, h1, h⟩ := bind_some h
    have l1 := readBit_length h1
    split at h
    · obtain ⟨v, b2, h2, h⟩ := bind_some h
      obtain ⟨_, b3, h3, h'⟩ := bind_some h
      rw [(guard_some h3).2] at h'
      clear h
      have l2 := varint_length h2
      split at h'
      · obtain ⟨l', b4, h4, h⟩ := bind_some h'
        obtain ⟨rfl, rfl⟩ := pure_some h
        have l4 := readRunsLoop_length h4
        have e : runsIn (pendingRun last num ++ l') = num + runsIn l' := by
          have := pendingRun_runs last num
          unfold runsIn at this ⊢
          rw [List.map_append, List.sum_append, this]
        rw [e]
        omega
      · have l4 := readRunsLoop_length h'
        omega
    · obtain ⟨rfl, rfl⟩ := pure_some h
      rw [pendingRun_runs]
      omega

theorem replicate_length {α : Type} {p : P Bool α} {k : Nat} (hp : ∀ bs a rest, p bs = some (a, rest) → k + rest.length ≤ bs.length) : ∀ {n : Nat} {bs rest : List Bool} {l : List α},
    P.replicate n p bs = some (l, rest) → l.length = n ∧ k * n + rest.length ≤ bs.length
  | 0, _, _, _, h => by
    obtain ⟨rfl, rfl⟩ := pure_some h
    simp
  | n + 1, bs, rest, l, h => by
    rw [P.replicate] at h
    obtain ⟨a, b1, h1, h⟩ := bind_some h
    obtain ⟨l', b2, h2, h⟩ := bind_some h
    obtain ⟨rfl, rfl⟩ := pure_some h
    obtain ⟨e, l2⟩ := replicate_length hp h2
    have l1 := hp _ _ _ h1
    rw [List.length_cons, e, Nat.mul_succ]
    omega

theorem readScanComp_length (bs : List Bool) (c : ScanComp) (rest : List Bool) (h : readScanComp bs = some (c, rest)) : 6 + rest.length ≤ bs.length := by
  rw [readScanComp] at h
  obtain ⟨x, b1, h1, h⟩ := bind_some h
  obtain ⟨y, b2, h2, h⟩ := bind_some h
  obtain ⟨z, b3, h3, h⟩ := bind_some h
  obtain ⟨-, rfl⟩ := pure_some h
  have l1 := readBits_length h1
  have l2 := readBits_length h2
  have l3 := readBits_length h3
  omega

theorem readScanInfo_length {bs rest : List Bool} {s : ScanInfo} (h : readScanInfo bs = some (s, rest)) :
    22 + runsIn s.extraZeroRuns + rest.length ≤ bs.length ∧ s.comps.length ≤ 4 ∧ ScanSmall s := by
  rw [readScanInfo] at h
  obtain ⟨ss, b1, h1, h⟩ := bind_some h
  obtain ⟨se, b2, h2, h⟩ := bind_some h
  obtain ⟨ah, b3, h3, h⟩ := bind_some h
  obtain ⟨al, b4, h4, h⟩ := bind_some h
  obtain ⟨n, b5, h5, h⟩ := bind_some h
  obtain ⟨comps, b6, h6, h⟩ := bind_some h
  obtain ⟨resets, b7, h7, h⟩ := bind_some h
  obtain ⟨runs, b8, h8, h⟩ := bind_some h
  obtain ⟨rfl, rfl⟩ := pure_some h
  have l1 := readBits_length h1
  have l2 := readBits_length h2
  have l3 := readBits_length h3
  have l4 := readBits_length h4
  have l5 := readBits_length h5
  have s2 := readBits_lt h2
  have s5 := readBits_lt h5
  obtain ⟨e6, l6⟩ := replicate_length readScanComp_length h6
  have l7 : b7.length ≤ b6.length := readResetsLoop_length h7
  have l8 : runsIn runs + rest.length ≤ b7.length + 0 := readRunsLoop_length h8
  refine ⟨by dsimp only; omega, by dsimp only; omega, ⟨s2, fun e => ?_⟩⟩
  dsimp only at e
  rw [e] at e6
  cases e6

theorem readScans_length : ∀ {n : Nat} {bs rest : List Bool} {l : List ScanInfo}, P.replicate n readScanInfo bs = some (l, rest) →
    22 * l.length + (l.map fun s => runsIn s.extraZeroRuns).sum + rest.length ≤ bs.length ∧ ∀ s ∈ l, s.comps.length ≤ 4 ∧ ScanSmall s
  | 0, _, _, _, h => by
    obtain ⟨rfl, rfl⟩ := pure_some h
    simp
  | n + 1, bs, rest, l, h => by
    rw [P.replicate] at h
    obtain ⟨a, b1, h1, h⟩ := bind_some h
    obtain ⟨l', b2, h2, h⟩ := bind_some h
    obtain ⟨rfl, rfl⟩ := pure_some h
    obtain ⟨l1, s1⟩ := readScanInfo_length h1
    obtain ⟨l2, s2⟩ := readScans_length h2
    refine ⟨?_, ?_⟩
    · rw [List.length_cons, List.map_cons, List.sum_cons]
      omega
    · intro s hs
      rcases List.mem_cons.mp hs with rfl | hs
      · exact s1
      · exact s2 s hs

theorem readQuantHeads_count : ∀ {n : Nat} {bs rest : List Bool} {l : List (Nat × Bool × Nat)}, readQuantHeads n bs = some (l, rest) → l.length = n
  | 0, _, _, _, h => by
    obtain ⟨rfl, -⟩ := pure_some h
    rfl
  | n + 1, bs, rest, l, h => by
    rw [readQuantHeads] at h
    obtain ⟨_, b1, h1, h⟩ := bind_some h
    obtain ⟨_, b2, h2, h⟩ := bind_some h
    obtain ⟨_, b3, h3, h⟩ := bind_some h
    obtain ⟨_, b4, h4, h⟩ := bind_some h
    obtain ⟨l', b5, h5, h⟩ := bind_some h
    obtain ⟨rfl, -⟩ := pure_some h
    rw [List.length_cons, readQuantHeads_count h5]

/-- The internals of a section of `n` bytes. -/
structure Internals.Counted (n : Nat) (x : Internals) : Prop where
  bits : 6 * x.markers.length + 4 * x.huffman.length + 22 * x.scans.length + (x.scans.map fun s => runsIn s.extraZeroRuns).sum ≤ 8 * n
  eoi : x.markers.count 0xd9 = 1
  huffman : ∀ c ∈ x.huffman, c.Decoded
  scans : ∀ s ∈ x.scans, s.comps.length ≤ 4 ∧ ScanSmall s
  quant : x.quant.length ≤ 4
  inter : bytesIn x.interMarker ≤ n

theorem readInternalsBits_counted {limit ncomp n : Nat} {bs rest : List Bool} {x : Internals} (h : readInternalsBits limit ncomp bs = some (x, rest)) (hl : bs.length = 8 * n) :
    x.Counted n := by
  rw [readInternalsBits] at h
  obtain ⟨markers, b1, h1, h⟩ := bind_some h
  obtain ⟨dri, b2, h2, h⟩ := bind_some h
  obtain ⟨huffman, b3, h3, h⟩ := bind_some h
  obtain ⟨_, b4, h4, h⟩ := bind_some h
  obtain ⟨scans, b5, h5, h⟩ := bind_some h
  obtain ⟨q, b6, h6, h⟩ := bind_some h
  obtain ⟨quant, b7, h7, h⟩ := bind_some h
  obtain ⟨ids, b8, h8, h⟩ := bind_some h
  obtain ⟨np, b9, h9, h⟩ := bind_some h
  obtain ⟨_, b10, h10, h⟩ := bind_some h
  obtain ⟨padding, b11, h11, h⟩ := bind_some h
  obtain ⟨rfl, -⟩ := pure_some h
  obtain ⟨l1, c1⟩ := readMarkers_counts (fuel := bs.length) h1
  have l2 : b2.length ≤ b1.length := by
    split at h2
    · have := readBits_length h2; omega
    · rw [(pure_some h2).2]
  have l3 := readHuffCodes_length h3
  have e4 := (guard_some h4).2
  obtain ⟨l5, s5⟩ := readScans_length h5
  rw [e4] at l5
  have l6 := readBits_lt h6
  have e7 := readQuantHeads_count h7
  exact ⟨by dsimp only; omega, c1, (readHuffCodes_safe _ h3).2.2, s5, by dsimp only; omega, by simp [bytesIn]⟩

theorem readInterMarker_length : ∀ {n : Nat} {bs rest : List Nat} {l : List (List Nat)}, readInterMarker n bs = some (l, rest) → bytesIn l + rest.length ≤ bs.length
  | 0, bs, rest, l, h => by
    cases h
    simp [bytesIn]
  | n + 1, bs, rest, l, h => by
    rw [readInterMarker] at h
    cases hb : decodeBase128 bs with
    | needMore => rw [hb] at h; cases h
    | invalid => rw [hb] at h; cases h
    | ok len r =>
      rw [hb] at h
      dsimp only at h
      split at h
      · rename_i hle
        obtain ⟨y, hy, e⟩ := Option.map_eq_some_iff.mp h
        cases e
        have l1 := readInterMarker_length hy
        have l2 := Brunsli.Mono.lengths Rd.Mono.decodeBase128 hb
        rw [List.length_drop] at l1
        unfold bytesIn at l1 ⊢
        rw [List.map_cons, List.sum_cons, List.length_take]
        omega
      · cases h

theorem decodeInternals_counted {limit ncomp : Nat} {payload : List Nat} {x : Internals} (h : decodeInternals limit ncomp payload = some x) : x.Counted payload.length := by
  unfold decodeInternals at h
  split at h
  · cases h
  · rename_i y r hr
    have hc := readInternalsBits_counted hr (bytesBits_length payload)
    split at h
    · cases h
    split at h
    · rename_i l hi
      cases h
      have hl := readInterMarker_length hi
      rw [List.length_drop] at hl
      exact ⟨hc.bits, hc.eoi, hc.huffman, hc.scans, hc.quant, by dsimp only; omega⟩
    · cases h

/-! ## Metadata -/

/-- The bytes of the segments and of the data after the image. -/
def MetaState.bytes (s : MetaState) : Nat := bytesIn s.app + bytesIn s.com + s.tail.length

/-- Read, but not stored yet; a segment from a template is counted when its marker is read. -/
def MetaState.due (s : MetaState) : Nat :=
  match s.stage with
  | .lengthHi => 1
  | .lengthLo => 2
  | .code => 3161
  | _ => 0

theorem bytesIn_snoc (l : List (List Nat)) (a : List Nat) : bytesIn (l ++ [a]) = bytesIn l + a.length := by
  unfold bytesIn
  rw [List.map_append, List.sum_append]
  simp

theorem bytesIn_appendLast : ∀ (l : List (List Nat)) (x : List Nat), bytesIn (appendLast l x) ≤ bytesIn l + x.length
  | [], x => by simp [appendLast, bytesIn]
  | [a], x => by simp [appendLast, bytesIn]
  | a :: b :: l, x => by
    have := bytesIn_appendLast (b :: l) x
    unfold bytesIn at this ⊢
    rw [appendLast, List.map_cons, List.sum_cons, List.map_cons, List.sum_cons]
    omega

theorem generateApp_length (m c : Nat) : (generateApp m c).length ≤ 3161 := by
  unfold generateApp
  split
  · rw [List.length_set]; decide +kernel
  split
  · rw [List.length_set]; decide +kernel
  · rw [List.length_set]; decide +kernel

theorem generateApp0_length (c : Nat) : (generateApp0 c).length ≤ 3161 := by
  unfold generateApp0
  simp only [List.length_set]
  decide +kernel

theorem metaByte_bytes {s t : MetaState} {b : Nat} (h : metaByte s b = some t) : t.bytes + t.due + 3161 * s.short ≤ s.bytes + s.due + 3161 * t.short + 1 := by
  unfold metaByte at h
  split at h
  · rename_i hs
    unfold metaMarker at h
    split at h
    · cases h
      simp only [MetaState.bytes, MetaState.due, hs, List.length_nil]
      omega
    split at h
    · split at h
      · cases h
      · cases h
        have := generateApp0_length b
        simp only [MetaState.bytes, MetaState.due, hs, bytesIn_snoc]
        omega
    split at h
    · split at h
      · cases h
      · cases h
        simp only [MetaState.bytes, MetaState.due, hs]
        omega
    split at h
    · cases h
    · cases h
      simp only [MetaState.bytes, MetaState.due, hs]
      omega
  · rename_i hs
    cases h
    simp only [MetaState.bytes, MetaState.due, hs, List.length_append, List.length_cons, List.length_nil]
    omega
  · rename_i hs
    cases h
    have := generateApp_length s.marker b
    simp only [MetaState.bytes, MetaState.due, hs, bytesIn_snoc]
    omega
  · rename_i hs
    cases h
    simp only [MetaState.bytes, MetaState.due, hs]
    omega
  · rename_i hs
    unfold metaLengthLo at h
    dsimp only at h
    split at h
    · cases h
    by_cases cl : (if decide (s.marker = 0xFE) = true then s.com.length else s.app.length - s.short) ≥ kBrunsliMultibyteMarkerLimit
    · rw [if_pos cl] at h; cases h
    rw [if_neg cl] at h
    have hd : s.due = 2 := by simp only [MetaState.due, hs]
    have key : ∀ (c : Prop) [Decidable c] (u : MetaState), u.stage = (if c then MetaStage.multibyte else .marker) → u.due = 0 := by
      intro c _ u hu
      unfold MetaState.due
      rw [hu]
      by_cases hc : c
      · rw [if_pos hc]
      · rw [if_neg hc]
    split at h
    · cases h
      rw [hd, key _ _ rfl]
      simp only [MetaState.bytes, bytesIn_snoc, List.length_cons, List.length_nil]
      omega
    · cases h
      rw [hd, key _ _ rfl]
      simp only [MetaState.bytes, bytesIn_snoc, List.length_cons, List.length_nil]
      omega
  · rename_i hs
    cases h
    have hd : s.due = 0 := by simp only [MetaState.due, hs]
    rw [hd]
    have h1 : ∀ st : MetaStage, st = .marker ∨ st = .multibyte → ∀ r : Nat, ({ s.sink [b] with remaining := r, stage := st } : MetaState).due = 0 := by
      intro st h r
      rcases h with rfl | rfl <;> rfl
    rw [h1 _ (by split <;> simp)]
    unfold MetaState.sink
    split
    · have := bytesIn_appendLast s.com [b]
      simp only [MetaState.bytes, List.length_cons, List.length_nil] at this ⊢
      omega
    · have := bytesIn_appendLast s.app [b]
      simp only [MetaState.bytes, List.length_cons, List.length_nil] at this ⊢
      omega

theorem metaBytes_bytes : ∀ {d : List Nat} {s t : MetaState}, d.foldlM metaByte s = some t → t.bytes + t.due + 3161 * s.short ≤ s.bytes + s.due + 3161 * t.short + d.length
  | [], s, t, h => by cases h; simp
  | b :: d, s, t, h => by
    rw [List.foldlM_cons] at h
    cases hb : metaByte s b with
    | none => rw [hb] at h; cases h
    | some u =>
      rw [hb] at h
      have h1 := metaByte_bytes hb
      have h2 := metaBytes_bytes (s := u) h
      rw [List.length_cons]
      omega

theorem metaByte_short {s t : MetaState} {b : Nat} (hs : s.short ≤ kBrunsliShortMarkerLimit) (h : metaByte s b = some t) : t.short ≤ kBrunsliShortMarkerLimit := by
  unfold metaByte at h
  split at h
  · unfold metaMarker at h
    split at h
    · cases h; exact hs
    split at h
    · split at h
      · cases h
      · cases h; dsimp only; omega
    split at h
    · split at h
      · cases h
      · cases h; dsimp only; omega
    split at h
    · cases h
    · cases h; exact hs
  · cases h; exact hs
  · cases h; exact hs
  · cases h; exact hs
  · unfold metaLengthLo at h
    dsimp only at h
    split at h
    · cases h
    by_cases cl : (if decide (s.marker = 0xFE) = true then s.com.length else s.app.length - s.short) ≥ kBrunsliMultibyteMarkerLimit
    · rw [if_pos cl] at h; cases h
    rw [if_neg cl] at h
    split at h
    · cases h; exact hs
    · cases h; exact hs
  · cases h
    unfold MetaState.sink
    split
    · exact hs
    · exact hs

theorem metaBytes_short : ∀ {d : List Nat} {s t : MetaState}, s.short ≤ kBrunsliShortMarkerLimit → d.foldlM metaByte s = some t → t.short ≤ kBrunsliShortMarkerLimit
  | [], s, t, hs, h => by cases h; exact hs
  | b :: d, s, t, hs, h => by
    rw [List.foldlM_cons] at h
    cases hb : metaByte s b with
    | none => rw [hb] at h; cases h
    | some u =>
      rw [hb] at h
      exact metaBytes_short (metaByte_short hs hb) h

/-- The metadata of a section are not much more than what Brotli makes of it: at most 832 segments come from templates. -/
theorem processMeta_bytes {d : List Nat} {t : MetaState} (h : processMeta .init d = some t) : t.bytes ≤ d.length + 2629952 := by
  rw [processMeta_fold init_inv] at h
  have h1 := metaBytes_bytes h
  have h2 := metaBytes_short (by decide) h
  have e1 : MetaState.init.bytes = 0 := rfl
  have e2 : MetaState.init.due = 0 := rfl
  have e3 : MetaState.init.short = 0 := rfl
  have e4 : kBrunsliShortMarkerLimit = 832 := rfl
  omega

/-- The metadata of a section of which Brotli makes at most `m` bytes. -/
theorem decodeMetadata_bytes {dec : List Nat → Option (List (List Nat))} {m n : Nat} (hd : ∀ p chunks, p.length ≤ n → dec p = some chunks → chunks.flatten.length ≤ m)
    {payload : List Nat} (hp : payload.length ≤ n) {t : MetaState} (h : decodeMetadata dec payload = some t) : t.bytes ≤ m + 2629953 := by
  unfold decodeMetadata at h
  split at h
  · cases h
    exact Nat.zero_le _
  · obtain ⟨u, hu, h⟩ := Option.bind_eq_some_iff.mp h
    split at h
    · cases h
      have := processMeta_bytes hu
      rw [List.length_singleton] at this
      omega
    · cases h
  · split at h
    · rename_i size rest hb
      split at h
      · cases h
      · obtain ⟨chunks, hc, h⟩ := Option.bind_eq_some_iff.mp h
        have hl := Brunsli.Mono.lengths Rd.Mono.decodeBase128 hb
        have := hd rest chunks (by omega) hc
        rw [metaChunks_eq chunks init_inv] at h
        split at h
        · obtain ⟨u, hu, h⟩ := Option.bind_eq_some_iff.mp h
          split at h
          · cases h
            have := processMeta_bytes hu
            omega
          · cases h
        · cases h
    · cases h

/-! ## Sections -/

theorem Internals.Counted.mono {n m : Nat} {x : Internals} (h : x.Counted n) (hm : n ≤ m) : x.Counted m :=
  ⟨by have := h.bits; omega, h.eoi, h.huffman, h.scans, h.quant, Nat.le_trans h.inter hm⟩

/-- Brotli makes at most `m` bytes of a string of at most `n`. -/
def Codec.Expands (par : Codec) (n m : Nat) : Prop := ∀ p chunks, p.length ≤ n → par.decompress p = some chunks → chunks.flatten.length ≤ m

/-- What is known of a state after `n` bytes. -/
structure SectState.Counted (par : Codec) (h : Header) (n : Nat) (s : SectState) : Prop where
  header : s.header = h
  internals : ∀ x, s.internals = some x → x.Counted n
  metadata : ∀ m, par.Expands n m → s.metadata.bytes ≤ m + 2629953

theorem decBody_counted {par : Codec} {h : Header} {n : Nat} {s s' : SectState} {tag : Nat} {p : List Nat} (hs : s.Counted par h n) (hp : p.length ≤ n)
    (hb : decBody par s tag p = some s') : s'.Counted par h n := by
  unfold decBody at hb
  split at hb
  · obtain ⟨m, hm, rfl⟩ := Option.map_eq_some_iff.mp hb
    exact ⟨hs.header, hs.internals, fun _ hd => decodeMetadata_bytes hd hp hm⟩
  split at hb
  · obtain ⟨x, hx, rfl⟩ := Option.map_eq_some_iff.mp hb
    exact ⟨hs.header, fun y hy => by cases hy; exact (decodeInternals_counted hx).mono hp, hs.metadata⟩
  split at hb
  · split at hb
    · cases hb
    · rename_i x hx
      split at hb
      · cases hb
        exact ⟨hs.header, hs.internals, hs.metadata⟩
      · cases hb
  split at hb
  · split at hb
    · cases hb
      exact ⟨hs.header, hs.internals, hs.metadata⟩
    · cases hb
  split at hb
  · split at hb
    · cases hb
    · obtain ⟨m, -, rfl⟩ := Option.map_eq_some_iff.mp hb
      exact ⟨hs.header, hs.internals, hs.metadata⟩
  split at hb
  · split at hb
    · obtain ⟨m, -, rfl⟩ := Option.map_eq_some_iff.mp hb
      exact ⟨hs.header, hs.internals, hs.metadata⟩
    · cases hb
  · cases hb

theorem items_counted {par : Codec} {h : Header} {n : Nat} : ∀ {items : List Item} {s s' : SectState}, s.Counted par h n → (items.flatMap Item.bytes).length ≤ n →
    items.foldlM (Item.run (decBody par)) s = some s' → s'.Counted par h n
  | [], s, s', hs, _, hf => by cases hf; exact hs
  | i :: l, s, s', hs, hn, hf => by
    rw [List.flatMap_cons, List.length_append] at hn
    rw [List.foldlM_cons] at hf
    cases hi : Item.run (decBody par) s i with
    | none => rw [hi] at hf; cases hf
    | some s1 =>
      rw [hi] at hf
      refine items_counted ?_ (by omega) hf
      unfold Item.run at hi
      split at hi
      · have : i.payload.length ≤ i.bytes.length := by unfold Item.bytes; rw [List.length_cons, List.length_append]; omega
        exact decBody_counted hs (by omega) hi
      · cases hi; exact hs

/-- What a file that holds an image leaves. -/
theorem decodeFile_counted {par : Codec} {bs rest : List Nat} {s : SectState} (h : decodeFile (fun h => some (SectState.init h)) (decBody par) bs = .ok (.image s) rest) :
    s.header.Ok ∧ (∀ x, s.internals = some x → x.Counted bs.length) ∧ ∀ m, par.Expands bs.length m → s.metadata.bytes ≤ m + 2629953 := by
  unfold decodeFile at h
  cases hr : readFile (fun h => some (SectState.init h)) (decBody par) bs with
  | needMore => rw [hr] at h; cases h
  | invalid => rw [hr] at h; cases h
  | ok c rest =>
    rw [hr] at h
    dsimp only at h
    by_cases he : rest = []
    · rw [if_pos he] at h
      cases h
      unfold readFile at hr
      obtain ⟨u, b1, h1, hr⟩ := Rd.andThen_ok hr
      obtain ⟨t, b2, h2, hr⟩ := Rd.andThen_ok hr
      by_cases hv : t.1.version = 1
      · rw [if_pos hv] at hr
        obtain ⟨d, b3, h3, hr⟩ := Rd.andThen_ok hr
        cases hr
      · rw [if_neg hv] at hr
        obtain ⟨s0, b3, h3, hr⟩ := Rd.andThen_ok hr
        obtain ⟨s1, b4, h4, hr⟩ := Rd.andThen_ok hr
        cases hr
        obtain ⟨e3, rfl⟩ := ofOption_ok h3
        obtain ⟨items, e4, -, hf⟩ := readSections_ok 16 h4
        have l1 := Brunsli.Mono.lengths readSignature_mono h1
        have l2 := Brunsli.Mono.lengths (readHeader_mono _) h2
        rw [e4] at l2
        rw [List.length_append] at l2
        have hc : s.Counted par t.1 bs.length := by
          refine items_counted ⟨?_, fun x hx => ?_, ?_⟩ (by omega) hf
          · rw [← Option.some.inj e3]; rfl
          · rw [← Option.some.inj e3] at hx; cases hx
          · rw [← Option.some.inj e3]; exact fun _ _ => Nat.zero_le _
        exact ⟨by rw [hc.header]; exact (readHeader_ok h2).resolve_left hv, hc.internals, hc.metadata⟩
    · rw [if_neg he] at h
      cases h

/-! ## The whole file -/

theorem blocksAt_le {s : SectState} {imgs : List (List Int)} (c : Nat) : (s.partJpeg imgs).blocksAt c ≤ s.header.totalBlocks := by
  unfold JpegData.blocksAt
  cases hc : (s.partJpeg imgs).components[c]? with
  | none => exact Nat.zero_le _
  | some x =>
    obtain ⟨h1, _, h3, h4⟩ := decComps_get _ _ _ _ _ _ _ hc
    dsimp only
    rw [h3, h4]
    unfold Header.totalBlocks Header.blocks
    rw [List.map_map]
    exact List.le_sum_of_mem (List.mem_map.mpr ⟨_, List.mem_of_getElem? h1, rfl⟩)

theorem scanBlocks_le {s : SectState} {imgs : List (List Int)} {sc : ScanInfo} (hc : sc.comps.length ≤ 4) : (s.partJpeg imgs).scanBlocks sc ≤ 4 * s.header.totalBlocks := by
  unfold JpegData.scanBlocks
  have h := sum_mono (l := sc.comps) (f := fun c => (s.partJpeg imgs).blocksAt c.compIdx) (g := fun _ => s.header.totalBlocks) fun c _ => blocksAt_le _
  rw [sum_map_const] at h
  exact Nat.le_trans h (Nat.mul_le_mul_right _ hc)

theorem scanLimits_le {J : JpegData} {n : Nat} : ∀ {l : List ScanInfo}, (∀ s ∈ l, s.comps.length ≤ 4) → (∀ s ∈ l, J.scanBlocks s ≤ n) →
    (l.map J.scanLimit).sum ≤ 18 * l.length + 8 * (l.map fun s => runsIn s.extraZeroRuns).sum + 1058 * (l.length * n)
  | [], _, _ => by simp
  | a :: l, h1, h2 => by
    have := scanLimits_le (fun s hs => h1 s (List.mem_cons_of_mem _ hs)) fun s hs => h2 s (List.mem_cons_of_mem _ hs)
    have ha1 := h1 a List.mem_cons_self
    have ha2 := h2 a List.mem_cons_self
    rw [List.map_cons, List.sum_cons, List.map_cons, List.sum_cons, List.length_cons]
    have e1 : (l.length + 1) * n = l.length * n + n := Nat.succ_mul _ _
    have e : J.scanLimit a = 10 + 2 * a.comps.length + 8 * runsIn a.extraZeroRuns + 1058 * J.scanBlocks a := rfl
    rw [e, e1]
    omega

theorem markerLimits_eq (J : JpegData) : ∀ l : List Nat, (l.map J.markerLimit).sum = l.length * (10 + 3 * J.components.length) + l.count 0xd9 * J.tailData.length
  | [] => by simp
  | m :: l => by
    rw [List.map_cons, List.sum_cons, markerLimits_eq J l, List.length_cons, List.count_cons]
    unfold JpegData.markerLimit
    have e1 : (l.length + 1) * (10 + 3 * J.components.length) = l.length * (10 + 3 * J.components.length) + (10 + 3 * J.components.length) := Nat.succ_mul _ _
    have e2 : (l.count 0xd9 + 1) * J.tailData.length = l.count 0xd9 * J.tailData.length + J.tailData.length := Nat.succ_mul _ _
    rw [e1]
    by_cases h : m = 0xd9
    · rw [if_pos h, if_pos (by simpa using h), e2]; omega
    · rw [if_neg h, if_neg (by simpa using h)]; simp only [Nat.add_zero]; omega

/-- **The size of what a file is restored to.** -/
theorem restored_length {m : Nat} {z : Inflater} {par : Codec} (hz : ∀ p, (par.decompress p).map List.flatten = z.whole p) {bs rest : List Nat} (hd : par.Expands bs.length m) {s : SectState} {J : JpegData}
    (h : decodeFile (fun h => some (SectState.init h)) (decBody par) bs = .ok (.image s) rest) (hJ : s.result = some J) {T : HSlot → CodeTable} {cs : List (List Nat)}
    (hw : writeJpeg T J = .ok cs) :
    cs.flatten.length ≤ m + 553 * bs.length + 2630471 + 4232 * (J.scans.length * s.header.totalBlocks) ∧ 22 * J.scans.length ≤ 8 * bs.length := by
  have hr := decodeFile_ready hz h
  obtain ⟨hok, hx, hmd⟩ := decodeFile_counted h
  replace hmd := hmd m hd
  obtain ⟨imgs, ha, he⟩ := Ready.result hr
  obtain ⟨hk, imgs', ha', hp⟩ := hr
  rw [ha] at ha'; cases ha'
  rw [he] at hJ
  cases hJ
  obtain ⟨x, hi⟩ := Option.isSome_iff_exists.mp (hk.has4 (by simp))
  have hc := hx x hi
  have hcnt := partJpeg_count hk (imgs := imgs) (by rw [hp.sized.1, metas_count hk (hk.has6 (by simp))])
  have hwhole := (partJpeg_dims hcnt).2
  have hfac : (s.partJpeg imgs).components.map (fun x => (x.hSamp, x.vSamp)) = s.header.comps := decComps_factors s.header hcnt
  have hsamp : (s.partJpeg imgs).Sampled := fun c hc => by
    have : (c.hSamp, c.vSamp) ∈ s.header.comps := by rw [← hfac]; exact List.mem_map.mpr ⟨c, hc, rfl⟩
    have := hok.factors _ this
    exact ⟨this.1, this.2.2.1⟩
  have es : (s.partJpeg imgs).scans = x.scans := by unfold SectState.partJpeg; rw [hi]; rfl
  have em : (s.partJpeg imgs).markerOrder = x.markers := by unfold SectState.partJpeg; rw [hi]; rfl
  have eh : (s.partJpeg imgs).huffman = x.huffman := by unfold SectState.partJpeg; rw [hi]; rfl
  have ei : (s.partJpeg imgs).interMarker = x.interMarker := by unfold SectState.partJpeg; rw [hi]; rfl
  have eq : (s.partJpeg imgs).quant.length ≤ x.quant.length := by
    unfold SectState.partJpeg
    rw [hi]
    simp only [Option.getD_some, List.length_map, List.length_zip]
    omega
  have hlen := writeJpeg_length hwhole hsamp (fun sc hs => (hc.scans sc (by rw [← es]; exact hs)).2) hw
  have hs := scanLimits_le (J := s.partJpeg imgs) (n := 4 * s.header.totalBlocks) (l := x.scans) (fun sc hsc => (hc.scans sc hsc).1) fun sc hsc => scanBlocks_le (hc.scans sc hsc).1
  have hm := markerLimits_eq (s.partJpeg imgs) x.markers
  have hh := huffBytes_le hc.huffman
  have hb := hc.bits
  have hq := hc.quant
  have hn := hc.inter
  rw [hc.eoi, hcnt, Nat.one_mul] at hm
  have h4 := hok.ncomp.2
  have hm' : x.markers.length * (10 + 3 * s.header.comps.length) ≤ x.markers.length * 22 := Nat.mul_le_mul_left _ (by omega)
  have ht : s.metadata.bytes = bytesIn (s.partJpeg imgs).appData + bytesIn (s.partJpeg imgs).comData + (s.partJpeg imgs).tailData.length := rfl
  have e4 : x.scans.length * (4 * s.header.totalBlocks) = 4 * (x.scans.length * s.header.totalBlocks) := by rw [Nat.mul_left_comm]
  rw [e4] at hs
  unfold JpegData.outputLimit at hlen
  rw [es, em, eh, ei] at hlen
  rw [es]
  refine ⟨?_, by omega⟩
  generalize x.scans.length * s.header.totalBlocks = B at *
  omega

end Brunsli
