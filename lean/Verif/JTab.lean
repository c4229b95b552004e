import Verif.JHoare
import Verif.JMatch
/-!
# Segments with tables

What the readers of Huffman codes, quantization tables, restart intervals, application data and comments accept, and which bytes they read.
-/

namespace Brunsli

open JM

/-! ## Huffman codes -/

theorem u8s_wp {d : List Nat} (n : Nat) : ∀ {p : Nat}, p + n ≤ d.length → (u8s n).Wp d p fun bs p' => p' = p + n ∧ bs = slice d p p' := by
  induction n with
  | zero => intro p _; rw [u8s, wp_pure]; exact ⟨rfl, by rw [slice_nil _ (by omega)]⟩
  | succ n ih =>
    intro p hp
    rw [u8s]
    simp only [wp_bind, wp_u8, wp_pure]
    refine ⟨by omega, (ih (p := p + 1) (by omega)).mono fun bs p' hq => ?_⟩
    refine ⟨by omega, ?_⟩
    rw [slice_cons _ (by omega), hq.2]

theorem dhtValues_wp {d : List Nat} (bound n : Nat) : ∀ {p : Nat} (seen : List Nat), p + n ≤ d.length →
    (dhtValues bound n seen).Wp d p fun vs p' => p' = p + n ∧ vs = slice d p p' ∧ vs.Nodup ∧ (∀ v ∈ vs, v < bound) ∧ ∀ v ∈ vs, v ∉ seen := by
  induction n with
  | zero =>
    intro p seen _
    rw [dhtValues, wp_pure]
    exact ⟨rfl, by rw [slice_nil _ (by omega)], List.nodup_nil, (fun _ h => (List.not_mem_nil h).elim), (fun _ h => (List.not_mem_nil h).elim)⟩
  | succ n ih =>
    intro p seen hp
    rw [dhtValues]
    simp only [wp_bind, wp_u8, wp_check, wp_pure, decide_eq_true_eq]
    refine ⟨by omega, fun hb hs => (ih (p := p + 1) (byteOf d p :: seen) (by omega)).mono fun bs p' hq => ?_⟩
    obtain ⟨e1, e2, e3, e4, e5⟩ := hq
    refine ⟨by omega, by rw [slice_cons _ (by omega), e2], List.nodup_cons.mpr ⟨fun h => e5 _ h List.mem_cons_self, e3⟩, ?_, ?_⟩
    · intro v hv
      rcases List.mem_cons.mp hv with rfl | hv
      · exact hb
      · exact e4 v hv
    · intro v hv
      rcases List.mem_cons.mp hv with rfl | hv
      · exact hs
      · exact fun h => e5 v hv (List.mem_cons_of_mem _ h)

theorem maxDepth_zero (cs : List Nat) : ∀ {i best : Nat}, (∀ k, cs.getD k 0 = 0) → maxDepth i best cs = best := by
  induction cs with
  | nil => intro i best _; rfl
  | cons c cs ih =>
    intro i best h
    have h0 : c = 0 := h 0
    rw [maxDepth, if_neg (not_not.mpr h0)]
    exact ih fun k => h (k + 1)

theorem maxDepth_eq (cs : List Nat) : ∀ {i best j : Nat}, cs.getD j 0 ≠ 0 → (∀ k, j < k → cs.getD k 0 = 0) → maxDepth i best cs = i + j := by
  induction cs with
  | nil => intro i best j h; simp at h
  | cons c cs ih =>
    intro i best j h1 h2
    rw [maxDepth]
    cases j with
    | zero =>
      have h0 : c ≠ 0 := h1
      rw [if_pos h0]
      exact maxDepth_zero _ fun k => h2 (k + 1) (by omega)
    | succ j =>
      rw [ih (j := j) h1 fun k hk => h2 (k + 1) (by omega)]
      omega

/-- The last length that has codes. -/
theorem maxDepth_spec (cs : List Nat) : ∀ (i best : Nat), (maxDepth i best cs = best ∧ ∀ k, cs.getD k 0 = 0) ∨
    ∃ j, j < cs.length ∧ maxDepth i best cs = i + j ∧ cs.getD j 0 ≠ 0 ∧ ∀ k, j < k → cs.getD k 0 = 0 := by
  induction cs with
  | nil => intro i best; exact Or.inl ⟨rfl, fun k => rfl⟩
  | cons c cs ih =>
    intro i best
    rw [maxDepth]
    rcases ih (i + 1) (if c ≠ 0 then i else best) with ⟨h1, h2⟩ | ⟨j, h1, h2, h3, h4⟩
    · by_cases hc : c = 0
      · left
        rw [if_neg (not_not.mpr hc)] at h1 ⊢
        refine ⟨h1, fun k => ?_⟩
        cases k with
        | zero => exact hc
        | succ k => exact h2 k
      · right
        rw [if_pos hc] at h1 ⊢
        refine ⟨0, by simp, h1, hc, fun k hk => ?_⟩
        obtain ⟨k, rfl⟩ : ∃ l, k = l + 1 := ⟨k - 1, by omega⟩
        exact h2 k
    · right
      refine ⟨j + 1, by simp; omega, by rw [h2]; omega, h3, fun k hk => ?_⟩
      obtain ⟨k, rfl⟩ : ∃ l, k = l + 1 := ⟨k - 1, by omega⟩
      exact h4 k (by omega)

theorem getD_modify (l : List Nat) (f : Nat → Nat) (d i : Nat) (h : d < l.length) : (l.modify d f).getD i 0 = if i = d then f (l.getD i 0) else l.getD i 0 := by
  rw [List.getD_eq_getElem?_getD, List.getElem?_modify, List.getD_eq_getElem?_getD]
  by_cases hi : d = i
  · subst hi
    rw [List.getElem?_eq_getElem h, if_pos rfl]
    simp
  · rw [if_neg (Ne.symm hi)]
    simp only [if_neg hi]
    cases l[i]? <;> rfl

theorem sum_modify (l : List Nat) : ∀ {d : Nat}, d < l.length → (l.modify d (· + 1)).sum = l.sum + 1 := by
  induction l with
  | nil => intro d h; cases h
  | cons a l ih =>
    intro d h
    cases d with
    | zero => simp only [List.modify_zero_cons, List.sum_cons]; omega
    | succ d =>
      simp only [List.modify_succ_cons, List.sum_cons]
      rw [ih (by simpa using h)]
      omega

theorem slot_facts : ∀ s < 256, (if s &&& 0x10 ≠ 0 then s - 0x10 else s) ≤ 3 →
    s % 16 < 4 ∧ s / 16 < 2 ∧ (s &&& 0x10 ≠ 0 ↔ s / 16 = 1) := by decide +kernel

theorem map_counts {counts : List Nat} (hb : ∀ c ∈ counts, c < 256) (hl : counts.length = 16) {d : Nat} (h1 : 1 ≤ d) (h16 : d ≤ 16) :
    ((List.range' 1 16).map fun i => (if i = d then ((0 :: counts).modify d (· + 1)).getD i 0 - 1 else ((0 :: counts).modify d (· + 1)).getD i 0) % 256) = counts := by
  apply List.ext_getElem
  · simp [hl]
  · intro i hi1 hi2
    rw [List.getElem_map, List.getElem_range', Nat.one_mul]
    rw [getD_modify _ _ _ _ (by simp [hl]; omega)]
    have e : (0 :: counts).getD (1 + i) 0 = counts[i] := by
      rw [Nat.add_comm, List.getD_cons_succ, List.getD_eq_getElem?_getD, List.getElem?_eq_getElem hi2]
      rfl
    rw [e]
    have := hb counts[i] (List.getElem_mem hi2)
    split <;> omega

/-- **A Huffman code**: what the reader accepts is in order, and is what the segment says. -/
theorem dhtCode_wp {d : List Nat} (hd : Bytes d) (stop p : Nat) :
    (dhtCode stop).Wp d p fun h p' => p' = p + 16 + h.counts.sum ∧ p' ≤ d.length ∧ h.Ok ∧ slice d p p' = dhtBytes h ∧ h.isLast = decide (p' = stop) := by
  unfold dhtCode
  simp only [wp_bind, wp_u8, wp_check, wp_need, wp_pure, wp_pos, decide_eq_true_eq]
  intro hn
  refine ⟨by omega, fun hslot => ?_⟩
  obtain ⟨s1, s2, s3⟩ := slot_facts _ (byteOf_lt hd p) hslot
  refine (u8s_wp 16 (by omega)).mono fun counts p1 hq => ?_
  obtain ⟨rfl, hc⟩ := hq
  intro htot hlen
  refine (dhtValues_wp _ _ _ hlen).mono fun vs p2 hq => ?_
  obtain ⟨rfl, hvs, hnd, hbd, -⟩ := hq
  intro hk
  have hcl : counts.length = 16 := by rw [hc, slice_length]; omega
  have hcb : ∀ c ∈ counts, c < 256 := by rw [hc]; exact slice_bytes hd _ _
  have hvl : vs.length = counts.sum := by rw [hvs, slice_length]; omega
  have hvb : ∀ c ∈ vs, c < 256 := by rw [hvs]; exact slice_bytes hd _ _
  -- the last length
  generalize hdd : maxDepth 1 1 counts = D at hk ⊢
  have hD : 1 ≤ D ∧ D ≤ 16 ∧ ∀ k, D < k → (0 :: counts).getD k 0 = 0 := by
    rcases maxDepth_spec counts 1 1 with ⟨e1, e2⟩ | ⟨j, e1, e2, e3, e4⟩
    · refine ⟨by omega, by omega, fun k hk => ?_⟩
      obtain ⟨k, rfl⟩ : ∃ l, k = l + 1 := ⟨k - 1, by omega⟩
      exact e2 k
    · refine ⟨by omega, by omega, fun k hk => ?_⟩
      obtain ⟨k, rfl⟩ : ∃ l, k = l + 1 := ⟨k - 1, by omega⟩
      exact e4 k (by omega)
  obtain ⟨D1, D16, Dz⟩ := hD
  have hl17 : (0 :: counts).length = 17 := by simp [hcl]
  have hsum : ((0 :: counts).modify D (· + 1)).sum = counts.sum + 1 := by
    rw [sum_modify _ (by omega), List.sum_cons]; omega
  have htot' : counts.sum ≤ 256 := by
    revert htot
    split <;> omega
  have hval : ∀ b, (⟨(0 :: counts).modify D (· + 1), vs ++ 256 :: List.replicate (256 - counts.sum) 0, byteOf d p, b⟩ : HuffCode).symbols = vs := by
    intro b
    unfold HuffCode.symbols
    show List.take (List.sum _ - 1) _ = _
    rw [hsum, Nat.add_sub_cancel, List.take_append_of_le_length (by omega), List.take_of_length_le (by omega)]
  have hml : dhtMaxLength ((0 :: counts).modify D (· + 1)) = D := by
    unfold dhtMaxLength
    rw [maxDepth_eq (j := D), Nat.zero_add]
    · rw [getD_modify _ _ _ _ (by omega), if_pos rfl]; omega
    · intro k hk
      rw [getD_modify _ _ _ _ (by omega), if_neg (by omega), Dz k hk]
  refine ⟨?_, by omega, ⟨⟨s1, s2⟩, ?_, ?_, ?_, ?_, ?_, ?_, ?_, ?_⟩, ?_, ?_⟩
  · show _ = p + 16 + List.sum _
    rw [hsum]; omega
  · show List.length _ = 17
    rw [List.length_modify, hl17]
  · show List.getD _ 0 0 = 0
    rw [getD_modify _ _ _ _ (by omega), if_neg (by omega)]
    rfl
  · show 1 ≤ List.sum _
    rw [hsum]; omega
  · exact hk
  · rw [hval]; exact hnd
  · rw [hval]
    intro v hv
    have := hbd v hv
    show v < if byteOf d p / 16 = 0 then 12 else 256
    by_cases hac : byteOf d p &&& 0x10 ≠ 0
    · rw [if_pos hac] at this
      rw [if_neg (by have := s3.mp hac; omega)]
      exact this
    · rw [if_neg hac] at this
      have h1 : ¬ byteOf d p / 16 = 1 := fun h => hac (s3.mpr h)
      rw [if_pos (by omega)]
      exact this
  · rw [hval]
    show _ = _ ++ 256 :: List.replicate (257 - List.sum _) 0
    rw [hsum, show 257 - (counts.sum + 1) = 256 - counts.sum by omega]
  · show List.length (_ ++ _) = 257
    simp only [List.length_append, List.length_cons, List.length_replicate]
    omega
  · unfold dhtBytes
    have e1 := map_counts hcb hcl D1 D16
    rw [hml, e1, hsum, Nat.add_sub_cancel, List.take_append_of_le_length (by omega), List.take_of_length_le (by omega)]
    rw [slice_cons _ (by omega), slice_append (a := p + 1) (b := p + 1 + 16) (by omega) (by omega), ← hc, ← hvs, Nat.mod_eq_of_lt (byteOf_lt hd p)]
    have e2 : vs.map (· % 256) = vs := by
      conv_rhs => rw [← List.map_id vs]
      exact List.map_congr_left fun v hv => Nat.mod_eq_of_lt (hvb v hv)
    rw [e2]
    rfl
  · trivial

/-- The lookup tables of the reader and the code tables of the writer agree. -/
def Tabs (lut : HSlot → JMem) (T : HSlot → CodeTable) : Prop := ∀ s, SlotMatch (lut s) (T s)

theorem HuffCode.Ok.slot_lt {h : HuffCode} (ok : h.Ok) : h.slot.2 < 4 := by
  have h1 := ok.slot
  have h2 : ∀ s < 32, s % 16 < 4 → (if s &&& 0x10 ≠ 0 then (true, s - 0x10) else (false, s) : HSlot).2 < 4 := by decide +kernel
  exact h2 _ (by omega) h1.1

theorem tabs_put {lut : HSlot → JMem} {T : HSlot → CodeTable} (h : Tabs lut T) {s0 : HSlot} {m : JMem} {t : CodeTable} (hm : SlotMatch m t) :
    Tabs (fun s => if s = s0 then m else lut s) (fun s => if s = s0 then t else T s) := by
  intro s
  by_cases hs : s = s0
  · simp only [if_pos hs]; exact hm
  · simp only [if_neg hs]; exact h s

/-- The loop over the codes of a segment. -/
theorem dhtLoop_wp {d : List Nat} (hd : Bytes d) {stop : Nat} (fuel : Nat) : ∀ {p : Nat} {hs : List HuffCode} {lut : HSlot → JMem} {T0 : HSlot → CodeTable}, Tabs lut T0 →
    1 ≤ fuel → stop + 1 ≤ p + fuel → p ≤ d.length →
    (dhtLoop stop fuel hs lut).Wp d p fun r p' => p ≤ p' ∧ p' ≤ d.length ∧ ∃ new, r.1 = hs ++ new ∧ (∀ h ∈ new, h.Ok) ∧ (∃ T, Tabs r.2 T) ∧ (stop ≤ p → new = [] ∧ r.2 = lut) ∧
      (p < stop → p' = stop → new ≠ [] ∧ ∀ (T : HSlot → CodeTable) (rest : List HuffCode), Tabs lut T →
        ∃ T', dhtWrite (new ++ rest) T = .ok (slice d p p', new.length, T') ∧ Tabs r.2 T' ∧ dhtLength (new ++ rest) = p' - p) := by
  induction fuel with
  | zero => intro p hs lut T0 _ h; omega
  | succ fuel ih =>
    intro p hs lut T0 hT _ hf hp
    rw [dhtLoop]
    simp only [wp_bind, wp_pos]
    by_cases hlt : p < stop
    · rw [if_pos hlt, wp_bind]
      refine (dhtCode_wp hd stop p).mono fun h p1 hq => ?_
      obtain ⟨e1, e2, ok, e3, e4⟩ := hq
      obtain ⟨m, t, hm, ht, hmt⟩ := slotMatch_dht (hT h.slot) ok
      rw [hm]
      dsimp only
      refine (ih (tabs_put hT (s0 := h.slot) hmt) (by omega) (by omega) e2).mono fun r p' hr => ?_
      obtain ⟨a1, a2, new, a3, a4, a5, a7, a6⟩ := hr
      refine ⟨by omega, a2, h :: new, by rw [a3, List.append_assoc]; rfl, ?_, a5, fun h => by omega, fun _ hstop => ⟨List.cons_ne_nil _ _, ?_⟩⟩
      · intro x hx
        rcases List.mem_cons.mp hx with rfl | hx
        · exact ok
        · exact a4 x hx
      · intro T rest hTT
        obtain ⟨m', t', hm', ht', hmt'⟩ := slotMatch_dht (hTT h.slot) ok
        rw [hm] at hm'
        cases hm'
        have hput := tabs_put hTT (s0 := h.slot) hmt'
        rw [List.cons_append, dhtWrite, if_neg (by have := ok.slot_lt; have := ok.total; omega), ht']
        show ∃ T', (if h.isLast then Run.ok (dhtBytes h, 1, _) else (dhtWrite (new ++ rest) _).bind fun r => .ok (dhtBytes h ++ r.1, r.2.1 + 1, r.2.2)) = _ ∧ _
        rw [dhtLength]
        by_cases hl : p1 = stop
        · -- the last one
          have hlast : h.isLast = true := by rw [e4, decide_eq_true_eq]; exact hl
          rw [if_pos hlast, if_pos hlast]
          have : p1 = p' := by omega
          subst this
          obtain ⟨rfl, b1⟩ := a7 (by omega)
          refine ⟨_, ?_, by rw [b1]; exact hput, by omega⟩
          rw [e3]
          rfl
        · have hlast : ¬ h.isLast = true := by rw [e4, decide_eq_true_eq]; exact hl
          rw [if_neg hlast, if_neg hlast]
          obtain ⟨-, b2⟩ := a6 (by omega) hstop
          obtain ⟨T', c1, c2, c3⟩ := b2 _ rest hput
          refine ⟨T', ?_, c2, by omega⟩
          rw [c1]
          show Run.ok _ = _
          rw [slice_append (a := p) (b := p1) (by omega) (by omega), e3]
          rfl
    · rw [if_neg hlt, wp_pure]
      exact ⟨Nat.le_refl _, hp, [], by simp, (fun _ h => (List.not_mem_nil h).elim), ⟨T0, hT⟩, fun _ => ⟨rfl, rfl⟩, fun h => absurd h hlt⟩

/-- **DHT segments**: the writer makes the segment from what the reader has added, and the tables stay in agreement. -/
theorem processDHT_wp {d : List Nat} (hd : Bytes d) {hs : List HuffCode} {lut : HSlot → JMem} {T0 : HSlot → CodeTable} (hT0 : Tabs lut T0) (p : Nat) (hp : p ≤ d.length) :
    (processDHT hs lut).Wp d p fun r p' => p ≤ p' ∧ p' ≤ d.length ∧ ∃ new, new ≠ [] ∧ r.1 = hs ++ new ∧ (∀ h ∈ new, h.Ok) ∧ (∃ T, Tabs r.2 T) ∧
      ∀ (T : HSlot → CodeTable) (rest : List HuffCode), Tabs lut T →
        ∃ T' bs, dhtWrite (new ++ rest) T = .ok (bs, new.length, T') ∧ Tabs r.2 T' ∧ bs.length = dhtLength (new ++ rest) ∧
          slice d p p' = be16 (2 + dhtLength (new ++ rest)) ++ bs := by
  unfold processDHT
  simp only [wp_bind, wp_pos, wp_need, wp_u16, wp_check, decide_eq_true_eq, wp_endsAt, wp_pure]
  intro hn
  refine ⟨by omega, fun hl => ?_⟩
  have hb := byteOf_lt hd
  refine (dhtLoop_wp hd _ hT0 (by omega) (by omega) (by omega)).mono fun r p' hr hend => ?_
  obtain ⟨a1, a2, new, a3, a4, a5, -, a6⟩ := hr
  obtain ⟨b1, b2⟩ := a6 (by omega) hend.symm
  refine ⟨by omega, a2, new, b1, a3, a4, a5, fun T rest hT => ?_⟩
  obtain ⟨T', c1, c2, c3⟩ := b2 T rest hT
  refine ⟨T', _, c1, c2, by rw [slice_length, c3], ?_⟩
  rw [c3, show 2 + (p' - (p + 2)) = byteOf d p * 256 + byteOf d (p + 1) by omega, be16_u16 (hb _) (hb _), slice_cons _ (by omega), slice_cons _ (by omega)]
  rfl

/-! ## Quantization tables -/

/-- A quantization table as the reader accepts it (c/enc/jpeg_data_reader.cc:353-369). -/
structure QuantTable.Ok (q : QuantTable) : Prop where
  length : q.values.length = 64
  range : ∀ v ∈ q.values, 1 ≤ v ∧ v ≤ 65535
  precision : q.precision ≤ 1
  small : q.precision = 0 → ∀ v ∈ q.values, v ≤ 255
  index : q.index ≤ 3

theorem dqtValues_wp {d : List Nat} (hd : Bytes d) (prec : Nat) (n : Nat) : ∀ {p : Nat}, p + (prec + 1) * n ≤ d.length → prec ≤ 1 →
    (dqtValues prec n).Wp d p fun vs p' => p' = p + (prec + 1) * n ∧ vs.length = n ∧ (∀ v ∈ vs, 1 ≤ v ∧ v ≤ 65535) ∧ (prec = 0 → ∀ v ∈ vs, v ≤ 255) ∧
      slice d p p' = vs.flatMap fun v => (if prec ≠ 0 then [v / 256 % 256] else []) ++ [v % 256] := by
  induction n with
  | zero =>
    intro p _ _
    rw [dqtValues, wp_pure]
    exact ⟨by omega, rfl, (fun _ h => (List.not_mem_nil h).elim), (fun _ _ h => (List.not_mem_nil h).elim), by rw [slice_nil _ (by omega)]; rfl⟩
  | succ n ih =>
    intro p hp hpr
    have hb := byteOf_lt hd
    rw [dqtValues]
    rw [Nat.mul_add, Nat.mul_one] at hp
    rw [Nat.mul_add, Nat.mul_one]
    by_cases h0 : prec = 0
    · subst h0
      simp only [wp_bind, wp_check, wp_pure, decide_eq_true_eq, if_pos, wp_u8]
      refine ⟨by omega, fun hv => (ih (p := p + 1) (by omega) hpr).mono fun vs p' hq => ?_⟩
      obtain ⟨e1, e2, e3, e4, e5⟩ := hq
      refine ⟨by omega, by simp [e2], ?_, ?_, ?_⟩
      · intro v hvm
        rcases List.mem_cons.mp hvm with rfl | hvm
        · exact hv
        · exact e3 v hvm
      · intro _ v hvm
        rcases List.mem_cons.mp hvm with rfl | hvm
        · have := hb p; omega
        · exact e4 rfl v hvm
      · rw [slice_cons _ (by omega), e5, List.flatMap_cons, Nat.mod_eq_of_lt (hb p)]
        rfl
    · have h1 : prec = 1 := by omega
      subst h1
      simp only [wp_bind, wp_check, wp_pure, decide_eq_true_eq, if_neg h0, wp_u16]
      refine ⟨by omega, fun hv => (ih (p := p + 2) (by omega) hpr).mono fun vs p' hq => ?_⟩
      obtain ⟨e1, e2, e3, e4, e5⟩ := hq
      refine ⟨by omega, by simp [e2], ?_, ?_, ?_⟩
      · intro v hvm
        rcases List.mem_cons.mp hvm with rfl | hvm
        · exact hv
        · exact e3 v hvm
      · intro h; exact absurd h h0
      · have b1 := hb p
        have b2 := hb (p + 1)
        rw [slice_cons _ (by omega), slice_cons _ (by omega), e5, List.flatMap_cons, if_pos h0, show (byteOf d p * 256 + byteOf d (p + 1)) / 256 % 256 = byteOf d p by omega,
          show (byteOf d p * 256 + byteOf d (p + 1)) % 256 = byteOf d (p + 1) by omega]
        simp

theorem foldl_set_length {js vs : List Nat} : ∀ {t : List Nat}, ((js.zip vs).foldl (fun t p => t.set p.1 p.2) t).length = t.length := by
  induction js generalizing vs with
  | nil => intro t; rfl
  | cons j js ih =>
    intro t
    cases vs with
    | nil => rfl
    | cons v vs => rw [List.zip_cons_cons, List.foldl_cons, ih, List.length_set]

theorem foldl_set_other {js vs : List Nat} {j : Nat} : ∀ {t : List Nat}, j ∉ js → ((js.zip vs).foldl (fun t p => t.set p.1 p.2) t).getD j 0 = t.getD j 0 := by
  induction js generalizing vs with
  | nil => intro t _; rfl
  | cons i js ih =>
    intro t hj
    cases vs with
    | nil => rfl
    | cons v vs =>
      rw [List.mem_cons, not_or] at hj
      rw [List.zip_cons_cons, List.foldl_cons, ih hj.2, List.getD_eq_getElem?_getD, List.getElem?_set_ne (Ne.symm hj.1), List.getD_eq_getElem?_getD]

theorem foldl_set_get {js vs : List Nat} : ∀ {t : List Nat}, js.Nodup → (∀ j ∈ js, j < t.length) → js.length = vs.length →
    (js.map fun j => ((js.zip vs).foldl (fun t p => t.set p.1 p.2) t).getD j 0) = vs := by
  induction js generalizing vs with
  | nil =>
    intro t _ _ h
    rw [List.eq_nil_of_length_eq_zero h.symm]
    rfl
  | cons j js ih =>
    intro t hn hb hl
    cases vs with
    | nil => cases hl
    | cons v vs =>
      rw [List.nodup_cons] at hn
      rw [List.zip_cons_cons, List.foldl_cons, List.map_cons, foldl_set_other hn.1, ih hn.2 (by intro i hi; rw [List.length_set]; exact hb i (List.mem_cons_of_mem _ hi)) (by simpa using hl)]
      rw [List.getD_eq_getElem?_getD, List.getElem?_set_self (hb j List.mem_cons_self)]
      rfl

/-- The values in the order of the segment are what was read. -/
theorem placeValues_get {vs : List Nat} (h : vs.length = 64) : (naturalOrder.map fun j => (placeValues vs).getD j 0) = vs :=
  foldl_set_get naturalOrder_nodup (by rw [List.length_replicate]; exact naturalOrder_lt) (by rw [h]; rfl)

theorem placeValues_length (vs : List Nat) : (placeValues vs).length = 64 := by
  unfold placeValues
  rw [foldl_set_length, List.length_replicate]

theorem placeValues_mem {vs : List Nat} (h : vs.length = 64) : ∀ v ∈ placeValues vs, v ∈ vs := by
  intro v hv
  obtain ⟨i, hi, rfl⟩ := List.getElem_of_mem hv
  have h64 : i < 64 := by rw [placeValues_length] at hi; exact hi
  have h1 : (placeValues vs).getD i 0 ∈ naturalOrder.map fun j => (placeValues vs).getD j 0 := List.mem_map.mpr ⟨i, naturalOrder_mem h64, rfl⟩
  rw [placeValues_get h, List.getD_eq_getElem?_getD, List.getElem?_eq_getElem hi] at h1
  exact h1

attribute [local irreducible] placeValues naturalOrder

/-- **A quantization table**: what the reader accepts is in order, and is what the segment says. -/
theorem dqtTable_wp {d : List Nat} (hd : Bytes d) (stop p : Nat) :
    (dqtTable stop).Wp d p fun q p' => p' = p + 1 + (if q.precision ≠ 0 then 2 else 1) * 64 ∧ p' ≤ d.length ∧ q.Ok ∧ slice d p p' = dqtBytes q ∧ q.isLast = decide (p' = stop) := by
  unfold dqtTable
  simp only [wp_bind, wp_u8, wp_check, wp_need, wp_pure, wp_pos, decide_eq_true_eq]
  intro hn
  refine ⟨by omega, fun h1 h2 h3 => ?_⟩
  refine (dqtValues_wp hd _ 64 h3 h1).mono fun vs p' hq => ?_
  obtain ⟨e1, e2, e3, e4, e5⟩ := hq
  have hb := byteOf_lt hd p
  refine ⟨?_, by omega, ⟨placeValues_length vs, ?_, h1, ?_, h2⟩, ?_, trivial⟩
  · show p' = p + 1 + (if byteOf d p / 16 ≠ 0 then 2 else 1) * 64
    by_cases h0 : byteOf d p / 16 = 0
    · rw [if_neg (not_not.mpr h0), e1, h0]
    · have h1' : byteOf d p / 16 = 1 := by clear e1 e2 e3 e4 e5; omega
      rw [if_pos h0, e1, h1']
  · exact fun v hv => e3 v (placeValues_mem e2 v hv)
  · exact fun h0 v hv => e4 h0 v (placeValues_mem e2 v hv)
  · unfold dqtBytes
    show slice d p p' = (byteOf d p / 16 * 16 + byteOf d p % 16) % 256 :: naturalOrder.flatMap fun j =>
      (if byteOf d p / 16 ≠ 0 then [(placeValues vs).getD j 0 / 256 % 256] else []) ++ [(placeValues vs).getD j 0 % 256]
    rw [show (byteOf d p / 16 * 16 + byteOf d p % 16) % 256 = byteOf d p by omega, slice_cons _ (by omega), e5]
    conv_lhs => rw [← placeValues_get e2, List.flatMap_map]

/-- The loop over the tables of a segment. -/
theorem dqtLoop_wp {d : List Nat} (hd : Bytes d) {stop : Nat} (fuel : Nat) : ∀ {p : Nat} {qs : List QuantTable}, 1 ≤ fuel → stop + 1 ≤ p + fuel → p ≤ d.length → qs.length ≤ 4 →
    (dqtLoop stop fuel qs).Wp d p fun r p' => p ≤ p' ∧ p' ≤ d.length ∧ r.length ≤ 4 ∧ ∃ new, r = qs ++ new ∧ (∀ q ∈ new, q.Ok) ∧ (stop ≤ p → new = []) ∧
      (p < stop → p' = stop → new ≠ [] ∧ ∀ (rest : List QuantTable), dqtWrite (new ++ rest) = .ok (slice d p p', new.length) ∧ dqtLength (new ++ rest) = p' - p) := by
  induction fuel with
  | zero => intro p qs h; omega
  | succ fuel ih =>
    intro p qs _ hf hp hqs
    rw [dqtLoop]
    simp only [wp_bind, wp_pos]
    by_cases hlt : p < stop ∧ qs.length < 4
    · rw [if_pos hlt, wp_bind]
      obtain ⟨hlt, h4⟩ := hlt
      refine (dqtTable_wp hd stop p).mono fun q p1 hq => ?_
      obtain ⟨e1, e2, ok, e3, e4⟩ := hq
      refine (ih (p := p1) (by omega) (by split at e1 <;> omega) e2 (by rw [List.length_append]; simp; omega)).mono fun r p' hr => ?_
      obtain ⟨a1, a2, a0, new, a3, a4, a5, a6⟩ := hr
      refine ⟨by omega, a2, a0, q :: new, by rw [a3, List.append_assoc]; rfl, ?_, fun h => by omega, fun _ hstop => ⟨List.cons_ne_nil _ _, ?_⟩⟩
      · intro x hx
        rcases List.mem_cons.mp hx with rfl | hx
        · exact ok
        · exact a4 x hx
      · intro rest
        rw [List.cons_append, dqtWrite, dqtLength]
        by_cases hl : p1 = stop
        · have hlast : q.isLast = true := by rw [e4, decide_eq_true_eq]; exact hl
          rw [if_pos hlast, if_pos hlast]
          have : p1 = p' := by omega
          subst this
          rw [a5 (by omega), e3]
          exact ⟨rfl, by omega⟩
        · have hlast : ¬ q.isLast = true := by rw [e4, decide_eq_true_eq]; exact hl
          rw [if_neg hlast, if_neg hlast]
          obtain ⟨-, b2⟩ := a6 (by split at e1 <;> omega) hstop
          obtain ⟨c1, c2⟩ := b2 rest
          rw [c1]
          refine ⟨?_, by omega⟩
          show Run.ok _ = _
          rw [slice_append (a := p) (b := p1) (by omega) (by omega), e3]
          rfl
    · rw [if_neg hlt, wp_pure]
      exact ⟨Nat.le_refl _, hp, hqs, [], by simp, (fun _ h => (List.not_mem_nil h).elim), fun _ => rfl, fun h1 h2 => by omega⟩

/-- **DQT segments**: the writer makes the segment from what the reader has added. -/
theorem processDQT_wp {d : List Nat} (hd : Bytes d) {qs : List QuantTable} (hqs : qs.length ≤ 4) (p : Nat) :
    (processDQT qs).Wp d p fun r p' => p ≤ p' ∧ p' ≤ d.length ∧ r.length ≤ 4 ∧ ∃ new, new ≠ [] ∧ r = qs ++ new ∧ (∀ q ∈ new, q.Ok) ∧
      ∀ (rest : List QuantTable), ∃ bs, dqtWrite (new ++ rest) = .ok (bs, new.length) ∧ bs.length = dqtLength (new ++ rest) ∧
          slice d p p' = be16 (2 + dqtLength (new ++ rest)) ++ bs := by
  unfold processDQT
  simp only [wp_bind, wp_pos, wp_need, wp_u16, wp_check, decide_eq_true_eq, wp_endsAt, wp_pure]
  intro hn
  refine ⟨by omega, fun hl => ?_⟩
  have hb := byteOf_lt hd
  refine (dqtLoop_wp hd _ (by omega) (by omega) (by omega) hqs).mono fun r p' hr hend => ?_
  obtain ⟨a1, a2, a0, new, a3, a4, -, a6⟩ := hr
  obtain ⟨b1, b2⟩ := a6 (by omega) hend.symm
  refine ⟨by omega, a2, a0, new, b1, a3, a4, fun rest => ?_⟩
  obtain ⟨c1, c3⟩ := b2 rest
  refine ⟨_, c1, by rw [slice_length, c3], ?_⟩
  rw [c3, show 2 + (p' - (p + 2)) = byteOf d p * 256 + byteOf d (p + 1) by omega, be16_u16 (hb _) (hb _), slice_cons _ (by omega), slice_cons _ (by omega)]
  rfl

/-! ## The rest -/

theorem processDRI_wp {d : List Nat} (hd : Bytes d) (found : Bool) (p : Nat) :
    (processDRI found).Wp d p fun r p' => p ≤ p' ∧ p' ≤ d.length ∧ found = false ∧ r < 65536 ∧ slice d p p' = [0, 4] ++ be16 r := by
  unfold processDRI
  simp only [wp_bind, wp_pos, wp_need, wp_u16, wp_check, wp_endsAt, wp_pure]
  intro hf hn
  refine ⟨by omega, by omega, fun hend => ?_⟩
  have hb := byteOf_lt hd
  have b1 := hb p
  have b2 := hb (p + 1)
  have b3 := hb (p + 2)
  have b4 := hb (p + 2 + 1)
  refine ⟨by omega, by omega, by simpa using hf, by omega, ?_⟩
  have h1 : byteOf d p = 0 := by omega
  have h2 : byteOf d (p + 1) = 4 := by omega
  rw [be16_u16 b3 b4, slice_cons _ (by omega), slice_cons _ (by omega), slice_cons _ (by omega), slice_cons _ (by omega), slice_nil _ (by omega), h1, h2]
  rfl

/-- **APP and COM segments** are kept as they are, from the second byte of the marker on. -/
theorem processBlob_wp {d : List Nat} (p : Nat) (hp : 1 ≤ p) (hd : Bytes d) :
    processBlob.Wp d p fun r p' => p ≤ p' ∧ p' ≤ d.length ∧ r = slice d (p - 1) p' ∧ 3 ≤ r.length ∧ r.getD 1 0 * 256 + r.getD 2 0 + 1 = r.length := by
  unfold processBlob
  simp only [wp_bind, wp_need, wp_u16, wp_check, decide_eq_true_eq]
  intro hn
  refine ⟨by omega, fun h2 hl => ?_⟩
  obtain ⟨len, hlen⟩ : ∃ len, byteOf d p * 256 + byteOf d (p + 1) = len := ⟨_, rfl⟩
  rw [hlen] at h2 hl ⊢
  simp only [Wp, blobOf]
  refine ⟨by omega, by omega, ?_, ?_, ?_⟩
  · rw [show p + 2 - 3 = p - 1 by omega, show p - 1 + (len + 1) = p + 2 + (len - 2) by omega]
  · rw [slice_length]; omega
  · rw [slice_length, slice_cons _ (by omega), slice_cons _ (by omega), slice_cons _ (by omega), List.getD_cons_succ, List.getD_cons_succ, List.getD_cons_zero, List.getD_cons_succ, List.getD_cons_zero,
      show p + 2 - 3 + 1 = p by omega, hlen]
    omega

end Brunsli
