import Verif.JRefine
/-!
# The calls of `WriteBits` are well formed

Groups of 1 to 16 bits whose value has no further bits, and symbols below 256.
-/

namespace Brunsli

def WReq.Ok : WReq → Prop
  | .sym _ v => v < 256
  | .bits n v => 1 ≤ n ∧ n ≤ 16 ∧ v < 2 ^ n

def ReqsOk (l : List WReq) : Prop := ∀ r ∈ l, r.Ok

theorem ReqsOk.nil : ReqsOk [] := fun _ h => by cases h

theorem ReqsOk.append {a b : List WReq} (h1 : ReqsOk a) (h2 : ReqsOk b) : ReqsOk (a ++ b) := by
  intro r hr
  rcases List.mem_append.mp hr with h | h
  · exact h1 r h
  · exact h2 r h

theorem ReqsOk.cons {r : WReq} {l : List WReq} (h1 : r.Ok) (h2 : ReqsOk l) : ReqsOk (r :: l) := by
  intro x hx
  rcases List.mem_cons.mp hx with h | h
  · rw [h]; exact h1
  · exact h2 x h

theorem ReqsOk.zrls (ac : HSlot) (n : Nat) : ReqsOk (List.replicate n (.sym ac 0xf0)) := by
  intro r hr
  rw [List.eq_of_mem_replicate hr]
  show 0xf0 < 256
  decide

theorem ReqsOk.bits1 (buf : List Bool) : ReqsOk (buf.map fun b => .bits 1 b.toNat) := by
  intro r hr
  obtain ⟨b, -, rfl⟩ := List.mem_map.mp hr
  refine ⟨Nat.le_refl _, by omega, ?_⟩
  cases b <;> decide

/-- The buffer holds 16-bit words, and a rest without further bits. -/
structure CS.Fit (s : CS) : Prop where
  wf : s.Wf
  cnt : s.count ≤ 63 * s.eob
  words : ∀ w ∈ s.words, w < 65536
  rest : s.count % 16 ≠ 0 → s.words.getLastD 0 < 2 ^ (s.count % 16)
  eob : s.eob < 0x7FFF

theorem eobReqs_ok {t : HSlot} {n : Nat} (h1 : 1 ≤ n) (h : n ≤ 0x7FFF) : ReqsOk (eobReqs t n) := by
  unfold eobReqs
  have hl : Nat.log2 n < 15 := (Nat.log2_lt (by omega)).mpr (by omega)
  refine ReqsOk.cons (show 16 * Nat.log2 n < 256 by omega) ?_
  split
  · exact ReqsOk.cons ⟨by omega, by omega, Nat.mod_lt _ (Nat.two_pow_pos _)⟩ ReqsOk.nil
  · exact ReqsOk.nil

theorem CS.flush_ok {s : CS} (hw : ∀ w ∈ s.words, w < 65536) (hr : s.count % 16 ≠ 0 → s.words.getLastD 0 < 2 ^ (s.count % 16)) (he : s.eob ≤ 0x7FFF) :
    ReqsOk s.flush.1 ∧ s.flush.2.Fit := by
  refine ⟨?_, (CS.flush_wf s).1, Nat.zero_le _, (by intro w hw; cases hw), (by intro h; exact absurd rfl h), (by show 0 < _; omega)⟩
  unfold CS.flush
  refine ReqsOk.append (ReqsOk.append ?_ ?_) ?_
  · split
    · exact eobReqs_ok (by omega) he
    · exact ReqsOk.nil
  · intro r hr
    obtain ⟨w, hw', rfl⟩ := List.mem_map.mp hr
    exact ⟨by omega, Nat.le_refl _, hw w (List.mem_of_mem_take hw')⟩
  · split
    · rename_i h
      exact ReqsOk.cons ⟨by omega, by omega, hr h⟩ ReqsOk.nil
    · exact ReqsOk.nil

theorem CS.Fit.flush {s : CS} (h : s.Fit) : ReqsOk s.flush.1 ∧ s.flush.2.Fit := CS.flush_ok h.words h.rest (by have := h.eob; omega)

theorem fullWords_lt {v n w : Nat} (h : w ∈ fullWords v n) : w < 65536 := by
  unfold fullWords at h
  obtain ⟨i, -, rfl⟩ := List.mem_map.mp h
  exact Nat.mod_lt _ (by omega)

theorem CS.append_fit {s : CS} (hw : ∀ w ∈ s.words, w < 65536) (hr : s.count % 16 ≠ 0 → s.words.getLastD 0 < 2 ^ (s.count % 16)) (bs : List Bool) :
    (∀ w ∈ (s.append bs).words, w < 65536) ∧ ((s.append bs).count % 16 ≠ 0 → (s.append bs).words.getLastD 0 < 2 ^ ((s.append bs).count % 16)) := by
  unfold CS.append
  split
  · exact ⟨hw, hr⟩
  · simp only
    generalize hsb : (if s.count % 16 ≠ 0 then min (16 - s.count % 16) bs.length else 0) = sb
    have hrest : ∀ n, ∀ w ∈ (if n % 16 ≠ 0 then [ofMsb bs % 2 ^ (n % 16)] else []), w < 65536 := by
      intro n w hw
      split at hw
      · rw [List.mem_singleton.mp hw]
        have h1 := Nat.mod_lt (ofMsb bs) (Nat.two_pow_pos (n % 16))
        have h2 : 2 ^ (n % 16) ≤ 2 ^ 16 := Nat.pow_le_pow_right (by omega) (by omega)
        omega
      · cases hw
    refine ⟨?_, ?_⟩
    · intro w hw'
      rcases List.mem_append.mp hw' with h | h
      · rcases List.mem_append.mp h with h | h
        · split at h
          · rcases List.mem_append.mp h with h | h
            · exact hw w (List.dropLast_subset _ h)
            · rw [List.mem_singleton.mp h]
              exact Nat.mod_lt _ (by omega)
          · exact hw w h
        · exact fullWords_lt h
      · exact hrest _ w h
    · intro hne
      by_cases hm : (bs.length - sb) % 16 = 0
      · -- the last word is the one that was completed in part
        have hc : s.count % 16 ≠ 0 := by
          intro h0
          rw [if_neg (by omega)] at hsb
          omega
        rw [if_pos hc] at hsb
        have hlt : sb = bs.length := by omega
        rw [if_neg (show ¬ (bs.length - sb) % 16 ≠ 0 by omega), if_pos hc, List.append_nil]
        have hf : fullWords (ofMsb bs) (bs.length - sb) = [] := by
          unfold fullWords
          rw [show (bs.length - sb) / 16 = 0 by omega]
          rfl
        rw [hf, List.append_nil, List.getLastD_concat]
        have h1 := hr hc
        have h2 := Nat.mod_lt (ofMsb bs / 2 ^ (bs.length - sb)) (Nat.two_pow_pos sb)
        have h3 : (s.words.getLastD 0 * 2 ^ sb + ofMsb bs / 2 ^ (bs.length - sb) % 2 ^ sb) < 2 ^ ((s.count + bs.length) % 16) := by
          rw [show (s.count + bs.length) % 16 = s.count % 16 + sb by omega, Nat.pow_add]
          calc _ < s.words.getLastD 0 * 2 ^ sb + 2 ^ sb := by omega
            _ = (s.words.getLastD 0 + 1) * 2 ^ sb := by rw [Nat.add_mul, Nat.one_mul]
            _ ≤ _ := Nat.mul_le_mul_right _ (by omega)
        exact lt_of_le_of_lt (Nat.mod_le _ _) h3
      · rw [if_pos hm, List.getLastD_concat]
        have : (s.count + bs.length) % 16 = (bs.length - sb) % 16 := by
          split at hsb <;> omega
        rw [this]
        exact Nat.mod_lt _ (Nat.two_pow_pos _)

theorem CS.Fit.buffer {s : CS} (h : s.Fit) (ac : HSlot) {bs : List Bool} (hbs : bs.length ≤ 63) : ReqsOk (s.buffer ac bs).2.1 ∧ (s.buffer ac bs).2.2.Fit := by
  have hwf := h.wf
  have hcnt := h.cnt
  have heob := h.eob
  have key : ∃ s1 : CS, s1.Wf ∧ s1.eob = s.eob ∧ s1.count = s.count ∧ s1.words = s.words ∧
      s.buffer ac bs = (let s2 := CS.append { s1 with eob := s1.eob + 1 } bs
        if 0x7FFF * 63 < s2.count then (false, [], s2) else if s2.eob = 0x7FFF then (true, s2.flush) else (true, [], s2)) := by
    by_cases h0 : s.eob = 0
    · refine ⟨{ s with tbl := ac }, hwf, rfl, rfl, rfl, ?_⟩
      unfold CS.buffer
      simp only
      rw [if_pos h0]
    · refine ⟨s, hwf, rfl, rfl, rfl, ?_⟩
      unfold CS.buffer
      simp only
      rw [if_neg h0]
  obtain ⟨s1, w1, w2, w3, w4, hb⟩ := key
  obtain ⟨a1, a2, a3, a4, a5⟩ := CS.append_spec (s := { s1 with eob := s1.eob + 1 }) w1 bs
  obtain ⟨f1, f2⟩ := CS.append_fit (s := { s1 with eob := s1.eob + 1 }) (by rw [w4]; exact h.words) (by simp only; rw [w3, w4]; exact h.rest) bs
  rw [hb]
  simp only at a2 a3 a4 a5 ⊢
  generalize CS.append { s1 with eob := s1.eob + 1 } bs = s2 at *
  rw [if_neg (by omega)]
  by_cases he : s2.eob = 0x7FFF
  · rw [if_pos he]
    exact CS.flush_ok f1 f2 (by omega)
  · rw [if_neg he]
    exact ⟨ReqsOk.nil, ⟨a1, by simp only; omega, f1, f2, by simp only; omega⟩⟩

theorem toNat_mod_lt (x : Int) (n : Nat) : (x % 2 ^ n).toNat < 2 ^ n := by
  have h : (0 : Int) < 2 ^ n := Int.pow_pos (by decide)
  have h1 := Int.emod_lt_of_pos x h
  have h2 := Int.emod_nonneg x (Int.ne_of_gt h)
  have h3 : ((2 ^ n : Nat) : Int) = 2 ^ n := by norm_cast
  omega

theorem acReqs_ok {ac : HSlot} {r a : Nat} {neg : Bool} (h0 : a ≠ 0) (h : a < 32768) : ReqsOk (acReqs ac r a neg) := by
  unfold acReqs
  simp only
  have : Nat.log2 a < 15 := (Nat.log2_lt h0).mpr h
  exact ReqsOk.append (ReqsOk.zrls _ _) (ReqsOk.cons (show 16 * (r % 16) + (Nat.log2 a + 1) < 256 by omega)
    (ReqsOk.cons ⟨by omega, by omega, toNat_mod_lt _ _⟩ ReqsOk.nil))

theorem dcReqs_ok {dc : HSlot} {t : Int} (h1 : -32768 < t) (h2 : t < 32768) : ReqsOk (dcReqs dc t) := by
  unfold dcReqs
  simp only
  have ha : (if t < 0 then i16 (-t) else t) = (t.natAbs : Int) := by
    split
    · rw [i16_of_range (by omega) (by omega)]; omega
    · omega
  rw [ha]
  have hm : ((t.natAbs : Int) % 2 ^ 32).toNat = t.natAbs := by omega
  rw [hm]
  have hnb : (if (t.natAbs : Int) = 0 then 0 else Nat.log2 t.natAbs + 1) ≤ 16 := by
    split
    · omega
    · have : Nat.log2 t.natAbs < 16 := (Nat.log2_lt (by omega)).mpr (by omega)
      omega
  generalize (if (t.natAbs : Int) = 0 then 0 else Nat.log2 t.natAbs + 1) = nb at *
  refine ReqsOk.cons (show nb < 256 by omega) ?_
  by_cases hp : 0 < nb
  · rw [if_pos hp]
    exact ReqsOk.cons ⟨by omega, hnb, toNat_mod_lt _ _⟩ ReqsOk.nil
  · rw [if_neg hp]
    exact ReqsOk.nil

/-- The absolute values of the AC coefficients have 15 bits. -/
def Blk.Small (F : Blk) : Prop := ∀ k, 1 ≤ k → (F k).natAbs < 32768

theorem Blk.Small.div {F : Blk} (h : F.Small) {k : Nat} (hk : 1 ≤ k) (Al : Nat) : (F k).natAbs / 2 ^ Al < 32768 := lt_of_le_of_lt (Nat.div_le_self _ _) (h k hk)

theorem progAC_ok {ac : HSlot} {Al : Nat} {F : Blk} (hF : F.Small) (n : Nat) : ∀ {k r : Nat} {s : CS}, 1 ≤ k → s.Fit →
    ReqsOk (progAC ac Al F n k r s).1 ∧ (progAC ac Al F n k r s).2.2.Fit := by
  induction n with
  | zero => intro k r s _ h; exact ⟨ReqsOk.nil, h⟩
  | succ n ih =>
    intro k r s hk h
    rw [progAC]
    by_cases hz : (F k).natAbs / 2 ^ Al = 0
    · rw [if_pos hz]; exact ih (Nat.succ_le_succ (Nat.zero_le _)) h
    · rw [if_neg hz]
      obtain ⟨f1, f2⟩ := h.flush
      obtain ⟨i1, i2⟩ := ih (k := k + 1) (r := 0) (Nat.succ_le_succ (Nat.zero_le _)) f2
      exact ⟨ReqsOk.append (ReqsOk.append f1 (acReqs_ok hz (hF.div hk Al))) i1, i2⟩

theorem progTail_ok {ac : HSlot} {allowed : Bool} {nzr r : Nat} {s : CS} (h : s.Fit) :
    ReqsOk (progTail ac allowed nzr r s).1 ∧ (progTail ac allowed nzr r s).2.Fit := by
  unfold progTail
  simp only
  have key : ∃ p : List WReq × CS, p = (if 0 < nzr then (s.flush.1 ++ List.replicate nzr (.sym ac 0xf0), s.flush.2) else ([], s)) ∧ ReqsOk p.1 ∧ p.2.Fit := by
    by_cases hn : 0 < nzr
    · refine ⟨_, rfl, ?_⟩
      rw [if_pos hn]
      exact ⟨ReqsOk.append h.flush.1 (ReqsOk.zrls _ _), h.flush.2⟩
    · refine ⟨_, rfl, ?_⟩
      rw [if_neg hn]
      exact ⟨ReqsOk.nil, h⟩
  obtain ⟨p, hp, p1, p2⟩ := key
  rw [← hp]
  obtain ⟨b1, b2⟩ := p2.buffer ac (bs := []) (by simp)
  split
  · cases allowed
    · simp only [Bool.false_eq_true, if_false]
      exact ⟨ReqsOk.append (ReqsOk.append p1 b1) b2.flush.1, b2.flush.2⟩
    · simp only [if_true]
      exact ⟨ReqsOk.append p1 b1, b2⟩
  · exact ⟨p1, p2⟩

theorem progRest_ok {ac : HSlot} {Ss Se Al : Nat} {allowed : Bool} {nzr : Nat} {F : Blk} {s : CS} (hS : 1 ≤ Ss) (hF : F.Small) (h : s.Fit) :
    ReqsOk (progRest ac Ss Se Al allowed nzr F s).1 ∧ (progRest ac Ss Se Al allowed nzr F s).2.Fit := by
  unfold progRest
  split
  · exact ⟨ReqsOk.nil, h⟩
  · obtain ⟨p1, p2⟩ := progAC_ok (ac := ac) (Al := Al) hF (Se + 1 - Ss) (k := Ss) (r := 0) hS h
    obtain ⟨t1, t2⟩ := progTail_ok (ac := ac) (allowed := allowed) (nzr := nzr) (r := (progAC ac Al F (Se + 1 - Ss) Ss 0 s).2.1) p2
    exact ⟨ReqsOk.append p1 t1, t2⟩

theorem seqAC_ok {ac : HSlot} {F : Blk} (hF : F.Small) (n : Nat) : ∀ {k r : Nat}, 1 ≤ k → ReqsOk (seqAC ac F n k r).1 := by
  induction n with
  | zero => intro k r _; exact ReqsOk.nil
  | succ n ih =>
    intro k r hk
    rw [seqAC]
    by_cases hz : F k = 0
    · rw [if_pos hz]; exact ih (Nat.succ_le_succ (Nat.zero_le _))
    · rw [if_neg hz]
      exact ReqsOk.append (acReqs_ok (by omega) (hF k hk)) (ih (Nat.succ_le_succ (Nat.zero_le _)))

theorem encSeq_ok {dc ac : HSlot} {nzr : Nat} {last : Int} {F : Blk} (hF : F.Small) (hd : ReqsOk (dcReqs dc (i16 (F 0 - last)))) :
    ReqsOk (encSeq dc ac nzr last F).1 := by
  unfold encSeq
  simp only
  refine ReqsOk.append (ReqsOk.append (ReqsOk.append hd (seqAC_ok hF _ (Nat.le_refl _))) (ReqsOk.zrls _ _)) ?_
  split
  · exact ReqsOk.cons (show 0 < 256 by decide) ReqsOk.nil
  · exact ReqsOk.nil

theorem encProg_ok {dc ac : HSlot} {Ss Se Al nzr : Nat} {last : Int} {F : Blk} {s : CS} (hF : F.Small) (h : s.Fit)
    (hd : Ss = 0 → ReqsOk (dcReqs dc (i16 (i16 (F 0 / 2 ^ Al) - last)))) :
    ReqsOk (encProg dc ac Ss Se Al nzr last F s).1 ∧ (encProg dc ac Ss Se Al nzr last F s).2.2.Fit := by
  unfold encProg
  by_cases h0 : Ss = 0
  · rw [if_pos h0]
    obtain ⟨p1, p2⟩ := progRest_ok (ac := ac) (Ss := 1) (Se := Se) (Al := Al) (allowed := false) (nzr := nzr) (Nat.le_refl _) hF h
    exact ⟨ReqsOk.append (hd h0) p1, p2⟩
  · rw [if_neg h0]
    exact progRest_ok (by omega) hF h

theorem refZrl_ok {ac : HSlot} (q : Nat) : ∀ {buf : List Bool} {s : CS}, s.Fit → ReqsOk (refZrl ac q buf s).1 ∧ (refZrl ac q buf s).2.2.Fit ∧ (refZrl ac q buf s).2.1.length ≤ buf.length := by
  induction q with
  | zero => intro buf s h; exact ⟨ReqsOk.nil, h, Nat.le_refl _⟩
  | succ q ih =>
    intro buf s h
    rw [refZrl]
    obtain ⟨f1, f2⟩ := h.flush
    obtain ⟨i1, i2, i3⟩ := ih (buf := []) f2
    exact ⟨ReqsOk.append (ReqsOk.append (ReqsOk.append f1 (ReqsOk.cons (show 0xf0 < 256 by decide) ReqsOk.nil)) (ReqsOk.bits1 buf)) i1, i2, by simp only [List.length_nil] at i3; simp only; omega⟩

theorem eobIndex_ge {Al : Nat} {F : Blk} (n : Nat) : ∀ {k eob : Nat}, eob < k → eob ≤ eobIndex Al F n k eob ∧
    ∀ j, k ≤ j → j < k + n → (F j).natAbs / 2 ^ Al = 1 → j ≤ eobIndex Al F n k eob := by
  induction n with
  | zero => intro k eob _; exact ⟨Nat.le_refl _, fun j h1 h2 => by omega⟩
  | succ n ih =>
    intro k eob he
    rw [eobIndex]
    by_cases hk : (F k).natAbs / 2 ^ Al = 1
    · rw [if_pos hk]
      obtain ⟨h1, h2⟩ := ih (k := k + 1) (eob := k) (by omega)
      refine ⟨by omega, fun j a b c => ?_⟩
      by_cases e : j = k
      · omega
      · exact h2 j (by omega) (by omega) c
    · rw [if_neg hk]
      obtain ⟨h1, h2⟩ := ih (k := k + 1) (eob := eob) (by omega)
      refine ⟨h1, fun j a b c => ?_⟩
      by_cases e : j = k
      · rw [e] at c; exact absurd c hk
      · exact h2 j (by omega) (by omega) c

theorem refEnc_ok {ac : HSlot} {Al eobk : Nat} {F : Blk} (n : Nat) : ∀ {k r : Nat} {buf : List Bool} {s : CS},
    (∀ j, k ≤ j → j < k + n → (F j).natAbs / 2 ^ Al = 1 → j ≤ eobk) → s.Fit →
    ReqsOk (refEnc ac Al eobk F n k r buf s).1 ∧ (refEnc ac Al eobk F n k r buf s).2.2.2.Fit ∧ (refEnc ac Al eobk F n k r buf s).2.2.1.length ≤ buf.length + n := by
  induction n with
  | zero => intro k r buf s _ h; exact ⟨ReqsOk.nil, h, Nat.le_refl _⟩
  | succ n ih =>
    intro k r buf s hk h
    have hk' : ∀ j, k + 1 ≤ j → j < k + 1 + n → (F j).natAbs / 2 ^ Al = 1 → j ≤ eobk := fun j a b => hk j (by omega) (by omega)
    rw [refEnc]
    simp only
    by_cases hz : (F k).natAbs / 2 ^ Al = 0
    · rw [if_pos hz]
      obtain ⟨i1, i2, i3⟩ := ih (k := k + 1) (r := r + 1) (buf := buf) hk' h
      exact ⟨i1, i2, by omega⟩
    · rw [if_neg hz]
      have hzr : ∃ z : List WReq × List Bool × CS, z = (if k ≤ eobk then refZrl ac (r / 16) buf s else ([], buf, s)) ∧ ReqsOk z.1 ∧ z.2.2.Fit ∧ z.2.1.length ≤ buf.length := by
        refine ⟨_, rfl, ?_⟩
        split
        · exact refZrl_ok _ h
        · exact ⟨ReqsOk.nil, h, Nat.le_refl _⟩
      obtain ⟨z, hze, z1, z2, z3⟩ := hzr
      rw [← hze]
      split
      · obtain ⟨i1, i2, i3⟩ := ih (k := k + 1) (r := if k ≤ eobk then r % 16 else r) (buf := z.2.1 ++ [decide ((F k).natAbs / 2 ^ Al % 2 = 1)]) hk' z2
        refine ⟨ReqsOk.append z1 i1, i2, ?_⟩
        simp only [List.length_append, List.length_cons, List.length_nil] at i3
        simp only
        omega
      · rename_i ha
        obtain ⟨f1, f2⟩ := z2.flush
        obtain ⟨i1, i2, i3⟩ := ih (k := k + 1) (r := 0) (buf := []) hk' f2
        have hke : k ≤ eobk := hk k (Nat.le_refl _) (by omega) (Nat.le_antisymm (Nat.le_of_not_lt ha) (Nat.pos_of_ne_zero hz))
        rw [if_pos hke]
        refine ⟨ReqsOk.append (ReqsOk.append (ReqsOk.append (ReqsOk.append z1 f1) (ReqsOk.cons (show 16 * (r % 16) + 1 < 256 by omega) (ReqsOk.cons ⟨by omega, by omega, ?_⟩ ReqsOk.nil))) (ReqsOk.bits1 _)) i1, i2, ?_⟩
        · split <;> decide
        · simp only [List.length_nil] at i3
          simp only
          omega

theorem encRefine_ok {ac : HSlot} {Ss Se Al : Nat} {F : Blk} {s : CS} {p : List WReq × CS} (hSe : Se ≤ 63) (h : s.Fit) (hp : encRefine ac Ss Se Al F s = some p) :
    ReqsOk p.1 ∧ p.2.Fit := by
  have key : ∀ {Ss : Nat} {allowed : Bool} {p : List WReq × CS}, 1 ≤ Ss → refEncRest ac Ss Se Al allowed F s = some p → ReqsOk p.1 ∧ p.2.Fit := by
    intro Ss allowed p hSs hp
    unfold refEncRest at hp
    split at hp
    · cases hp
      exact ⟨ReqsOk.nil, h⟩
    · simp only at hp
      obtain ⟨r1, r2, r3⟩ := refEnc_ok (ac := ac) (Al := Al) (eobk := eobIndex Al F (Se + 1 - Ss) Ss 0) (F := F) (Se + 1 - Ss) (k := Ss) (r := 0) (buf := []) (eobIndex_ge _ (by omega)).2 h
      generalize refEnc ac Al (eobIndex Al F (Se + 1 - Ss) Ss 0) F (Se + 1 - Ss) Ss 0 [] s = q at *
      simp only [List.length_nil] at r3
      split at hp
      · obtain ⟨b1, b2⟩ := r2.buffer ac (bs := q.2.2.1) (by omega)
        split at hp
        · split at hp
          · cases hp
            exact ⟨ReqsOk.append r1 b1, b2⟩
          · cases hp
            exact ⟨ReqsOk.append (ReqsOk.append r1 b1) b2.flush.1, b2.flush.2⟩
        · cases hp
      · cases hp
        exact ⟨r1, r2⟩
  unfold encRefine at hp
  split at hp
  · cases hq : refEncRest ac 1 Se Al false F s with
    | none => rw [hq] at hp; cases hp
    | some q =>
      rw [hq] at hp
      cases hp
      obtain ⟨k1, k2⟩ := key (Nat.le_refl _) hq
      refine ⟨ReqsOk.cons ⟨by omega, by omega, ?_⟩ k1, k2⟩
      omega
  · exact key (by omega) hp

end Brunsli
