import Verif.JScan
import Verif.JEntropy
/-!
# How much a scan writes

Bounds on the number of calls of `WriteBits` that a scan makes (c/dec/jpeg_data_writer.cc:506-844), and on the bytes that come of them.
-/

namespace Brunsli

/-! ## Bits and bytes -/

/-- Four for every byte written, one for every bit that waits: a byte may be stuffed. -/
def BW.bulk (w : BW) : Nat := 4 * w.out.length + (64 - w.left)

theorem BW.reserve_out (w : BW) (n : Nat) : (w.reserve n).out = w.out ∧ (w.reserve n).left = w.left := by
  unfold BW.reserve
  split
  · exact ⟨by simp [BW.out], rfl⟩
  · exact ⟨rfl, rfl⟩

theorem BW.push_bulk {w w' : BW} {bs : List Nat} (h : w.push bs = .ok w') : w'.out.length = w.out.length + bs.length ∧ w'.left = w.left := by
  unfold BW.push at h
  split at h
  · cases h
    exact ⟨by simp [BW.out]; omega, rfl⟩
  · cases h

theorem BW.emitByte_bulk {w w' : BW} {b : Nat} (h : w.emitByte b = .ok w') : w'.out.length ≤ w.out.length + 2 ∧ w'.left = w.left := by
  unfold BW.emitByte at h
  obtain ⟨h1, h2⟩ := BW.push_bulk h
  refine ⟨?_, h2⟩
  rw [h1]
  split <;> simp

theorem BW.emitBytes_bulk {bs : List Nat} : ∀ {w w' : BW}, w.emitBytes bs = .ok w' → w'.out.length ≤ w.out.length + 2 * bs.length ∧ w'.left = w.left := by
  induction bs with
  | nil => intro w w' h; cases h; exact ⟨Nat.le_refl _, rfl⟩
  | cons b bs ih =>
    intro w w' h
    rw [BW.emitBytes] at h
    cases e : w.emitByte b with
    | ok v =>
      rw [e] at h
      obtain ⟨h1, h2⟩ := ih h
      obtain ⟨h3, h4⟩ := BW.emitByte_bulk e
      exact ⟨by simp only [List.length_cons]; omega, h2.trans h4⟩
    | fail => rw [e] at h; cases h
    | ub => rw [e] at h; cases h

theorem BW.with_bulk (w : BW) (b l : Nat) : BW.bulk { w with buf := b, left := l } = 4 * w.out.length + (64 - l) := rfl

theorem BW.discharge_bulk {w w' : BW} (hl : w.left ≤ 16) (h : w.discharge = .ok w') : w'.bulk ≤ w.bulk ∧ w'.left ≤ 64 := by
  unfold BW.discharge at h
  obtain ⟨r1, r2⟩ := BW.reserve_out w 12
  generalize w.reserve 12 = v at h r1 r2
  dsimp only at h
  have key : ∀ {x : Run BW} {f : BW → Nat}, (∀ u, x = .ok u → u.out.length ≤ v.out.length + 12 ∧ u.left = v.left) →
      (x.bind fun w => Run.ok { w with buf := f w, left := w.left + 48 }) = .ok w' → w'.bulk ≤ w.bulk ∧ w'.left ≤ 64 := by
    intro x f hx h
    cases x with
    | ok u =>
      obtain ⟨h1, h2⟩ := hx u rfl
      have h := Run.ok.inj h
      subst h
      rw [BW.with_bulk]
      refine ⟨?_, by show u.left + 48 ≤ 64; omega⟩
      unfold BW.bulk
      rw [r1] at h1
      omega
    | fail => cases h
    | ub => cases h
  refine key (fun u hu => ?_) h
  split at hu
  · exact BW.emitBytes_bulk hu
  · obtain ⟨h1, h2⟩ := BW.push_bulk hu
    exact ⟨by rw [h1]; simp, h2⟩

theorem BW.writeBits_bulk {w w' : BW} {n v : Nat} (hl : w.left ≤ 64) (h : w.writeBits n v = .ok w') : w'.bulk ≤ w.bulk + 31 ∧ w'.left ≤ 64 := by
  unfold BW.writeBits at h
  split at h
  · cases h; exact ⟨Nat.le_add_right _ _, hl⟩
  · split at h
    · cases h
    · rename_i _ hn
      dsimp only at h
      generalize w.buf ||| (v * 2 ^ (w.left - n) % 2 ^ 64) = b at h
      have hb : BW.bulk { w with left := w.left - n, buf := b } ≤ w.bulk + 31 := by
        rw [BW.with_bulk]
        unfold BW.bulk
        omega
      split at h
      · rename_i h16
        obtain ⟨h1, h2⟩ := BW.discharge_bulk h16 h
        exact ⟨by omega, h2⟩
      · have h := Run.ok.inj h
        subst h
        exact ⟨hb, by show w.left - n ≤ 64; omega⟩

theorem BW.flushBytes_bulk {fuel : Nat} : ∀ {w w' : BW}, w.left ≤ 64 → w.flushBytes fuel = .ok w' → w'.bulk ≤ w.bulk ∧ w'.left ≤ 64 := by
  induction fuel with
  | zero => intro w w' hl h; cases h; exact ⟨Nat.le_refl _, hl⟩
  | succ fuel ih =>
    intro w w' hl h
    rw [BW.flushBytes] at h
    split at h
    · rename_i h56
      cases e : w.emitByte (byteAt w.buf 56) with
      | ok v =>
        rw [e] at h
        obtain ⟨h3, h4⟩ := BW.emitByte_bulk e
        simp only [Run.bind] at h
        generalize v.buf * 2 ^ 8 % 2 ^ 64 = b at h
        obtain ⟨h1, h2⟩ := ih (w := { v with buf := b, left := v.left + 8 }) (by show v.left + 8 ≤ 64; omega) h
        refine ⟨Nat.le_trans h1 ?_, h2⟩
        rw [BW.with_bulk]
        unfold BW.bulk
        omega
      | fail => rw [e] at h; cases h
      | ub => rw [e] at h; cases h
    · cases h; exact ⟨Nat.le_refl _, hl⟩

theorem BW.jump_bulk {w w' : BW} {pads pads' : Pads} (hl : w.left ≤ 64) (h : w.jump pads = .ok (w', pads')) : w'.bulk ≤ w.bulk + 8 ∧ w'.left ≤ 64 ∧ w'.bulk = 4 * w'.out.length := by
  unfold BW.jump at h
  cases hp : padPattern (w.left % 8) pads with
  | ok p =>
    rw [hp] at h
    obtain ⟨pat, ps⟩ := p
    obtain ⟨r1, r2⟩ := BW.reserve_out w 16
    simp only [Run.bind] at h
    cases hf : (w.reserve 16).flushBytes 8 with
    | ok v =>
      rw [hf] at h
      obtain ⟨f1, f2⟩ := BW.flushBytes_bulk (by rw [r2]; exact hl) hf
      have hb : (w.reserve 16).bulk = w.bulk := by unfold BW.bulk; rw [r1, r2]
      rw [hb] at f1
      dsimp only at h
      have key : ∀ {x : Run BW}, (∀ u, x = .ok u → u.out.length ≤ v.out.length + 2) →
          (x.bind fun w => Run.ok ({ w with buf := 0, left := 64 }, ps)) = .ok (w', pads') →
          w'.bulk ≤ w.bulk + 8 ∧ w'.left ≤ 64 ∧ w'.bulk = 4 * w'.out.length := by
        intro x hx h
        cases x with
        | ok u =>
          have h1 := hx u rfl
          have h := (Prod.mk.inj (Run.ok.inj h)).1
          subst h
          unfold BW.bulk at f1 ⊢
          show 4 * u.out.length + (64 - 64) ≤ _ ∧ 64 ≤ 64 ∧ 4 * u.out.length + (64 - 64) = 4 * u.out.length
          omega
        | fail => cases h
        | ub => cases h
      refine key (fun u hu => ?_) h
      split at hu
      · exact (BW.emitByte_bulk hu).1
      · cases hu; omega
    | fail => rw [hf] at h; cases h
    | ub => rw [hf] at h; cases h
  | fail => rw [hp] at h; cases h
  | ub => rw [hp] at h; cases h

theorem BW.emitMarker_bulk {w w' : BW} {m : Nat} (h : w.emitMarker m = .ok w') : w'.bulk = w.bulk + 8 ∧ w'.left = w.left := by
  unfold BW.emitMarker at h
  obtain ⟨h1, h2⟩ := BW.push_bulk h
  obtain ⟨r1, r2⟩ := BW.reserve_out w 2
  refine ⟨?_, h2.trans r2⟩
  unfold BW.bulk
  rw [h1, h2, r1, r2]
  simp only [List.length_cons, List.length_nil]
  omega

/-- What a request costs. -/
def Act.bulk : Act → Nat
  | .bits _ _ => 31
  | .restart _ => 16

theorem BW.acts_bulk {as : List Act} : ∀ {w w' : BW} {pads pads' : Pads}, w.left ≤ 64 → w.acts pads as = .ok (w', pads') → w'.bulk ≤ w.bulk + (as.map Act.bulk).sum ∧ w'.left ≤ 64 := by
  induction as with
  | nil => intro w w' pads pads' hl h; cases h; exact ⟨Nat.le_refl _, hl⟩
  | cons a as ih =>
    intro w w' pads pads' hl h
    cases a with
    | bits n v =>
      rw [BW.acts] at h
      cases e : w.writeBits n v with
      | ok u =>
        rw [e] at h
        obtain ⟨h3, h4⟩ := BW.writeBits_bulk hl e
        obtain ⟨h1, h2⟩ := ih h4 h
        refine ⟨?_, h2⟩
        simp only [List.map_cons, List.sum_cons, Act.bulk]
        omega
      | fail => rw [e] at h; cases h
      | ub => rw [e] at h; cases h
    | restart m =>
      rw [BW.acts] at h
      cases e : w.jump pads with
      | ok p =>
        obtain ⟨u, ps⟩ := p
        rw [e] at h
        obtain ⟨h3, h4, -⟩ := BW.jump_bulk hl e
        simp only [Run.bind] at h
        cases e2 : u.emitMarker (0xD0 + m) with
        | ok x =>
          rw [e2] at h
          obtain ⟨h5, h6⟩ := BW.emitMarker_bulk e2
          obtain ⟨h1, h2⟩ := ih (by omega) h
          refine ⟨?_, h2⟩
          simp only [List.map_cons, List.sum_cons, Act.bulk]
          omega
        | fail => rw [e2] at h; cases h
        | ub => rw [e2] at h; cases h
      | fail => rw [e] at h; cases h
      | ub => rw [e] at h; cases h

/-- A scan writes a quarter of what its requests cost, and two bytes. -/
theorem BW.scan_bulk {w w' : BW} {pads pads' : Pads} {as : List Act} (hl : w.left = 64) (h : w.scan pads as = .ok (w', pads')) :
    4 * w'.out.length ≤ 4 * w.out.length + (as.map Act.bulk).sum + 8 := by
  unfold BW.scan at h
  cases e : w.acts pads as with
  | ok p =>
    obtain ⟨u, ps⟩ := p
    rw [e] at h
    obtain ⟨h1, h2⟩ := BW.acts_bulk (by omega) e
    obtain ⟨h3, -, h4⟩ := BW.jump_bulk h2 h
    have : w.bulk = 4 * w.out.length := by unfold BW.bulk; omega
    omega
  | fail => rw [e] at h; cases h
  | ub => rw [e] at h; cases h

/-! ## Calls -/

/-- What `Flush` has to write. -/
def CS.due (s : CS) : Nat := (if 0 < s.eob then 2 else 0) + s.count

theorem eobReqs_length (t : HSlot) (n : Nat) : (eobReqs t n).length ≤ 2 := by
  unfold eobReqs
  split <;> simp

theorem CS.flush_due (s : CS) : s.flush.1.length ≤ s.due ∧ s.flush.2.due = 0 := by
  refine ⟨?_, rfl⟩
  unfold CS.flush CS.due
  simp only [List.length_append, List.length_map, List.length_take]
  have h1 : (if 0 < s.eob then eobReqs s.tbl s.eob else []).length ≤ if 0 < s.eob then 2 else 0 := by
    split
    · exact eobReqs_length _ _
    · exact Nat.le_refl _
  have h2 : min (s.count / 16) s.words.length + (if s.count % 16 ≠ 0 then [WReq.bits (s.count % 16) (s.words.getLastD 0)] else []).length ≤ s.count := by
    split
    · simp only [List.length_singleton]; omega
    · simp only [List.length_nil]; omega
  omega

theorem CS.append_due (s : CS) (bs : List Bool) : (s.append bs).count = s.count + bs.length ∧ (s.append bs).eob = s.eob := by
  unfold CS.append
  split
  · rename_i h; subst h; exact ⟨rfl, rfl⟩
  · exact ⟨rfl, rfl⟩

theorem CS.buffer_due (s : CS) (ac : HSlot) (bs : List Bool) : (s.buffer ac bs).2.1.length + (s.buffer ac bs).2.2.due ≤ s.due + 2 + bs.length := by
  unfold CS.buffer
  generalize hs1 : (if s.eob = 0 then { s with tbl := ac } else s : CS) = s1
  have e1 : s1.count = s.count := by rw [← hs1]; split <;> rfl
  obtain ⟨a1, a2⟩ := CS.append_due { s1 with eob := s1.eob + 1 } bs
  dsimp only
  generalize CS.append { s1 with eob := s1.eob + 1 } bs = s2 at a1 a2
  have hd : s2.due ≤ s.due + 2 + bs.length := by
    unfold CS.due
    have a1' : s2.count = s1.count + bs.length := a1
    split <;> split <;> omega
  split
  · exact hd.trans' (by simp)
  · split
    · have := CS.flush_due s2
      show s2.flush.1.length + s2.flush.2.due ≤ _
      omega
    · exact hd.trans' (by simp)

theorem acReqs_length (ac : HSlot) (r a : Nat) (neg : Bool) : (acReqs ac r a neg).length = r / 16 + 2 := by simp [acReqs]

theorem dcReqs_length (dc : HSlot) (t : Int) : (dcReqs dc t).length ≤ 2 := by
  unfold dcReqs
  dsimp only
  rw [List.length_cons]
  have : ∀ (p : Prop) [Decidable p] (x : WReq), (if p then [x] else []).length ≤ 1 := fun p _ x => by split <;> simp
  exact Nat.succ_le_succ (this _ _)

theorem seqAC_length (ac : HSlot) (F : Blk) (n : Nat) : ∀ k r, (seqAC ac F n k r).1.length ≤ 2 * n + (r + n) / 16 := by
  induction n with
  | zero => intro k r; simp [seqAC]
  | succ n ih =>
    intro k r
    rw [seqAC]
    split
    · have := ih (k + 1) (r + 1); omega
    · have := ih (k + 1) 0
      simp only [List.length_append, acReqs_length]
      omega

theorem encSeq_length (dc ac : HSlot) (nzr : Nat) (last : Int) (F : Blk) : (encSeq dc ac nzr last F).1.length ≤ 132 + nzr := by
  unfold encSeq
  have h1 := dcReqs_length dc (i16 (F 0 - last))
  have h2 := seqAC_length ac F 63 1 0
  dsimp only
  simp only [List.length_append, List.length_replicate]
  have h3 : (if 16 * nzr < (seqAC ac F 63 1 0).2 then [WReq.sym ac 0] else []).length ≤ 1 := by split <;> simp
  omega

theorem progAC_length (ac : HSlot) (Al : Nat) (F : Blk) (n : Nat) : ∀ k r s,
    (progAC ac Al F n k r s).1.length + (progAC ac Al F n k r s).2.2.due ≤ s.due + 2 * n + (r + n) / 16 := by
  induction n with
  | zero => intro k r s; simp [progAC]
  | succ n ih =>
    intro k r s
    rw [progAC]
    split
    · have := ih (k + 1) (r + 1) s; omega
    · have h1 := ih (k + 1) 0 s.flush.2
      have h2 := CS.flush_due s
      simp only [List.length_append, acReqs_length]
      omega

theorem progTail_length (ac : HSlot) (allowed : Bool) (nzr r : Nat) (s : CS) :
    (progTail ac allowed nzr r s).1.length + (progTail ac allowed nzr r s).2.due ≤ s.due + nzr + 2 := by
  unfold progTail
  have hp : (if 0 < nzr then (s.flush.1 ++ List.replicate nzr (.sym ac 0xf0), s.flush.2) else ([], s) : List WReq × CS).1.length +
      (if 0 < nzr then (s.flush.1 ++ List.replicate nzr (.sym ac 0xf0), s.flush.2) else ([], s) : List WReq × CS).2.due ≤ s.due + nzr := by
    split
    · have := CS.flush_due s
      simp only [List.length_append, List.length_replicate]
      omega
    · simp
  dsimp only
  generalize (if 0 < nzr then (s.flush.1 ++ List.replicate nzr (.sym ac 0xf0), s.flush.2) else ([], s) : List WReq × CS) = p at hp
  split
  · have hb := CS.buffer_due p.2 ac []
    generalize (p.2.buffer ac []).2 = q at hb
    have hq := CS.flush_due q.2
    simp only [List.length_nil] at hb
    split
    · simp only [List.length_append]; omega
    · simp only [List.length_append]; omega
  · omega

theorem progRest_length (ac : HSlot) {Ss Se : Nat} (Al : Nat) (allowed : Bool) (nzr : Nat) (F : Blk) (s : CS) (hse : Se < 64) :
    (progRest ac Ss Se Al allowed nzr F s).1.length + (progRest ac Ss Se Al allowed nzr F s).2.due ≤ s.due + nzr + 134 := by
  unfold progRest
  split
  · simp only [List.length_nil]; omega
  · have h1 := progAC_length ac Al F (Se + 1 - Ss) Ss 0 s
    dsimp only
    generalize progAC ac Al F (Se + 1 - Ss) Ss 0 s = q at h1
    have h2 := progTail_length ac allowed nzr q.2.1 q.2.2
    simp only [List.length_append]
    omega

theorem encProg_length (dc ac : HSlot) {Ss Se : Nat} (Al nzr : Nat) (last : Int) (F : Blk) (s : CS) (hse : Se < 64) :
    (encProg dc ac Ss Se Al nzr last F s).1.length + (encProg dc ac Ss Se Al nzr last F s).2.2.due ≤ s.due + nzr + 136 := by
  unfold encProg
  split
  · have h1 := progRest_length ac (Ss := 1) Al false nzr F s hse
    have h2 := dcReqs_length dc (i16 (i16 (F 0 / 2 ^ Al) - last))
    simp only [List.length_append]
    omega
  · have h1 := progRest_length ac (Ss := Ss) Al true nzr F s hse
    dsimp only
    omega

theorem refZrl_length (ac : HSlot) (q : Nat) : ∀ buf s,
    (refZrl ac q buf s).1.length + (refZrl ac q buf s).2.1.length + (refZrl ac q buf s).2.2.due ≤ q + buf.length + s.due := by
  induction q with
  | zero => intro buf s; simp [refZrl]
  | succ q ih =>
    intro buf s
    rw [refZrl]
    have h1 := ih [] s.flush.2
    have h2 := CS.flush_due s
    simp only [List.length_append, List.length_map, List.length_singleton, List.length_nil] at h1 ⊢
    omega

theorem refEnc_length (ac : HSlot) (Al eobk : Nat) (F : Blk) (n : Nat) : ∀ k r buf s,
    (refEnc ac Al eobk F n k r buf s).1.length + (refEnc ac Al eobk F n k r buf s).2.2.1.length + (refEnc ac Al eobk F n k r buf s).2.2.2.due ≤
      buf.length + s.due + 2 * n + (r + n) / 16 := by
  induction n with
  | zero => intro k r buf s; simp [refEnc]
  | succ n ih =>
    intro k r buf s
    rw [refEnc]
    dsimp only
    split
    · have := ih (k + 1) (r + 1) buf s; omega
    · have hz : (if k ≤ eobk then refZrl ac (r / 16) buf s else ([], buf, s)).1.length + (if k ≤ eobk then refZrl ac (r / 16) buf s else ([], buf, s)).2.1.length +
          (if k ≤ eobk then refZrl ac (r / 16) buf s else ([], buf, s)).2.2.due + (if k ≤ eobk then r % 16 else r) / 16 ≤ r / 16 + buf.length + s.due := by
        split
        · have := refZrl_length ac (r / 16) buf s; omega
        · simp only [List.length_nil]; omega
      have hr : (if k ≤ eobk then r % 16 else r) % 16 = r % 16 := by split <;> omega
      generalize (if k ≤ eobk then refZrl ac (r / 16) buf s else ([], buf, s)) = z at hz
      generalize (if k ≤ eobk then r % 16 else r) = r' at hz hr
      split
      · have := ih (k + 1) r' (z.2.1 ++ [decide ((F k).natAbs / 2 ^ Al % 2 = 1)]) z.2.2
        simp only [List.length_append, List.length_singleton] at this ⊢
        omega
      · have h1 := ih (k + 1) 0 [] z.2.2.flush.2
        have h2 := CS.flush_due z.2.2
        simp only [List.length_append, List.length_map, List.length_cons, List.length_nil] at h1 ⊢
        omega

theorem refEncRest_length {ac : HSlot} {Ss Se Al : Nat} {allowed : Bool} {F : Blk} {s : CS} (hse : Se < 64) {q : List WReq × CS} (h : refEncRest ac Ss Se Al allowed F s = some q) :
    q.1.length + q.2.due ≤ s.due + 134 := by
  unfold refEncRest at h
  split at h
  · cases h; simp only [List.length_nil]; omega
  · have h1 := refEnc_length ac Al (eobIndex Al F (Se + 1 - Ss) Ss 0) F (Se + 1 - Ss) Ss 0 [] s
    dsimp only at h
    generalize refEnc ac Al (eobIndex Al F (Se + 1 - Ss) Ss 0) F (Se + 1 - Ss) Ss 0 [] s = t at h h1
    simp only [List.length_nil] at h1
    split at h
    · have h2 := CS.buffer_due t.2.2.2 ac t.2.2.1
      generalize t.2.2.2.buffer ac t.2.2.1 = b at h h2
      have h3 := CS.flush_due b.2.2
      split at h
      · split at h
        · cases h
          simp only [List.length_append]
          omega
        · cases h
          simp only [List.length_append]
          omega
      · cases h
    · cases h
      show t.1.length + t.2.2.2.due ≤ _
      omega

theorem encRefine_length {ac : HSlot} {Ss Se Al : Nat} {F : Blk} {s : CS} (hse : Se < 64) {q : List WReq × CS} (h : encRefine ac Ss Se Al F s = some q) :
    q.1.length + q.2.due ≤ s.due + 135 := by
  unfold encRefine at h
  split at h
  · obtain ⟨t, ht, rfl⟩ := Option.map_eq_some_iff.mp h
    have := refEncRest_length hse ht
    simp only [List.length_cons]
    omega
  · have := refEncRest_length hse h
    omega

/-- A block takes at most 136 calls, and those for extra zero runs; what is buffered counts when it is. -/
theorem encBlock_length {prog : Bool} {P : SP} {v : Visit} {nzr : Nat} {last : Int} {F : Blk} {cs : CS} (hse : P.se < 64) {q : List WReq × Int × CS}
    (h : encBlock prog P v nzr last F cs = some q) : q.1.length + q.2.2.due ≤ cs.due + nzr + 136 := by
  unfold encBlock at h
  split at h
  · cases h
    have := encSeq_length v.dc v.ac nzr last F
    dsimp only
    omega
  · split at h
    · cases h
      exact encProg_length _ _ _ _ _ _ _ hse
    · obtain ⟨t, ht, rfl⟩ := Option.map_eq_some_iff.mp h
      have := encRefine_length hse ht
      dsimp only
      omega

/-- What is still to come: buffered bits, extra zero runs. -/
def WS.due (ws : WS) : Nat := ws.cs.due + (ws.runs.map Prod.snd).sum

theorem takeReset_due (ws : WS) : (takeReset ws).1.length + (takeReset ws).2.due ≤ ws.due ∧ (takeReset ws).2.runs = ws.runs ∧ (takeReset ws).1.length + (takeReset ws).2.cs.due ≤ ws.cs.due := by
  unfold takeReset
  have := CS.flush_due ws.cs
  split
  · unfold WS.due
    exact ⟨by dsimp only; omega, rfl, by dsimp only; omega⟩
  · exact ⟨by simp, rfl, by simp⟩

theorem takeRuns_due (ws : WS) : (takeRuns ws).1 + ((takeRuns ws).2.map Prod.snd).sum = (ws.runs.map Prod.snd).sum := by
  unfold takeRuns
  cases h : ws.runs with
  | nil => rfl
  | cons a rs =>
    obtain ⟨i, n⟩ := a
    dsimp only
    split
    · rw [List.map_cons, List.sum_cons]
    · exact Nat.zero_add _

theorem writeBlk_length {prog : Bool} {P : SP} {F : Coefs} {v : Visit} {ws : WS} (hse : P.se < 64) {q : List WReq × WS} (h : writeBlk prog P F v ws = some q) :
    q.1.length + q.2.due ≤ ws.due + 136 := by
  unfold writeBlk at h
  obtain ⟨t, ht, rfl⟩ := Option.map_eq_some_iff.mp h
  have h1 := encBlock_length hse ht
  obtain ⟨-, h3, h2⟩ := takeReset_due ws
  have h4 := takeRuns_due (takeReset ws).2
  rw [h3] at h4
  unfold WS.due
  simp only [List.length_append]
  omega

theorem writeMcu_length {prog : Bool} {P : SP} {F : Coefs} (hse : P.se < 64) {vs : List Visit} : ∀ {ws : WS} {q : List WReq × WS}, writeMcu prog P F vs ws = some q →
    q.1.length + q.2.due ≤ ws.due + 136 * vs.length := by
  induction vs with
  | nil => intro ws q h; cases h; simp
  | cons v vs ih =>
    intro ws q h
    rw [writeMcu] at h
    obtain ⟨p, hp, h⟩ := Option.bind_eq_some_iff.mp h
    obtain ⟨t, ht, rfl⟩ := Option.map_eq_some_iff.mp h
    have h1 := writeBlk_length hse hp
    have h2 := ih ht
    simp only [List.length_append, List.length_cons]
    omega

theorem acts_sum_req (T : HSlot → CodeTable) (l : List WReq) : (((l.map WAct.req).map (WAct.toAct T)).map Act.bulk).sum = 31 * l.length := by
  induction l with
  | nil => rfl
  | cons a l ih =>
    simp only [List.map_cons, List.sum_cons, List.length_cons, ih, WAct.toAct, Act.bulk]
    omega

theorem writeMcuHead_bulk (T : HSlot → CodeTable) (ri : Nat) (ws : WS) :
    (((writeMcuHead ri ws).1.map (WAct.toAct T)).map Act.bulk).sum + 31 * (writeMcuHead ri ws).2.due ≤ 31 * ws.due + 16 := by
  unfold writeMcuHead
  split
  · have := CS.flush_due ws.cs
    simp only [List.map_append, List.sum_append, acts_sum_req, List.map_cons, List.map_nil, List.sum_cons, List.sum_nil, WAct.toAct, Act.bulk]
    unfold WS.due
    dsimp only
    omega
  · simp

theorem writeMcus_bulk (T : HSlot → CodeTable) {prog : Bool} {P : SP} {F : Coefs} (ri : Nat) (hse : P.se < 64) {ms : List (List Visit)} : ∀ {ws : WS} {q : List WAct × WS},
    writeMcus prog P ri F ms ws = some q →
      ((q.1.map (WAct.toAct T)).map Act.bulk).sum + 31 * q.2.due ≤ 31 * ws.due + 16 * ms.length + 4216 * ms.flatten.length := by
  induction ms with
  | nil => intro ws q h; cases h; simp
  | cons m ms ih =>
    intro ws q h
    rw [writeMcus] at h
    dsimp only at h
    obtain ⟨p, hp, h⟩ := Option.bind_eq_some_iff.mp h
    obtain ⟨t, ht, rfl⟩ := Option.map_eq_some_iff.mp h
    have h0 := writeMcuHead_bulk T ri ws
    have h1 := writeMcu_length hse hp
    have h2 := ih ht
    have h3 : WS.due { p.2 with toGo := p.2.toGo - 1 } = p.2.due := rfl
    rw [h3] at h2
    simp only [List.map_append, List.sum_append, acts_sum_req, List.length_cons, List.flatten_cons, List.length_append]
    omega

/-- What the calls of a scan cost. -/
theorem scanCalls_bulk (T : HSlot → CodeTable) {prog : Bool} {P : SP} {F : Coefs} {ri : Nat} (hse : P.se < 64) {mcus : List (List Visit)} {resets : List Nat} {runs : List (Nat × Nat)}
    {as : List WAct} (h : scanCalls prog P ri F mcus resets runs = some as) :
    ((as.map (WAct.toAct T)).map Act.bulk).sum ≤ 31 * (runs.map Prod.snd).sum + 16 * mcus.length + 4216 * mcus.flatten.length := by
  unfold scanCalls at h
  obtain ⟨q, hq, rfl⟩ := Option.map_eq_some_iff.mp h
  have h1 := writeMcus_bulk T ri hse hq
  have h2 := CS.flush_due q.2.cs
  have h3 : WS.due (WS.start ri resets runs) = (runs.map Prod.snd).sum := by
    show CS.due CS.init + _ = _
    exact Nat.zero_add _
  rw [h3] at h1
  simp only [List.map_append, List.sum_append, acts_sum_req]
  unfold WS.due at h1
  omega

/-- **What a scan writes**: at most 1054 bytes for each block, 4 for each MCU, 7.75 for each extra zero run, and 2. -/
theorem writeScanData_size {T : HSlot → CodeTable} {prog : Bool} {P : SP} {ri : Nat} {F : Coefs} {mcus : List (List Visit)} {resets : List Nat} {runs : List (Nat × Nat)} {w w' : BW}
    {pads pads' : Pads} (hse : P.se < 64) (hl : w.left = 64) (h : writeScanData T prog P ri F mcus resets runs w pads = .ok (w', pads')) :
    4 * w'.out.length ≤ 4 * w.out.length + 31 * (runs.map Prod.snd).sum + 16 * mcus.length + 4216 * mcus.flatten.length + 8 := by
  unfold writeScanData at h
  cases hc : scanCalls prog P ri F mcus resets runs with
  | none => rw [hc] at h; cases h
  | some as =>
    rw [hc] at h
    dsimp only at h
    have h1 := scanCalls_bulk T hse hc
    cases hs : w.scan pads (as.map (WAct.toAct T)) with
    | ok p =>
      obtain ⟨u, ps⟩ := p
      rw [hs] at h
      have h2 := BW.scan_bulk hl hs
      have he : u = w' := by
        simp only [Run.bind] at h
        split at h
        · cases h; rfl
        · cases h
      subst he
      omega
    | fail => rw [hs] at h; cases h
    | ub => rw [hs] at h; cases h

end Brunsli
