import Verif.JScanSpec
/-!
# The tables of the reader and of the writer

Both sides keep one table for each slot; a definition replaces the tables of its slot.
-/

namespace Brunsli

theorem nextTableBits_le (M root : Nat) (cnt : Nat → Nat) (len left : Nat) (h : len ≤ M) : nextTableBits M root cnt len left ≤ M - root := by
  induction len, left using nextTableBits.induct M cnt with
  | case1 len left hlt hle => rw [nextTableBits, if_pos hlt, if_pos hle]; omega
  | case2 len left hlt hle ih => rw [nextTableBits, if_pos hlt, if_neg hle]; exact ih (by omega)
  | case3 len left hlt => rw [nextTableBits, if_neg hlt]; omega

theorem jwr_bits {m m' : JMem} {i : Nat} {e : Ent} (h : jwr m i e = some m') (hm : JBits m) (he : e.bits ≤ 16) : JBits m' := by
  unfold jwr at h
  split at h
  · cases h
    intro j
    dsimp only
    split
    · exact he
    · exact hm j
  · exact nomatch h

theorem jfill_bits {e : Ent} (he : e.bits ≤ 16) (n : Nat) : ∀ {m m' : JMem} {i : Nat}, jfill m i n e = some m' → JBits m → JBits m' := by
  induction n with
  | zero => intro m m' i h hm; rw [jfill] at h; cases h; exact hm
  | succ n ih =>
    intro m m' i h hm
    rw [jfill] at h
    split at h
    · exact nomatch h
    · rename_i m1 h1
      exact ih h (jwr_bits h1 hm he)

theorem jroot_bits (L : List (Nat × Nat)) : ∀ {m : JMem} {key : Nat} {q : JMem × Nat}, jroot m key L = some q → (∀ p ∈ L, p.1 ≤ 16) → JBits m → JBits q.1 := by
  induction L with
  | nil => intro m key q h _ hm; rw [jroot] at h; cases h; exact hm
  | cons p L ih =>
    intro m key q h hp hm
    rw [jroot] at h
    split at h
    · exact nomatch h
    · rename_i m1 h1
      exact ih h (fun p h => hp p (List.mem_cons_of_mem _ h)) (jfill_bits (hp p List.mem_cons_self) _ h1 hm)

theorem jsub_bits (L : List (Nat × Nat)) : ∀ {st st' : JSub}, jsub st L = some st' → (∀ p ∈ L, p.1 ≤ 16) → JBits st.m → JBits st'.m := by
  induction L with
  | nil => intro st st' h _ hm; rw [jsub] at h; cases h; exact hm
  | cons p L ih =>
    intro st st' h hp hm
    rw [jsub] at h
    have hp1 := hp p List.mem_cons_self
    split at h
    · exact nomatch h
    · rename_i s1 h1
      have hs1 : JBits s1.m := by
        unfold jopen at h1
        split at h1
        · dsimp only at h1
          split at h1
          · exact nomatch h1
          · rename_i m1 h2
            cases h1
            refine jwr_bits h2 hm ?_
            have := nextTableBits_le 16 8 (lenCount (p :: L)) p.1 (2 ^ (p.1 - 8)) hp1
            dsimp only
            omega
        · cases h1; exact hm
      split at h
      · exact nomatch h
      · split at h
        · exact nomatch h
        · rename_i m2 h2
          exact ih h (fun p h => hp p (List.mem_cons_of_mem _ h)) (jfill_bits (show p.1 - 8 ≤ 16 by omega) _ h2 hs1)

theorem dhtLut_bits {m m' : JMem} {h : HuffCode} (ok : h.Ok) (hm : JBits m) (hd : dhtLut m h = some m') : JBits m' := by
  unfold dhtLut at hd
  dsimp only at hd
  have hm1 : JBits (if kraft 16 h.code < 65536 ∧ (m 0).value ≠ 0xffff then fun _ => badEnt else m) := by
    split
    · intro i; exact Nat.zero_le _
    · exact hm
  generalize (if kraft 16 h.code < 65536 ∧ (m 0).value ≠ 0xffff then fun _ => badEnt else m) = m1 at *
  have hr : ∀ p ∈ h.code, p.1 ≤ 16 := fun p hp => (ok.codeOk.range p hp).2
  unfold buildJpegTable at hd
  split at hd
  · exact jfill_bits (show 0 ≤ 16 by omega) _ hd hm1
  · split at hd
    · exact nomatch hd
    · rename_i m2 key h2
      obtain ⟨st, h3, h4⟩ := Option.map_eq_some_iff.mp hd
      subst h4
      have h5 : JBits m2 := jroot_bits _ h2 (fun p hp => hr p (List.mem_filter.mp hp).1) hm1
      exact jsub_bits _ h3 (fun p hp => hr p (List.mem_filter.mp hp).1) h5

/-- What the tables of one slot satisfy: the reader's is well formed, and whatever it decodes the writer's table has the word for. -/
structure SlotMatch (m : JMem) (t : CodeTable) : Prop where
  slot : SlotOk m
  bits : JBits m
  word : ∀ x, x < 65536 → JReads m x ∧ ((jlookup m x).2 < 256 →
    1 ≤ (jlookup m x).1 ∧ (jlookup m x).1 ≤ 16 ∧ t.depth (jlookup m x).2 = (jlookup m x).1 ∧ t.code (jlookup m x).2 = x / 2 ^ (16 - (jlookup m x).1))

theorem SlotMatch.toMatch {lut : HSlot → JMem} {T : HSlot → CodeTable} (h : ∀ t, SlotMatch (lut t) (T t)) : Match lut T :=
  fun t => ⟨(h t).bits, fun x hx => ((h t).word x hx).2⟩

/-- The tables before any definition. -/
theorem slotMatch_init (t : CodeTable) : SlotMatch (fun _ => badEnt) t where
  slot := Or.inl fun _ => rfl
  bits := fun _ => Nat.zero_le _
  word := fun x hx => by
    constructor
    · intro h; simp [badEnt] at h
    · intro h; simp [jlookup, badEnt] at h

/-- **A definition gives both sides the same code**, whatever the slot held before. -/
theorem slotMatch_dht {m : JMem} {t : CodeTable} (hm : SlotMatch m t) {h : HuffCode} (ok : h.Ok) :
    ∃ m' t', dhtLut m h = some m' ∧ buildCodeTable t h = .ok t' ∧ SlotMatch m' t' := by
  obtain ⟨m', h1, h2, h3⟩ := dhtLut_spec hm.slot ok
  obtain ⟨t', h4, h5⟩ := buildCodeTable_spec ok t
  refine ⟨m', t', h1, h4, h2, dhtLut_bits ok hm.bits h1, fun x hx => ?_⟩
  obtain ⟨h6, h7⟩ := h3 x hx
  refine ⟨h6, fun h8 => ?_⟩
  cases hs : h.symAt x with
  | none => rw [hs] at h7; dsimp only at h7; omega
  | some p =>
    rw [hs] at h7
    dsimp only at h7
    rw [h7]
    have h9 := h5 x hx p hs
    have h10 : p ∈ h.code := by
      unfold HuffCode.symAt at hs
      exact codeAt_mem (Option.filter_eq_some_iff.mp hs).1
    have h11 := ok.codeOk.range p h10
    exact ⟨h11.1, h11.2, h9.1, h9.2⟩

end Brunsli
