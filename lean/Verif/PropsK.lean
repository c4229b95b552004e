import Verif.JEntropy
/-!
# Property C28: entropy coded data of a JPEG file
-/

namespace Brunsli

/-- `Layout pads ws rest bs`: `bs` consists of one piece per restart interval, with markers `FF D0+m` between them; a piece contains no 0xFF
that is not followed by 0x00, and after removal of these zeros its bits are those of the code words, in order, followed by padding up to
a byte boundary: ones, or the next of the recorded padding bits. -/
inductive Layout : Pads → List (Nat × Nat) → List (Nat × List (Nat × Nat)) → List Nat → Prop where
  | last {pads : Pads} {ws : List (Nat × Nat)} {piece : List Nat} :
      NoMarker piece → bytesMsb (unstuff piece) = actBits ws ++ padBits (padLen (actBits ws).length) pads → Layout pads ws [] piece
  | more {pads : Pads} {ws ws' : List (Nat × Nat)} {m : Nat} {rest : List (Nat × List (Nat × Nat))} {piece bs : List Nat} :
      NoMarker piece → bytesMsb (unstuff piece) = actBits ws ++ padBits (padLen (actBits ws).length) pads →
      Layout (padRest (padLen (actBits ws).length) pads) ws' rest bs → Layout pads ws ((m, ws') :: rest) (piece ++ ([0xFF, 0xD0 + m] ++ bs))

theorem entropy_layout (rest : List (Nat × List (Nat × Nat))) : ∀ {pads pads' : Pads} {ws : List (Nat × Nat)} {bs : List Nat},
    entropy pads ws rest = some (bs, pads') → Layout pads ws rest bs := by
  induction rest with
  | nil =>
    intro pads pads' ws bs h
    rw [entropy] at h
    split at h
    · rename_i hp
      cases h
      exact .last (interval_spec hp).1 (interval_spec hp).2.2
    · cases h
  | cons r rest ih =>
    intro pads pads' ws bs h
    rw [entropy] at h
    split at h
    · rename_i hp
      cases he : entropy (padRest (padLen (actBits ws).length) pads) r.2 rest with
      | none => rw [he] at h; cases h
      | some q =>
        rw [he] at h
        cases h
        exact .more (interval_spec hp).1 (interval_spec hp).2.2 (ih (pads' := q.2) he)
    · cases h

/-- **C28.** Whatever code words (of 1 to 16 bits) a scan consists of, and wherever the restart markers are: the serializer either fails, which
happens only when padding bits are recorded, or appends the code words, stuffed and padded as the standard demands.  No store is outside of
the output chunk and no shift is undefined (`ub`), and the writer is ready for another scan. -/
theorem C28_entropy_layout (queue : List (List Nat)) (pads : Pads) (ws : List (Nat × Nat)) (rest : List (Nat × List (Nat × Nat)))
    (hws : GoodBits ws) (hrest : ∀ r ∈ rest, GoodBits r.2) :
    (pads ≠ none ∧ (BW.init queue).scan pads (scanActs ws rest) = .fail) ∨
    ∃ w pads' bs, (BW.init queue).scan pads (scanActs ws rest) = .ok (w, pads') ∧ w.healthy = true ∧
      w.finish.flatten = queue.flatten ++ bs ∧ Layout pads ws rest bs := by
  have h := scan_writes rest (w := BW.init queue) (pads := pads) (ws := ws) rfl rfl (by simp [BW.init]) hws hrest
  cases he : entropy pads ws rest with
  | none =>
    rw [he] at h
    refine .inl ⟨?_, h⟩
    intro hn
    subst hn
    have : ∀ (rest : List (Nat × List (Nat × Nat))) ws, entropy none ws rest ≠ none := by
      intro rest
      induction rest with
      | nil => intro ws; rw [entropy, if_pos (show PadOk _ none from trivial)]; simp
      | cons r rest ih =>
        intro ws
        rw [entropy, if_pos (show PadOk _ none from trivial)]
        intro hc
        rw [Option.map_eq_none_iff] at hc
        exact ih r.2 hc
    exact this rest ws he
  | some q =>
    obtain ⟨bs, p⟩ := q
    rw [he] at h
    obtain ⟨w', h1, h2, h3, -⟩ := h
    refine .inr ⟨w', p, bs, h1, h3, ?_, entropy_layout rest he⟩
    rw [BW.finish_flatten, h2]
    simp [BW.out, BW.init]

/-- **C28, failure.** The serializer fails exactly when fewer padding bits are recorded than the intervals need. -/
theorem C28_padding_exhausted (queue : List (List Nat)) (ps : List Nat) (ws : List (Nat × Nat)) (rest : List (Nat × List (Nat × Nat)))
    (hws : GoodBits ws) (hrest : ∀ r ∈ rest, GoodBits r.2) :
    (BW.init queue).scan (some ps) (scanActs ws rest) = .fail ↔
      ps.length < (((ws :: rest.map Prod.snd).map fun w => padLen (actBits w).length).sum) := by
  have h := scan_writes rest (w := BW.init queue) (pads := some ps) (ws := ws) rfl rfl (by simp [BW.init]) hws hrest
  have key : ∀ (rest : List (Nat × List (Nat × Nat))) (ws : List (Nat × Nat)) (ps : List Nat), entropy (some ps) ws rest = none ↔
      ps.length < (((ws :: rest.map Prod.snd).map fun w => padLen (actBits w).length).sum) := by
    intro rest
    induction rest with
    | nil =>
      intro ws ps
      rw [entropy]
      split
      · rename_i hp
        have : padLen (actBits ws).length ≤ ps.length := hp
        simp; omega
      · rename_i hp
        have : ¬ padLen (actBits ws).length ≤ ps.length := hp
        simp; omega
    | cons r rest ih =>
      intro ws ps
      rw [entropy]
      split
      · rename_i hp
        have hp' : padLen (actBits ws).length ≤ ps.length := hp
        have := ih r.2 (ps.drop (padLen (actBits ws).length))
        rw [Option.map_eq_none_iff]
        show entropy (some (ps.drop _)) r.2 rest = none ↔ _
        rw [this]
        simp only [List.length_drop, List.map_cons, List.sum_cons]
        omega
      · rename_i hp
        have : ¬ padLen (actBits ws).length ≤ ps.length := hp
        simp; omega
  rw [← key]
  cases he : entropy (some ps) ws rest with
  | none => rw [he] at h; simp [h]
  | some q =>
    rw [he] at h
    obtain ⟨w', h1, -⟩ := h
    rw [h1]
    simp

/-- C28: a code word of length zero (a symbol without a code) is noticed. -/
theorem C28_missing_code (w : BW) (v : Nat) : ∃ w', w.writeBits 0 v = .ok w' ∧ w'.healthy = false := ⟨{ w with healthy := false }, rfl, rfl⟩

/-- Non-vacuity: two intervals, one with a byte 0xFF, and the file they give. -/
example : (BW.init []).scan none (scanActs [(8, 255), (3, 2)] [(0, [(16, 65535)])]) =
    .ok (⟨true, [], [255, 0, 95, 255, 0xD0, 255, 0, 255, 0], 0, 64⟩, none) := by decide +kernel

example : GoodBits [(8, 255), (3, 2)] ∧ ∀ r ∈ [(0, [(16, 65535)])], GoodBits r.2 := by
  unfold GoodBits; decide

/-- Recorded padding bits are used, and a scan that needs more fails. -/
example : (BW.init []).scan (some [0, 1, 0, 1, 1]) (scanActs [(3, 2)] []) = .ok (⟨true, [], [75], 0, 64⟩, some []) := by decide +kernel

example : (BW.init []).scan (some [0, 1, 0, 1]) (scanActs [(3, 2)] []) = .fail := by decide +kernel

end Brunsli
