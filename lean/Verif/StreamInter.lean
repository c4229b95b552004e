import Verif.StreamInternals
/-!
# The inter-marker data as it arrives

The last part of the section of internals: for every marker 0xff a length and that many bytes
(c/dec/brunsli_decode.cc:1586-1633).
-/

namespace Brunsli

/-! ## Numbers in bytes -/

theorem decodeLoop_exact : ∀ (n i v : Nat) {bs rest : List Nat} {r : Nat}, decodeBase128Loop n i v bs = .ok r rest →
    ∃ u, bs = u ++ rest ∧ 0 < u.length ∧ u.length ≤ n ∧ ∀ y, decodeBase128Loop n i v (u ++ y) = .ok r y := by
  intro n
  induction n with
  | zero => intro i v bs rest r h; cases h
  | succ n ih =>
    intro i v bs rest r h
    cases bs with
    | nil => cases h
    | cons b bs =>
      simp only [decodeBase128Loop] at h
      split at h
      · rename_i hc
        cases h
        refine ⟨[b], rfl, by simp, by simp, fun y => ?_⟩
        simp only [List.cons_append, List.nil_append, decodeBase128Loop]
        rw [if_pos hc]
      · rename_i hc
        obtain ⟨u, e, _, hl, hy⟩ := ih _ _ h
        refine ⟨b :: u, by rw [e]; rfl, by simp, by simp; omega, fun y => ?_⟩
        simp only [List.cons_append, decodeBase128Loop]
        rw [if_neg hc]
        exact hy y

theorem decodeLoop_short : ∀ (n i v : Nat) {bs : List Nat}, decodeBase128Loop n i v bs = .needMore → bs.length < n
  | 0, _, _, _, h => by cases h
  | n + 1, _, _, [], _ => by simp
  | n + 1, i, v, b :: bs, h => by
    simp only [decodeBase128Loop] at h
    split at h
    · cases h
    · have := decodeLoop_short n _ _ h
      simp; omega

/-- A number takes a certain number of bytes, whatever follows. -/
theorem decodeBase128_exact {bs rest : List Nat} {r : Nat} (h : decodeBase128 bs = .ok r rest) :
    ∃ u, bs = u ++ rest ∧ 0 < u.length ∧ u.length ≤ 9 ∧ ∀ y, decodeBase128 (u ++ y) = .ok r y := decodeLoop_exact 9 0 0 h

theorem decodeBase128_short {bs : List Nat} (h : decodeBase128 bs = .needMore) : bs.length < 9 := decodeLoop_short 9 0 0 h

/-- A number that becomes complete with the bytes `x` ends within them. -/
theorem decodeBase128_late {w x rest : List Nat} {r : Nat} (h : decodeBase128 w = .needMore) (hx : decodeBase128 (w ++ x) = .ok r rest) :
    w.length < (w ++ x).length - rest.length := by
  obtain ⟨u, e, _, _, hy⟩ := decodeBase128_exact hx
  have hl : (w ++ x).length = u.length + rest.length := by rw [e, List.length_append]
  rcases Nat.lt_or_ge w.length u.length with hlt | hge
  · omega
  · have e2 : w = u ++ w.drop u.length := by
      have h1 : (w ++ x).take u.length = u := by rw [e, List.take_left]
      rw [List.take_append_of_le_length hge] at h1
      have h2 := List.take_append_drop u.length w
      rw [h1] at h2
      exact h2.symm
    rw [e2, hy] at h
    cases h

/-- A number read from the bytes in view, as seen from the part of them that belongs to the section. -/
theorem decodeBase128_take {w rest : List Nat} {r rem : Nat} (h : decodeBase128 w = .ok r rest) (hr : rem ≤ w.length) :
    (w.length - rest.length ≤ rem → decodeBase128 (w.take rem) = .ok r ((w.take rem).drop (w.length - rest.length))) ∧
    (rem < w.length - rest.length → ∀ v y, decodeBase128 (w.take rem) ≠ .ok v y) := by
  obtain ⟨u, e, _, _, hy⟩ := decodeBase128_exact h
  have hl : w.length = u.length + rest.length := by rw [e, List.length_append]
  have hu : w.length - rest.length = u.length := by omega
  rw [hu]
  constructor
  · intro hle
    have e2 : w.take rem = u ++ (w.take rem).drop u.length := by
      have h1 : (w.take rem).take u.length = u := by rw [List.take_take, Nat.min_eq_left hle, e, List.take_left]
      have h2 := List.take_append_drop u.length (w.take rem)
      rw [h1] at h2
      exact h2.symm
    rw [e2, hy]
    simp
  · intro hlt v y hv
    have := Rd.Mono.decodeBase128.ok hv (w.drop rem)
    rw [List.take_append_drop, h] at this
    obtain ⟨u2, e3, _, _, _⟩ := decodeBase128_exact hv
    have h3 := congrArg List.length e3
    cases this
    simp only [List.length_append, List.length_take, List.length_drop] at h3 hl
    omega

theorem decodeBase128_take_none {w : List Nat} {rem : Nat} (h : ∀ r rest, decodeBase128 w ≠ .ok r rest) (v : Nat) (y : List Nat) :
    decodeBase128 (w.take rem) ≠ .ok v y := fun hv => by
  have := Rd.Mono.decodeBase128.ok hv (w.drop rem)
  rw [List.take_append_drop] at this
  exact h _ _ this

/-! ## The body -/

/-- Where the reader of inter-marker data is: how many strings are to come, the strings read, and of the current one the
bytes to come and those read (`JpegInternalsState`, c/dec/state_internal.h). -/
structure InterSt where
  base : Internals
  todo : Nat
  acc : List (List Nat)
  cur : Option (Nat × List Nat)

/-- ITERATE_MARKERS, READ_INTERMARKER_LENGTH and READ_INTERMARKER_DATA (c/dec/brunsli_decode.cc:1586-1624). -/
def interBody : Body InterSt Internals
  | ⟨x, todo, acc, some (left, c)⟩, _, w =>
    if left ≤ w.length then .more ⟨x, todo, acc ++ [c ++ w.take left], none⟩ left
    else .wait ⟨x, todo, acc, some (left - w.length, c ++ w)⟩ w.length
  | ⟨x, 0, acc, none⟩, _, _ => .done { x with interMarker := acc } 0
  | ⟨x, todo + 1, acc, none⟩, rem, w =>
    match decodeBase128 w with
    | .needMore => if rem ≤ w.length then .bad else .wait ⟨x, todo + 1, acc, none⟩ 0
    | .invalid => .bad
    | .ok v rest =>
      if rem < w.length - rest.length ∨ rem - (w.length - rest.length) < v then .bad
      else .more ⟨x, todo, acc, some (v, [])⟩ (w.length - rest.length)

/-- What is read from the whole rest of the section. -/
def interSem : InterSt → List Nat → Option (Internals × List Nat)
  | ⟨x, todo, acc, none⟩, p => (readInterMarker todo p).map fun lr => ({ x with interMarker := acc ++ lr.1 }, lr.2)
  | ⟨x, todo, acc, some (left, c)⟩, p =>
    if left ≤ p.length then
      (readInterMarker todo (p.drop left)).map fun lr => ({ x with interMarker := acc ++ [c ++ p.take left] ++ lr.1 }, lr.2)
    else none

/-- The current string lies in the section. -/
def interInv (t : InterSt) (rem : Nat) : Prop := ∀ left c, t.cur = some (left, c) → left ≤ rem

theorem interBody_fits (t : InterSt) (rem : Nat) (w : List Nat) (hi : interInv t rem) :
    Fits interBody interInv (fun _ => True) t rem w (interBody t rem w) := by
  obtain ⟨x, todo, acc, cur⟩ := t
  cases cur with
  | some lc =>
    obtain ⟨left, c⟩ := lc
    have hle : left ≤ rem := hi left c rfl
    simp only [interBody]
    by_cases hl : left ≤ w.length
    · rw [if_pos hl]
      refine ⟨hl, hle, fun l c h => (by cases h), fun y => ?_⟩
      simp only [interBody]
      rw [if_pos (by rw [List.length_append]; omega), List.take_append_of_le_length hl]
    · rw [if_neg hl]
      refine ⟨Nat.le_refl _, by omega, fun l c h => ?_, by omega, fun y => ?_⟩
      · cases h; omega
      · simp only [interBody, List.drop_length, List.nil_append, List.length_append]
        by_cases hy : left ≤ w.length + y.length
        · rw [if_pos hy, if_pos (by omega)]
          simp only [BOut.shift]
          rw [List.take_append, List.take_of_length_le (by omega : w.length ≤ left), List.append_assoc,
            show w.length + (left - w.length) = left by omega]
        · rw [if_neg hy, if_neg (by omega)]
          simp only [BOut.shift]
          rw [List.append_assoc, show left - (w.length + y.length) = left - w.length - y.length by omega]
  | none =>
    cases todo with
    | zero => exact ⟨Nat.zero_le _, Nat.zero_le _, trivial, fun y => rfl⟩
    | succ todo =>
      simp only [interBody]
      cases hd : decodeBase128 w with
      | invalid =>
        intro y
        simp only [interBody, Rd.Mono.decodeBase128.invalid hd y]
      | needMore =>
        simp only
        by_cases hr : rem ≤ w.length
        · rw [if_pos hr]
          intro y
          simp only [interBody]
          cases hy : decodeBase128 (w ++ y) with
          | invalid => rfl
          | needMore => simp only; rw [if_pos (by rw [List.length_append]; omega)]
          | ok v rest =>
            simp only
            rw [if_pos]
            have := decodeBase128_late hd hy
            omega
        · rw [if_neg hr]
          refine ⟨Nat.zero_le _, Nat.zero_le _, fun l c h => (by cases h), ?_, fun y => ?_⟩
          · have := decodeBase128_short hd; omega
          · rw [BOut.shift_zero]; rfl
      | ok v rest =>
        simp only
        obtain ⟨u, e, _, _, _⟩ := decodeBase128_exact hd
        have hl : w.length = u.length + rest.length := by rw [e, List.length_append]
        have hx : ∀ y, decodeBase128 (w ++ y) = .ok v (rest ++ y) := fun y => Rd.Mono.decodeBase128.ok hd y
        have hn : ∀ y : List Nat, (w ++ y).length - (rest ++ y).length = w.length - rest.length := fun y => by
          rw [List.length_append, List.length_append]; omega
        by_cases hc : rem < w.length - rest.length ∨ rem - (w.length - rest.length) < v
        · rw [if_pos hc]
          intro y
          simp only [interBody, hx, hn]
          rw [if_pos hc]
        · rw [if_neg hc]
          refine ⟨by omega, by omega, fun l c h => ?_, fun y => ?_⟩
          · cases h; omega
          · simp only [interBody, hx, hn]
            rw [if_neg hc]

theorem interBody_total : ∀ (todo : Nat) (x : Internals) (acc : List (List Nat)) (cur : Option (Nat × List Nat)) (rem : Nat) (w : List Nat),
    interInv ⟨x, todo, acc, cur⟩ rem → rem ≤ w.length → Verdict interBody ⟨x, todo, acc, cur⟩ rem w (interSem ⟨x, todo, acc, cur⟩ (w.take rem)) := by
  intro todo
  -- it is enough to look at states between two strings
  suffices hnone : ∀ (x : Internals) (acc : List (List Nat)) (rem : Nat) (w : List Nat), rem ≤ w.length →
      Verdict interBody ⟨x, todo, acc, none⟩ rem w (interSem ⟨x, todo, acc, none⟩ (w.take rem)) by
    intro x acc cur rem w hi hr
    cases cur with
    | none => exact hnone x acc rem w hr
    | some lc =>
      obtain ⟨left, c⟩ := lc
      have hle : left ≤ rem := hi left c rfl
      refine .more (t' := ⟨x, todo, acc ++ [c ++ w.take left], none⟩) (n := left) (by simp only [interBody]; rw [if_pos (by omega)]) ?_
      have := hnone x (acc ++ [c ++ w.take left]) (rem - left) (w.drop left) (by rw [List.length_drop]; omega)
      simp only [interSem] at this ⊢
      rw [if_pos (by rw [List.length_take]; omega), List.take_take, Nat.min_eq_left hle]
      rwa [List.take_drop, show left + (rem - left) = rem by omega] at this
  induction todo with
  | zero =>
    intro x acc rem w hr
    have : interSem ⟨x, 0, acc, none⟩ (w.take rem) = some ({ x with interMarker := acc }, (w.take rem).drop 0) := by
      simp [interSem, readInterMarker]
    rw [this]
    exact .done rfl
  | succ todo ih =>
    intro x acc rem w hr
    cases hd : decodeBase128 w with
    | invalid =>
      have : interSem ⟨x, todo + 1, acc, none⟩ (w.take rem) = none := by
        simp only [interSem, readInterMarker]
        split
        · rename_i h
          exact (decodeBase128_take_none (by rw [hd]; intro _ _ h; cases h) _ _ h).elim
        · rfl
      rw [this]
      exact .bad (by simp only [interBody, hd])
    | needMore =>
      have : interSem ⟨x, todo + 1, acc, none⟩ (w.take rem) = none := by
        simp only [interSem, readInterMarker]
        split
        · rename_i h
          exact (decodeBase128_take_none (by rw [hd]; intro _ _ h; cases h) _ _ h).elim
        · rfl
      rw [this]
      exact .bad (by simp only [interBody, hd]; rw [if_pos hr])
    | ok v rest =>
      obtain ⟨t1, t2⟩ := decodeBase128_take hd hr
      by_cases hn : rem < w.length - rest.length
      · have : interSem ⟨x, todo + 1, acc, none⟩ (w.take rem) = none := by
          simp only [interSem, readInterMarker]
          split
          · rename_i h
            exact (t2 hn _ _ h).elim
          · rfl
        rw [this]
        exact .bad (by simp only [interBody, hd]; rw [if_pos (Or.inl hn)])
      · have hok := t1 (by omega)
        have hlen : ((w.take rem).drop (w.length - rest.length)).length = rem - (w.length - rest.length) := by
          rw [List.length_drop, List.length_take]; omega
        by_cases hv : rem - (w.length - rest.length) < v
        · have : interSem ⟨x, todo + 1, acc, none⟩ (w.take rem) = none := by
            simp only [interSem, readInterMarker, hok, hlen]
            rw [if_neg (by omega)]
            rfl
          rw [this]
          exact .bad (by simp only [interBody, hd]; rw [if_pos (Or.inr hv)])
        · generalize hnn : w.length - rest.length = n at *
          have hc : ¬(rem < n ∨ rem - n < v) := by omega
          have hnw : n ≤ w.length := by omega
          refine .more (t' := ⟨x, todo, acc, some (v, [])⟩) (n := n) (by simp only [interBody, hd, hnn]; rw [if_neg hc]) ?_
          refine .more (t' := ⟨x, todo, acc ++ [[] ++ (w.drop n).take v], none⟩) (n := v)
            (by simp only [interBody]; rw [if_pos (by rw [List.length_drop]; omega)]) ?_
          have := ih x (acc ++ [[] ++ (w.drop n).take v]) (rem - n - v) ((w.drop n).drop v)
            (by rw [List.length_drop, List.length_drop]; omega)
          have e : interSem ⟨x, todo + 1, acc, none⟩ (w.take rem) =
              interSem ⟨x, todo, acc ++ [[] ++ (w.drop n).take v], none⟩ (((w.drop n).drop v).take (rem - n - v)) := by
            simp only [interSem, readInterMarker, hok, hlen]
            rw [if_pos (by omega)]
            have e1 : ((w.take rem).drop n).drop v = ((w.drop n).drop v).take (rem - n - v) := by
              rw [List.drop_drop, List.drop_drop, List.take_drop, show n + v + (rem - n - v) = rem by omega]
            have e2 : ((w.take rem).drop n).take v = (w.drop n).take v := by
              rw [List.take_drop, List.take_take, Nat.min_eq_left (by omega), ← List.take_drop]
            rw [e1, e2, Option.map_map]
            congr 1
            funext lr
            simp
          rw [e]
          exact this

theorem interBody_resumes : Resumes interBody interSem interInv (fun _ => True) where
  fits := interBody_fits
  total t rem w hi hr := interBody_total t.todo t.base t.acc t.cur rem w hi hr

/-! ## The whole section -/

/-- What a section read to its end gives (`IsAtSectionBoundary`). -/
def atEnd {α : Type} : Option (α × List Nat) → Option α
  | some (a, []) => some a
  | _ => none

/-- `DecodeJPEGInternalsSection` (c/dec/brunsli_decode.cc:1408-1633). -/
def internalsBody : Body ((List Bool × BP Internals) ⊕ InterSt) Internals :=
  seqBody (bitBody false) (fun x => ⟨x, x.markers.count 0xff, [], none⟩) interBody

/-- What it reads. -/
def internalsSem : (List Bool × BP Internals) ⊕ InterSt → List Nat → Option (Internals × List Nat) :=
  seqSem (bitSem false) (fun x => ⟨x, x.markers.count 0xff, [], none⟩) interSem

/-- The condition on its states. -/
def internalsInv : (List Bool × BP Internals) ⊕ InterSt → Nat → Prop := seqInv (bitInv fun _ => True) interInv

/-- The state at the beginning of a section of `rem` bytes. -/
def internalsStart (rem limit ncomp : Nat) : (List Bool × BP Internals) ⊕ InterSt := .inl ([], internalsBP (8 * rem) limit ncomp)

theorem internalsBody_resumes : Resumes internalsBody internalsSem internalsInv (fun _ => True) :=
  seqBody_resumes (bitBody_resumes false fun _ => True) interBody_resumes fun _ _ _ _ _ h => by cases h

theorem internalsStart_inv (rem limit ncomp : Nat) : internalsInv (internalsStart rem limit ncomp) rem := by
  refine ⟨by simp, ?_, internalsBP_within _ _ _⟩
  unfold internalsBP
  cases 8 * rem with
  | zero => trivial
  | succ n => trivial

/-- The section is read as in one piece. -/
theorem internalsStart_sem (limit ncomp : Nat) (payload : List Nat) :
    atEnd (internalsSem (internalsStart payload.length limit ncomp) payload) = decodeInternals limit ncomp payload := by
  simp only [internalsSem, internalsStart, seqSem, bitSem, List.nil_append, decodeInternals]
  rw [internalsBP_agrees (8 * payload.length) limit ncomp _ (Nat.le_of_eq (bytesBits_length _))]
  cases readInternalsBits limit ncomp (bytesBits payload) with
  | none => rfl
  | some y =>
    obtain ⟨x, r⟩ := y
    simp only [finishSem]
    split
    · rename_i h; split at h
      · rename_i hz; rw [if_pos hz]; rfl
      · cases h
    · rename_i b rest h
      split at h
      · cases h
      · rename_i hz
        cases h
        rw [if_neg hz]
        simp only [interSem]
        cases readInterMarker (x.markers.count 0xff) (payload.drop (payload.length - r.length / 8)) with
        | none => rfl
        | some z =>
          obtain ⟨l, q⟩ := z
          cases q with
          | nil => simp [atEnd]
          | cons a q => simp [atEnd]

end Brunsli
