import Verif.PropsS
/-!
# Calls of the decoder until all output is there

How many steps a call may take (`fuel`) does not matter once they suffice; so what is known of a list of calls is known of its beginnings, too.
-/

namespace Brunsli

theorem doProcess_fuel {σ : Type} {P : Parser σ} {fuel more : Nat} (hm : fuel ≤ more) {s : PSt σ} {w : List Nat} {r : PSt σ × List Nat × PStatus}
    (h : doProcess P fuel s w = some r) : doProcess P more s w = some r := by
  induction fuel generalizing more s w with
  | zero => simp [doProcess] at h
  | succ fuel ih =>
    obtain ⟨m, rfl⟩ : ∃ m, more = m + 1 := ⟨more - 1, by omega⟩
    cases s with
    | working t =>
      rw [doProcess] at h ⊢
      rcases he : P.step t w with ⟨t', n, nx⟩
      rw [he] at h
      cases nx with
      | go => exact ih (by omega) h
      | finished => exact ih (by omega) h
      | wait => exact h
      | fail c => exact h
    | done t => exact h
    | paused t => exact h
    | dead t c => exact h

theorem processDirect_fuel {σ : Type} {P : Parser σ} {fuel more : Nat} (hm : fuel ≤ more) {s : PSt σ} {ext : List Nat} {r : PSt σ × List Nat × List Nat × PStatus}
    (h : processDirect P fuel s ext = some r) : processDirect P more s ext = some r := by
  unfold processDirect at h ⊢
  cases hd : doProcess P fuel s ext with
  | none => rw [hd] at h; cases h
  | some q => rw [hd] at h; rw [doProcess_fuel hm hd]; exact h

theorem processJpeg_fuel {σ : Type} {P : Parser σ} {fuel more : Nat} (hm : fuel ≤ more) {s : PSt σ} {b ext : List Nat} {r : PSt σ × List Nat × List Nat × PStatus}
    (h : processJpeg P fuel s b ext = some r) : processJpeg P more s b ext = some r := by
  have key : ∀ q : PSt σ, (if b = [] then processDirect P fuel q ext
      else
        match doProcess P fuel q (b ++ ext.take maxReadAhead) with
        | none => none
        | some (s', w, r) =>
          if b.length ≤ (b ++ ext.take maxReadAhead).length - w.length then
            if r = .needMore then processDirect P fuel s'.resume (ext.drop ((b ++ ext.take maxReadAhead).length - w.length - b.length))
            else some (s', [], ext.drop ((b ++ ext.take maxReadAhead).length - w.length - b.length), r)
          else if r = .needMore then some (s', b.drop ((b ++ ext.take maxReadAhead).length - w.length) ++ ext.take maxReadAhead, ext.drop (ext.take maxReadAhead).length, .needMore)
          else some (s', b.drop ((b ++ ext.take maxReadAhead).length - w.length), ext, r)) = some r →
      (if b = [] then processDirect P more q ext
      else
        match doProcess P more q (b ++ ext.take maxReadAhead) with
        | none => none
        | some (s', w, r) =>
          if b.length ≤ (b ++ ext.take maxReadAhead).length - w.length then
            if r = .needMore then processDirect P more s'.resume (ext.drop ((b ++ ext.take maxReadAhead).length - w.length - b.length))
            else some (s', [], ext.drop ((b ++ ext.take maxReadAhead).length - w.length - b.length), r)
          else if r = .needMore then some (s', b.drop ((b ++ ext.take maxReadAhead).length - w.length) ++ ext.take maxReadAhead, ext.drop (ext.take maxReadAhead).length, .needMore)
          else some (s', b.drop ((b ++ ext.take maxReadAhead).length - w.length), ext, r)) = some r := by
    intro q h
    by_cases hb : b = []
    · rw [if_pos hb] at h ⊢
      exact processDirect_fuel hm h
    · rw [if_neg hb] at h ⊢
      rcases hd : doProcess P fuel q (b ++ ext.take maxReadAhead) with _ | ⟨s', w, st⟩
      · rw [hd] at h; cases h
      · rw [hd] at h
        rw [doProcess_fuel hm hd]
        dsimp only at h ⊢
        by_cases h1 : b.length ≤ (b ++ ext.take maxReadAhead).length - w.length
        · rw [if_pos h1] at h ⊢
          by_cases h2 : st = .needMore
          · rw [if_pos h2] at h ⊢
            exact processDirect_fuel hm h
          · rw [if_neg h2] at h ⊢
            exact h
        · rw [if_neg h1] at h ⊢
          exact h
  cases s with
  | dead t c => exact h
  | working t => exact key _ h
  | paused t => exact key _ h
  | done t => exact key _ h

theorem decodeCall_fuel {σ τ : Type} {P : Parser σ} {api : SerApi (PSt σ) τ} {fuel more : Nat} (hm : fuel ≤ more) {i : List Nat} {a : Nat} {d : DecState σ τ}
    {r : DResult σ τ} (h : decodeCall P api fuel i a d = some r) : decodeCall P api more i a d = some r := by
  unfold decodeCall at h ⊢
  cases hp : processJpeg P fuel d.parser d.buffer i with
  | none => rw [hp] at h; cases h
  | some q => rw [hp] at h; rw [processJpeg_fuel hm hp]; exact h

theorem decodeCalls_fuel {σ τ : Type} {P : Parser σ} {api : SerApi (PSt σ) τ} {fuel more : Nat} (hm : fuel ≤ more) : ∀ {calls : List (List Nat × Nat)} {d : DecState σ τ}
    {rs : List (DResult σ τ)}, decodeCalls P api fuel calls d = some rs → decodeCalls P api more calls d = some rs
  | [], _, _, h => h
  | (i, a) :: cs, d, rs, h => by
    rw [decodeCalls] at h ⊢
    cases hc : decodeCall P api fuel i a d with
    | none => rw [hc] at h; cases h
    | some r =>
      rw [hc] at h
      rw [decodeCall_fuel hm hc]
      dsimp only at h ⊢
      cases hr : decodeCalls P api fuel cs r.state with
      | none => rw [hr] at h; cases h
      | some rs' => rw [hr] at h; rw [decodeCalls_fuel hm hr]; exact h

theorem decodeCalls_length {σ τ : Type} {P : Parser σ} {api : SerApi (PSt σ) τ} {fuel : Nat} : ∀ {calls : List (List Nat × Nat)} {d : DecState σ τ}
    {rs : List (DResult σ τ)}, decodeCalls P api fuel calls d = some rs → rs.length = calls.length
  | [], _, _, h => by simp only [decodeCalls, Option.some.injEq] at h; subst h; rfl
  | (i, a) :: cs, d, rs, h => by
    rw [decodeCalls] at h
    cases hc : decodeCall P api fuel i a d with
    | none => rw [hc] at h; cases h
    | some r =>
      rw [hc] at h
      dsimp only at h
      cases hr : decodeCalls P api fuel cs r.state with
      | none => rw [hr] at h; cases h
      | some rs' =>
        rw [hr] at h
        cases h
        have := decodeCalls_length hr
        simp only [List.length_cons]
        omega

theorem decodeCalls_prefix {σ τ : Type} {P : Parser σ} {api : SerApi (PSt σ) τ} {fuel : Nat} : ∀ {calls more : List (List Nat × Nat)} {d : DecState σ τ}
    {rs : List (DResult σ τ)}, decodeCalls P api fuel (calls ++ more) d = some rs → decodeCalls P api fuel calls d = some (rs.take calls.length)
  | [], more, d, rs, h => by simp [decodeCalls]
  | (i, a) :: cs, more, d, rs, h => by
    rw [List.cons_append, decodeCalls] at h
    cases hc : decodeCall P api fuel i a d with
    | none => rw [hc] at h; cases h
    | some r =>
      rw [hc] at h
      dsimp only at h
      cases hr : decodeCalls P api fuel (cs ++ more) r.state with
      | none => rw [hr] at h; cases h
      | some rs' =>
        rw [hr] at h
        cases h
        have h1 := decodeCalls_prefix hr
        rw [decodeCalls, hc]
        dsimp only
        rw [h1]
        rfl

/-- What a call writes and the space it leaves are the space it had. -/
theorem decodeCall_space {σ τ : Type} {P : Parser σ} {api : SerApi (PSt σ) τ} {fuel : Nat} {i : List Nat} {a : Nat} {d : DecState σ τ} {r : DResult σ τ}
    (h : decodeCall P api fuel i a d = some r) : r.out.length + r.left = a := by
  unfold decodeCall at h
  rcases hp : processJpeg P fuel d.parser d.buffer i with _ | ⟨ps, b, rest, st⟩
  · rw [hp] at h; cases h
  · rw [hp] at h
    have := serialize_left api ps a d.ser
    cases st with
    | bad c => simp only [Option.some.injEq] at h; subst h; simp
    | ok => simp only [Option.some.injEq] at h; subst h; exact this
    | needMore => simp only [Option.some.injEq] at h; subst h; exact this

theorem decodeCalls_space {σ τ : Type} {P : Parser σ} {api : SerApi (PSt σ) τ} {fuel K : Nat} : ∀ {calls : List (List Nat × Nat)} {d : DecState σ τ}
    {rs : List (DResult σ τ)}, (∀ c ∈ calls, c.2 = K) → decodeCalls P api fuel calls d = some rs → ∀ r ∈ rs, r.out.length + r.left = K
  | [], _, _, _, h => by simp only [decodeCalls, Option.some.injEq] at h; subst h; intro r hr; cases hr
  | (i, a) :: cs, d, rs, hK, h => by
    rw [decodeCalls] at h
    cases hc : decodeCall P api fuel i a d with
    | none => rw [hc] at h; cases h
    | some r =>
      rw [hc] at h
      dsimp only at h
      cases hr : decodeCalls P api fuel cs r.state with
      | none => rw [hr] at h; cases h
      | some rs' =>
        rw [hr] at h
        cases h
        intro q hq
        rcases List.mem_cons.mp hq with rfl | hq
        · rw [decodeCall_space hc]; exact hK (i, a) (by simp)
        · exact decodeCalls_space (fun c hc => hK c (by simp [hc])) hr q hq

/-- `Delivers` for some prefix means `Delivers` for that prefix of every longer run. -/
theorem delivers_prefix {z : Inflater} {T : HSlot → CodeTable} {whole : List Nat} {calls more : List (List Nat × Nat)} {fuel : Nat} {rs : List (DResult (FileSt z) WJS)}
    (h : ∃ fuel rs, Decoder.run z fuel T calls = some rs ∧ Delivers whole rs) (hr : Decoder.run z fuel T (calls ++ more) = some rs) : Delivers whole (rs.take calls.length) := by
  obtain ⟨f, rs', h1, h2⟩ := h
  have e1 := decodeCalls_fuel (Nat.le_max_left f fuel) h1
  have e2 := decodeCalls_fuel (Nat.le_max_right f fuel) (decodeCalls_prefix hr)
  rw [e1] at e2
  cases e2
  exact h2

theorem flatten_take_succ {α β : Type} (f : α → List β) (rs : List α) (i : Nat) (r : α) (h : rs[i]? = some r) :
    ((rs.take (i + 1)).map f).flatten = ((rs.take i).map f).flatten ++ f r := by
  rw [List.take_add_one, h]
  simp

/-- Calls that deliver, followed by calls without input: the first of these that is not asked to go on says `done`, and by then all is delivered.  There are at most
`whole.length / K` of them. -/
theorem drain {z : Inflater} {T : HSlot → CodeTable} {whole : List Nat} {K : Nat} (hK : 0 < K) (calls : List (List Nat × Nat)) (hne : calls ≠ []) (hs : ∀ c ∈ calls, c.2 = K)
    (h : ∀ n, ∃ fuel rs, Decoder.run z fuel T (calls ++ List.replicate n ([], K)) = some rs ∧ Delivers whole rs) :
    ∃ n, n ≤ whole.length / K ∧ ∃ fuel rs, Decoder.run z fuel T (calls ++ List.replicate n ([], K)) = some rs ∧ (∀ r ∈ rs, r.status ≠ .error) ∧
      (rs.map DResult.out).flatten = whole ∧ (∃ r, rs.getLast? = some r ∧ r.status = .done) ∧
      ∀ i, calls.length ≤ i + 1 → i + 1 < rs.length → ∃ r, rs[i]? = some r ∧ r.status = .needsOutput := by
  have hm : 0 < calls.length := List.length_pos_iff.mpr hne
  -- The run with the most calls, and its beginnings.
  obtain ⟨F, rs, hF, -⟩ := h (whole.length / K)
  have hlen := decodeCalls_length hF
  rw [List.length_append, List.length_replicate] at hlen
  have hspace := decodeCalls_space (K := K) (fun c hc => by
    rcases List.mem_append.mp hc with hc | hc
    · exact hs c hc
    · rw [(List.mem_replicate.mp hc).2]) hF
  have hsplit : ∀ n, n ≤ whole.length / K → calls ++ List.replicate (whole.length / K) ([], K) =
      (calls ++ List.replicate n ([], K)) ++ List.replicate (whole.length / K - n) ([], K) := fun n hn => by
    rw [List.append_assoc, ← List.replicate_add]
    congr 2
    omega
  have hpre : ∀ n, n ≤ whole.length / K → Decoder.run z F T (calls ++ List.replicate n ([], K)) = some (rs.take (calls.length + n)) ∧ Delivers whole (rs.take (calls.length + n)) := by
    intro n hn
    rw [hsplit n hn] at hF
    have h1 := decodeCalls_prefix hF
    have h2 := delivers_prefix (h n) hF
    rw [List.length_append, List.length_replicate] at h1 h2
    exact ⟨h1, h2⟩
  have hget : ∀ n, n ≤ whole.length / K → ∃ r, rs[calls.length + n - 1]? = some r ∧ (rs.take (calls.length + n)).getLast? = some r := by
    intro n hn
    refine ⟨rs[calls.length + n - 1]'(by omega), List.getElem?_eq_getElem _, ?_⟩
    rw [List.getLast?_eq_getElem?, List.length_take, Nat.min_eq_left (by omega), List.getElem?_take, if_pos (by omega)]
    exact List.getElem?_eq_getElem _
  -- As long as no call is the last one, each has filled its space.
  have hfill : ∀ n, n ≤ whole.length / K → (∀ j, j ≤ n → ∀ r, rs[calls.length + j - 1]? = some r → r.status ≠ .done) →
      (n + 1) * K ≤ (((rs.take (calls.length + n)).map DResult.out).flatten).length := by
    intro n
    induction n with
    | zero =>
      intro hn hnot
      obtain ⟨r, hr, hl⟩ := hget 0 hn
      have := (hpre 0 hn).2.last r hl
      rcases this with ⟨h1, -⟩ | ⟨-, h0⟩
      · exact absurd h1 (hnot 0 (by omega) r hr)
      · have := hspace r (List.mem_of_getElem? hr)
        have e := flatten_take_succ DResult.out rs _ r hr
        rw [show calls.length + 0 - 1 + 1 = calls.length + 0 by omega] at e
        rw [e, List.length_append]
        omega
    | succ n ih =>
      intro hn hnot
      have := ih (by omega) fun j hj => hnot j (by omega)
      obtain ⟨r, hr, hl⟩ := hget (n + 1) hn
      rcases (hpre (n + 1) hn).2.last r hl with ⟨h1, -⟩ | ⟨-, h0⟩
      · exact absurd h1 (hnot (n + 1) (by omega) r hr)
      · have hsp := hspace r (List.mem_of_getElem? hr)
        have e := flatten_take_succ DResult.out rs _ r hr
        rw [show calls.length + (n + 1) - 1 + 1 = calls.length + (n + 1) by omega, show calls.length + (n + 1) - 1 = calls.length + n by omega] at e
        rw [e, List.length_append, Nat.add_mul]
        omega
  have hex : ∃ n, n ≤ whole.length / K ∧ ∃ r, rs[calls.length + n - 1]? = some r ∧ r.status = .done := by
    refine Classical.byContradiction fun hno => ?_
    have h1 := hfill (whole.length / K) (Nat.le_refl _) fun j hj r hr hd => hno ⟨j, hj, r, hr, hd⟩
    have h2 := (hpre (whole.length / K) (Nat.le_refl _)).2.inOrder.length_le
    have h3 := Nat.lt_div_mul_add hK (a := whole.length)
    rw [Nat.add_mul] at h1
    omega
  classical
  have hn := Nat.find_spec hex
  have hmin := fun j => Nat.find_min hex (m := j)
  generalize Nat.find hex = n at hn hmin
  obtain ⟨hle, r, hr, hd⟩ := hn
  obtain ⟨r', hr', hl⟩ := hget n hle
  rw [hr] at hr'
  cases hr'
  obtain ⟨hrun, hdel⟩ := hpre n hle
  refine ⟨n, hle, F, _, hrun, hdel.noError, ?_, ⟨r, hl, hd⟩, ?_⟩
  · rcases hdel.last r hl with ⟨-, h⟩ | ⟨h, -⟩
    · exact h
    · rw [hd] at h; cases h
  · intro i hi hi'
    rw [List.length_take, Nat.min_eq_left (by omega)] at hi'
    obtain ⟨q, hq, hql⟩ := hget (i + 1 - calls.length) (by omega)
    have e : calls.length + (i + 1 - calls.length) - 1 = i := by omega
    have e' : calls.length + (i + 1 - calls.length) = i + 1 := by omega
    rw [e] at hq
    refine ⟨q, by rw [List.getElem?_take, if_pos (by omega)]; exact hq, ?_⟩
    rcases (hpre (i + 1 - calls.length) (by omega)).2.last q hql with ⟨h, -⟩ | ⟨h, -⟩
    · exact absurd ⟨by omega, q, by rw [e]; exact hq, h⟩ (hmin (i + 1 - calls.length) (by omega))
    · exact h

/-! ## Original bytes -/

theorem hands_prefix {z : Inflater} {T : HSlot → CodeTable} {whole : List Nat} {calls more : List (List Nat × Nat)} {fuel : Nat} {rs : List (DResult (FileSt z) WJS)}
    (h : ∃ fuel rs, Decoder.run z fuel T calls = some rs ∧ Hands whole rs) (hr : Decoder.run z fuel T (calls ++ more) = some rs) : Hands whole (rs.take calls.length) := by
  obtain ⟨f, rs', h1, h2⟩ := h
  have e1 := decodeCalls_fuel (Nat.le_max_left f fuel) h1
  have e2 := decodeCalls_fuel (Nat.le_max_right f fuel) (decodeCalls_prefix hr)
  rw [e1] at e2
  cases e2
  exact h2

theorem serSections_needs {V σ : Type} (api : SerApi V σ) (v : V) : ∀ (rest : List Nat) (aux : σ) (q : List (List Nat)) (a : Nat),
    (serSections api v rest aux q a).status = .needsOutput → (serSections api v rest aux q a).state.stage = .done
  | [], aux, q, a, _ => rfl
  | m :: rest, aux, q, a, h => by
    rw [serSections] at h ⊢
    rcases hm : api.marker v aux m with ⟨aux', cs, st⟩
    rw [hm] at h
    cases st with
    | error => cases h
    | needsInput => cases h
    | needsOutput => cases h
    | done => exact serSections_needs api v rest _ _ _ h

/-- Output space is asked for only when everything is produced. -/
theorem serialize_needs {V σ : Type} (api : SerApi V σ) (v : V) (a : Nat) (s : SState σ) (h : (serialize api v a s).status = .needsOutput) :
    (serialize api v a s).state.stage = .done := by
  unfold serialize at h ⊢
  split at h
  · cases h
  · assumption
  · exact serSections_needs api v _ _ _ _ h
  · dsimp only at h ⊢
    split at h
    · cases h
    · rename_i h1
      rw [if_neg h1]
      split at h
      · rename_i h2
        rw [if_pos h2]
        split at h
        · cases h
        · rfl
      · rename_i h2
        rw [if_neg h2]
        split at h
        · cases h
        · rename_i h3
          rw [if_neg h3]
          split at h
          · cases h
          · rename_i h4
            rw [if_neg h4]
            exact serSections_needs api v _ _ _ _ h

theorem pushOutput_rest : ∀ (a : Nat) (q : List (List Nat)), (pushOutput a q).2.2 ≠ [] → (pushOutput a q).2.1 = 0
  | 0, q, _ => by rw [pushOutput]
  | a + 1, [], h => absurd rfl h
  | a + 1, c :: q, h => by
    rw [pushOutput] at h ⊢
    split
    · rename_i hc
      rw [if_pos hc] at h
      exact pushOutput_rest _ q h
    · rfl

theorem decodeCall_stage {σ τ : Type} {P : Parser σ} {api : SerApi (PSt σ) τ} {fuel : Nat} {i : List Nat} {a : Nat} {d : DecState σ τ} {r : DResult σ τ}
    (h : decodeCall P api fuel i a d = some r) (hs : r.status = .needsOutput) : r.state.ser.stage = .done ∧ (d.ser.stage = .done → r.left = 0) := by
  unfold decodeCall at h
  rcases hp : processJpeg P fuel d.parser d.buffer i with _ | ⟨ps, b, rest, st⟩
  · rw [hp] at h; cases h
  · rw [hp] at h
    have key : ∀ (stat : DStatus), some (⟨stat, rest, (serialize api ps a d.ser).out, (serialize api ps a d.ser).left, ⟨ps, b, (serialize api ps a d.ser).state⟩⟩ : DResult σ τ) = some r →
        (serialize api ps a d.ser).status = .needsOutput → r.state.ser.stage = .done ∧ (d.ser.stage = .done → r.left = 0) := by
      intro stat h hst
      cases h
      refine ⟨serialize_needs api ps a d.ser hst, fun hd => ?_⟩
      show (serialize api ps a d.ser).left = 0
      unfold serialize at hst ⊢
      rw [hd] at hst ⊢
      dsimp only at hst ⊢
      refine pushOutput_rest _ _ fun e => ?_
      rw [e] at hst
      cases hst
    have hstat : ∀ stat : SStatus, (match stat with
      | .done => DStatus.done
      | .needsInput => .needsInput
      | .needsOutput => .needsOutput
      | .error => .error) = .needsOutput → stat = .needsOutput := fun stat h => by cases stat <;> first | rfl | cases h
    cases st with
    | bad c => cases h; cases hs
    | ok => exact key _ h (hstat _ ((congrArg DResult.status (Option.some.inj h)).trans hs))
    | needMore => exact key _ h (hstat _ ((congrArg DResult.status (Option.some.inj h)).trans hs))

theorem decodeCalls_full {σ τ : Type} {P : Parser σ} {api : SerApi (PSt σ) τ} {fuel : Nat} : ∀ {calls : List (List Nat × Nat)} {d : DecState σ τ}
    {rs : List (DResult σ τ)}, decodeCalls P api fuel calls d = some rs → ∀ {i : Nat} {q r : DResult σ τ}, rs[i]? = some q → rs[i + 1]? = some r →
    q.status = .needsOutput → r.status = .needsOutput → r.left = 0
  | [], _, _, h, i, q, r, h1, _, _, _ => by simp only [decodeCalls, Option.some.injEq] at h; subst h; simp at h1
  | (x, a) :: cs, d, rs, h, i, q, r, h1, h2, h3, h4 => by
    rw [decodeCalls] at h
    cases hc : decodeCall P api fuel x a d with
    | none => rw [hc] at h; cases h
    | some r0 =>
      rw [hc] at h
      dsimp only at h
      cases hr : decodeCalls P api fuel cs r0.state with
      | none => rw [hr] at h; cases h
      | some rs' =>
        rw [hr] at h
        cases h
        rw [List.getElem?_cons_succ] at h2
        cases i with
        | succ i => exact decodeCalls_full hr (by rw [← List.getElem?_cons_succ]; exact h1) h2 h3 h4
        | zero =>
          rw [List.getElem?_cons_zero] at h1
          cases h1
          cases cs with
          | nil => simp only [decodeCalls, Option.some.injEq] at hr; subst hr; simp at h2
          | cons c cs =>
            obtain ⟨x', a'⟩ := c
            rw [decodeCalls] at hr
            cases hc' : decodeCall P api fuel x' a' q.state with
            | none => rw [hc'] at hr; cases hr
            | some r1 =>
              rw [hc'] at hr
              dsimp only at hr
              cases hr' : decodeCalls P api fuel cs r1.state with
              | none => rw [hr'] at hr; cases hr
              | some rs'' =>
                rw [hr'] at hr
                cases hr
                cases h2
                exact (decodeCall_stage hc' h4).2 (decodeCall_stage hc h3).1

/-- The same of calls that hand out original bytes, followed by calls without input: the first of these that is not asked to go on says `done`, and by then all is delivered.  There are at most
`whole.length / K + 1` of them. -/
theorem drain_original {z : Inflater} {T : HSlot → CodeTable} {whole : List Nat} {K : Nat} (hK : 0 < K) (calls : List (List Nat × Nat)) (hne : calls ≠ []) (hs : ∀ c ∈ calls, c.2 = K)
    (h : ∀ n, ∃ fuel rs, Decoder.run z fuel T (calls ++ List.replicate n ([], K)) = some rs ∧ Hands whole rs) :
    ∃ n, n ≤ (whole.length / K + 1) ∧ ∃ fuel rs, Decoder.run z fuel T (calls ++ List.replicate n ([], K)) = some rs ∧ (∀ r ∈ rs, r.status ≠ .error) ∧
      (rs.map DResult.out).flatten = whole ∧ (∃ r, rs.getLast? = some r ∧ r.status = .done) ∧
      ∀ i, calls.length ≤ i + 1 → i + 1 < rs.length → ∃ r, rs[i]? = some r ∧ r.status = .needsOutput := by
  have hm : 0 < calls.length := List.length_pos_iff.mpr hne
  -- The run with the most calls, and its beginnings.
  obtain ⟨F, rs, hF, -⟩ := h ((whole.length / K + 1))
  have hlen := decodeCalls_length hF
  rw [List.length_append, List.length_replicate] at hlen
  have hspace := decodeCalls_space (K := K) (fun c hc => by
    rcases List.mem_append.mp hc with hc | hc
    · exact hs c hc
    · rw [(List.mem_replicate.mp hc).2]) hF
  have hsplit : ∀ n, n ≤ (whole.length / K + 1) → calls ++ List.replicate ((whole.length / K + 1)) ([], K) =
      (calls ++ List.replicate n ([], K)) ++ List.replicate ((whole.length / K + 1) - n) ([], K) := fun n hn => by
    rw [List.append_assoc, ← List.replicate_add]
    congr 2
    omega
  have hpre : ∀ n, n ≤ (whole.length / K + 1) → Decoder.run z F T (calls ++ List.replicate n ([], K)) = some (rs.take (calls.length + n)) ∧ Hands whole (rs.take (calls.length + n)) := by
    intro n hn
    rw [hsplit n hn] at hF
    have h1 := decodeCalls_prefix hF
    have h2 := hands_prefix (h n) hF
    rw [List.length_append, List.length_replicate] at h1 h2
    exact ⟨h1, h2⟩
  have hget : ∀ n, n ≤ (whole.length / K + 1) → ∃ r, rs[calls.length + n - 1]? = some r ∧ (rs.take (calls.length + n)).getLast? = some r := by
    intro n hn
    refine ⟨rs[calls.length + n - 1]'(by omega), List.getElem?_eq_getElem _, ?_⟩
    rw [List.getLast?_eq_getElem?, List.length_take, Nat.min_eq_left (by omega), List.getElem?_take, if_pos (by omega)]
    exact List.getElem?_eq_getElem _
  -- As long as no call is the last one, each has filled its space.
  have hfill : ∀ n, n ≤ (whole.length / K + 1) → (∀ j, j ≤ n → ∀ r, rs[calls.length + j - 1]? = some r → r.status ≠ .done) →
      n * K ≤ (((rs.take (calls.length + n)).map DResult.out).flatten).length := by
    intro n
    induction n with
    | zero => intro _ _; omega
    | succ n ih =>
      intro hn hnot
      have := ih (by omega) fun j hj => hnot j (by omega)
      obtain ⟨q, hq, hql⟩ := hget n (by omega)
      obtain ⟨r, hr, hl⟩ := hget (n + 1) hn
      have hqs : q.status = .needsOutput := (((hpre n (by omega)).2.last q hql).resolve_left fun h => hnot n (by omega) q hq h.1)
      have hrs : r.status = .needsOutput := (((hpre (n + 1) hn).2.last r hl).resolve_left fun h => hnot (n + 1) (by omega) r hr h.1)
      have h0 := decodeCalls_full hF hq (by rw [show calls.length + n - 1 + 1 = calls.length + (n + 1) - 1 by omega]; exact hr) hqs hrs
      have hsp := hspace r (List.mem_of_getElem? hr)
      have e := flatten_take_succ DResult.out rs _ r hr
      rw [show calls.length + (n + 1) - 1 + 1 = calls.length + (n + 1) by omega, show calls.length + (n + 1) - 1 = calls.length + n by omega] at e
      rw [e, List.length_append, Nat.add_mul]
      omega
  have hex : ∃ n, n ≤ (whole.length / K + 1) ∧ ∃ r, rs[calls.length + n - 1]? = some r ∧ r.status = .done := by
    refine Classical.byContradiction fun hno => ?_
    have h1 := hfill ((whole.length / K + 1)) (Nat.le_refl _) fun j hj r hr hd => hno ⟨j, hj, r, hr, hd⟩
    have h2 := (hpre ((whole.length / K + 1)) (Nat.le_refl _)).2.inOrder.length_le
    have h3 := Nat.lt_div_mul_add hK (a := whole.length)
    rw [Nat.add_mul] at h1
    omega
  classical
  have hn := Nat.find_spec hex
  have hmin := fun j => Nat.find_min hex (m := j)
  generalize Nat.find hex = n at hn hmin
  obtain ⟨hle, r, hr, hd⟩ := hn
  obtain ⟨r', hr', hl⟩ := hget n hle
  rw [hr] at hr'
  cases hr'
  obtain ⟨hrun, hdel⟩ := hpre n hle
  refine ⟨n, hle, F, _, hrun, hdel.noError, ?_, ⟨r, hl, hd⟩, ?_⟩
  · rcases hdel.last r hl with ⟨-, h⟩ | h
    · exact h
    · rw [hd] at h; cases h
  · intro i hi hi'
    rw [List.length_take, Nat.min_eq_left (by omega)] at hi'
    obtain ⟨q, hq, hql⟩ := hget (i + 1 - calls.length) (by omega)
    have e : calls.length + (i + 1 - calls.length) - 1 = i := by omega
    have e' : calls.length + (i + 1 - calls.length) = i + 1 := by omega
    rw [e] at hq
    refine ⟨q, by rw [List.getElem?_take, if_pos (by omega)]; exact hq, ?_⟩
    rcases (hpre (i + 1 - calls.length) (by omega)).2.last q hql with ⟨h, -⟩ | h
    · exact absurd ⟨by omega, q, by rw [e]; exact hq, h⟩ (hmin (i + 1 - calls.length) (by omega))
    · exact h

end Brunsli
