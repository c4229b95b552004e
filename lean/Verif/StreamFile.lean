import Verif.StreamBody
import Verif.Streaming
import Verif.Container
/-!
# The parser of a file, stage by stage

`VerifySignature`, `DecodeHeader`, `DecodeOriginalJpg`, `ParseSection`, `ProcessSection` (c/dec/brunsli_decode.cc:1097-1272, 1978-2196) as a `Parser`:
what each stage does with the bytes in view.  `Container.lean` has the same functions for a file that is there in one piece.

Simplifications: `skip_tags` is empty.  All errors have the code `BRUNSLI_INVALID_BRN`.  Where a section is rejected the position is not modelled.
-/

namespace Brunsli

/-- `Stage` with the stages inside of `DecodeHeader`, `DecodeOriginalJpg` and `ParseSection`, and the variables in use.  `met` are the tags met at
top level, `imet` those in the header; `pos` is the number of bytes of the header section read so far. -/
inductive FileSt (z : Inflater) where
  /-- `Stage::SIGNATURE` -/
  | signature
  /-- `HeaderState::READ_TAG` -/
  | headTag (met : List Nat)
  /-- `HeaderState::ENTER_SECTION` -/
  | headSize (met : List Nat)
  /-- `HeaderState::ITEM_READ_TAG` -/
  | itemTag (size pos : Nat) (met imet vals : List Nat)
  /-- `HeaderState::ITEM_ENTER_SECTION` -/
  | itemSize (size pos : Nat) (met imet vals : List Nat)
  /-- `HeaderState::ITEM_SKIP_CONTENTS` -/
  | itemSkip (left size pos : Nat) (met imet vals : List Nat)
  /-- `HeaderState::ITEM_READ_VALUE` -/
  | itemValue (tag size pos : Nat) (met imet vals : List Nat)
  /-- `FallbackState::READ_TAG` -/
  | origTag (met : List Nat)
  /-- `FallbackState::ENTER_SECTION` -/
  | origSize
  /-- `FallbackState::READ_CONTENTS` -/
  | origData (left : Nat) (storage : List Nat)
  /-- `SectionHeaderState::READ_TAG` -/
  | sectTag (met : List Nat) (s : SectState)
  /-- `SectionHeaderState::READ_VALUE` -/
  | sectValue (met : List Nat) (s : SectState)
  /-- `SectionHeaderState::ENTER_SECTION` -/
  | sectSize (tag : Nat) (met : List Nat) (s : SectState)
  /-- `Stage::SECTION_BODY` of an unknown section -/
  | sectSkip (left : Nat) (met : List Nat) (s : SectState)
  /-- `Stage::SECTION_BODY` of a known section of which `rem` bytes are left -/
  | sectBody (rem tag : Nat) (t : BodySt z) (met : List Nat) (s : SectState)
  /-- `Stage::DONE` -/
  | ended (c : Content SectState)

/-- A stage that reads one thing and otherwise stays where it is. -/
def readStep {z : Inflater} {β : Type} (s : FileSt z) (p : Rd β) (f : β → Nat → Option (FileSt z)) (w : List Nat) : FileSt z × Nat × PNext :=
  match p w with
  | .ok b rest =>
    match f b (w.length - rest.length) with
    | some s' => (s', w.length - rest.length, .go)
    | none => (s, w.length - rest.length, .fail invalidBrn)
  | .needMore => (s, 0, .wait)
  | .invalid => (s, 0, .fail invalidBrn)

/-- A stage that takes what is there of `n` bytes. -/
def takeStep {z : Inflater} (n : Nat) (next : FileSt z) (wait : Nat → FileSt z) (w : List Nat) : FileSt z × Nat × PNext :=
  if n ≤ w.length then (next, n, .go) else (wait w.length, w.length, .wait)

/-- What follows the header (c/dec/brunsli_decode.cc:1193-1262, 1269-1270). -/
def afterHeader {z : Inflater} (met : List Nat) (h : Header) : FileSt z :=
  if h.version = 1 then .origTag met else .sectTag (9 :: met) (SectState.init h)

/-- The stages. -/
def fileStep (z : Inflater) (s : FileSt z) (w : List Nat) : FileSt z × Nat × PNext :=
  match s with
  | .signature => readStep s readSignature (fun _ _ => some (.headTag [1])) w
  | .headTag met => readStep s (readTag met) (fun t _ => if t.1 = 2 ∧ t.2.1 then some (.headSize t.2.2) else none) w
  | .headSize met => readStep s decodeBase128 (fun size _ => some (.itemTag size 0 met [] (List.replicate 16 0))) w
  | .itemTag size pos met imet vals =>
    if pos = size then
      match headerFinale imet vals with
      | none => (s, 0, .fail invalidBrn)
      | some h => (afterHeader met h, 0, .go)
    else readStep s (readTag imet) (fun t n =>
      some (if t.2.1 then .itemSize size (pos + n) met t.2.2 vals else .itemValue t.1 size (pos + n) met t.2.2 vals)) w
  | .itemSize size pos met imet vals => readStep s decodeBase128 (fun v n => some (.itemSkip v size (pos + n) met imet vals)) w
  | .itemSkip left size pos met imet vals =>
    takeStep left (.itemTag size (pos + left) met imet vals) (fun n => .itemSkip (left - n) size (pos + n) met imet vals) w
  | .itemValue tag size pos met imet vals => readStep s decodeBase128 (fun v n => some (.itemTag size (pos + n) met imet (vals.set tag v))) w
  | .origTag met => readStep s (readTag met) (fun t _ => if t.1 = 9 ∧ t.2.1 then some .origSize else none) w
  | .origSize => readStep s decodeBase128 (fun size _ => some (.origData size [])) w
  | .origData left storage =>
    takeStep left (.ended (.original (storage ++ w.take left))) (fun n => .origData (left - n) (storage ++ w.take n)) w
  | .sectTag met s' => readStep s (readTag met) (fun t _ =>
      if t.2.1 then some (.sectSize t.1 t.2.2 s') else if t.1 ≤ 9 then none else some (.sectValue t.2.2 s')) w
  | .sectValue met s' => readStep s decodeBase128 (fun _ _ => some (.sectTag met s')) w
  | .sectSize tag met s' => readStep s decodeBase128 (fun v _ =>
      if 9 < tag then some (.sectSkip v met s')
      else if (requires tag).any (fun r => r ∉ met) then none
      else if wordSection tag ∧ v % 2 ≠ 0 then none
      else (sectStart z s' tag v).map fun t => .sectBody v tag t met s') w
  | .sectSkip left met s' => takeStep left (.sectTag met s') (fun n => .sectSkip (left - n) met s') w
  | .sectBody rem tag t met s' =>
    match Brunsli.sectBody z s' t rem w with
    | .more t' n => (.sectBody (rem - n) tag t' met s', n, .go)
    | .done s'' n => if n = rem then (if tag = 8 then .ended (.image s'') else .sectTag met s'', n, .go) else (s, 0, .fail invalidBrn)
    | .wait t' n => (.sectBody (rem - n) tag t' met s', n, .wait)
    | .bad => (s, 0, .fail invalidBrn)
  | .ended _ => (s, 0, .finished)

/-- The parser. -/
def fileParser (z : Inflater) : Parser (FileSt z) := ⟨fileStep z⟩

/-- Tags are met at most once and are in range. -/
def Tags (met : List Nat) : Prop := met.Nodup ∧ ∀ t ∈ met, 1 ≤ t ∧ t ≤ 15

/-- The conditions on the variables. -/
def FileSt.Inv {z : Inflater} : FileSt z → Prop
  | .signature => True
  | .headTag met => met = [1]
  | .headSize met => met = [2, 1]
  | .itemTag _ _ met imet _ => met = [2, 1] ∧ Tags imet
  | .itemSize _ _ met imet _ => met = [2, 1] ∧ Tags imet
  | .itemSkip _ _ _ met imet _ => met = [2, 1] ∧ Tags imet
  | .itemValue _ _ _ met imet _ => met = [2, 1] ∧ Tags imet
  | .origTag _ => True
  | .origSize => True
  | .origData _ _ => True
  | .sectTag met s => Tags met ∧ s.Ok
  | .sectValue met s => Tags met ∧ s.Ok
  | .sectSize _ met s => Tags met ∧ s.Ok
  | .sectSkip _ met s => Tags met ∧ s.Ok
  | .sectBody rem _ t met s => Tags met ∧ s.Ok ∧ sectInv t rem
  | .ended _ => True

theorem Tags.length {met : List Nat} (h : Tags met) : met.length ≤ 15 := by
  have hsub : met ⊆ List.range' 1 15 := fun t ht => by
    rw [List.mem_range'_1]
    have := h.2 t ht
    omega
  have := (List.subperm_of_subset h.1 hsub).length_le
  simpa using this

theorem Tags.cons {met rest bs : List Nat} {t : Nat × Bool × List Nat} (h : Tags met) (ht : readTag met bs = .ok t rest) : Tags t.2.2 := by
  obtain ⟨_, h1, h2, h3, h4⟩ := readTag_ok ht
  rw [h4]
  exact ⟨List.nodup_cons.mpr ⟨h3, h.1⟩, fun x hx => (List.mem_cons.mp hx).elim (fun e => e ▸ ⟨h1, h2⟩) (h.2 x)⟩

theorem afterHeader_inv {z : Inflater} {met imet vals : List Nat} {h : Header} (hm : met = [2, 1]) (e : headerFinale imet vals = some h) :
    (afterHeader met h : FileSt z).Inv := by
  unfold afterHeader
  split
  · trivial
  · rename_i hv
    subst hm
    have hc := (headerFinale_ok e).resolve_left fun x => hv (by rw [x])
    refine ⟨⟨by decide, by decide⟩, hc.1.ncomp, ?_⟩
    intro r hr
    cases hr

/-! ## It can stop and go on anywhere -/

open Rd

/-- What `Parser.Incremental` asks of one state. -/
structure StepOk {σ : Type} (step : σ → List Nat → σ × Nat × PNext) (inv : σ → Prop) (s : σ) : Prop where
  keep : ∀ w, inv (step s w).1
  reads : ∀ w, (step s w).2.1 ≤ w.length
  waits : ∀ w s' n, step s w = (s', n, .wait) → w.length - n < maxReadAhead
  resumes : ∀ w s' n x, step s w = (s', n, .wait) →
    (∃ c, (step s (w ++ x)).2.2 = .fail c ∧ (step s' (w.drop n ++ x)).2.2 = .fail c) ∨
    step s (w ++ x) = ((step s' (w.drop n ++ x)).1, n + (step s' (w.drop n ++ x)).2.1, (step s' (w.drop n ++ x)).2.2)
  stable : ∀ w s' n nx x, step s w = (s', n, nx) → nx ≠ .wait → step s (w ++ x) = (s', n, nx)

theorem readStep_ok {z : Inflater} {β : Type} {s : FileSt z} {p : Rd β} {f : β → Nat → Option (FileSt z)}
    (hstep : ∀ w, fileStep z s w = readStep s p f w) (hp : Mono p)
    (hshort : ∀ w, p w = .needMore → w.length < 600) (hs : s.Inv) (hf : ∀ w b rest n s', p w = .ok b rest → f b n = some s' → s'.Inv) : StepOk (fileStep z) FileSt.Inv s where
  keep w := by
    rw [hstep, readStep]
    cases h : p w with
    | ok b rest =>
      dsimp only
      cases h2 : f b (w.length - rest.length) with
      | none => exact hs
      | some s' => exact hf _ _ _ _ _ h h2
    | needMore => exact hs
    | invalid => exact hs
  reads w := by
    rw [hstep, readStep]
    cases h : p w with
    | ok b rest =>
      dsimp only
      cases h2 : f b (w.length - rest.length) with
      | none => exact Nat.sub_le _ _
      | some s' => exact Nat.sub_le _ _
    | needMore => exact Nat.zero_le _
    | invalid => exact Nat.zero_le _
  waits w s' n h := by
    rw [hstep, readStep] at h
    cases hw : p w with
    | ok b rest =>
      rw [hw] at h
      dsimp only at h
      cases h2 : f b (w.length - rest.length) <;> rw [h2] at h <;> cases h
    | needMore => exact Nat.lt_of_le_of_lt (Nat.sub_le _ _) (hshort w hw)
    | invalid => rw [hw] at h; cases h
  resumes w s' n x h := by
    rw [hstep, readStep] at h
    cases hw : p w with
    | ok b rest =>
      rw [hw] at h
      dsimp only at h
      cases h2 : f b (w.length - rest.length) <;> rw [h2] at h <;> cases h
    | needMore =>
      rw [hw] at h
      cases h
      right
      simp
    | invalid => rw [hw] at h; cases h
  stable w s' n nx x h hn := by
    rw [hstep, readStep] at h ⊢
    cases hw : p w with
    | ok b rest =>
      rw [hw] at h
      rw [hp.ok hw x]
      dsimp only at h ⊢
      have e : (w ++ x).length - (rest ++ x).length = w.length - rest.length := by
        rw [List.length_append, List.length_append]; omega
      rw [e]
      exact h
    | needMore => rw [hw] at h; cases h; exact absurd rfl hn
    | invalid =>
      rw [hw] at h
      rw [hp.invalid hw x]
      exact h

theorem readTag_short {met w : List Nat} (h : readTag met w = .needMore) : w.length < 600 := by
  cases w with
  | nil => simp
  | cons m w =>
    unfold readTag at h
    dsimp only at h
    repeat' split at h
    all_goals cases h

theorem number_short {w : List Nat} (h : decodeBase128 w = .needMore) : w.length < 600 := by
  have := decodeBase128_short h
  omega

theorem signature_short {w : List Nat} (h : readSignature w = .needMore) : w.length < 600 := by
  unfold readSignature andThen bytes at h
  by_cases hl : w.length < 6
  · omega
  · rw [if_neg hl] at h
    dsimp only at h
    split at h <;> cases h

theorem takeStep_ok {z : Inflater} {s : FileSt z} {n : Nat} {next : List Nat → FileSt z} {wait : List Nat → FileSt z}
    (hstep : ∀ w, fileStep z s w = if n ≤ w.length then (next w, n, .go) else (wait w, w.length, .wait))
    (hnext : ∀ w, (next w).Inv) (hwait : ∀ w, (wait w).Inv) (hstable : ∀ w x, n ≤ w.length → next (w ++ x) = next w)
    (hresume : ∀ w x, ¬ n ≤ w.length → fileStep z (wait w) x =
      if n ≤ (w ++ x).length then (next (w ++ x), n - w.length, .go) else (wait (w ++ x), x.length, .wait)) :
    StepOk (fileStep z) FileSt.Inv s where
  keep w := by
    rw [hstep]
    split
    · exact hnext w
    · exact hwait w
  reads w := by
    rw [hstep]
    split
    · assumption
    · exact Nat.le_refl _
  waits w s' m h := by
    rw [hstep] at h
    split at h
    · cases h
    · cases h
      rw [Nat.sub_self]
      decide
  resumes w s' m x h := by
    rw [hstep] at h
    split at h
    · cases h
    · rename_i hn
      cases h
      right
      rw [List.drop_length, List.nil_append, hresume w x hn, hstep]
      split
      · simp only [Prod.mk.injEq, true_and, and_true]; omega
      · simp only [Prod.mk.injEq, true_and, and_true]; rw [List.length_append]
  stable w s' m nx x h hn := by
    rw [hstep] at h ⊢
    split at h
    · rename_i hw
      rw [if_pos (by rw [List.length_append]; omega), hstable w x hw]
      exact h
    · cases h; exact absurd rfl hn

theorem body_ok {z : Inflater} {rem tag : Nat} {t : BodySt z} {met : List Nat} {s : SectState} (hi : (FileSt.sectBody rem tag t met s).Inv) :
    StepOk (fileStep z) FileSt.Inv (.sectBody rem tag t met s) := by
  obtain ⟨hm, hs, ht⟩ := hi
  have hB := sectBody_resumes z hs
  constructor
  · intro w
    have hf := hB.fits t rem w ht
    simp only [fileStep]
    cases e : Brunsli.sectBody z s t rem w with
    | more t' n => rw [e] at hf; exact ⟨hm, hs, hf.2.2.1⟩
    | done s' n =>
      rw [e] at hf
      dsimp only
      split
      · split
        · trivial
        · exact ⟨hm, hf.2.2.1⟩
      · exact ⟨hm, hs, ht⟩
    | wait t' n => rw [e] at hf; exact ⟨hm, hs, hf.2.2.1⟩
    | bad => exact ⟨hm, hs, ht⟩
  · intro w
    have hf := hB.fits t rem w ht
    simp only [fileStep]
    cases e : Brunsli.sectBody z s t rem w with
    | more t' n => rw [e] at hf; exact hf.1
    | done s' n =>
      rw [e] at hf
      dsimp only
      split
      · exact hf.1
      · exact Nat.zero_le _
    | wait t' n => rw [e] at hf; exact hf.1
    | bad => exact Nat.zero_le _
  · intro w s' n h
    have hf := hB.fits t rem w ht
    simp only [fileStep] at h
    cases e : Brunsli.sectBody z s t rem w with
    | more t' n => rw [e] at h; cases h
    | done s' n =>
      rw [e] at h
      dsimp only at h
      split at h <;> cases h
    | wait t' n =>
      rw [e] at h hf
      cases h
      exact hf.2.2.2.1
    | bad => rw [e] at h; cases h
  · intro w s' n x h
    have hf := hB.fits t rem w ht
    simp only [fileStep] at h
    cases e : Brunsli.sectBody z s t rem w with
    | more t' n => rw [e] at h; cases h
    | done s' n =>
      rw [e] at h
      dsimp only at h
      split at h <;> cases h
    | wait t' n =>
      rw [e] at h hf
      cases h
      obtain ⟨h1, h2, _, _, h5⟩ := hf
      have hf2 := hB.fits t' (rem - n) (w.drop n ++ x)
      simp only [fileStep, h5 x]
      cases e2 : Brunsli.sectBody z s t' (rem - n) (w.drop n ++ x) with
      | more t2 m => right; simp only [BOut.shift]; rw [Nat.sub_sub]
      | done s2 m =>
        simp only [BOut.shift]
        by_cases hr : m = rem - n
        · right
          rw [if_pos (by omega), if_pos hr]
        · left
          rw [if_neg (by omega), if_neg hr]
          exact ⟨_, rfl, rfl⟩
      | wait t2 m => right; simp only [BOut.shift]; rw [Nat.sub_sub]
      | bad => left; exact ⟨_, rfl, rfl⟩
    | bad => rw [e] at h; cases h
  · intro w s' n nx x h hn
    have hf := hB.fits t rem w ht
    simp only [fileStep] at h ⊢
    cases e : Brunsli.sectBody z s t rem w with
    | more t' n => rw [e] at h hf; rw [hf.2.2.2 x]; exact h
    | done s' n => rw [e] at h hf; rw [hf.2.2.2 x]; exact h
    | wait t' n => rw [e] at h; cases h; exact absurd rfl hn
    | bad => rw [e] at h hf; rw [hf x]; exact h

theorem step_ok {z : Inflater} (s : FileSt z) (hi : s.Inv) : StepOk (fileStep z) FileSt.Inv s := by
  cases s with
  | signature =>
    refine readStep_ok (fun w => by simp only [fileStep]; rfl) readSignature_mono (fun _ => signature_short) hi (fun _ _ _ _ s' _ h => ?_)
    cases h
    rfl
  | headTag met =>
    refine readStep_ok (fun w => by simp only [fileStep]; rfl) (Mono.readTag met) (fun _ => readTag_short) hi (fun w b rest n s' hw h => ?_)
    split at h
    · rename_i ht
      cases h
      obtain ⟨_, _, _, _, h4⟩ := readTag_ok hw
      have hi : met = [1] := hi
      show b.2.2 = [2, 1]
      rw [h4, ht.1, hi]
    · cases h
  | headSize met =>
    refine readStep_ok (fun w => by simp only [fileStep]; rfl) Mono.decodeBase128 (fun _ => number_short) hi (fun w b rest n s' hw h => ?_)
    cases h
    exact ⟨hi, List.nodup_nil, fun _ h => by cases h⟩
  | itemTag size pos met imet vals =>
    by_cases hp : pos = size
    · cases hf : headerFinale imet vals with
      | none =>
        have e : ∀ w, fileStep z (.itemTag size pos met imet vals) w = (.itemTag size pos met imet vals, 0, .fail invalidBrn) := fun w => by
          simp only [fileStep]
          rw [if_pos hp, hf]
        exact ⟨fun w => by rw [e]; exact hi, fun w => by rw [e]; exact Nat.zero_le _, fun w s' n h => (by rw [e] at h; cases h),
          fun w s' n x h => (by rw [e] at h; cases h), fun w s' n nx x h _ => (by rw [e] at h ⊢; exact h)⟩
      | some hd =>
        have e : ∀ w, fileStep z (.itemTag size pos met imet vals) w = (afterHeader met hd, 0, .go) := fun w => by
          simp only [fileStep]
          rw [if_pos hp, hf]
        exact ⟨fun w => by rw [e]; exact afterHeader_inv hi.1 hf, fun w => by rw [e]; exact Nat.zero_le _, fun w s' n h => (by rw [e] at h; cases h),
          fun w s' n x h => (by rw [e] at h; cases h), fun w s' n nx x h _ => (by rw [e] at h ⊢; exact h)⟩
    · refine readStep_ok (fun w => by simp only [fileStep]; rw [if_neg hp]) (Mono.readTag imet) (fun _ => readTag_short) hi (fun w b rest n s' hw h => ?_)
      cases h
      split <;> exact ⟨hi.1, hi.2.cons hw⟩
  | itemSize size pos met imet vals =>
    refine readStep_ok (fun w => by simp only [fileStep]; rfl) Mono.decodeBase128 (fun _ => number_short) hi (fun w b rest n s' hw h => ?_)
    cases h
    exact hi
  | itemSkip left size pos met imet vals =>
    refine takeStep_ok (n := left) (next := fun _ => .itemTag size (pos + left) met imet vals)
      (wait := fun w => .itemSkip (left - w.length) size (pos + w.length) met imet vals) (fun _ => rfl) (fun _ => hi) (fun _ => hi)
      (fun _ _ _ => rfl) (fun w x hn => ?_)
    simp only [fileStep, takeStep, List.length_append]
    by_cases h : left - w.length ≤ x.length
    · rw [if_pos h, if_pos (by omega), show pos + w.length + (left - w.length) = pos + left by omega]
    · rw [if_neg h, if_neg (by omega), Nat.sub_sub, Nat.add_assoc]
  | itemValue tag size pos met imet vals =>
    refine readStep_ok (fun w => by simp only [fileStep]; rfl) Mono.decodeBase128 (fun _ => number_short) hi (fun w b rest n s' hw h => ?_)
    cases h
    exact hi
  | origTag met =>
    refine readStep_ok (fun w => by simp only [fileStep]; rfl) (Mono.readTag met) (fun _ => readTag_short) hi (fun w b rest n s' hw h => ?_)
    split at h
    · cases h; trivial
    · cases h
  | origSize =>
    refine readStep_ok (fun w => by simp only [fileStep]; rfl) Mono.decodeBase128 (fun _ => number_short) hi (fun w b rest n s' hw h => ?_)
    cases h
    trivial
  | origData left storage =>
    refine takeStep_ok (n := left) (next := fun w => .ended (.original (storage ++ w.take left)))
      (wait := fun w => .origData (left - w.length) (storage ++ w.take w.length)) (fun _ => rfl) (fun _ => trivial) (fun _ => trivial)
      (fun w x h => by rw [take_append_ge x h]) (fun w x hn => ?_)
    simp only [fileStep, takeStep, List.length_append]
    have e : (w ++ x).take left = w ++ x.take (left - w.length) := by
      rw [List.take_append, List.take_of_length_le (by omega)]
    by_cases h : left - w.length ≤ x.length
    · rw [if_pos h, if_pos (by omega), List.take_length, List.append_assoc, e]
    · rw [if_neg h, if_neg (by omega), Nat.sub_sub, List.take_length, List.take_length, List.append_assoc,
        List.take_of_length_le (l := w ++ x) (by rw [List.length_append])]
  | sectTag met s =>
    refine readStep_ok (fun w => by simp only [fileStep]; rfl) (Mono.readTag met) (fun _ => readTag_short) hi (fun w b rest n s' hw h => ?_)
    split at h
    · cases h; exact ⟨hi.1.cons hw, hi.2⟩
    · split at h
      · cases h
      · cases h; exact ⟨hi.1.cons hw, hi.2⟩
  | sectValue met s =>
    refine readStep_ok (fun w => by simp only [fileStep]; rfl) Mono.decodeBase128 (fun _ => number_short) hi (fun w b rest n s' hw h => ?_)
    cases h
    exact hi
  | sectSize tag met s =>
    refine readStep_ok (fun w => by simp only [fileStep]; rfl) Mono.decodeBase128 (fun _ => number_short) hi (fun w b rest n s' hw h => ?_)
    split at h
    · cases h; exact hi
    split at h
    · cases h
    split at h
    · cases h
    · rename_i hword
      cases ht : sectStart z s tag b with
      | none => rw [ht] at h; cases h
      | some t =>
        rw [ht] at h
        cases h
        exact ⟨hi.1, hi.2, sectStart_inv hi.2 (fun hw => by
          rcases Nat.mod_two_eq_zero_or_one b with e | e
          · exact e
          · exact absurd ⟨hw, by omega⟩ hword) ht⟩
  | sectSkip left met s =>
    refine takeStep_ok (n := left) (next := fun _ => .sectTag met s) (wait := fun w => .sectSkip (left - w.length) met s) (fun _ => rfl)
      (fun _ => hi) (fun _ => hi) (fun _ _ _ => rfl) (fun w x hn => ?_)
    simp only [fileStep, takeStep, List.length_append]
    by_cases h : left - w.length ≤ x.length
    · rw [if_pos h, if_pos (by omega)]
    · rw [if_neg h, if_neg (by omega), Nat.sub_sub]
  | sectBody rem tag t met s => exact body_ok hi
  | ended c =>
    exact ⟨fun _ => trivial, fun _ => Nat.zero_le _, fun w s' n h => (by cases h), fun w s' n x h => (by cases h), fun w s' n nx x h _ => h⟩

/-- The stages meet what the buffer relies on. -/
theorem fileParser_incremental (z : Inflater) : (fileParser z).Incremental FileSt.Inv where
  keep s w hi := (step_ok s hi).keep w
  reads s w hi := (step_ok s hi).reads w
  waits s w s' n hi h := (step_ok s hi).waits w s' n h
  resumes s w s' n x hi h := (step_ok s hi).resumes w s' n x h
  stable s w s' n nx x hi h hn := (step_ok s hi).stable w s' n nx x h hn

end Brunsli
