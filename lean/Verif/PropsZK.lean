import Verif.Skip
import Verif.PropsZI
/-!
# C70: sections that the caller does not want

`decodeSkip par K` decodes a file with the sections `K` skipped; `.ok none []` is undefined behaviour.
-/

namespace Brunsli

theorem readHeader_met {bs rest met : List Nat} {h : Header} (hr : readHeader [1] bs = .ok (h, met) rest) : met = [2, 1] := by
  obtain ⟨t, b1, h1, hr⟩ := Rd.andThen_ok hr
  obtain ⟨-, -, -, -, hm⟩ := readTag_ok h1
  by_cases hc : t.1 = 2 ∧ t.2.1 = true
  · rw [if_pos hc] at hr
    obtain ⟨v, b2, -, hr⟩ := Rd.andThen_ok hr
    obtain ⟨x, b3, -, hr⟩ := Rd.andThen_ok hr
    cases hr
    rw [hm, hc.1]
  · rw [if_neg hc] at hr; cases hr

/-- **C70 (1).** A decoder that skips nothing does what the decoder does. -/
theorem C70_nothing (par : Codec) (bs : List Nat) :
    decodeSkip par (fun _ => false) bs =
      match decodeFile (fun h => some (SectState.init h)) (decBody par) bs with
      | .ok c _ => .ok (some c) []
      | .needMore => .needMore
      | .invalid => .invalid := by
  have key : decodeSkip par (fun _ => false) bs = resAtEnd (readFile (fun h => some (SectState.init h)) (decBody par) bs) := by
    unfold decodeSkip readFile
    refine resAtEnd_andThen fun _ b1 _ => resAtEnd_andThen fun t b2 h2 => ?_
    by_cases hv : t.1.version = 1
    · rw [if_pos hv, if_pos hv]
      exact resAtEnd_andThen fun d b3 _ => rfl
    · rw [if_neg hv, if_neg hv]
      obtain ⟨hd, met⟩ := t
      have hm := readHeader_met h2
      subst hm
      rw [andThen_eq (p := Rd.ofOption (some (SectState.init hd))) rfl]
      unfold Rd.andThen
      dsimp only
      rw [readSkip_nothing 16 (SkipInv.start _ hd)]
      cases readSections (decBody par) 16 [9, 2, 1] (SectState.init hd) b2 with
      | ok s rest =>
        by_cases hr : rest = []
        · subst hr; rfl
        · simp only [resAtEnd, Rd.ret, if_neg hr]
      | needMore => rfl
      | invalid => rfl
  rw [key]
  unfold decodeFile
  cases readFile (fun h => some (SectState.init h)) (decBody par) bs with
  | ok c rest =>
    dsimp only [resAtEnd]
    by_cases hr : rest = []
    · rw [if_pos hr, if_pos hr]
    · rw [if_neg hr, if_neg hr]
  | needMore => rfl
  | invalid => rfl

/-- **C70 (2).** What is not skipped is as in the whole file: if the caller skips the values of the tables along with the internals and coefficients along
with what they need, then a file that can be decoded gives the same contents, without those of the skipped sections. -/
theorem C70_same_partial (par : Codec) (K : Nat → Bool) (hK : SkipClosed K) (h45 : K 4 = true → K 5 = true) (bs : List Nat) (s : SectState)
    (h : decodeFile (fun h => some (SectState.init h)) (decBody par) bs = .ok (.image s) []) : decodeSkip par K bs = .ok (some (.image (s.without K))) [] := by
  unfold decodeFile at h
  cases hr : readFile (fun h => some (SectState.init h)) (decBody par) bs with
  | needMore => rw [hr] at h; cases h
  | invalid => rw [hr] at h; cases h
  | ok c rest =>
    rw [hr] at h
    dsimp only at h
    by_cases he : rest = []
    · rw [if_pos he] at h
      subst he
      cases h
      unfold readFile at hr
      obtain ⟨u, b1, h1, hr⟩ := Rd.andThen_ok hr
      obtain ⟨t, b2, h2, hr⟩ := Rd.andThen_ok hr
      obtain ⟨hd, met⟩ := t
      have hm := readHeader_met h2
      subst hm
      unfold decodeSkip
      rw [andThen_eq h1, andThen_eq h2]
      dsimp only at hr ⊢
      by_cases hv : hd.version = 1
      · rw [if_pos hv] at hr
        obtain ⟨d, b3, h3, hr⟩ := Rd.andThen_ok hr
        cases hr
      · rw [if_neg hv] at hr ⊢
        obtain ⟨s0, b3, h3, hr⟩ := Rd.andThen_ok hr
        cases h3
        obtain ⟨s1, b4, h4, hr⟩ := Rd.andThen_ok hr
        cases hr
        have e0 : (SectState.init hd).without K = SectState.init hd := by
          unfold SectState.without SectState.init
          simp
        have := readSkip_of_read hK h45 16 (by rw [e0]; exact SkipInv.start K hd) h4
        rw [e0] at this
        rw [andThen_eq this]
        rfl
    · rw [if_neg he] at h; cases h

/-- **C70 (3).** So skipping the metadata gives the image: all but the application and comment segments and the bytes behind the end. -/
theorem C70_metadata (par : Codec) (bs : List Nat) (jpg : JpegData) (h : decodeJpeg par bs = some jpg) :
    ∃ s, decodeSkip par (fun t => t = 3) bs = .ok (some (.image s)) [] ∧ s.result = some { jpg with appData := [], comData := [], tailData := [] } := by
  unfold decodeJpeg at h
  cases hd : decodeFile (fun h => some (SectState.init h)) (decBody par) bs with
  | needMore => rw [hd] at h; cases h
  | invalid => rw [hd] at h; cases h
  | ok c rest =>
    rw [hd] at h
    cases c with
    | original d => cases h
    | image s =>
      dsimp only at h
      have hrest : rest = [] := by
        unfold decodeFile at hd
        split at hd
        · split at hd
          · exact (Res.ok.inj hd).2.symm
          · cases hd
        · cases hd
        · cases hd
      subst hrest
      refine ⟨_, C70_same_partial par _ ⟨by decide, by decide, by decide, by decide⟩ (by decide) bs s hd, ?_⟩
      unfold SectState.result at h ⊢
      obtain ⟨hd, int, md, qu, hi, dc, ac, lt⟩ := s
      cases int with
      | none => cases h
      | some x =>
        cases qu with
        | none => cases h
        | some q =>
          cases ac with
          | none => cases h
          | some imgs =>
            cases h
            rfl

/-- **C70 (4).** Nothing undefined happens, whatever the file, if coefficients are skipped along with what they need. -/
theorem C70_defined_partial (par : Codec) (K : Nat → Bool) (hK : SkipClosed K) (bs rest : List Nat) : decodeSkip par K bs ≠ .ok none rest := by
  intro h
  unfold decodeSkip at h
  obtain ⟨u, b1, h1, h⟩ := Rd.andThen_ok h
  obtain ⟨t, b2, h2, h⟩ := Rd.andThen_ok h
  obtain ⟨hd, met⟩ := t
  have hm := readHeader_met h2
  subst hm
  dsimp only at h
  by_cases hv : hd.version = 1
  · rw [if_pos hv] at h
    obtain ⟨d, b3, h3, h⟩ := Rd.andThen_ok h
    split at h <;> cases h
  · rw [if_neg hv] at h
    obtain ⟨s, b3, h3, h⟩ := Rd.andThen_ok h
    cases s with
    | none => exact readSkip_defined hK 16 (SkipInv.start K hd) h3
    | some s => cases h

/-- **C70 (5).** The contents of skipped sections do not matter, even if they are not valid: files that differ only in them give the same result. -/
theorem C70_ignored (par : Codec) (K : Nat → Bool) (pre : List Nat) (h : Header) (met : List Nat)
    (hp : Rd.andThen readSignature (fun _ => readHeader [1]) pre = .ok (h, met) []) (hv : h.version ≠ 1) (l l' : List Item) (hl : List.Forall₂ (sameBut K) l l')
    (tail : List Nat) : decodeSkip par K (pre ++ (l.flatMap Item.bytes ++ tail)) = decodeSkip par K (pre ++ (l'.flatMap Item.bytes ++ tail)) := by
  have hm : ∀ x, ∃ b, readSignature (pre ++ x) = .ok () b ∧ readHeader [1] b = .ok (h, met) x := by
    intro x
    obtain ⟨u, b, h1, h2⟩ := Rd.andThen_ok hp
    refine ⟨b ++ x, readSignature_mono.ok h1 x, ?_⟩
    have := (readHeader_mono [1]).ok h2 x
    simpa using this
  obtain ⟨b, e1, e2⟩ := hm (l.flatMap Item.bytes ++ tail)
  obtain ⟨b', e1', e2'⟩ := hm (l'.flatMap Item.bytes ++ tail)
  unfold decodeSkip
  rw [andThen_eq e1, andThen_eq e1', andThen_eq e2, andThen_eq e2']
  dsimp only
  rw [if_neg hv]
  unfold Rd.andThen
  rw [readSkip_ignored 16 hl tail]

/-- **FALSE of the code**: the caller may skip sections that others need.  The histograms of a valid file are skipped, their section counts as met, and the DC
data are decoded with no codes. -/
theorem C70_needed_false : ∃ bs s, decodeFile (fun h => some (SectState.init h)) (decBody plainCodec) bs = .ok (.image s) [] ∧
    decodeSkip plainCodec (fun t => t = 6) bs = .ok none [] ∧ decodeSkip plainCodec (fun t => t = 4 || t = 5) bs = .ok none [] := by
  obtain ⟨s, h1, _⟩ := decodedHeader_some sampleCoded_decoded
  have ub : ∀ {r : Res (Option (Content SectState))}, (match r with | .ok none [] => true | _ => false) = true → r = .ok none [] := by
    intro r h
    split at h
    · rfl
    · cases h
  exact ⟨sampleCoded, s, h1, ub (by decide +kernel), ub (by decide +kernel)⟩

/-- Non-vacuity of (2), (3) and (4): metadata, or all but the histograms, or all coefficients are skipped. -/
example : (SkipClosed fun t => t = 3) ∧ (SkipClosed fun t => t ≠ 6) ∧ SkipClosed (fun t => t = 7 || t = 8) := by
  refine ⟨⟨?_, ?_, ?_, ?_⟩, ⟨?_, ?_, ?_, ?_⟩, ⟨?_, ?_, ?_, ?_⟩⟩ <;> decide

example : ∃ s, decodeSkip plainCodec (fun t => t = 7 || t = 8) sampleCoded = .ok (some (.image s)) [] ∧ s.quant ≠ none ∧ s.dc = none := by
  obtain ⟨s, h1, _⟩ := decodedHeader_some sampleCoded_decoded
  have h2 := C70_same_partial plainCodec (fun t => t = 7 || t = 8) (by refine ⟨?_, ?_, ?_, ?_⟩ <;> decide) (by decide) _ _ h1
  refine ⟨_, h2, ?_, rfl⟩
  have hq : (match decodeSkip plainCodec (fun t => t = 7 || t = 8) sampleCoded with | .ok (some (.image s)) _ => s.quant.isSome | _ => false) = true := by decide +kernel
  rw [h2] at hq
  intro hn
  dsimp only at hq
  rw [hn] at hq
  cases hq

/-- Non-vacuity of (5): a metadata section with three bytes that are no metadata, and one with none. -/
example : sameBut (fun t => t = 3) ⟨3, true, [3], [255, 255, 255]⟩ ⟨3, true, [0], []⟩ := by
  refine ⟨⟨by decide, by decide, 3, by decide, rfl⟩, ⟨by decide, by decide, 0, by decide, rfl⟩, rfl, rfl, fun h => absurd ?_ h⟩
  exact ⟨rfl, rfl⟩

end Brunsli
