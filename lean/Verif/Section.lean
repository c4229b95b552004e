import Verif.Base128
/-!
# Sections of the container format

`SectionMarker`, `ValueMarker` (c/common/constants.h), `EncodeSection`
(c/enc/brunsli_encode.cc:965-995), `ReadTag`, `EnterSection` (c/dec/brunsli_decode.cc:1042-1078),
`SkipSection` (c/experimental/groups.cc:31-45).
-/

namespace Brunsli

/-- `SectionMarker` (c/common/constants.h): tag and wiring type 2 (length delimited). -/
def sectionMarker (tag : Nat) : Nat := tag * 8 + 2

/-- `ValueMarker` (c/common/constants.h): tag and wiring type 0 (varint). -/
def valueMarker (tag : Nat) : Nat := tag * 8

/-- `EncodeSection` (c/enc/brunsli_encode.cc:965-995), `payload` being what `write_section` produced
(`none` when it failed). -/
def encodeSection (tag sizeBytes : Nat) (payload : Option (List Nat)) : Option (List Nat) :=
  match payload with
  | none => none
  | some p =>
    if p.length / 2 ^ (7 * sizeBytes) > 0 then none
    else some (sectionMarker tag :: encodeBase128Fix p.length sizeBytes ++ p)

/-- `ReadTag` (c/dec/brunsli_decode.cc:1042-1066): tag, "is a section", the updated set of tags met. -/
def readTag (met : List Nat) : List Nat → Res (Nat × Bool × List Nat)
  | [] => .needMore
  | m :: bs =>
    let tag := m / 8
    if tag = 0 ∨ tag > 15 then .invalid
    else if m % 8 ≠ 0 ∧ m % 8 ≠ 2 then .invalid
    else if tag ∈ met then .invalid
    else .ok (tag, m % 8 = 2, tag :: met) bs

/-- `SkipSection` (c/experimental/groups.cc:31-45): skip one tag byte, the length and the payload. -/
def skipSection : List Nat → Option (List Nat)
  | [] => none
  | _ :: bs =>
    match decodeBase128 bs with
    | .ok n rest => if n ≤ rest.length then some (rest.drop n) else none
    | _ => none

theorem readTag_section {met : List Nat} {tag : Nat} {bs : List Nat} (h1 : 0 < tag) (h2 : tag ≤ 15)
    (h3 : tag ∉ met) : readTag met (sectionMarker tag :: bs) = .ok (tag, true, tag :: met) bs := by
  have e1 : sectionMarker tag / 8 = tag := by unfold sectionMarker; omega
  have e2 : sectionMarker tag % 8 = 2 := by unfold sectionMarker; omega
  simp only [readTag, e1, e2]
  rw [if_neg (by omega), if_neg (by omega), if_neg h3]
  rfl

theorem readTag_value {met : List Nat} {tag : Nat} {bs : List Nat} (h1 : 0 < tag) (h2 : tag ≤ 15)
    (h3 : tag ∉ met) : readTag met (valueMarker tag :: bs) = .ok (tag, false, tag :: met) bs := by
  have e1 : valueMarker tag / 8 = tag := by unfold valueMarker; omega
  have e2 : valueMarker tag % 8 = 0 := by unfold valueMarker; omega
  simp only [readTag, e1, e2]
  rw [if_neg (by omega), if_neg (by omega), if_neg h3]
  rfl

/-- A section the encoder writes is framed so that the decoder finds exactly the payload. -/
theorem encodeSection_frame {tag k : Nat} {p s rest met : List Nat}
    (hk : 0 < k) (hk9 : k ≤ 9) (h1 : 0 < tag) (h2 : tag ≤ 15) (h3 : tag ∉ met)
    (h : encodeSection tag k (some p) = some s) :
    readTag met (s ++ rest) = .ok (tag, true, tag :: met) (s.drop 1 ++ rest) ∧
    decodeBase128 (s.drop 1 ++ rest) = .ok p.length (p ++ rest) ∧ p.length < 2 ^ (7 * k) ∧
    skipSection (s ++ rest) = some rest := by
  unfold encodeSection at h
  simp only at h
  split at h
  · cases h
  · rename_i hlt
    have hlt' : p.length < 2 ^ (7 * k) := by
      rcases Nat.lt_or_ge p.length (2 ^ (7 * k)) with hh | hh
      · exact hh
      · exact absurd (Nat.div_pos hh (Nat.two_pow_pos _)) hlt
    cases h
    have hd : decodeBase128 (encodeBase128Fix p.length k ++ (p ++ rest)) = .ok p.length (p ++ rest) := by
      have := decodeLoop_encodeFix k 9 p.length 0 0 (p ++ rest) (by simp) hlt' hk hk9
      simpa [decodeBase128] using this
    refine ⟨?_, ?_, hlt', ?_⟩
    · exact readTag_section h1 h2 h3
    · simpa using hd
    · simp only [List.cons_append, skipSection, List.append_assoc, hd]
      simp

theorem encodeSection_none {tag k : Nat} {p : List Nat} :
    encodeSection tag k (some p) = none ↔ 2 ^ (7 * k) ≤ p.length := by
  unfold encodeSection
  simp only
  split
  · rename_i h
    simp only [true_iff]
    exact (Nat.div_pos_iff.1 h).2
  · rename_i h
    simp only [reduceCtorEq, false_iff, Nat.not_le]
    rcases Nat.lt_or_ge p.length (2 ^ (7 * k)) with hh | hh
    · exact hh
    · exact absurd (Nat.div_pos hh (Nat.two_pow_pos _)) h

end Brunsli
