import Verif.WidthFit
import Verif.PropsZ
/-!
# C68: the decoder does not depend on the word size

`decodeFileW W` reads a file with a `size_t` of `W` bits: 64 in the rest of the model, 32 in WebAssembly.
-/

namespace Brunsli

/-- `BrunsliDecodeJpeg` (c/dec/brunsli_decode.cc:2459-2468) on a file that holds an image, with words of `W` bits. -/
def decodeJpegW (W : Nat) (par : Codec) (file : List Nat) : Option JpegData :=
  match decodeFileW W (fun h => some (SectState.init h)) (decBody par) file with
  | .ok (.image s) _ => s.result
  | _ => none

/-- **C68 (1).** With words of 64 bits or more the container is read as in the rest of the model. -/
theorem C68_wide {σ : Type} (W : Nat) (hW : 64 ≤ W) (init : Header → Option σ) (body : σ → Nat → List Nat → Option σ) (bs : List Nat)
    (h : bs.length < 2 ^ 63) : decodeFileW W init body bs = decodeFile init body bs := by
  refine decodeFileW_roomy init body bs ?_
  have : 2 ^ 64 ≤ 2 ^ W := Nat.pow_le_pow_right (by omega) hW
  unfold Roomy
  omega

/-- **C68 (2).** With words of 32 bits or more a file made by the encoder, if its length can be told, gives back the JPEG file. -/
theorem C68_restores (W : Nat) (hW : 32 ≤ W) (par : Codec) (hl : par.Lossless) (hcl : par.Clusters) (data out : List Nat) (hd : Bytes data)
    (h : encodeData par data = .ok out) (hlen : out.length < 2 ^ W) :
    ∃ jpg, decodeJpegW W par out = some jpg ∧ ∀ T, ∃ chunks, writeJpeg T jpg = .ok chunks ∧ chunks.flatten = data := by
  unfold encodeData at h
  obtain ⟨jpg, hr, h⟩ := Run.bind_ok h
  split at h
  · exact absurd h nofun
  rename_i hm
  have hv := readJpeg_valid hd hr
  obtain ⟨sections, s, h1, h2, h3, h4, h5, -⟩ := encodeJpeg_layout hl hcl (by omega) hv (by omega) h
  refine ⟨jpg.stored, ?_, fun T => ?_⟩
  · unfold decodeJpegW
    rw [decodeFileW_encoded (init := fun h => some (SectState.init h)) hW hv.header h1 h2 hlen h3 rfl h4]
    exact h5
  · rw [writeJpeg_stored]
    exact readJpeg_writeJpeg hd hr T

/-- **C68 (3), partial**: what is accepted with words of 64 bits is accepted with fewer, with the same result, if the length of the file and the
numbers in it fit.  (Missing: `C68_number_false`.) -/
theorem C68_accepted_partial {σ : Type} (W : Nat) (init : Header → Option σ) (body : σ → Nat → List Nat → Option σ) (bs : List Nat) (c : Content σ)
    (hlen : bs.length < 2 ^ W)
    (hnum : ¬ ∃ pre tag len post v, bs = pre ++ (tag * 8) :: (len ++ post) ∧ 1 ≤ tag ∧ tag ≤ 15 ∧ decodeBase128 len = .ok v [] ∧ 2 ^ W ≤ v)
    (h : decodeFile init body bs = .ok c []) : decodeFileW W init body bs = .ok c [] :=
  (decodeFileW_fits hlen h).resolve_left hnum

/-- **C68 (4), partial**: what is accepted with few bits is accepted with 64, with the same result, unless it holds an unknown section that
should end at `2 ^ W` or behind.  (Missing: `C68_wrapped_false`.) -/
theorem C68_rejected_partial {σ : Type} (W : Nat) (init : Header → Option σ) (body : σ → Nat → List Nat → Option σ) (bs : List Nat) (c : Content σ)
    (hlen : bs.length < 2 ^ W)
    (hend : ¬ ∃ pre tag len post v, bs = pre ++ (tag * 8 + 2) :: (len ++ post) ∧ 9 < tag ∧ tag ≤ 15 ∧ decodeBase128 len = .ok v [] ∧
      2 ^ W ≤ pre.length + 1 + len.length + v)
    (h : decodeFileW W init body bs = .ok c []) : decodeFile init body bs = .ok c [] := by
  obtain ⟨bs', h1, _, h3⟩ := decodeFileW_sub hlen h
  rcases h3 with rfl | ⟨pre, tag, len, post, v, g1, g2, g3, g4, g5⟩
  · exact h1
  · exact absurd ⟨pre, tag, len, post, v, g1, g2, g3, g4, by omega⟩ hend

/-- **C68 (5).** Whatever is accepted with few bits, there is a file of some of its bytes, in their order, that is accepted with 64 bits and gives the
same result: no image comes out of a narrow decoder that a wide one could not give. -/
theorem C68_no_new_image {σ : Type} (W : Nat) (init : Header → Option σ) (body : σ → Nat → List Nat → Option σ) (bs : List Nat) (c : Content σ)
    (hlen : bs.length < 2 ^ W) (h : decodeFileW W init body bs = .ok c []) :
    ∃ bs', bs'.Sublist bs ∧ decodeFile init body bs' = .ok c [] := by
  obtain ⟨bs', h1, h2, _⟩ := decodeFileW_sub hlen h
  exact ⟨bs', h2, h1⟩

/-- `sampleCoded` with a section of tag 10 after the header, of 4294967295 bytes none of which is there. -/
def sampleWrapped : List Nat := sampleCoded.take 16 ++ [82, 255, 255, 255, 255, 15] ++ sampleCoded.drop 16

/-- `sampleCoded` with a number of tag 10 after the header, 4294967296. -/
def sampleBig : List Nat := sampleCoded.take 16 ++ [80, 128, 128, 128, 128, 16] ++ sampleCoded.drop 16

theorem sampleWrapped_narrow : decodedHeader (decodeFileW 32 (fun h => some (SectState.init h)) (decBody plainCodec) sampleWrapped) =
    some ⟨2, 16, 8, [(1, 1)]⟩ := by decide +kernel

theorem sampleBig_wide : decodedHeader (decodeFile (fun h => some (SectState.init h)) (decBody plainCodec) sampleBig) =
    some ⟨2, 16, 8, [(1, 1)]⟩ := by decide +kernel

theorem decodedHeader_some {r : Res (Content SectState)} {h : Header} (hr : decodedHeader r = some h) : ∃ s, r = .ok (.image s) [] ∧ s.header = h := by
  unfold decodedHeader at hr
  split at hr
  · rename_i s
    exact ⟨s, rfl, Option.some.inj hr⟩
  · cases hr

/-- The three outcomes. -/
def outcomeOf {α : Type} : Res α → Nat
  | .ok _ _ => 0
  | .needMore => 1
  | .invalid => 2

theorem outcome_needMore {α : Type} {r : Res α} (h : outcomeOf r = 1) : r = .needMore := by
  cases r <;> first | rfl | cases h

theorem outcome_invalid {α : Type} {r : Res α} (h : outcomeOf r = 2) : r = .invalid := by
  cases r <;> first | rfl | cases h

/-- **C68 is false of the code** (wrapped end): this file of 113 bytes, which holds a section of four billion bytes that are not there, is accepted with
32 bits and incomplete with 64. -/
theorem C68_wrapped_false : ∃ bs s, Bytes bs ∧ bs.length = 113 ∧
    decodeFileW 32 (fun h => some (SectState.init h)) (decBody plainCodec) bs = .ok (.image s) [] ∧
    decodeFileW 64 (fun h => some (SectState.init h)) (decBody plainCodec) bs = .needMore := by
  obtain ⟨s, h1, _⟩ := decodedHeader_some sampleWrapped_narrow
  exact ⟨sampleWrapped, s, bytes_of_all (by decide +kernel), by decide +kernel, h1, outcome_needMore (by decide +kernel)⟩

/-- **C68 is false of the code** (numbers): this file of 113 bytes, with a number that has no meaning, is accepted with 64 bits and invalid with 32. -/
theorem C68_number_false : ∃ bs s, Bytes bs ∧ bs.length = 113 ∧
    decodeFileW 64 (fun h => some (SectState.init h)) (decBody plainCodec) bs = .ok (.image s) [] ∧
    decodeFileW 32 (fun h => some (SectState.init h)) (decBody plainCodec) bs = .invalid := by
  obtain ⟨s, h1, _⟩ := decodedHeader_some sampleBig_wide
  refine ⟨sampleBig, s, bytes_of_all (by decide +kernel), by decide +kernel, ?_, outcome_invalid (by decide +kernel)⟩
  rw [C68_wide 64 (Nat.le_refl _) _ _ _ (by decide +kernel)]
  exact h1

/-- Non-vacuity of (2): the file made of `sampleSequential`. -/
example : decodedHeader (decodeFileW 32 (fun h => some (SectState.init h)) (decBody plainCodec) sampleCoded) = some ⟨2, 16, 8, [(1, 1)]⟩ := by decide +kernel

/-- Whether a byte of a list begins a number item that does not fit in `W` bits; so that the hypothesis of (3) can be decided. -/
def bigNumberIn (W : Nat) : List Nat → Bool
  | [] => false
  | b :: bs => (match decodeBase128 bs with | .ok v _ => b % 8 = 0 ∧ 8 ≤ b ∧ b ≤ 120 ∧ 2 ^ W ≤ v | _ => false) || bigNumberIn W bs

theorem bigNumberIn_of {W : Nat} : ∀ (pre : List Nat) {tag : Nat} {len post : List Nat} {v : Nat}, 1 ≤ tag → tag ≤ 15 →
    decodeBase128 len = .ok v [] → 2 ^ W ≤ v → bigNumberIn W (pre ++ (tag * 8) :: (len ++ post)) = true := by
  intro pre
  induction pre with
  | nil =>
    intro tag len post v h1 h2 h3 h4
    rw [List.nil_append, bigNumberIn, base128_append h3]
    simp only [Bool.or_eq_true, decide_eq_true_eq]
    exact .inl ⟨by omega, by omega, by omega, h4⟩
  | cons b pre ih =>
    intro tag len post v h1 h2 h3 h4
    rw [List.cons_append, bigNumberIn, ih h1 h2 h3 h4, Bool.or_true]

/-- Whether a byte of a list that begins at `k` begins an unknown section that ends at `2 ^ W` or behind. -/
def wrapsIn (W : Nat) : Nat → List Nat → Bool
  | _, [] => false
  | k, b :: bs => (match decodeBase128 bs with | .ok v rest => b % 8 = 2 ∧ 80 ≤ b ∧ b ≤ 122 ∧ 2 ^ W ≤ k + 1 + (bs.length - rest.length) + v | _ => false) ||
      wrapsIn W (k + 1) bs

theorem wrapsIn_of {W : Nat} : ∀ (pre : List Nat) {k tag : Nat} {len post : List Nat} {v : Nat}, 9 < tag → tag ≤ 15 →
    decodeBase128 len = .ok v [] → 2 ^ W ≤ k + pre.length + 1 + len.length + v → wrapsIn W k (pre ++ (tag * 8 + 2) :: (len ++ post)) = true := by
  intro pre
  induction pre with
  | nil =>
    intro k tag len post v h1 h2 h3 h4
    rw [List.nil_append, wrapsIn, base128_append h3]
    simp only [Bool.or_eq_true, decide_eq_true_eq]
    rw [List.length_nil] at h4
    exact .inl ⟨by omega, by omega, by omega, by rw [List.length_append]; omega⟩
  | cons b pre ih =>
    intro k tag len post v h1 h2 h3 h4
    rw [List.length_cons] at h4
    rw [List.cons_append, wrapsIn, ih h1 h2 h3 (by omega), Bool.or_true]

/-- Non-vacuity of (3): `sampleCoded` is accepted and has no such number. -/
example : ∃ s, decodeFileW 32 (fun h => some (SectState.init h)) (decBody plainCodec) sampleCoded = .ok (.image s) [] := by
  obtain ⟨s, h1, _⟩ := decodedHeader_some sampleCoded_decoded
  refine ⟨s, C68_accepted_partial 32 _ _ _ _ (by decide +kernel) ?_ h1⟩
  rintro ⟨pre, tag, len, post, v, h, g1, g2, g3, g4⟩
  have := bigNumberIn_of pre (post := post) g1 g2 g3 g4
  rw [← h] at this
  revert this
  decide +kernel

/-- Non-vacuity of (4): so it is the other way round. -/
example : ∃ s, decodeFile (fun h => some (SectState.init h)) (decBody plainCodec) sampleCoded = .ok (.image s) [] := by
  have hn : decodedHeader (decodeFileW 32 (fun h => some (SectState.init h)) (decBody plainCodec) sampleCoded) = some ⟨2, 16, 8, [(1, 1)]⟩ := by decide +kernel
  obtain ⟨s, h1, _⟩ := decodedHeader_some hn
  refine ⟨s, C68_rejected_partial 32 _ _ _ _ (by decide +kernel) ?_ h1⟩
  rintro ⟨pre, tag, len, post, v, h, g1, g2, g3, g4⟩
  have := wrapsIn_of (W := 32) (k := 0) pre (post := post) g1 g2 g3 (by omega)
  rw [← h] at this
  revert this
  decide +kernel

/-- Non-vacuity of (5): the file of `C68_wrapped_false`; the file of some of its bytes is `sampleCoded`. -/
example : (sampleWrapped.take 16 ++ sampleWrapped.drop 22) = sampleCoded := by decide +kernel

end Brunsli
