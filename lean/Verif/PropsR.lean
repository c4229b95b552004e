import Verif.StreamSem
import Verif.PropsJ
import Verif.PropsN
import Verif.PropsP
/-!
# C27 for the parser of the code: a file can arrive in any pieces
-/

namespace Brunsli

/-- What a Brunsli file holds, read in one piece (`Container.lean`, `Serialize.lean`). -/
def fileContent (par : Codec) (bs : List Nat) : Option (Content SectState) :=
  match decodeFile (fun h => some (SectState.init h)) (decBody par) bs with
  | .ok c _ => some c
  | _ => none

theorem doProcess_file {z : Inflater} {par : Codec} (hz : ∀ p, (par.decompress p).map List.flatten = z.whole p) (bs : List Nat) :
    ∃ fuel q, doProcess (fileParser z) fuel (.working .signature) bs = some q ∧
      match fileContent par bs with
      | some c => q = (.done (.ended c), [], .ok)
      | none => q.2.2 ≠ .ok := by
  obtain ⟨fuel, q, h1, h2⟩ := (file_ends hz bs).run
  refine ⟨fuel, q, h1, ?_⟩
  have e : fileContent par bs = match wholeFile par bs with
    | .ok c [] => some c
    | _ => none := by
    unfold fileContent decodeFile wholeFile
    cases readFile (fun h => some (SectState.init h)) (decBody par) bs with
    | ok c rest => cases rest <;> rfl
    | needMore => rfl
    | invalid => rfl
  rw [e]
  cases hw : wholeFile par bs with
  | ok c rest =>
    rw [hw] at h2
    cases rest with
    | nil => exact h2
    | cons b r =>
      have h2 : q = (.dead _ invalidBrn, b :: r, .bad invalidBrn) := h2
      rw [h2]
      exact fun h => by cases h
  | needMore => rw [hw] at h2; exact h2
  | invalid => rw [hw] at h2; exact h2

/-- **C27**: in whatever pieces a file is fed to the parser, all calls return. -/
theorem C27_calls_return {z : Inflater} {par : Codec} (hz : ∀ p, (par.decompress p).map List.flatten = z.whole p) (chunks : List (List Nat)) :
    ∃ fuel r, feed (fileParser z) fuel (.working .signature) [] chunks = some r := by
  obtain ⟨fuel, q, h, _⟩ := doProcess_file hz chunks.flatten
  exact ⟨fuel, feed_total _ _ (fileParser_incremental z) .signature trivial fuel chunks ⟨q, h⟩⟩

/-- **C27**: feeding a file in pieces succeeds, with nothing left unread, just if the file read in one piece is valid, and it has then read the same.
`z` is a decompressor working byte by byte, `par.decompress` the same on a whole stream. -/
theorem C27_any_pieces {z : Inflater} {par : Codec} (hz : ∀ p, (par.decompress p).map List.flatten = z.whole p) (chunks : List (List Nat))
    (hne : chunks.flatten ≠ []) (s : PSt (FileSt z)) (buffered : List Nat) :
    (∃ fuel, feed (fileParser z) fuel (.working .signature) [] chunks = some (s, buffered, [], .ok)) ↔
      ∃ c, fileContent par chunks.flatten = some c ∧ s = .done (.ended c) ∧ buffered = [] := by
  obtain ⟨f0, q, hq, hm⟩ := doProcess_file hz chunks.flatten
  constructor
  · rintro ⟨fuel, h⟩
    rcases C27_chunking_partial _ _ (fileParser_incremental z) .signature trivial fuel chunks s buffered [] .ok h hne with ⟨_, hx, _⟩ | ⟨f, q2, h2, hs⟩
    · exact absurd rfl hx
    · have hs := hs.resolve_right fun ⟨c, e, _⟩ => by cases e
      have e := doProcess_det hq h2
      subst e
      subst hs
      cases hc : fileContent par chunks.flatten with
      | none => rw [hc] at hm; exact absurd rfl hm
      | some c =>
        rw [hc] at hm
        simp only [Prod.mk.injEq, List.append_nil] at hm
        exact ⟨c, rfl, hm.1, hm.2.1⟩
  · rintro ⟨c, hc, rfl, rfl⟩
    rw [hc] at hm
    subst hm
    exact ⟨f0, C27_valid_file_partial _ _ (fileParser_incremental z) .signature trivial f0 chunks _ hne hq⟩

/-- **C27**: as long as something of a valid file is missing, the parser asks for more. -/
theorem C27_asks_for_more {z : Inflater} {par : Codec} (hz : ∀ p, (par.decompress p).map List.flatten = z.whole p) (chunks : List (List Nat))
    (missing : List Nat) (hm : missing ≠ []) (c : Content SectState) (hc : fileContent par (chunks.flatten ++ missing) = some c) :
    ∃ fuel s buffered, feed (fileParser z) fuel (.working .signature) [] chunks = some (s, buffered, [], .needMore) := by
  obtain ⟨fuel, q, hq, hx⟩ := doProcess_file hz (chunks.flatten ++ missing)
  rw [hc] at hx
  subst hx
  have hall : feed (fileParser z) fuel (.working .signature) [] (chunks ++ [missing]) = some (.done (.ended c), [], [], .ok) :=
    C27_valid_file_partial _ _ (fileParser_incremental z) .signature trivial fuel (chunks ++ [missing]) _ (by simp [hm]) (by simpa using hq)
  have key : ∀ (chunks : List (List Nat)) (s : PSt (FileSt z)) (b : List Nat),
      feed (fileParser z) fuel s b (chunks ++ [missing]) = some (.done (.ended c), [], [], .ok) →
      ∃ s' b', feed (fileParser z) fuel s b chunks = some (s', b', [], .needMore) := by
    intro chunks
    induction chunks with
    | nil => intro s b _; exact ⟨s, b, rfl⟩
    | cons d ds ih =>
      intro s b h
      rw [List.cons_append, feed] at h
      rw [feed]
      cases hp : processJpeg (fileParser z) fuel s b d with
      | none => rw [hp] at h; cases h
      | some r =>
        obtain ⟨s1, b1, e1, st⟩ := r
        rw [hp] at h
        cases st with
        | needMore =>
          dsimp only at h ⊢
          by_cases he : e1 = []
          · rw [if_pos he] at h ⊢
            exact ih _ _ h
          · rw [if_neg he] at h; cases h
        | ok =>
          simp only [Option.some.injEq, Prod.mk.injEq] at h
          have := h.2.2.1
          simp [hm] at this
        | bad c => simp at h
  obtain ⟨s', b', h⟩ := key chunks _ _ hall
  exact ⟨fuel, s', b', h⟩

/-- **C27, C37**: the Brunsli file of a JPEG file, in whatever pieces it arrives, is read completely, and the JPEG file can be written from what was read. -/
theorem C27_streamed_roundtrip {z : Inflater} {par : Codec} (hz : ∀ p, (par.decompress p).map List.flatten = z.whole p) (hl : par.Lossless) (hcl : par.Clusters)
    (data : List Nat) (hd : Bytes data) (chunks : List (List Nat)) (h : encodeData par data = .ok chunks.flatten) :
    ∃ fuel s jpg, feed (fileParser z) fuel (.working .signature) [] chunks = some (.done (.ended (.image s)), [], [], .ok) ∧ s.result = some jpg ∧
      ∀ T, ∃ bytes, writeJpeg T jpg = .ok bytes ∧ bytes.flatten = data := by
  obtain ⟨jpg, h1, h2⟩ := C37_end_to_end par hl hcl data _ hd h
  unfold decodeJpeg at h1
  cases hf : decodeFile (fun h => some (SectState.init h)) (decBody par) chunks.flatten with
  | needMore => rw [hf] at h1; cases h1
  | invalid => rw [hf] at h1; cases h1
  | ok c rest =>
    rw [hf] at h1
    cases c with
    | original d => cases h1
    | image s =>
      have hc : fileContent par chunks.flatten = some (.image s) := by unfold fileContent; rw [hf]
      have hne : chunks.flatten ≠ [] := fun e => by
        rw [e] at hf
        simp [decodeFile, readFile, Rd.andThen, readSignature, Rd.bytes] at hf
      obtain ⟨fuel, hfeed⟩ := (C27_any_pieces hz chunks hne (.done (.ended (.image s))) []).mpr ⟨_, hc, rfl, rfl⟩
      exact ⟨fuel, s, jpg, hfeed, h1, h2⟩

/-! ## A case -/

/-- A decompressor: a byte that is not 0 announces a byte of data, 0 ends the stream. -/
def spacedInflater : Inflater where
  σ := Bool
  start := false
  byte s b := if s then .more false [b] else if b = 0 then .done [] else .more true []

/-- The compressor. -/
def spaced : List Nat → List Nat
  | [] => [0]
  | b :: bs => 1 :: b :: spaced bs

/-- Metadata so packed; all contexts share one histogram. -/
def spacedCodec : Codec where
  compress := fun room data => if 2 * data.length + 1 ≤ room then some (spaced data) else none
  decompress := fun packed => (spacedInflater.whole packed).map fun x => [x]
  cluster := plainCodec.cluster

theorem spacedCodec_streams (p : List Nat) : (spacedCodec.decompress p).map List.flatten = spacedInflater.whole p := by
  simp only [spacedCodec, Option.map_map]
  cases spacedInflater.whole p with
  | none => rfl
  | some x => simp

theorem spaced_feed : ∀ data, spacedInflater.feed false (spaced data) = .done data (2 * data.length + 1)
  | [] => by simp [spaced, Inflater.feed, spacedInflater]
  | b :: bs => by
    have ih := spaced_feed bs
    have e1 : spacedInflater.byte false 1 = .more true [] := rfl
    have e2 : spacedInflater.byte true b = .more false [b] := rfl
    have e3 : spacedInflater.feed false (1 :: b :: spaced bs) = ((spacedInflater.feed false (spaced bs)).after [b] 1).after [] 1 := rfl
    rw [spaced, e3]
    rw [ih]
    simp only [Inflated.after, List.length_cons, List.nil_append, List.singleton_append, Inflated.done.injEq, true_and]
    omega

theorem spaced_length : ∀ data, (spaced data).length = 2 * data.length + 1
  | [] => rfl
  | b :: bs => by
    rw [spaced, List.length_cons, List.length_cons, spaced_length bs, List.length_cons]
    omega

theorem spaced_whole (data : List Nat) : spacedInflater.whole (spaced data) = some data := by
  unfold Inflater.whole
  have : spacedInflater.feed spacedInflater.start (spaced data) = .done data (2 * data.length + 1) := spaced_feed data
  rw [this]
  simp [spaced_length]

theorem spacedCodec_lossless : spacedCodec.Lossless := by
  intro room data packed h
  simp only [spacedCodec] at h
  split at h
  · cases h
    refine ⟨by cases data <;> simp [spaced], [data], ?_, by simp⟩
    simp only [spacedCodec]
    rw [spaced_whole]
    rfl
  · cases h

theorem spacedCodec_bounded : spacedCodec.Bounded (fun n => 2 * n + 1) := fun room data h =>
  ⟨spaced data, by simp only [spacedCodec]; rw [if_pos h], by rw [spaced_length]⟩

/-- The file is small and has little metadata. -/
def spacedSmall (data : List Nat) : Bool :=
  match readJpeg data with
  | .ok jpg => (match joinMetadata jpg.appData jpg.comData jpg.tailData with | some m => decide (m.length < 400) | none => false) && decide (jpg.room 1010 ≤ maxEncodedSize jpg)
  | _ => false

theorem spaced_accepted {data : List Nat} (hd : Bytes data) (h : smallFile data = true) (hm : spacedSmall data = true) :
    ∃ out, encodeData spacedCodec data = .ok out := by
  obtain ⟨jpg, m, h1, h2, h3⟩ := smallFile_acceptable hd h
  unfold spacedSmall at hm
  rw [h1] at hm
  simp only [h2.metadata, Bool.and_eq_true, decide_eq_true_eq] at hm
  obtain ⟨out, ho, -⟩ := C41_small_images_partial spacedCodec plainCodec_clusters plainCodec_works _ spacedCodec_bounded data jpg m h1 h2
    (by omega) (by have := hm.2; unfold JpegData.room at this ⊢; omega)
  exact ⟨out, ho⟩

/-- The file made from the sample, which has metadata, in two pieces cut anywhere. -/
example (n : Nat) : ∃ out, encodeData spacedCodec sampleSequential = .ok out ∧ ∃ fuel s jpg,
    feed (fileParser spacedInflater) fuel (.working .signature) [] [out.take n, out.drop n] = some (.done (.ended (.image s)), [], [], .ok) ∧ s.result = some jpg ∧
      ∀ T, ∃ bytes, writeJpeg T jpg = .ok bytes ∧ bytes.flatten = sampleSequential := by
  have hb : Bytes sampleSequential := bytes_of_all (by decide +kernel)
  obtain ⟨out, ho⟩ := spaced_accepted hb (by decide +kernel) (by decide +kernel)
  have e : [out.take n, out.drop n].flatten = out := by simp
  exact ⟨out, ho, C27_streamed_roundtrip spacedCodec_streams spacedCodec_lossless plainCodec_clusters _ hb _ (by rw [e]; exact ho)⟩

/-! ## Trailing bytes -/

/-- A file that holds 592 bytes as they are, and one more byte. -/
def longOriginal : List Nat := kBrunsliSignature ++ [0x12, 2, 0x18, 4, 0x4a, 0xd0, 0x04] ++ List.replicate 592 7 ++ [9]

/-- **C27 is false for files with trailing bytes**, of the parser of the code: the file is rejected in one piece, and accepted in two, with the last byte unread. -/
theorem C27_trailing_byte_accepted :
    (doProcess (fileParser spacedInflater) 20 (.working .signature) longOriginal).map (fun r => (r.2.1, r.2.2)) = some ([9], .bad invalidBrn) ∧
    (feed (fileParser spacedInflater) 20 (.working .signature) [] [longOriginal.take 5, longOriginal.drop 5]).map (fun r => r.2) = some ([], [9], .ok) := by
  constructor <;> decide +kernel

end Brunsli
