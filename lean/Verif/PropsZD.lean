import Verif.Headerless
import Verif.PropsR
/-!
# C63: decoding without signature and header
-/

namespace Brunsli

/-- **C63.**  What a decoder that was told the header makes of the rest of a file, in one piece, is what the decoder makes of the whole file: the same image, or no image in either case. -/
theorem C63_as_with_header (par : Codec) (h : Header) (hok : h.Ok) (section_ : List Nat) (hs : encodeHeaderSection h = some section_) (rest : List Nat) :
    fileContent par (kBrunsliSignature ++ (section_ ++ rest)) = (headerlessContent par h rest).map .image := by
  unfold fileContent headerlessContent
  rw [decodeFile_headerless hok hs, headerlessInit_ok hok]
  dsimp only
  cases readSections (decBody par) 16 headerlessMet (SectState.init h) rest with
  | ok s r => cases r <;> rfl
  | needMore => rfl
  | invalid => rfl

theorem doProcess_headerless {z : Inflater} {par : Codec} (hz : ∀ p, (par.decompress p).map List.flatten = z.whole p) {h : Header} (hok : h.Ok) (bs : List Nat) :
    ∃ fuel q, doProcess (fileParser z) fuel (.working (.sectTag headerlessMet (SectState.init h))) bs = some q ∧
      match headerlessContent par h bs with
      | some s => q = (.done (.ended (.image s)), [], .ok)
      | none => q.2.2 ≠ .ok := by
  obtain ⟨h1, h2⟩ := headerless_inv (z := z) hok
  obtain ⟨fuel, q, e1, e2⟩ := (sections_ends (z := z) hz 16 headerlessMet (SectState.init h) bs h1 h2 (by simp [headerlessMet])).run
  refine ⟨fuel, q, e1, ?_⟩
  unfold headerlessContent
  rw [headerlessInit_ok hok]
  unfold restImage at e2
  dsimp only
  cases hr : readSections (decBody par) 16 headerlessMet (SectState.init h) bs with
  | ok s r =>
    rw [andThen_eq hr] at e2
    cases r with
    | nil => exact e2
    | cons b r =>
      have e2 : q = (.dead _ invalidBrn, b :: r, .bad invalidBrn) := e2
      rw [e2]
      exact nofun
  | needMore => rw [andThen_more hr] at e2; exact e2
  | invalid => rw [andThen_bad hr] at e2; exact e2

/-- **C63.**  The same in pieces: fed to the parser of the code in any pieces, the rest of a file is accepted, with nothing left unread, just if it is accepted in one piece, with the same
image. -/
theorem C63_any_pieces {z : Inflater} {par : Codec} (hz : ∀ p, (par.decompress p).map List.flatten = z.whole p) (h : Header) (hok : h.Ok) (chunks : List (List Nat))
    (hne : chunks.flatten ≠ []) (s : PSt (FileSt z)) (buffered : List Nat) :
    (∃ fuel start, headerlessStart z h = some start ∧ feed (fileParser z) fuel (.working start) [] chunks = some (s, buffered, [], .ok)) ↔
      ∃ c, headerlessContent par h chunks.flatten = some c ∧ s = .done (.ended (.image c)) ∧ buffered = [] := by
  have hstart : headerlessStart z h = some (.sectTag headerlessMet (SectState.init h)) := by unfold headerlessStart; rw [headerlessInit_ok hok]; rfl
  have hi := headerless_inv (z := z) hok
  obtain ⟨f0, q, hq, hm⟩ := doProcess_headerless hz hok chunks.flatten
  constructor
  · rintro ⟨fuel, start, e, h⟩
    rw [hstart] at e
    cases e
    rcases C27_chunking_partial _ _ (fileParser_incremental z) _ hi fuel chunks s buffered [] .ok h hne with ⟨_, hx, _⟩ | ⟨f, q2, h2, hs⟩
    · exact absurd rfl hx
    · have hs := hs.resolve_right fun ⟨c, e, _⟩ => by cases e
      have e := doProcess_det hq h2
      subst e
      subst hs
      split at hm
      · simp only [Prod.mk.injEq, List.append_nil] at hm
        exact ⟨_, ‹_›, hm.1, hm.2.1⟩
      · exact absurd rfl hm
  · rintro ⟨c, hc, rfl, rfl⟩
    rw [hc] at hm
    subst hm
    exact ⟨f0, _, hstart, C27_valid_file_partial _ _ (fileParser_incremental z) _ hi f0 chunks _ hne hq⟩

/-- **C63.**  A Brunsli file begins with signature and header section, which are made from the header alone; a decoder that is told the header and gets the rest in any pieces has then read an image
from which the JPEG file is written again. -/
theorem C63_restores {z : Inflater} {par : Codec} (hz : ∀ p, (par.decompress p).map List.flatten = z.whole p) (hl : par.Lossless) (hcl : par.Clusters) (data : List Nat) (hd : Bytes data)
    (out : List Nat) (h : encodeData par data = .ok out) :
    ∃ original section_ rest, readJpeg data = .ok original ∧ encodeHeaderSection original.header = some section_ ∧ out = kBrunsliSignature ++ (section_ ++ rest) ∧
      ∀ chunks : List (List Nat), chunks.flatten = rest → ∃ fuel start s jpg, headerlessStart z original.header = some start ∧
        feed (fileParser z) fuel (.working start) [] chunks = some (.done (.ended (.image s)), [], [], .ok) ∧ s.result = some jpg ∧
        ∀ T, ∃ bytes, writeJpeg T jpg = .ok bytes ∧ bytes.flatten = data := by
  have henc := h
  unfold encodeData at h
  obtain ⟨jpg, hj, h⟩ := Run.bind_ok h
  split at h
  · exact absurd h nofun
  obtain ⟨x, hx⟩ := encodeJpeg_parts h
  have hv := readJpeg_valid hd hj
  have hf := hx.file
  unfold encodeFile at hf
  cases hs : encodeHeaderSection jpg.header with
  | none => rw [hs] at hf; cases hf
  | some sec =>
    rw [hs] at hf
    simp only [Option.map_eq_some_iff] at hf
    obtain ⟨rest, hr, rfl⟩ := hf
    refine ⟨jpg, sec, rest, hj, hs, rfl, fun chunks hc => ?_⟩
    obtain ⟨j, h1, h2⟩ := C37_end_to_end par hl hcl data _ hd henc
    have hw := C63_as_with_header par jpg.header hv.header sec hs rest
    have hf : ∃ s, fileContent par (kBrunsliSignature ++ (sec ++ rest)) = some (.image s) ∧ s.result = some j := by
      unfold decodeJpeg at h1
      unfold fileContent
      cases hd : decodeFile (fun h => some (SectState.init h)) (decBody par) (kBrunsliSignature ++ (sec ++ rest)) with
      | needMore => rw [hd] at h1; cases h1
      | invalid => rw [hd] at h1; cases h1
      | ok c r =>
        rw [hd] at h1
        cases c with
        | original d => cases h1
        | image s => exact ⟨s, rfl, h1⟩
    obtain ⟨s, e1, e2⟩ := hf
    rw [e1] at hw
    obtain ⟨s', e3, e4⟩ := Option.map_eq_some_iff.mp hw.symm
    cases e4
    have hne : chunks.flatten ≠ [] := fun e => by
      rw [hc] at e
      subst e
      unfold headerlessContent at e3
      rw [headerlessInit_ok hv.header] at e3
      simp [readSections, Rd.andThen, readTag] at e3
    obtain ⟨fuel, start, e5, e6⟩ := (C63_any_pieces hz jpg.header hv.header chunks hne (.done (.ended (.image s))) []).mpr ⟨s, by rw [hc]; exact e3, rfl, rfl⟩
    exact ⟨fuel, start, s, j, e5, e6, e2, h2⟩

/-- The sample. -/
example : ∃ out, encodeData spacedCodec sampleSequential = .ok out ∧ ∃ original section_ rest, readJpeg sampleSequential = .ok original ∧
    encodeHeaderSection original.header = some section_ ∧ out = kBrunsliSignature ++ (section_ ++ rest) := by
  have hb : Bytes sampleSequential := bytes_of_all (by decide +kernel)
  obtain ⟨out, ho⟩ := spaced_accepted hb (by decide +kernel) (by decide +kernel)
  obtain ⟨j, s, r, h1, h2, h3, -⟩ := C63_restores spacedCodec_streams spacedCodec_lossless plainCodec_clusters _ hb out ho
  exact ⟨out, ho, j, s, r, h1, h2, h3⟩

/-- The header of the test (c/tests/headerless_test.cc:26-41), and one that is refused. -/
example : (⟨0, 16, 16, [(1, 1), (1, 1), (1, 1)]⟩ : Header).Ok ∧ headerlessInit ⟨0, 16384, 16384, [(1, 1)]⟩ = none := by
  refine ⟨⟨by decide, by decide, by decide, by decide, by decide, by decide⟩, ?_⟩
  unfold headerlessInit
  rw [if_neg (by decide)]

end Brunsli
