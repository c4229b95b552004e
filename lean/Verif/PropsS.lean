import Verif.StreamOrig
import Verif.StreamReady
import Verif.PropsH
/-!
# C45, C46, C47: the decoder fed in pieces, with its output

`Decoder.run z fuel T calls` makes calls of `BrunsliDecoder::Decode`, each with a piece of the file and an amount of output space.  `z` is the Brotli decoder,
`T` what the tables of Huffman codes hold before they are filled; `fuel` bounds the steps of a call, and every statement says that enough of it exists.
-/

namespace Brunsli

/-! ## C45 -/

/-- **C45, files made by the encoder.**  In whatever pieces the Brunsli file of a JPEG file arrives, and whatever output space each call has, no call fails, every call reads all of
its input, and what the calls write is the JPEG file from its beginning on; when all of the file has arrived, the JPEG file is complete or the last call has used its space up. -/
theorem C45_streaming_roundtrip {z : Inflater} {par : Codec} (hz : ∀ p, (par.decompress p).map List.flatten = z.whole p) (hl : par.Lossless) (hcl : par.Clusters)
    (data : List Nat) (hd : Bytes data) (file : List Nat) (h : encodeData par data = .ok file) (T : HSlot → CodeTable) (calls : List (List Nat × Nat))
    (hcalls : (calls.map Prod.fst).flatten = file) :
    ∃ fuel rs, Decoder.run z fuel T calls = some rs ∧ Delivers data rs := by
  obtain ⟨s, jpg, h1, h2, h3, h4, h5⟩ := decodeFile_encodeData hl hcl hd h
  obtain ⟨cs, h6, h7⟩ := h5 T
  have hc : fileContent par file = some (.image s) := by unfold fileContent; rw [h1]
  rw [← h7]
  exact Decoder.delivers hz file s hc h4 jpg h2 h3 T cs h6 calls hcalls

/-- **C45, files of others.**  The same of every file that can be decoded in one piece, if its metadata section does not come after a section of coefficients.
Missing: files whose metadata comes later, for which it is false (`C45_late_metadata_false`). -/
theorem C45_streaming_partial {z : Inflater} {par : Codec} (hz : ∀ p, (par.decompress p).map List.flatten = z.whole p) (file : List Nat) (f : SectState)
    (hc : fileContent par file = some (.image f)) (hlate : f.late = false) (J : JpegData) (hr : f.result = some J)
    (T : HSlot → CodeTable) (cs : List (List Nat)) (hj : writeJpeg T J = .ok cs) (calls : List (List Nat × Nat)) (hcalls : (calls.map Prod.fst).flatten = file) :
    ∃ fuel rs, Decoder.run z fuel T calls = some rs ∧ Delivers cs.flatten rs := by
  have hd : ∃ rest, decodeFile (fun h => some (SectState.init h)) (decBody par) file = .ok (.image f) rest := by
    unfold fileContent at hc
    split at hc
    · rename_i c rest hd
      cases hc
      exact ⟨rest, hd⟩
    · cases hc
  obtain ⟨rest, hd⟩ := hd
  exact Decoder.delivers hz file f hc hlate J hr (decodeFile_components hz hd hr) T cs hj calls hcalls

/-- **C45, files that hold the original bytes.**  As before, but the last call may ask for output space although it has some (C40). -/
theorem C45_original_partial {z : Inflater} {par : Codec} (hz : ∀ p, (par.decompress p).map List.flatten = z.whole p) (data : List Nat) (hne : data ≠ [])
    (hlen : data.length < 2 ^ 63) (T : HSlot → CodeTable) :
    ∃ file, encodeBypass (data.length + 36) none data = some file ∧ ∀ calls : List (List Nat × Nat), (calls.map Prod.fst).flatten = file →
      ∃ fuel rs, Decoder.run z fuel T calls = some rs ∧ Hands data rs := by
  obtain ⟨file, h1, -, h3⟩ := C21_bypass_container data hlen none (by simp) (fun h => some (SectState.init h)) (decBody par)
  refine ⟨file, h1, fun calls hcalls => ?_⟩
  have hc : fileContent par file = some (.original data) := by unfold fileContent; rw [h3]
  obtain ⟨fuel, rs, h4, h5, -⟩ := Decoder.hands hz file data hne hc T calls hcalls
  exact ⟨fuel, rs, h4, h5⟩

/-- The sample cut anywhere, with any space. -/
example (T : HSlot → CodeTable) (n a b : Nat) : ∃ file, encodeData spacedCodec sampleSequential = .ok file ∧ ∃ fuel rs,
    Decoder.run spacedInflater fuel T [(file.take n, a), (file.drop n, b)] = some rs ∧ Delivers sampleSequential rs := by
  have hb : Bytes sampleSequential := bytes_of_all (by decide +kernel)
  obtain ⟨out, ho⟩ := spaced_accepted hb (by decide +kernel) (by decide +kernel)
  exact ⟨out, ho, C45_streaming_roundtrip spacedCodec_streams spacedCodec_lossless plainCodec_clusters _ hb out ho T _ (by simp)⟩

/-- Tables of zeros. -/
def zeroTables : HSlot → CodeTable := fun _ => ⟨fun _ => 0, fun _ => 0⟩

/-- The Brunsli file of `sampleSequential` with the metadata section behind the section of DC coefficients. -/
def lateMetadata : List Nat :=
  [10, 4, 66, 210, 213, 78, 18, 8, 8, 16, 16, 8, 24, 8, 32, 0, 34, 152, 0, 27, 64, 116, 254, 175, 101, 1, 0, 64, 24, 41, 60, 246, 1, 126, 0, 0, 1, 104, 130, 247, 2, 7, 8,
   42, 129, 0, 32, 50, 141, 128, 0, 224, 7, 0, 0, 0, 0, 182, 109, 219, 182, 109, 219, 6, 58, 138, 128, 0, 208, 24, 160, 228, 0, 0, 152, 108, 88, 70,
   26, 148, 128, 0, 9, 1, 254, 1, 0, 1, 5, 1, 1, 1, 2, 1, 3, 1, 217, 1, 1, 1, 2, 0, 66, 138, 128, 0, 14, 1, 16, 56, 0, 0, 10, 164, 59, 38]

/-- **C45 is false of the code for metadata behind coefficients**: in one piece the file is decoded; cut after the beginning of the DC section it is not, because the writer starts
before the metadata are there (c/dec/jpeg_data_writer.cc:1005-1012). -/
theorem C45_late_metadata_false :
    (Decoder.run spacedInflater 400 zeroTables [(lateMetadata, 1000)]).map (·.map fun r => (r.status, r.out)) = some [(.done, sampleSequential)] ∧
    (Decoder.run spacedInflater 400 zeroTables [(lateMetadata.take 65, 1000), (lateMetadata.drop 65, 1000)]).map (·.map fun r => r.status) = some [.error, .error] := by
  constructor <;> decide +kernel

/-! ## C46 -/

/-- The behaviour of the writer was defined throughout the calls. -/
def Sound {z : Inflater} (rs : List (DResult (FileSt z) WJS)) : Prop := ∀ r ∈ rs, r.state.ser.aux.broken = false

theorem Sound.of_noError {z : Inflater} {fuel : Nat} {T : HSlot → CodeTable} {calls : List (List Nat × Nat)} {rs : List (DResult (FileSt z) WJS)}
    (h : Decoder.run z fuel T calls = some rs) (he : ∀ r ∈ rs, r.status ≠ .error) : Sound rs := fun r hr => by
  cases hb : r.state.ser.aux.broken with
  | false => rfl
  | true => exact absurd (decodeCalls_broken calls _ rs (fun h => by cases h) h r hr hb) (he r hr)

/-- **C46, whatever bytes arrive**: a call after which the behaviour of the writer was not defined would have failed; calls that do not fail are defined.
Missing: calls that fail, for which it is false (`C46_missing_dc_false`). -/
theorem C46_no_failure_partial {z : Inflater} {fuel : Nat} {T : HSlot → CodeTable} {calls : List (List Nat × Nat)} {rs : List (DResult (FileSt z) WJS)}
    (h : Decoder.run z fuel T calls = some rs) (he : ∀ r ∈ rs, r.status ≠ .error) : Sound rs := Sound.of_noError h he

/-- **C46, files made by the encoder.**  Whatever the pieces, the writer, which starts before all coefficients are there, touches only what is there. -/
theorem C46_encoded_partial {z : Inflater} {par : Codec} (hz : ∀ p, (par.decompress p).map List.flatten = z.whole p) (hl : par.Lossless) (hcl : par.Clusters)
    (data : List Nat) (hd : Bytes data) (file : List Nat) (h : encodeData par data = .ok file) (T : HSlot → CodeTable) (calls : List (List Nat × Nat))
    (hcalls : (calls.map Prod.fst).flatten = file) :
    ∃ fuel rs, Decoder.run z fuel T calls = some rs ∧ Sound rs := by
  obtain ⟨fuel, rs, h1, h2⟩ := C45_streaming_roundtrip hz hl hcl data hd file h T calls hcalls
  exact ⟨fuel, rs, h1, Sound.of_noError h1 h2.noError⟩

example (T : HSlot → CodeTable) (n a b : Nat) : ∃ file, encodeData spacedCodec sampleProgressive = .ok file ∧ ∃ fuel rs,
    Decoder.run spacedInflater fuel T [(file.take n, a), (file.drop n, b)] = some rs ∧ Sound rs := by
  have hb : Bytes sampleProgressive := bytes_of_all (by decide +kernel)
  obtain ⟨out, ho⟩ := spaced_accepted hb (by decide +kernel) (by decide +kernel)
  exact ⟨out, ho, C46_encoded_partial spacedCodec_streams spacedCodec_lossless plainCodec_clusters _ hb out ho T _ (by simp)⟩

/-- The Brunsli file of `sampleProgressive` up to the quantisation tables, and the tag of the section of AC coefficients. -/
def missingDc : List Nat :=
  [10, 4, 66, 210, 213, 78, 18, 8, 8, 16, 16, 8, 24, 8, 32, 0, 34, 156, 0, 155, 64, 104, 154, 166, 101, 64, 24, 41, 60, 146, 22, 0, 32, 0, 0, 128, 0, 0, 130, 31, 2, 128, 224, 15,
   0, 0, 32, 26, 128, 128, 0, 42, 129, 0, 32, 66]

/-- **C46 is false of the code**: after these 56 bytes the writer reads the DC coefficients of an image that has none, beyond the end of an empty vector.
A section counts as met with its tag (c/dec/brunsli_decode.cc:1058-1063), before it is known whether the sections it needs were there (line 2168), and
a scan of DC coefficients trusts that an AC section comes after all of the DC section (c/dec/jpeg_data_writer.cc:766-783, 820). -/
theorem C46_missing_dc_false :
    (Decoder.run spacedInflater 400 zeroTables [(missingDc, 1000)]).map (·.map fun r => (r.status, r.state.ser.aux.broken)) = some [(.error, true)] := by
  decide +kernel

/-! ## C47 -/

/-- Some call wrote bytes, although the bytes it had to write are in the input of an earlier call. -/
def Stale {z : Inflater} (rs : List (DResult (FileSt z) WJS × Option Place)) : Prop :=
  ∃ (i k : Nat) (r : DResult (FileSt z) WJS), rs[i]? = some (r, some (.input k)) ∧ k < i ∧ r.out ≠ []

/-- **C47 is false of the code**: of every file that holds the original bytes.  Given whole to one call, with whatever output space, nothing is written by that call; the next call writes
from the input of the first, which the caller may have released. -/
theorem C47_bypass_false {z : Inflater} {par : Codec} (hz : ∀ p, (par.decompress p).map List.flatten = z.whole p) (file o : List Nat) (ho : o ≠ [])
    (hc : fileContent par file = some (.original o)) (T : HSlot → CodeTable) (a b : Nat) (hb : 0 < b) :
    ∃ fuel rs, Decoder.runRef z fuel T [(file, a), ([], b)] = some rs ∧ Stale rs := by
  obtain ⟨fuel, q, hq, hx⟩ := doProcess_file hz file
  rw [hc] at hx
  subst hx
  obtain ⟨k, rfl⟩ : ∃ k, fuel = k + 1 := by
    cases fuel with
    | zero => simp [doProcess] at hq
    | succ k => exact ⟨k, rfl⟩
  have e0 : pushOutput a [] = ([], a, []) := by cases a <;> rfl
  have href := refProcess_whole (p := .input 0) ho (k + 1) .signature file [] trivial hq
  have c1 : decodeCall (fileParser z) (streamApi.via fileView) (k + 1) file a (Decoder.start z T) =
      some ⟨.needsOutput, [], [], a, ⟨.done (.ended (.original o)), [], ⟨.done, WJS.init T, [o]⟩⟩⟩ := by
    have hp : processJpeg (fileParser z) (k + 1) (.working .signature) [] file = some (.done (.ended (.original o)), [], [], .ok) := by
      unfold processJpeg
      dsimp only
      rw [if_pos rfl]
      unfold processDirect
      rw [show (PSt.working FileSt.signature : PSt (FileSt z)).resume = .working .signature from rfl, hq]
    have hs : serialize (streamApi.via fileView) (PSt.done (.ended (.original o)) : PSt (FileSt z)) a (SState.init (WJS.init T)) =
        ⟨.needsOutput, [], a, ⟨.done, WJS.init T, [o]⟩⟩ := by
      have ev : (streamApi.via fileView).original (PSt.done (.ended (.original o)) : PSt (FileSt z)) = some o := by
        show (if o = [] then none else some o) = some o
        rw [if_neg ho]
      unfold serialize SState.init
      dsimp only
      rw [e0]
      dsimp only
      rw [if_neg (by simp [SerApi.via, streamApi, fileView, View.canStart]), if_pos (by rfl), ev]
      rfl
    unfold decodeCall Decoder.start
    rw [hp]
    dsimp only
    rw [hs]
  have c2 : ∃ r, decodeCall (fileParser z) (streamApi.via fileView) (k + 1) [] b ⟨.done (.ended (.original o)), [], ⟨.done, WJS.init T, [o]⟩⟩ = some r ∧ r.out ≠ [] := by
    have hp : processJpeg (fileParser z) (k + 1) (.done (.ended (.original o))) [] [] = some (.done (.ended (.original o)), [], [], .ok) := by
      simp [processJpeg, processDirect, PSt.resume, doProcess]
    unfold decodeCall
    rw [hp]
    refine ⟨_, rfl, ?_⟩
    show (pushOutput b [o]).1 ≠ []
    obtain ⟨m, rfl⟩ : ∃ m, b = m + 1 := ⟨b - 1, by omega⟩
    rw [pushOutput]
    cases o with
    | nil => exact absurd rfl ho
    | cons x xs => split <;> simp
  obtain ⟨r, c2, hr⟩ := c2
  refine ⟨k + 1, [(⟨.needsOutput, [], [], a, ⟨.done (.ended (.original o)), [], ⟨.done, WJS.init T, [o]⟩⟩⟩, some (.input 0)), (r, some (.input 0))],
    ?_, 1, 0, r, rfl, by omega, hr⟩
  · rw [Decoder.runRef, refCalls, c1]
    dsimp only
    have e : refCall 0 (k + 1) (Decoder.start z T).parser (Decoder.start z T).buffer file = some (.input 0) := href
    rw [e, refCalls, c2]
    rfl

/-- What the parser of a file has at its end, if it has something after some call, is what the file holds. -/
theorem run_core {z : Inflater} {c : Content SectState} {fuel : Nat} (hfuel : 0 < fuel) : ∀ (calls : List (List Nat × Nat)) (d : DecState (FileSt z) WJS),
    Arriving fuel c d.parser d.buffer (calls.map Prod.fst) → ∃ rs, decodeCalls (fileParser z) (streamApi.via fileView) fuel calls d = some rs ∧
    ∀ r ∈ rs, ∀ c', r.state.parser.core = .ended c' → c' = c
  | [], d, _ => ⟨[], by rw [decodeCalls], fun r h => by simp at h⟩
  | (piece, space) :: cs, d, ha => by
    rw [List.map_cons] at ha
    obtain ⟨s', b', st, hp, hst, hnext⟩ := Arriving.call hfuel ha
    obtain ⟨r0, hc, hs⟩ : ∃ r0, decodeCall (fileParser z) (streamApi.via fileView) fuel piece space d = some r0 ∧ r0.state.parser = s' ∧ r0.state.buffer = b' := by
      unfold decodeCall
      rw [hp]
      cases st <;> exact ⟨_, rfl, rfl, rfl⟩
    obtain ⟨rs, hrec, hrs⟩ := run_core hfuel cs r0.state (by rw [hs.1, hs.2]; exact hnext)
    refine ⟨r0 :: rs, by rw [decodeCalls, hc]; dsimp only; rw [hrec]; rfl, fun r hr => ?_⟩
    rcases List.mem_cons.mp hr with rfl | hr
    · intro c' hc'
      rw [hs.1] at hc'
      rcases hnext with hn | ⟨hn, _, _⟩
      · have := feed_ended _ _ _ _ _ _ _ hc' hn
        simp only [PSt.core] at this
        cases this
        rfl
      · rw [hn] at hc'
        simp only [PSt.core] at hc'
        cases hc'
        rfl
    · exact hrs r hr

/-- A file that arrives in any pieces, and what the record then says. -/
theorem runRef_place {z : Inflater} {par : Codec} (hz : ∀ p, (par.decompress p).map List.flatten = z.whole p) (file : List Nat) (c : Content SectState)
    (hc : fileContent par file = some c) (T : HSlot → CodeTable) (calls : List (List Nat × Nat)) (hcalls : (calls.map Prod.fst).flatten = file) :
    ∃ fuel rs, Decoder.runRef z fuel T calls = some rs ∧ ∀ r ∈ rs, ∀ q, r.2 = some q →
      ∃ o, c = .original o ∧ ∀ k, q = .input k → ∃ x, calls[k]? = some x ∧ o.length ≤ x.1.length := by
  have hne : (calls.map Prod.fst).flatten ≠ [] := fun e => by
    rw [← hcalls, e] at hc
    simp [fileContent, decodeFile, readFile, Rd.andThen, readSignature, Rd.bytes] at hc
  obtain ⟨fuel, hfeed⟩ := (C27_any_pieces hz (calls.map Prod.fst) hne (.done (.ended c)) []).mpr ⟨_, by rw [hcalls]; exact hc, rfl, rfl⟩
  have hpos : 0 < fuel := by
    cases fuel with
    | succ n => omega
    | zero =>
      exfalso
      cases calls with
      | nil => exact hne rfl
      | cons c cs =>
        rw [List.map_cons, feed] at hfeed
        simp [processJpeg, processDirect, PSt.resume, doProcess] at hfeed
  obtain ⟨rs, hrun, hcore⟩ := run_core hpos calls (Decoder.start z T) (.inl hfeed)
  have href : (Decoder.runRef z fuel T calls).map (·.map Prod.fst) = some rs := (Decoder.runRef_run z fuel T calls).trans hrun
  cases hrs : Decoder.runRef z fuel T calls with
  | none => rw [hrs] at href; cases href
  | some rs' =>
    rw [hrs] at href
    cases href
    refine ⟨fuel, rs', hrs, fun r hr q hq => ?_⟩
    obtain ⟨o, h1, -, h3⟩ := refCalls_place calls calls 0 (Decoder.start z T) none rs' rfl hrs (fun q h => by cases h) r hr q hq
    exact ⟨o, (hcore r.1 (List.mem_map_of_mem hr) _ h1).symm, h3⟩

/-- **C47, images**: of a file that holds an image nothing is ever written out of the input of an earlier call. -/
theorem C47_image_partial {z : Inflater} {par : Codec} (hz : ∀ p, (par.decompress p).map List.flatten = z.whole p) (file : List Nat) (f : SectState)
    (hc : fileContent par file = some (.image f)) (T : HSlot → CodeTable) (calls : List (List Nat × Nat)) (hcalls : (calls.map Prod.fst).flatten = file) :
    ∃ fuel rs, Decoder.runRef z fuel T calls = some rs ∧ ¬ Stale rs := by
  obtain ⟨fuel, rs, h1, h2⟩ := runRef_place hz file _ hc T calls hcalls
  refine ⟨fuel, rs, h1, ?_⟩
  rintro ⟨i, k, r, hr, -, -⟩
  obtain ⟨o, ho, -⟩ := h2 _ (List.mem_of_getElem? hr) _ rfl
  cases ho

/-- **C47, original bytes in small pieces**: if every piece of the file is shorter than the bytes it holds, these are copied, and nothing is written out of the input of an earlier call.
Missing: pieces that are longer, for which it is false (`C47_bypass_false`). -/
theorem C47_small_pieces_partial {z : Inflater} {par : Codec} (hz : ∀ p, (par.decompress p).map List.flatten = z.whole p) (file o : List Nat)
    (hc : fileContent par file = some (.original o)) (T : HSlot → CodeTable) (calls : List (List Nat × Nat)) (hcalls : (calls.map Prod.fst).flatten = file)
    (hsmall : ∀ c ∈ calls, c.1.length < o.length) :
    ∃ fuel rs, Decoder.runRef z fuel T calls = some rs ∧ ¬ Stale rs := by
  obtain ⟨fuel, rs, h1, h2⟩ := runRef_place hz file _ hc T calls hcalls
  refine ⟨fuel, rs, h1, ?_⟩
  rintro ⟨i, k, r, hr, -, -⟩
  obtain ⟨o', ho, h⟩ := h2 _ (List.mem_of_getElem? hr) _ rfl
  cases ho
  obtain ⟨x, hx, hle⟩ := h k rfl
  have := hsmall x (List.mem_of_getElem? hx)
  omega

/-- A file that holds 24 bytes as they are. -/
def shortOriginal : List Nat := kBrunsliSignature ++ [0x12, 2, 0x18, 4, 0x4a, 24] ++ List.replicate 24 7

/-- The record of the file in one piece, and in pieces of at most 16 bytes; in both cases the bytes are given out in the end. -/
example : (match fileContent spacedCodec shortOriginal with | some (.original o) => o | _ => []) = List.replicate 24 7 ∧
    (Decoder.runRef spacedInflater 40 zeroTables [(shortOriginal, 100), ([], 100)]).map (·.map fun r => (r.1.status, r.1.out, r.2)) =
      some [(.needsOutput, [], some (.input 0)), (.done, List.replicate 24 7, some (.input 0))] ∧
    (Decoder.runRef spacedInflater 40 zeroTables [(shortOriginal.take 16, 100), ((shortOriginal.drop 16).take 16, 100), (shortOriginal.drop 32, 100), ([], 100)]).map
        (·.map fun r => (r.1.status, r.1.out, r.2)) =
      some [(.needsInput, [], none), (.needsInput, [], none), (.needsOutput, [], some .collected), (.done, List.replicate 24 7, some .collected)] := by
  refine ⟨?_, ?_, ?_⟩ <;> decide +kernel

end Brunsli
