import Verif.Wrappers
import Verif.PropsX
/-!
# C58, C59: the WebAssembly and the Java interface
-/

namespace Brunsli

/-! ## C58 -/

/-- The calls of the client, from those of the decoder. -/
theorem wasm_of_run {z : Inflater} {T : HSlot → CodeTable} {data : List Nat} {pieces : List (List Nat)} (hsize : ∀ p ∈ pieces, p.length ≤ 65536) {n fuel : Nat}
    {rs : List (DResult (FileSt z) WJS)} {r : DResult (FileSt z) WJS}
    (h2 : Decoder.run z fuel T (pieces.map (·, kWasmBuffer) ++ List.replicate n (([] : List Nat), kWasmBuffer)) = some rs)
    (h3 : ∀ r ∈ rs, r.status ≠ .error) (h4 : (rs.map DResult.out).flatten = data) (h5 : rs.getLast? = some r) (h6 : r.status = .done)
    (h7 : ∀ i, pieces.length ≤ i + 1 → i + 1 < rs.length → ∃ r, rs[i]? = some r ∧ r.status = .needsOutput) :
    ∃ rs, wasmRun z fuel T (pieces ++ List.replicate n []) = some rs ∧ (∀ r ∈ rs, r.1 ≠ 2) ∧
      (rs.map Prod.snd).flatten = data ∧ (∃ o, rs.getLast? = some (1, o)) ∧ ∀ i, pieces.length ≤ i + 1 → i + 1 < rs.length → ∃ o, rs[i]? = some (0, o) := by
  rw [show pieces.map (·, kWasmBuffer) ++ List.replicate n (([] : List Nat), kWasmBuffer) = (pieces ++ List.replicate n []).map (·, kWasmBuffer) by
    rw [List.map_append, List.map_replicate]] at h2
  refine ⟨_, wasmCalls_eq (fun p hp => ?_) h2, ?_, ?_, ⟨r.out, ?_⟩, ?_⟩
  · rcases List.mem_append.mp hp with hp | hp
    · exact hsize p hp
    · rw [(List.mem_replicate.mp hp).2]; exact Nat.zero_le _
  · intro q hq
    obtain ⟨r, hr, rfl⟩ := List.mem_map.mp hq
    have := h3 r hr
    show wasmCode r.status ≠ 2
    cases hs : r.status <;> first | exact absurd hs this | decide
  · rw [List.map_map]
    exact h4
  · rw [List.getLast?_map, h5, Option.map_some, h6]
    rfl
  · intro i hi hi'
    rw [List.length_map] at hi'
    obtain ⟨q, hq, hs⟩ := h7 i hi hi'
    exact ⟨q.out, by rw [List.getElem?_map, hq, Option.map_some, hs]; rfl⟩

/-- **C58, in pieces, files made by the encoder.**  A client that passes the Brunsli file of a JPEG file in whatever pieces of at most 65536 bytes, the last of them perhaps empty,
and then goes on without input while the result is 0, never gets the result 2, gets the result 1 after at most `data.length / 65536` further calls,
and what it has found at `out` up to then is the JPEG file. -/
theorem C58_streaming {z : Inflater} {par : Codec} (hz : ∀ p, (par.decompress p).map List.flatten = z.whole p) (hl : par.Lossless) (hcl : par.Clusters)
    (data : List Nat) (hd : Bytes data) (file : List Nat) (h : encodeData par data = .ok file) (T : HSlot → CodeTable) (pieces : List (List Nat))
    (hsize : ∀ p ∈ pieces, p.length ≤ 65536) (hpieces : pieces.flatten = file) :
    ∃ n, n ≤ data.length / 65536 ∧ ∃ fuel rs, wasmRun z fuel T (pieces ++ List.replicate n []) = some rs ∧ (∀ r ∈ rs, r.1 ≠ 2) ∧
      (rs.map Prod.snd).flatten = data ∧ (∃ o, rs.getLast? = some (1, o)) ∧ ∀ i, pieces.length ≤ i + 1 → i + 1 < rs.length → ∃ o, rs[i]? = some (0, o) := by
  have hne : pieces ≠ [] := by
    rintro rfl
    exact encodeData_ne hl hcl hd h hpieces.symm
  obtain ⟨n, h1, fuel, rs, h2, h3, h4, ⟨r, h5, h6⟩, h7⟩ := drain (z := z) (T := T) (whole := data) (K := kWasmBuffer) (by decide) (pieces.map (·, kWasmBuffer)) (by simpa using hne)
    (fun c hc => by obtain ⟨p, -, rfl⟩ := List.mem_map.mp hc; rfl)
    (fun n => C45_streaming_roundtrip hz hl hcl data hd file h T _ (by
      rw [← hpieces]
      simp [List.map_map, Function.comp_def]))
  exact ⟨n, h1, fuel, wasm_of_run hsize h2 h3 h4 h5 h6 (by simpa using h7)⟩

/-- **C58, in pieces, files that hold the original bytes**, while the client leaves the buffer `in` as it is between its last piece and the result 1 (the decoder refers to it, C47):
the same, with one more call. -/
theorem C58_original_partial {z : Inflater} {par : Codec} (hz : ∀ p, (par.decompress p).map List.flatten = z.whole p) (data : List Nat) (hne : data ≠ [])
    (hlen : data.length < 2 ^ 63) (T : HSlot → CodeTable) :
    ∃ file, encodeBypass (data.length + 36) none data = some file ∧ ∀ pieces : List (List Nat), (∀ p ∈ pieces, p.length ≤ 65536) → pieces.flatten = file →
      ∃ n, n ≤ data.length / 65536 + 1 ∧ ∃ fuel rs, wasmRun z fuel T (pieces ++ List.replicate n []) = some rs ∧ (∀ r ∈ rs, r.1 ≠ 2) ∧
        (rs.map Prod.snd).flatten = data ∧ (∃ o, rs.getLast? = some (1, o)) ∧ ∀ i, pieces.length ≤ i + 1 → i + 1 < rs.length → ∃ o, rs[i]? = some (0, o) := by
  obtain ⟨file, h0, h⟩ := C45_original_partial hz data hne hlen T
  refine ⟨file, h0, fun pieces hsize hpieces => ?_⟩
  have hnp : pieces ≠ [] := by
    rintro rfl
    obtain ⟨file', e1, -, e3⟩ := C21_bypass_container data hlen none (by simp) (fun h => some (SectState.init h)) (decBody par)
    obtain rfl : file = file' := Option.some.inj (h0.symm.trans e1)
    rw [← hpieces] at e3
    simp [decodeFile, readFile, Rd.andThen, readSignature, Rd.bytes] at e3
  obtain ⟨n, h1, fuel, rs, h2, h3, h4, ⟨r, h5, h6⟩, h7⟩ := drain_original (z := z) (T := T) (whole := data) (K := kWasmBuffer) (by decide) (pieces.map (·, kWasmBuffer))
    (by simpa using hnp) (fun c hc => by obtain ⟨p, -, rfl⟩ := List.mem_map.mp hc; rfl)
    (fun n => h _ (by
      rw [← hpieces]
      simp [List.map_map, Function.comp_def]))
  exact ⟨n, h1, fuel, wasm_of_run hsize h2 h3 h4 h5 h6 (by simpa using h7)⟩

/-- The sample byte by byte: it is complete with the last byte. -/
example (T : HSlot → CodeTable) : ∃ file, encodeData spacedCodec sampleSequential = .ok file ∧ ∃ fuel rs,
    wasmRun spacedInflater fuel T (file.map ([·])) = some rs ∧ (rs.map Prod.snd).flatten = sampleSequential ∧ ∃ o, rs.getLast? = some (1, o) := by
  have hb : Bytes sampleSequential := bytes_of_all (by decide +kernel)
  obtain ⟨out, ho⟩ := spaced_accepted hb (by decide +kernel) (by decide +kernel)
  obtain ⟨n, h1, fuel, rs, h2, -, h3, h4, -⟩ := C58_streaming spacedCodec_streams spacedCodec_lossless plainCodec_clusters _ hb out ho T (out.map ([·]))
    (fun p hp => by obtain ⟨b, -, rfl⟩ := List.mem_map.mp hp; show 1 ≤ 65536; omega) (by rw [← List.flatMap_def, List.flatMap_singleton'])
  have h0 : sampleSequential.length / 65536 = 0 := by decide +kernel
  obtain rfl : n = 0 := by omega
  exact ⟨out, ho, fuel, rs, by simpa using h2, h3, h4⟩

/-- **C58, in one call.** -/
theorem C58_whole {par : Codec} (hl : par.Lossless) (hcl : par.Clusters) (data : List Nat) (hd : Bytes data) (file : List Nat) (h : wasmEncode par data = .ok file)
    (T : HSlot → CodeTable) : wasmDecode par T file = .ok data := restoreData_encodeData hl hcl hd h T

/-- **C58 is false of the code at the end**: giving an instance back is undefined, whatever was decoded; its buffers come from `malloc` and go to `delete[]`. -/
theorem C58_cleanup_false : wasmCleanup wasmBlocks = .ub := by decide

/-! ## C59 -/

/-- **C59, arrays**: if encoding an array and decoding the result both succeed, the array is restored. -/
theorem C59_arrays {par : Codec} (hl : par.Lossless) (hcl : par.Clusters) (T : HSlot → CodeTable) (data : List Nat) (hd : Bytes data) (hs : data.length < 2 ^ 31)
    (file back : List Nat) (h : javaEncode par data = .ok file) (h' : javaDecode par T file = .ok back) : back = data := by
  obtain ⟨out, h1, h2⟩ := Run.bind_ok h
  obtain ⟨n, -, rfl, -⟩ := toByteArray_ok h2
  obtain ⟨d, h3, h4⟩ := Run.bind_ok h'
  have hn : ¬n < out.length := fun hlt => by
    have := restoreData_prefix hl hcl hd h1 T hlt
    rw [show restoreData par T (out.take n) = .ok d from h3] at this
    cases this
  have h3 : restoreData par T (out.take n) = .ok d := h3
  rw [List.take_of_length_le (by omega), restoreData_encodeData hl hcl hd h1 T] at h3
  cases h3
  rw [toByteArray_short hs] at h4
  cases h4
  rfl

/-- **C59, success**: an array that the encoder accepts is encoded, if the result has less than 2^31 bytes, and the result is decoded. -/
theorem C59_arrays_succeed {par : Codec} (hl : par.Lossless) (hcl : par.Clusters) (T : HSlot → CodeTable) (data : List Nat) (hd : Bytes data) (hs : data.length < 2 ^ 31)
    (file : List Nat) (h : encodeData par data = .ok file) (hf : file.length < 2 ^ 31) : javaEncode par data = .ok file ∧ javaDecode par T file = .ok data := by
  constructor
  · have e := toByteArray_short hf
    simp only [javaEncode, javaEncodeBuffer, DirectBuffer.filled, h, Run.bind, e]
  · have e := toByteArray_short hs
    simp only [javaDecode, javaDecodeBuffer, DirectBuffer.filled, restoreData_encodeData hl hcl hd h T, Run.bind, e]

example (T : HSlot → CodeTable) : ∃ file, javaEncode plainCodec sampleSequential = .ok file ∧ javaDecode plainCodec T file = .ok sampleSequential := by
  obtain ⟨out, ho⟩ := samples_accepted.1
  have hb : Bytes sampleSequential := bytes_of_all (by decide +kernel)
  exact ⟨out, C59_arrays_succeed plainCodec_lossless plainCodec_clusters T _ hb (by decide +kernel) out ho (smallBuffer_fits (by decide +kernel) ho)⟩

/-- **C59, buffers that are full**: the same of a buffer whose limit is its capacity and whose position is 0.  Missing: other buffers (`C59_buffers_false`). -/
theorem C59_buffers_partial {par : Codec} (hl : par.Lossless) (hcl : par.Clusters) (T : HSlot → CodeTable) (b b' : DirectBuffer) (hd : Bytes b.bytes) (hs : b.bytes.length < 2 ^ 31)
    (hb : b.position = 0 ∧ b.limit = b.bytes.length) (hb' : b'.position = 0 ∧ b'.limit = b'.bytes.length) (file back : List Nat)
    (h : javaEncodeBuffer par b = .ok file) (hc : b'.remaining = file) (h' : javaDecodeBuffer par T b' = .ok back) : back = b.remaining := by
  have e : ∀ b : DirectBuffer, b.position = 0 ∧ b.limit = b.bytes.length → b.remaining = b.bytes := fun b hb => by
    unfold DirectBuffer.remaining
    rw [hb.1, hb.2, List.take_length, List.drop_zero]
  rw [e b' hb'] at hc
  rw [e b hb]
  subst hc
  exact C59_arrays hl hcl T b.bytes hd hs b'.bytes back h h'

/-- **C59 is false of the code for buffers that are not full**: this buffer contains a JPEG file and, beyond its limit, a byte of something else.
What is encoded are both. -/
theorem C59_buffers_false (T : HSlot → CodeTable) : ∃ (b : DirectBuffer) (file back : List Nat), Bytes b.bytes ∧ b.position = 0 ∧ b.limit ≤ b.bytes.length ∧
    javaEncodeBuffer plainCodec b = .ok file ∧ javaDecodeBuffer plainCodec T (.filled file) = .ok back ∧ back ≠ b.remaining := by
  have hb : Bytes (sampleSequential ++ [7]) := bytes_of_all (by decide +kernel)
  obtain ⟨out, ho⟩ := smallFile_accepted hb (by decide +kernel)
  obtain ⟨h1, h2⟩ := C59_arrays_succeed plainCodec_lossless plainCodec_clusters T _ hb (by decide +kernel) out ho (smallBuffer_fits (by decide +kernel) ho)
  refine ⟨⟨sampleSequential ++ [7], 0, sampleSequential.length⟩, out, _, hb, rfl, by simp, h1, h2, ?_⟩
  intro e
  have := congrArg List.length e
  simp [DirectBuffer.remaining] at this

end Brunsli
