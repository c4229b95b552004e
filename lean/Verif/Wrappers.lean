import Verif.Drain
import Verif.Tools
/-!
# The WebAssembly and the Java interface

Modelled: wasm/codec.cc and java/dev/brunsli/wrapper/Codec.java, codec_jni.cc.  `size_t` has 64 bits here as everywhere in the model; in WebAssembly it has 32.
Not modelled: messages, lack of memory, the conversions between Java and C++ objects.
-/

namespace Brunsli

/-! ## WebAssembly, in one call -/

/-- `JpegToBrunsli` (wasm/codec.cc:123-143): `fail` is a null pointer. -/
def wasmEncode (par : Codec) (data : List Nat) : Run (List Nat) := encodeData par data

/-- `BrunsliToJpeg` (wasm/codec.cc:16-39): `fail` is a null pointer. -/
def wasmDecode (par : Codec) (T : HSlot → CodeTable) (file : List Nat) : Run (List Nat) := restoreData par T file

/-! ## WebAssembly, in pieces -/

/-- `kBufferSize` (wasm/codec.cc:51). -/
def kWasmBuffer : Nat := 65536

/-- The result of `BrunsliDecoderProcess` (wasm/codec.cc:91-96). -/
def wasmCode (s : DStatus) : Nat :=
  if s = .needsInput ∨ s = .needsOutput then 0
  else if s = .done then 1
  else 2

/-- `BrunsliDecoderProcess` (wasm/codec.cc:81-97), after the client has stored `piece` at `in` and its length in `in_len`: the result, the bytes the client finds at `out`,
of which there are `out_len`, and the decoder.  What the decoder did not read is dropped.  A piece that is longer than the buffer is undefined behaviour of the client. -/
def wasmProcess (z : Inflater) (fuel : Nat) (piece : List Nat) (d : DecState (FileSt z) WJS) : Option (Nat × List Nat × DecState (FileSt z) WJS) :=
  if kWasmBuffer < piece.length then none
  else
    (decodeCall (fileParser z) (streamApi.via fileView) fuel piece kWasmBuffer d).map fun r =>
      (wasmCode r.status, r.out.take (kWasmBuffer - r.left), r.state)

/-- The calls a client makes; what each returns and what it finds at `out`. -/
def wasmCalls (z : Inflater) (fuel : Nat) : List (List Nat) → DecState (FileSt z) WJS → Option (List (Nat × List Nat))
  | [], _ => some []
  | piece :: pieces, d =>
    match wasmProcess z fuel piece d with
    | none => none
    | some (code, out, d') => (wasmCalls z fuel pieces d').map ((code, out) :: ·)

/-- The calls a client makes after `BrunsliDecoderInit`. -/
def wasmRun (z : Inflater) (fuel : Nat) (T : HSlot → CodeTable) (pieces : List (List Nat)) : Option (List (Nat × List Nat)) := wasmCalls z fuel pieces (Decoder.start z T)

theorem wasmCalls_eq {z : Inflater} {fuel : Nat} : ∀ {pieces : List (List Nat)} {d : DecState (FileSt z) WJS} {rs : List (DResult (FileSt z) WJS)},
    (∀ p ∈ pieces, p.length ≤ kWasmBuffer) → decodeCalls (fileParser z) (streamApi.via fileView) fuel (pieces.map (·, kWasmBuffer)) d = some rs →
    wasmCalls z fuel pieces d = some (rs.map fun r => (wasmCode r.status, r.out))
  | [], d, rs, _, h => by simp only [List.map_nil, decodeCalls, Option.some.injEq] at h; subst h; rfl
  | p :: ps, d, rs, hp, h => by
    rw [List.map_cons, decodeCalls] at h
    cases hc : decodeCall (fileParser z) (streamApi.via fileView) fuel p kWasmBuffer d with
    | none => rw [hc] at h; cases h
    | some r =>
      rw [hc] at h
      dsimp only at h
      cases hr : decodeCalls (fileParser z) (streamApi.via fileView) fuel (ps.map (·, kWasmBuffer)) r.state with
      | none => rw [hr] at h; cases h
      | some rs' =>
        rw [hr] at h
        cases h
        have hs := decodeCall_space hc
        have hw : wasmProcess z fuel p d = some (wasmCode r.status, r.out, r.state) := by
          unfold wasmProcess
          rw [if_neg (Nat.not_lt.mpr (hp p (by simp))), hc, Option.map_some, List.take_of_length_le (by omega)]
        rw [wasmCalls, hw]
        dsimp only
        rw [wasmCalls_eq (fun q hq => hp q (by simp [hq])) hr]
        rfl

/-! ### Memory of an instance -/

/-- The ways to get memory. -/
inductive Origin where
  | new | newArray | malloc
deriving DecidableEq, Repr

/-- The ways to give it back. -/
inductive Release where
  | delete | deleteArray | free
deriving DecidableEq, Repr

/-- The only way that is defined ([expr.delete]/2 of C++, 7.22.3.3 of C). -/
def Origin.release : Origin → Release
  | .new => .delete
  | .newArray => .deleteArray
  | .malloc => .free

/-- What a program has allocated. -/
abbrev Blocks := List Origin

/-- Gives back the blocks at the given places, one after the other. -/
def releaseAll (heap : Blocks) : List (Nat × Release) → Run Unit
  | [] => .ok ()
  | (i, how) :: rest =>
    match heap[i]? with
    | none => .ub
    | some o => if o.release = how then releaseAll heap rest else .ub

/-- What `BrunsliDecoderInit` allocates (wasm/codec.cc:53-66): the array of fields, the decoder, `in`, `out`. -/
def wasmBlocks : Blocks := [.newArray, .new, .malloc, .malloc]

/-- `BrunsliDecoderCleanup` (wasm/codec.cc:99-109). -/
def wasmCleanup (heap : Blocks) : Run Unit := releaseAll heap [(1, .delete), (2, .deleteArray), (3, .deleteArray), (0, .deleteArray)]

/-! ## Java -/

/-- A direct `ByteBuffer` of Java: all of its bytes, and the range in use. -/
structure DirectBuffer where
  bytes : List Nat
  position : Nat
  limit : Nat

/-- What a buffer contains for its user. -/
def DirectBuffer.remaining (b : DirectBuffer) : List Nat := (b.bytes.take b.limit).drop b.position

/-- `ToByteArray` (java/dev/brunsli/wrapper/codec_jni.cc:19-25): `NewByteArray` and `SetByteArrayRegion` take the length as an `int`; for a negative length there is no array. -/
def toByteArray (s : List Nat) : Run (List Nat) := if toInt32 s.length < 0 then .fail else .ok (s.take (toInt32 s.length).toNat)

/-- `Codec.encode(ByteBuffer)` (Codec.java:57-66, codec_jni.cc:62-83): `fail` is an `IOException`. -/
def javaEncodeBuffer (par : Codec) (b : DirectBuffer) : Run (List Nat) := (encodeData par b.bytes).bind toByteArray

/-- `Codec.decode(ByteBuffer)` (Codec.java:24-33, codec_jni.cc:33-60). -/
def javaDecodeBuffer (par : Codec) (T : HSlot → CodeTable) (b : DirectBuffer) : Run (List Nat) := (restoreData par T b.bytes).bind toByteArray

/-- `ByteBuffer.allocateDirect` and `put` (Codec.java:44-46, 77-79): the position is at the end. -/
def DirectBuffer.filled (data : List Nat) : DirectBuffer := ⟨data, data.length, data.length⟩

/-- `Codec.encode(byte[])` (Codec.java:76-80). -/
def javaEncode (par : Codec) (data : List Nat) : Run (List Nat) := javaEncodeBuffer par (.filled data)

/-- `Codec.decode(byte[])` (Codec.java:43-47). -/
def javaDecode (par : Codec) (T : HSlot → CodeTable) (data : List Nat) : Run (List Nat) := javaDecodeBuffer par T (.filled data)

theorem toInt32_length (n : Nat) : (toInt32 n).toNat < 2 ^ 31 ∧ (n < 2 ^ 32 → 0 ≤ toInt32 n → (toInt32 n).toNat = n) := by
  unfold toInt32
  omega

theorem toByteArray_ok {s r : List Nat} (h : toByteArray s = .ok r) : ∃ n, n < 2 ^ 31 ∧ r = s.take n ∧ (s.length < 2 ^ 32 → n = s.length) := by
  obtain ⟨h1, h2⟩ := toInt32_length s.length
  unfold toByteArray at h
  by_cases hn : toInt32 s.length < 0
  · rw [if_pos hn] at h
    exact nomatch h
  · rw [if_neg hn] at h
    exact ⟨_, h1, (Run.ok.inj h).symm, fun hs => h2 hs (Int.not_lt.mp hn)⟩

theorem toByteArray_short {s : List Nat} (h : s.length < 2 ^ 31) : toByteArray s = .ok s := by
  have e : toInt32 s.length = s.length := by unfold toInt32; omega
  unfold toByteArray
  rw [if_neg (by omega), e, Int.toNat_natCast, List.take_length]

end Brunsli
