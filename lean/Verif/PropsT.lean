import Verif.StreamSafe
import Verif.PropsS
/-!
# C48: writing the JPEG file is well defined whatever bytes arrive

`Decoder.run z fuel T calls` makes calls of `BrunsliDecoder::Decode` with any bytes and any output space.  `broken` is set when the writer reads outside of a vector or of a
table of Huffman codes, or shifts by 32 bits or more; `Sound rs` says that it was not set in any of the calls.
-/

namespace Brunsli

/-- What a file can be relied on for: the section of AC coefficients (tag 8) comes after the one of DC coefficients (tag 7), and no DC coefficient has more than 14 bits and a sign. -/
def View.Regular (v : View) : Prop :=
  (8 ∈ v.met → 7 ∈ v.met) ∧ ∀ c ∈ v.jpg.components, ∀ b < c.coeffs.length, -16384 ≤ c.coeffs.getD (64 * b) 0 ∧ c.coeffs.getD (64 * b) 0 < 16384

instance (v : View) : Decidable v.Regular := by unfold View.Regular; exact inferInstance

theorem View.Regular.calm {v : View} (h : v.Regular) : v.Calm := by
  refine ⟨h.1, fun c b => ?_⟩
  unfold JpegData.coefs
  cases hc : v.jpg.components[c]? with
  | none => exact ⟨(by decide : (-16384 : Int) ≤ 0), (by decide : (0 : Int) < 16384)⟩
  | some x =>
    show DcFits (x.coeffs.getD (64 * b + 0) 0)
    by_cases hb : b < x.coeffs.length
    · exact h.2 x (List.mem_of_getElem? hc) b hb
    · rw [List.getD_eq_getElem?_getD, List.getElem?_eq_none (by omega)]; exact ⟨(by decide : (-16384 : Int) ≤ 0), (by decide : (0 : Int) < 16384)⟩

/-- **C48, regular files.**  Whatever bytes arrive, in whatever pieces and with whatever output space, whether a call fails or not: the writer never reads outside of its vectors
and tables and never shifts by 32 bits, as long as what has been decoded when it may start is regular.
Missing: files that are not regular, of which it is false (`C48_dc_range_false`, `C46_missing_dc_false`). -/
theorem C48_writer_defined_partial {z : Inflater} {fuel : Nat} {T : HSlot → CodeTable} (hT : ∀ t s, (T t).depth s ≤ 16) (calls : List (List Nat × Nat))
    (rs : List (DResult (FileSt z) WJS)) (h : Decoder.run z fuel T calls = some rs)
    (hreg : ∀ r ∈ rs, (fileView r.state.parser).canStart = true → (fileView r.state.parser).Regular) : Sound rs :=
  calls_safe calls (Decoder.start z T) rs ⟨trivial, trivial, trivial⟩ ⟨rfl, fun _ => ⟨hT, rfl, rfl⟩, fun rest hr => by cases hr⟩
    (fun hne => absurd rfl hne) h fun r hr hc => (hreg r hr hc).calm

/-- **C46, regular files.**  The same, as the missing part of C46: in such files the writer reads nothing that has not been decoded. -/
theorem C46_writer_defined_partial {z : Inflater} {fuel : Nat} {T : HSlot → CodeTable} (hT : ∀ t s, (T t).depth s ≤ 16) (calls : List (List Nat × Nat))
    (rs : List (DResult (FileSt z) WJS)) (h : Decoder.run z fuel T calls = some rs)
    (hreg : ∀ r ∈ rs, (fileView r.state.parser).canStart = true → (fileView r.state.parser).Regular) : Sound rs := C48_writer_defined_partial hT calls rs h hreg

/-- The Brunsli file of a progressive grey image of 16 blocks with a restart marker after 15 of them and with the DC coefficients 2048, 4096, ..., 32768, up to the tag of the
section of AC coefficients. -/
def wideDc : List Nat :=
  [10, 4, 66, 210, 213, 78, 18, 9, 8, 128, 1, 16, 8, 24, 8, 32, 0, 34, 146, 0, 155, 64, 116, 90, 246, 0, 0, 132, 145, 194, 35, 105, 1, 0, 0, 0, 128, 0, 26, 128, 128, 0, 42, 129,
   0, 32, 50, 141, 128, 0, 224, 7, 0, 0, 0, 0, 182, 109, 219, 182, 109, 219, 6, 58, 164, 128, 0, 162, 0, 235, 143, 249, 243, 184, 109, 96, 203, 230, 255, 231,
   207, 159, 63, 236, 143, 127, 254, 252, 249, 243, 231, 233, 219, 207, 159, 223, 76, 63, 127, 232, 35, 254, 252, 66]

/-- **C48 is false of the code**: the decoder stores the prediction plus what it has read in 16 bits (c/dec/brunsli_decode.cc:711-712), so that the last DC coefficient becomes
-32768, whose negation is -32768 again; `Log2FloorNonZero` of it as an unsigned number is 31, and `1 << 32` is undefined (c/dec/jpeg_data_writer.cc:569-582).
(Reduced by a third, the same coefficients are written.) -/
theorem C48_dc_range_false :
    (Decoder.run spacedInflater 400 zeroTables [(wideDc, 1000)]).map (·.map fun r => (r.status, r.state.ser.aux.broken)) = some [(.error, true)] := by
  decide +kernel

/-- The tables of zeros of a new writer. -/
example : ∀ t s, (zeroTables t).depth s ≤ 16 := fun _ _ => Nat.zero_le _

/-- A damaged file: the writer starts in the first call, what it sees is regular, and the second call fails. -/
example : (Decoder.run spacedInflater 400 zeroTables [((lateMetadata.set 31 247).take 104, 20), ((lateMetadata.set 31 247).drop 104, 1000)]).any (fun rs =>
    rs.map (fun r => r.status) == [.needsInput, .error] && rs.all fun r => (fileView r.state.parser).canStart && decide (fileView r.state.parser).Regular) = true := by
  decide +kernel

end Brunsli
