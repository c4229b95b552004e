import Verif.JMode
import Verif.PropsM
import Verif.PropsH
/-!
# Properties C56 and C21: the other modes of the JPEG reader, and bypass with the header that is found
-/

namespace Brunsli

/-! ## C56: reading less than everything -/

/-- What only reading the header is meant to tell: dimensions, and for each component its identifier, sampling factors and padded dimensions in blocks. -/
def JpegData.frame (jpg : JpegData) : Nat × Nat × List (Nat × Nat × Nat × Nat × Nat) :=
  (jpg.width, jpg.height, jpg.components.map fun c => (c.id, c.hSamp, c.vSamp, c.width, c.height))

/-- **C56 (1).** Whatever file is accepted in full, reading only its header succeeds and tells the same about the frame. -/
theorem C56_header_agrees (data : List Nat) (hd : Bytes data) {jpg : JpegData} (h : readJpeg data = .ok jpg) :
    ∃ hdr, readJpegIn .header data = .ok hdr ∧ hdr.frame = jpg.frame := by
  obtain ⟨hdr, h1, h2, h3, h4⟩ := readJpegIn_header hd h
  exact ⟨hdr, h1, by unfold JpegData.frame; rw [h2, h3, h4]⟩

/-- **C56 (2).** Whatever the bytes, in no mode anything undefined happens. -/
theorem C56_safe (data : List Nat) (hd : Bytes data) (mode : ReadMode) : readJpegIn mode data ≠ .ub := by
  by_cases hm : mode = .all
  · subst hm
    rw [readJpegIn_all]
    exact C32_reader_safe data hd
  · exact (readJpegIn_part hm hd).1

/-- **C56 (3).** Whatever the bytes and the mode, what is accepted has dimensions of 1 to 65535, 1 to 4 components with factors of 1 to 15, and at most 2^21 blocks in each. -/
theorem C56_frame_valid (data : List Nat) (hd : Bytes data) (mode : ReadMode) (hm : mode ≠ .all) {jpg : JpegData} (h : readJpegIn mode data = .ok jpg) :
    1 ≤ jpg.width ∧ jpg.width ≤ 65535 ∧ 1 ≤ jpg.height ∧ jpg.height ≤ 65535 ∧ 1 ≤ jpg.components.length ∧ jpg.components.length ≤ 4 ∧
      ∀ c ∈ jpg.components, 1 ≤ c.hSamp ∧ c.hSamp ≤ 15 ∧ 1 ≤ c.vSamp ∧ c.vSamp ≤ 15 ∧ c.width * c.height ≤ 2 ^ 21 := by
  have := (readJpegIn_part hm hd).2 jpg h
  exact ⟨this.width.1, this.width.2, this.height.1, this.height.2, this.count.1, this.count.2, fun c hc =>
    ⟨(this.raw c hc).h.1, (this.raw c hc).h.2, (this.raw c hc).v.1, (this.raw c hc).v.2, this.blocks c hc⟩⟩

/-- The reader in its usual mode is the one of C31 and C32. -/
theorem C56_all (data : List Nat) : readJpegIn .all data = readJpeg data := readJpegIn_all data

/-- A file of 16 by 8 pixels with a thumbnail of 9 by 9 pixels in an APP1 segment. -/
def sampleThumbnail : List Nat :=
  [0xFF, 0xD8] ++ ([0xFF, 0xE1, 0, 19] ++ [0xFF, 0xD8, 0xFF, 0xC0, 0, 11, 8, 0, 9, 0, 9, 1, 1, 0x11, 0, 0xFF, 0xD9]) ++ sampleSequential.drop 2

/-- The outcome is a success with a result that passes the test. -/
def Run.test {α : Type} (f : α → Bool) : Run α → Bool
  | .ok a => f a
  | _ => false

theorem ok_of_test {α : Type} {f : α → Bool} {r : Run α} (h : r.test f = true) : ∃ a, r = .ok a ∧ f a = true := by
  cases r with
  | ok a => exact ⟨a, rfl, h⟩
  | fail => cases h
  | ub => cases h

theorem sampleThumbnail_all : (readJpeg sampleThumbnail).test (fun jpg => decide ((jpg.width, jpg.height) = (16, 8) ∧ jpg.quant.length = 1)) = true := by decide +kernel

theorem sampleThumbnail_tables : (readJpegIn .tables sampleThumbnail).test (fun jpg => decide ((jpg.width, jpg.height) = (9, 9) ∧ jpg.quant = [])) = true := by decide +kernel

/-- **C56 is false of the code for `JPEG_READ_TABLES`**: the contents of APP and COM segments are not passed over, and so the dimensions told for a file with a
thumbnail are those of the thumbnail. -/
theorem C56_tables_false : ∃ data jpg tab, Bytes data ∧ readJpeg data = .ok jpg ∧ readJpegIn .tables data = .ok tab ∧ (jpg.width, jpg.height) = (16, 8) ∧ (tab.width, tab.height) = (9, 9) ∧
    tab.quant = [] ∧ jpg.quant.length = 1 := by
  obtain ⟨jpg, e1, h1⟩ := ok_of_test sampleThumbnail_all
  obtain ⟨tab, e2, h2⟩ := ok_of_test sampleThumbnail_tables
  have h1 := of_decide_eq_true h1
  have h2 := of_decide_eq_true h2
  exact ⟨_, jpg, tab, bytes_of_all (by decide +kernel), e1, e2, h1.1, h2.1, h2.2, h1.2⟩

/-- Non-vacuity: the two sample files are accepted in full. -/
example : Bytes sampleSequential ∧ (∃ jpg, readJpeg sampleSequential = .ok jpg) ∧ Bytes sampleProgressive ∧ ∃ jpg, readJpeg sampleProgressive = .ok jpg :=
  ⟨bytes_of_all (by decide +kernel), accepts_ok sampleSequential_accepted, bytes_of_all (by decide +kernel), accepts_ok sampleProgressive_accepted⟩

/-! ## C21: bypass of any bytes -/

/-- **C21, without assumptions about what is found in the bytes (all but the empty string).** Any byte string of 1 to 2^63 - 1 bytes is encoded in bypass mode into a buffer of the
advertised size, which is not exceeded, and decoding gives it back.  Missing: the empty string (`C21_empty_false`). -/
theorem C21_any_bytes_partial (data : List Nat) (hd : Bytes data) (hne : data ≠ []) (hl : data.length < 2 ^ 63) :
    ∃ out, encodeJpegBypass (data.length + 36) data = .ok out ∧ out.length ≤ data.length + 36 ∧ restoreOriginal out = some data := by
  obtain ⟨out, h1, h2, h3⟩ := C21_bypass_roundtrip_partial data hne hl (foundHeader data) (foundHeader_read hd)
  refine ⟨out, ?_, h2, h3⟩
  unfold encodeJpegBypass
  rw [if_neg (C56_safe data hd _), h1]

/-- **C21, the buffer, without assumptions about what is found.** Into a buffer of at least 36 bytes nothing is written beyond its end, and nothing undefined happens. -/
theorem C21_any_bytes_fit_partial (cap : Nat) (hcap : 36 ≤ cap ∧ cap < 2 ^ 64) (data : List Nat) (hd : Bytes data) (hl : data.length < 2 ^ 63) :
    encodeJpegBypass cap data ≠ .ub ∧ ∀ out, encodeJpegBypass cap data = .ok out → out.length ≤ cap := by
  unfold encodeJpegBypass
  rw [if_neg (C56_safe data hd _)]
  cases h : encodeBypass cap (foundHeader data) data with
  | none => exact ⟨nofun, nofun⟩
  | some x =>
    refine ⟨nofun, fun out ho => ?_⟩
    cases ho
    exact C21_fits_partial cap hcap data hl (foundHeader data) (foundHeader_read hd) h

theorem encodeBypass_starts {cap : Nat} {x : Header} {data out : List Nat} (h : encodeBypass cap (some x) data = some out) :
    ∃ s t, encodeHeaderSection { x with version := 1 } = some s ∧ out = kBrunsliSignature ++ (s ++ t) := by
  unfold encodeBypass at h
  by_cases hc : cap < 6
  · rw [if_pos hc] at h
    exact nomatch h
  rw [if_neg hc] at h
  dsimp only at h
  cases e : encodeHeaderSection { x with version := 1 } with
  | none =>
    rw [e] at h
    exact nomatch h
  | some s =>
    rw [e] at h
    dsimp only at h
    generalize (cap + 2 ^ 64 - (6 + s.length + 1 + base128Size data.length)) % 2 ^ 64 = room at h
    by_cases hr : data.length > room
    · rw [if_pos hr] at h
      exact nomatch h
    · rw [if_neg hr] at h
      obtain ⟨t, -, ht⟩ := Option.map_eq_some_iff.mp h
      exact ⟨s, t, rfl, ht.symm⟩

/-- **C21, the header.** For a file the reader accepts in full, the header written in bypass mode has its dimensions, number of components and sampling factors. -/
theorem C21_dimensions (cap : Nat) (data : List Nat) (hd : Bytes data) {jpg : JpegData} (h : readJpeg data = .ok jpg) {out : List Nat}
    (ho : encodeJpegBypass cap data = .ok out) :
    ∃ hdr body, encodeHeaderSection ⟨1, jpg.width, jpg.height, jpg.components.map fun c => (c.hSamp, c.vSamp)⟩ = some hdr ∧ out = kBrunsliSignature ++ (hdr ++ body) := by
  obtain ⟨x, h1, h2, h3, h4⟩ := readJpegIn_header hd h
  have hc : x.components.map (fun c => (c.hSamp, c.vSamp)) = jpg.components.map fun c => (c.hSamp, c.vSamp) := by
    have := congrArg (List.map fun t : Nat × Nat × Nat × Nat × Nat => (t.2.1, t.2.2.1)) h4
    simpa only [List.map_map, Function.comp_def] using this
  have hf : foundHeader data = some x.header := by unfold foundHeader; rw [h1]
  have hb : encodeBypass cap (some x.header) data = some out := by
    unfold encodeJpegBypass at ho
    rw [if_neg (C56_safe data hd _), hf] at ho
    split at ho
    · exact nomatch ho
    · rename_i heq
      rw [heq]
      exact congrArg some (Run.ok.inj ho)
  obtain ⟨s, t, e1, e2⟩ := encodeBypass_starts hb
  refine ⟨s, t, ?_, e2⟩
  rw [← e1]
  unfold JpegData.header
  dsimp only
  rw [h2, h3, hc]

/-- Non-vacuity: the sample file, 16 by 8 pixels, in bypass mode. -/
example : ∃ out, encodeJpegBypass (sampleSequential.length + 36) sampleSequential = .ok out ∧ restoreOriginal out = some sampleSequential :=
  have ⟨out, h1, _, h3⟩ := C21_any_bytes_partial sampleSequential (bytes_of_all (by decide +kernel)) (by decide +kernel) (by decide +kernel)
  ⟨out, h1, h3⟩

end Brunsli
