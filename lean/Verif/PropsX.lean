import Verif.Tools
import Verif.PropsO
/-!
# C54: what the command line tools restore, C55: what a failed run leaves behind

`cbrunsli par io disk args` is a run of the tool with these arguments on these files: how it exits, and the files afterwards.  `io` says what the C library does:
which calls fail, and how many bytes each `fread` and `fwrite` transfers.  `Stdio.Healthy io`: nothing fails, but transfers can still be short.
-/

namespace Brunsli

/-! ## C54 -/

/-- **C54 (files of less than 2^32 bytes)**: whenever `cbrunsli a b` and then `dbrunsli b c` report success, the file `c` holds the bytes that were in the
file `a`, and no files but `b` and `c` have changed.  The names need not be different.  Missing: files of 2^32 bytes and more, for which it is false. -/
theorem C54_roundtrip_partial (par : Codec) (hl : par.Lossless) (hcl : par.Clusters) (T : HSlot → CodeTable) (io io' : Stdio) (disk disk1 disk2 : Disk)
    (a b c : String) (data : List Nat) (ha : disk a = some data) (hd : Bytes data) (hs : data.length < 2 ^ 32)
    (h : cbrunsli par io disk [a, b] = (.success, disk1)) (h' : dbrunsli par T io' disk1 [b, c] = (.success, disk2)) :
    disk2 c = some data ∧ ∀ n, n ≠ b → n ≠ c → disk2 n = disk n := by
  simp only [cbrunsli, toolMain] at h
  split at h
  · cases h
  simp only [dbrunsli, toolMain] at h'
  split at h'
  · cases h'
  obtain ⟨file, out, h1, -, -, h2, rfl⟩ := processFile_success h
  obtain rfl : data = file := Option.some.inj (ha.symm.trans h1)
  rw [Nat.mod_eq_of_lt hs, List.take_length] at h2
  obtain ⟨file', out', h3, -, -, h4, rfl⟩ := processFile_success h'
  obtain rfl : out = file' := by simpa [Disk.put] using h3
  have hlen : ¬out.length % 2 ^ 32 < out.length := fun hlt => by
    rw [restoreData_prefix hl hcl hd h2 T hlt] at h4
    cases h4
  rw [List.take_of_length_le (by omega), restoreData_encodeData hl hcl hd h2 T] at h4
  cases h4
  refine ⟨by simp [Disk.put], fun n hb hc => ?_⟩
  simp only [Disk.put, if_neg hb, if_neg hc]

/-- **C54 (success)**: if no call of the C library fails, however few bytes each transfers, a file of 1 to 2^31 - 1 bytes that the encoder accepts is encoded,
and the result, if it is shorter than 2^31 bytes too, is decoded. -/
theorem C54_completes (par : Codec) (hl : par.Lossless) (hcl : par.Clusters) (T : HSlot → CodeTable) (io io' : Stdio) (hio : io.Healthy) (hio' : io'.Healthy)
    (disk : Disk) (a b c : String) (hna : a ≠ "") (hnb : b ≠ "") (data out : List Nat) (ha : disk a = some data) (hd : Bytes data)
    (h0 : data ≠ []) (hs : data.length < 2 ^ 31) (h : encodeData par data = .ok out) (ho0 : out ≠ []) (ho : out.length < 2 ^ 31) :
    ∃ disk1 disk2, cbrunsli par io disk [a, b] = (.success, disk1) ∧ dbrunsli par T io' disk1 [b, c] = (.success, disk2) ∧ disk2 c = some data := by
  have p0 := List.length_pos_iff.mpr h0
  have p1 := List.length_pos_iff.mpr ho0
  refine ⟨disk.put b out, (disk.put b out).put c data, ?_, ?_, by simp [Disk.put]⟩
  · simp only [cbrunsli, toolMain]
    rw [if_neg hna]
    exact processFile_healthy hio ha (by omega) (by omega) (by rw [Nat.mod_eq_of_lt (by omega), List.take_length]; exact h)
  · simp only [dbrunsli, toolMain]
    rw [if_neg hnb]
    exact processFile_healthy hio' (file := out) (by simp [Disk.put]) (by omega) (by omega)
      (by rw [Nat.mod_eq_of_lt (by omega), List.take_length]; exact restoreData_encodeData hl hcl hd h T)

/-- Into an image file that is encoded, 2^32 bytes are appended: the tools report success, and what they restore lacks these bytes. -/
theorem tools_truncate (par : Codec) (hl : par.Lossless) (hcl : par.Clusters) (T : HSlot → CodeTable) (io io' : Stdio) (hio : io.Healthy) (hio' : io'.Healthy)
    (data out tail : List Nat) (hd : Bytes data) (h0 : data ≠ []) (hs : data.length < 2 ^ 31) (h : encodeData par data = .ok out) (ho0 : out ≠ [])
    (ho : out.length < 2 ^ 31) (ht : tail.length = 2 ^ 32) (disk : Disk) (ha : disk "a" = some (data ++ tail)) :
    ∃ disk1 disk2, cbrunsli par io disk ["a", "b"] = (.success, disk1) ∧ dbrunsli par T io' disk1 ["b", "c"] = (.success, disk2) ∧ disk2 "c" = some data := by
  have p0 := List.length_pos_iff.mpr h0
  have p1 := List.length_pos_iff.mpr ho0
  have hm : (data ++ tail).length % 2 ^ 32 = data.length := by rw [List.length_append, ht]; omega
  refine ⟨disk.put "b" out, (disk.put "b" out).put "c" data, ?_, ?_, by simp [Disk.put]⟩
  · simp only [cbrunsli, toolMain]
    rw [if_neg (by decide)]
    exact processFile_healthy hio ha (by omega) (by omega) (by rw [hm, List.take_left]; exact h)
  · simp only [dbrunsli, toolMain]
    rw [if_neg (by decide)]
    exact processFile_healthy hio' (file := out) (by simp [Disk.put]) (by omega) (by omega)
      (by rw [Nat.mod_eq_of_lt (by omega), List.take_length]; exact restoreData_encodeData hl hcl hd h T)

/-- Whether the buffer announced for a file has less than 2^31 bytes. -/
def smallBuffer (data : List Nat) : Bool := match readJpeg data with | .ok jpg => decide (maxEncodedSize jpg < 2 ^ 31) | _ => false

theorem smallBuffer_fits {par : Codec} {data out : List Nat} (hs : smallBuffer data = true) (h : encodeData par data = .ok out) : out.length < 2 ^ 31 := by
  unfold encodeData at h
  obtain ⟨jpg, hr, h⟩ := Run.bind_ok h
  split at h
  · cases h
  obtain ⟨x, ok⟩ := encodeJpeg_parts h
  unfold smallBuffer at hs
  rw [hr] at hs
  have := ok.fits
  have := of_decide_eq_true hs
  omega

/-- The encoder's output is never empty: the decoder would want more. -/
theorem encodeData_ne {par : Codec} (hl : par.Lossless) (hcl : par.Clusters) {data out : List Nat} (hd : Bytes data) (h : encodeData par data = .ok out) : out ≠ [] := by
  rintro rfl
  obtain ⟨s, jpg, h1, -⟩ := decodeFile_encodeData hl hcl hd h
  exact absurd h1 (by rw [show decodeFile (fun h => some (SectState.init h)) (decBody par) [] = .needMore from rfl]; nofun)

/-- **C54 is false of the code for large files**: with nothing failing, both tools report success and the file is not restored (the size of a file is
kept in an `int`: of 2^32 + n bytes only n are encoded). -/
theorem C54_large_files_false (T : HSlot → CodeTable) (io io' : Stdio) (hio : io.Healthy) (hio' : io'.Healthy) :
    ∃ (disk disk1 disk2 : Disk) (file : List Nat), Bytes file ∧ disk "a" = some file ∧ cbrunsli plainCodec io disk ["a", "b"] = (.success, disk1) ∧
      dbrunsli plainCodec T io' disk1 ["b", "c"] = (.success, disk2) ∧ disk2 "c" ≠ some file := by
  obtain ⟨out, ho⟩ := samples_accepted.1
  have hb : Bytes sampleSequential := bytes_of_all (by decide +kernel)
  obtain ⟨N, hN⟩ : ∃ N, 2 ^ 32 = N := ⟨_, rfl⟩
  have hlen : (List.replicate N 0).length = 2 ^ 32 := by rw [List.length_replicate, hN]
  obtain ⟨d1, d2, h1, h2, h3⟩ := tools_truncate plainCodec plainCodec_lossless plainCodec_clusters T io io' hio hio' sampleSequential out (List.replicate N 0) hb
    (by decide) (by decide +kernel) ho (encodeData_ne plainCodec_lossless plainCodec_clusters hb ho) (smallBuffer_fits (by decide +kernel) ho) hlen
    (Disk.put (fun _ => none) "a" (sampleSequential ++ List.replicate N 0)) (by simp [Disk.put])
  refine ⟨_, d1, d2, sampleSequential ++ List.replicate N 0, ?_, by simp [Disk.put], h1, h2, ?_⟩
  · intro x hx
    rcases List.mem_append.mp hx with hx | hx
    · exact hb x hx
    · rw [(List.mem_replicate.mp hx).2]
      decide
  · rw [h3]
    intro e
    have := congrArg List.length (Option.some.inj e)
    rw [List.length_append, hlen] at this
    omega

/-- **C54 is false of the code from 2^31 bytes on**: a file of 2^31 to 2^32 - 1 bytes is neither encoded nor refused, the program is aborted. -/
theorem C54_abort_false (par : Codec) (io : Stdio) (hio : io.Healthy) (disk : Disk) (a b : String) (hna : a ≠ "") (data : List Nat) (ha : disk a = some data)
    (h1 : 2 ^ 31 ≤ data.length) (h2 : data.length < 2 ^ 32) : (cbrunsli par io disk [a, b]).1 = .abort := by
  simp only [cbrunsli, toolMain]
  rw [if_neg hna, processFile, toolRead_huge hio.toCanRead ha (by omega)]

/-- A C library that transfers one byte in each call. -/
def slowIo : Stdio := ⟨true, true, true, true, fun _ => 1, true, true, fun _ => 1, true, 0⟩

theorem slowIo_healthy : slowIo.Healthy := ⟨⟨rfl, rfl, rfl, rfl, fun _ => Nat.one_ne_zero, rfl⟩, rfl, fun _ => Nat.one_ne_zero, rfl⟩

/-- The hypotheses can be met: a progressive file goes through both tools, in place. -/
example (T : HSlot → CodeTable) : ∃ disk disk1 disk2 : Disk, disk "a" = some sampleProgressive ∧ cbrunsli plainCodec slowIo disk ["a", "a"] = (.success, disk1) ∧
    disk1 "a" ≠ some sampleProgressive ∧ dbrunsli plainCodec T slowIo disk1 ["a", "a"] = (.success, disk2) ∧ disk2 "a" = some sampleProgressive := by
  obtain ⟨out, ho⟩ := samples_accepted.2
  have hb : Bytes sampleProgressive := bytes_of_all (by decide +kernel)
  have hne := encodeData_ne plainCodec_lossless plainCodec_clusters hb ho
  have hlt := smallBuffer_fits (by decide +kernel) ho
  obtain ⟨d1, d2, h1, h2, h3⟩ := C54_completes plainCodec plainCodec_lossless plainCodec_clusters T slowIo slowIo slowIo_healthy slowIo_healthy
    (Disk.put (fun _ => none) "a" sampleProgressive) "a" "a" "a" (by decide) (by decide) sampleProgressive out (by simp [Disk.put]) hb (by decide) (by decide +kernel)
    ho hne hlt
  refine ⟨_, d1, d2, by simp [Disk.put], h1, ?_, h2, h3⟩
  simp only [cbrunsli, toolMain] at h1
  rw [if_neg (by decide)] at h1
  obtain ⟨file, out', e1, -, -, e2, rfl⟩ := processFile_success h1
  obtain rfl : sampleProgressive = file := by simpa [Disk.put] using e1
  rw [Nat.mod_eq_of_lt (by decide +kernel), List.take_length, ho] at e2
  cases e2
  rw [Disk.put, if_pos rfl]
  intro e
  have hr := restoreData_encodeData plainCodec_lossless plainCodec_clusters hb ho T
  rw [Option.some.inj e] at hr
  have : (match decodeFile (fun h => some (SectState.init h)) (decBody plainCodec) sampleProgressive with | .invalid => true | _ => false) = true := by decide +kernel
  split at this
  · rename_i hi
    unfold restoreData at hr
    rw [hi] at hr
    cases hr
  · cases this

/-! ## C55 -/

/-- The file a run writes to (`main`, c/tools/cbrunsli.cc:159-160, dbrunsli.cc:170-171). -/
def outputName (suffix : String) : List String → Option String
  | [a] => some (a ++ suffix)
  | [_, b] => some b
  | _ => none

theorem toolMain_frame (suffix : String) (convert : List Nat → Run (List Nat)) (io : Stdio) (disk : Disk) (args : List String) (n : String)
    (hn : outputName suffix args ≠ some n) : (toolMain suffix convert io disk args).2 n = disk n := by
  have key : ∀ a b, b ≠ n → (processFile convert io disk a b).2 n = disk n := by
    intro a b hb
    rcases processFile_frame convert io disk a b with h | ⟨_, _, k, -, -, h⟩
    · rw [h]
    · rw [h, Disk.put, if_neg (Ne.symm hb)]
  unfold toolMain
  split
  · split
    · rfl
    · exact key _ _ fun e => hn (by rw [outputName, e])
  · split
    · rfl
    · exact key _ _ fun e => hn (by rw [outputName, e])
  · rfl

/-- **C55 (other files)**: however a run ends, unless it is undefined, all files but its output are as before. -/
theorem C55_other_files (par : Codec) (T : HSlot → CodeTable) (io : Stdio) (disk : Disk) (args : List String) (n : String) :
    (outputName ".brn" args ≠ some n → (cbrunsli par io disk args).1 ≠ .undefined → (cbrunsli par io disk args).2 n = disk n) ∧
    (outputName ".jpg" args ≠ some n → (dbrunsli par T io disk args).1 ≠ .undefined → (dbrunsli par T io disk args).2 n = disk n) :=
  ⟨fun h _ => toolMain_frame _ _ _ _ _ _ h, fun h _ => toolMain_frame _ _ _ _ _ _ h⟩

/-- **C55 (default name)**: with one argument the file given is not the output, so that it survives. -/
theorem C55_input_kept (par : Codec) (T : HSlot → CodeTable) (io : Stdio) (disk : Disk) (a : String) :
    ((cbrunsli par io disk [a]).1 ≠ .undefined → (cbrunsli par io disk [a]).2 a = disk a) ∧
    ((dbrunsli par T io disk [a]).1 ≠ .undefined → (dbrunsli par T io disk [a]).2 a = disk a) := by
  have ne : ∀ s : String, s.length ≠ 0 → some (a ++ s) ≠ some a := fun s hs e => by
    have := congrArg String.length (Option.some.inj e)
    rw [String.length_append] at this
    omega
  exact ⟨(C55_other_files par T io disk [a] a).1 (ne _ (by decide)), (C55_other_files par T io disk [a] a).2 (ne _ (by decide))⟩

/-- **C55 (refused input)**: if the input is missing or empty, or the encoder (decoder) refuses it, all files are as before, the one at the place of the output
included.  Missing: failures while writing, for which it is false. -/
theorem C55_refused_partial (suffix : String) (convert : List Nat → Run (List Nat)) (io : Stdio) (disk : Disk) (a b : String)
    (h : ∀ data, disk a = some data → data = [] ∨ data.length < 2 ^ 32 ∧ convert data = .fail) :
    (toolMain suffix convert io disk [a, b]).1 ≠ .success ∧ (toolMain suffix convert io disk [a, b]).2 = disk := by
  rw [toolMain]
  split
  · exact ⟨nofun, rfl⟩
  constructor
  · intro e
    obtain ⟨file, out, h1, h2, h3, h4, h5⟩ := processFile_success (disk' := (processFile convert io disk a b).2) (by rw [← e])
    rcases h file h1 with rfl | ⟨h6, h7⟩
    · exact h2 rfl
    · rw [Nat.mod_eq_of_lt h6, List.take_length, h7] at h4
      cases h4
  · rcases processFile_frame convert io disk a b with e | ⟨file, out, k, h1, h2, h3⟩
    · exact e
    · unfold processFile
      split
      · rfl
      · rename_i input hi
        obtain ⟨file', h1', h2', h3', -⟩ := toolRead_ok hi
        rcases h file' h1' with rfl | ⟨h6, h7⟩
        · exact absurd rfl h3'
        · rw [h2', Nat.mod_eq_of_lt h6, List.take_length, h7]

/-- A C library that cannot write, on a full disk. -/
def fullIo : Stdio := { slowIo with writes := fun _ => 0 }

/-- **C55 is false of the code for failures while writing**: the run fails and the file that was there is gone; in place, the image is lost. -/
theorem C55_overwritten_false : ∃ disk disk' : Disk, disk "a" = some sampleSequential ∧ cbrunsli plainCodec fullIo disk ["a", "a"] = (.failure, disk') ∧ disk' "a" = some [] := by
  obtain ⟨out, ho⟩ := samples_accepted.1
  have hb : Bytes sampleSequential := bytes_of_all (by decide +kernel)
  have hne := encodeData_ne plainCodec_lossless plainCodec_clusters hb ho
  refine ⟨Disk.put (fun _ => none) "a" sampleSequential, (Disk.put (fun _ => none) "a" sampleSequential).put "a" [], by simp [Disk.put], ?_, by simp [Disk.put]⟩
  · simp only [cbrunsli, toolMain]
    rw [if_neg (by decide), processFile]
    have hr : toolRead fullIo (Disk.put (fun _ => none) "a" sampleSequential) "a" = .ok sampleSequential := by
      rw [toolRead_healthy ⟨rfl, rfl, rfl, rfl, fun _ => Nat.one_ne_zero, rfl⟩ (by simp [Disk.put]; rfl) (by decide +kernel) (by decide +kernel), Nat.mod_eq_of_lt (by decide +kernel), List.take_length]
    rw [hr]
    dsimp only
    rw [ho]
    dsimp only
    obtain ⟨x, xs, rfl⟩ := List.exists_cons_of_ne_nil hne
    rfl

/-- **C55 (what is left is not mistaken)**: if `cbrunsli a b` fails and leaves a file `b` that was not there before, and `dbrunsli b c` reports success on it, then
all of it had been written and `c` holds the bytes of `a`. -/
theorem C55_leftovers (par : Codec) (hl : par.Lossless) (hcl : par.Clusters) (T : HSlot → CodeTable) (io io' : Stdio) (disk disk1 disk2 : Disk)
    (a b c : String) (data : List Nat) (ha : disk a = some data) (hd : Bytes data) (hs : data.length < 2 ^ 32) (hb : disk b = none)
    (h : cbrunsli par io disk [a, b] = (.failure, disk1)) (h' : dbrunsli par T io' disk1 [b, c] = (.success, disk2)) : disk2 c = some data := by
  simp only [cbrunsli, toolMain] at h
  simp only [dbrunsli, toolMain] at h'
  split at h'
  · cases h'
  obtain ⟨file', out', h3, -, -, h4, rfl⟩ := processFile_success h'
  split at h
  · cases h
    rw [hb] at h3
    cases h3
  have e : (processFile (encodeData par) io disk a b).2 = disk1 := by rw [h]
  rcases processFile_frame (encodeData par) io disk a b with hf | ⟨file, out, k, h1, h2, hf⟩
  · rw [← e, hf, hb] at h3
    cases h3
  · obtain rfl : data = file := Option.some.inj (ha.symm.trans h1)
    rw [Nat.mod_eq_of_lt hs, List.take_length] at h2
    rw [← e, hf, Disk.put, if_pos rfl] at h3
    cases h3
    rw [List.take_take] at h4
    generalize min ((out.take k).length % 2 ^ 32) k = j at h4
    have hlen : ¬j < out.length := fun hlt => by
      rw [restoreData_prefix hl hcl hd h2 T hlt] at h4
      cases h4
    rw [List.take_of_length_le (by omega), restoreData_encodeData hl hcl hd h2 T] at h4
    cases h4
    simp [Disk.put]

/-- A C library that writes everything and then fails to close the file. -/
def closeIo : Stdio := { slowIo with closeOut := false, flushed := 2 ^ 31 }

/-- The hypotheses can be met: the run fails, and what it leaves behind is complete. -/
example (T : HSlot → CodeTable) : ∃ disk disk1 disk2 : Disk, disk "a" = some sampleSequential ∧ disk "b" = none ∧
    cbrunsli plainCodec closeIo disk ["a", "b"] = (.failure, disk1) ∧ dbrunsli plainCodec T slowIo disk1 ["b", "c"] = (.success, disk2) := by
  obtain ⟨out, ho⟩ := samples_accepted.1
  have hb : Bytes sampleSequential := bytes_of_all (by decide +kernel)
  have hne := List.length_pos_iff.mpr (encodeData_ne plainCodec_lossless plainCodec_clusters hb ho)
  have hlt := smallBuffer_fits (by decide +kernel) ho
  refine ⟨Disk.put (fun _ => none) "a" sampleSequential, (Disk.put (fun _ => none) "a" sampleSequential).put "b" out,
    ((Disk.put (fun _ => none) "a" sampleSequential).put "b" out).put "c" sampleSequential, by simp [Disk.put], by simp [Disk.put], ?_, ?_⟩
  · simp only [cbrunsli, toolMain]
    rw [if_neg (by decide), processFile, toolRead_healthy ⟨rfl, rfl, rfl, rfl, fun _ => Nat.one_ne_zero, rfl⟩ (by simp [Disk.put]; rfl) (by decide +kernel) (by decide +kernel),
      Nat.mod_eq_of_lt (by decide +kernel), List.take_length]
    dsimp only
    rw [ho]
    have hw : (fwriteLoop closeIo.writes out.length out.length 0 0).1 = true := fwriteLoop_enough slowIo_healthy.writes (by omega)
    have hw' := (fwriteLoop_ok (counts := closeIo.writes) (size := out.length) (fuel := out.length) (i := 0) (Nat.zero_le _)).2 hw
    dsimp only
    unfold toolWrite
    dsimp only
    rw [hw, hw', show closeIo.openOut = true from rfl, show closeIo.closeOut = false from rfl, show closeIo.flushed = 2 ^ 31 from rfl, Nat.min_eq_right (by omega),
      List.take_length]
    rfl
  · simp only [dbrunsli, toolMain]
    rw [if_neg (by decide)]
    exact processFile_healthy slowIo_healthy (file := out) (by simp [Disk.put]) (by omega) (by omega)
      (by rw [Nat.mod_eq_of_lt (by omega), List.take_length]; exact restoreData_encodeData plainCodec_lossless plainCodec_clusters hb ho T)

/-- A file that is refused, in front of a file at the place of the output. -/
example (io : Stdio) : ∃ disk : Disk, (cbrunsli plainCodec io disk ["a", "b"]).1 ≠ .success ∧ (cbrunsli plainCodec io disk ["a", "b"]).2 "b" = some [7] := by
  have h := C55_refused_partial ".brn" (encodeData plainCodec) io ((Disk.put (fun _ => none) "a" [1, 2, 3]).put "b" [7]) "a" "b" (by
    intro data h
    obtain rfl : [1, 2, 3] = data := by simpa [Disk.put] using h
    exact .inr ⟨by decide, by decide +kernel⟩)
  exact ⟨_, h.1, by rw [cbrunsli, h.2]; simp [Disk.put]⟩

end Brunsli
