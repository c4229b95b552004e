import Verif.E2E
/-!
# The command line tools `cbrunsli` and `dbrunsli`

Modelled: c/tools/cbrunsli.cc and c/tools/dbrunsli.cc, without BRUNSLI_EXPERIMENTAL_GROUPS.  The two files have the same `ReadFile`, `WriteFile` and `main`
and differ in what is done to the bytes and in the default suffix.  Not modelled: messages, lack of memory, other programs changing the files meanwhile.
-/

namespace Brunsli

/-- The files, by name. -/
abbrev Disk := String → Option (List Nat)

/-- Replaces a file. -/
def Disk.put (disk : Disk) (name : String) (bytes : List Nat) : Disk := fun n => if n = name then some bytes else disk n

/-- What the C library does during a run: whether each call succeeds, how many bytes the successive calls of `fread` and `fwrite` transfer at most, and how
much of an output file that could not be completed is on the disk afterwards. -/
structure Stdio where
  openIn : Bool
  seekEnd : Bool
  tell : Bool
  rewind : Bool
  reads : Nat → Nat
  closeIn : Bool
  openOut : Bool
  writes : Nat → Nat
  closeOut : Bool
  flushed : Nat

/-- How a run ends: `abort` is an exception nobody catches; after `undefined` anything can happen. -/
inductive Exit where
  | success
  | failure
  | abort
  | undefined
deriving DecidableEq, Repr

/-- A value of type `long` stored into an `int` of 32 bits (c/tools/cbrunsli.cc:34, dbrunsli.cc:40). -/
def toInt32 (v : Int) : Int := (v + 2 ^ 31) % 2 ^ 32 - 2 ^ 31

/-- The loop of `ReadFileInternal` (c/tools/cbrunsli.cc:44-54): `content` are the bytes read so far, of `want`.  Every round but the last reads a byte,
so `want` rounds suffice. -/
def freadLoop (counts : Nat → Nat) (file : List Nat) (want : Nat) : (fuel i : Nat) → (content : List Nat) → Option (List Nat)
  | 0, _, content => if content.length < want then none else some content
  | fuel + 1, i, content =>
    if content.length < want then
      let got := (file.drop content.length).take (min (counts i) (want - content.length))
      if got.length = 0 then none else freadLoop counts file want fuel (i + 1) (content ++ got)
    else some content

/-- `ReadFileInternal` (c/tools/cbrunsli.cc:29-56).  `resize` of a negative size, which becomes at least 2^64 - 2^31, throws. -/
def readFileInternal (io : Stdio) (file : List Nat) : Except Exit (List Nat) :=
  if !io.seekEnd then .error .failure
  else
    let size := toInt32 (if io.tell then (file.length : Int) else -1)
    if size = 0 then .error .failure
    else if !io.rewind then .error .failure
    else if size < 0 then .error .abort
    else
      match freadLoop io.reads file size.toNat size.toNat 0 [] with
      | none => .error .failure
      | some content => .ok content

/-- `ReadFile` (c/tools/cbrunsli.cc:58-72). -/
def toolRead (io : Stdio) (disk : Disk) (name : String) : Except Exit (List Nat) :=
  match disk name with
  | none => .error .failure
  | some file =>
    if !io.openIn then .error .failure
    else
      match readFileInternal io file with
      | .error e => .error e
      | .ok content => if !io.closeIn then .error .failure else .ok content

/-- The loop of `WriteFileInternal` (c/tools/cbrunsli.cc:74-86): success, and the bytes written, of `size`. -/
def fwriteLoop (counts : Nat → Nat) (size : Nat) : (fuel i pos : Nat) → Bool × Nat
  | 0, _, pos => (!decide (pos < size), pos)
  | fuel + 1, i, pos =>
    if pos < size then
      let written := min (counts i) (size - pos)
      if written = 0 then (false, pos) else fwriteLoop counts size fuel (i + 1) (pos + written)
    else (true, pos)

/-- `WriteFile` (c/tools/cbrunsli.cc:88-102).  `fopen` with "wb" empties the file. -/
def toolWrite (io : Stdio) (disk : Disk) (name : String) (content : List Nat) : Exit × Disk :=
  if !io.openOut then (.failure, disk)
  else
    let r := fwriteLoop io.writes content.length content.length 0 0
    if r.1 && io.closeOut then (.success, disk.put name (content.take r.2))
    else (.failure, disk.put name (content.take (min io.flushed r.2)))

/-- `ProcessFile` (c/tools/cbrunsli.cc:104-147, dbrunsli.cc:110-158); `convert` is what is done to the bytes between `ReadFile` and `WriteFile`. -/
def processFile (convert : List Nat → Run (List Nat)) (io : Stdio) (disk : Disk) (inName outName : String) : Exit × Disk :=
  match toolRead io disk inName with
  | .error e => (e, disk)
  | .ok input =>
    match convert input with
    | .fail => (.failure, disk)
    | .ub => (.undefined, disk)
    | .ok output => toolWrite io disk outName output

/-- `main` (c/tools/cbrunsli.cc:149-163, dbrunsli.cc:160-175): `args` without the name of the program. -/
def toolMain (suffix : String) (convert : List Nat → Run (List Nat)) (io : Stdio) (disk : Disk) (args : List String) : Exit × Disk :=
  match args with
  | [inName] => if inName = "" then (.failure, disk) else processFile convert io disk inName (inName ++ suffix)
  | [inName, outName] => if inName = "" then (.failure, disk) else processFile convert io disk inName outName
  | _ => (.failure, disk)

/-- `BrunsliDecodeJpeg` and `WriteJpeg` into a string, as called by c/tools/dbrunsli.cc:120-154.  `T` are the indeterminate contents of the code tables. -/
def restoreData (par : Codec) (T : HSlot → CodeTable) (file : List Nat) : Run (List Nat) :=
  match decodeFile (fun h => some (SectState.init h)) (decBody par) file with
  | .ok (.original d) _ => match writeOriginal d with | none => .fail | some d => .ok d
  | .ok (.image s) _ =>
    match s.result with
    | none => .fail
    | some jpg => (writeJpeg T jpg).bind fun chunks => .ok chunks.flatten
  | _ => .fail

/-- c/tools/cbrunsli.cc. -/
def cbrunsli (par : Codec) : Stdio → Disk → List String → Exit × Disk := toolMain ".brn" (encodeData par)

/-- c/tools/dbrunsli.cc. -/
def dbrunsli (par : Codec) (T : HSlot → CodeTable) : Stdio → Disk → List String → Exit × Disk := toolMain ".jpg" (restoreData par T)

/-! ## Reading and writing -/

theorem freadLoop_some {counts : Nat → Nat} {file : List Nat} {want : Nat} : ∀ {fuel i : Nat} {k : Nat} {r : List Nat}, k ≤ want →
    freadLoop counts file want fuel i (file.take k) = some r → want ≤ file.length → r = file.take want := by
  intro fuel
  induction fuel with
  | zero =>
    intro i k r hk h hw
    rw [freadLoop, List.length_take, Nat.min_eq_left (by omega)] at h
    split at h
    · cases h
    · cases h
      rw [show k = want by omega]
  | succ fuel ih =>
    intro i k r hk h hw
    rw [freadLoop, List.length_take, Nat.min_eq_left (by omega)] at h
    split at h
    · dsimp only at h
      split at h
      · cases h
      · rw [show file.take k ++ (file.drop k).take (min (counts i) (want - k)) = file.take (k + min (counts i) (want - k)) by rw [List.take_add]] at h
        exact ih (by omega) h hw
    · cases h
      rw [show k = want by omega]

theorem freadLoop_enough {counts : Nat → Nat} (hc : ∀ i, counts i ≠ 0) {file : List Nat} {want : Nat} (hw : want ≤ file.length) : ∀ {fuel i k : Nat}, k ≤ want → want ≤ k + fuel →
    freadLoop counts file want fuel i (file.take k) = some (file.take want) := by
  intro fuel
  induction fuel with
  | zero =>
    intro i k hk h
    rw [freadLoop, List.length_take, Nat.min_eq_left (by omega), if_neg (by omega), show k = want by omega]
  | succ fuel ih =>
    intro i k hk h
    rw [freadLoop, List.length_take, Nat.min_eq_left (by omega)]
    have := hc i
    split
    · dsimp only
      rw [if_neg (by rw [List.length_take, List.length_drop]; omega),
        show file.take k ++ (file.drop k).take (min (counts i) (want - k)) = file.take (k + min (counts i) (want - k)) by rw [List.take_add]]
      exact ih (by omega) (by omega)
    · rw [show k = want by omega]

theorem fwriteLoop_ok {counts : Nat → Nat} {size : Nat} : ∀ {fuel i pos : Nat}, pos ≤ size → (fwriteLoop counts size fuel i pos).2 ≤ size ∧
    ((fwriteLoop counts size fuel i pos).1 = true → (fwriteLoop counts size fuel i pos).2 = size) := by
  intro fuel
  induction fuel with
  | zero =>
    intro i pos h
    simp only [fwriteLoop, Bool.not_eq_true', decide_eq_false_iff_not]
    omega
  | succ fuel ih =>
    intro i pos h
    rw [fwriteLoop]
    split
    · dsimp only
      split
      · exact ⟨h, nofun⟩
      · exact ih (by omega)
    · exact ⟨h, fun _ => by dsimp only; omega⟩

theorem fwriteLoop_enough {counts : Nat → Nat} (hc : ∀ i, counts i ≠ 0) {size : Nat} : ∀ {fuel i pos : Nat}, size ≤ pos + fuel →
    (fwriteLoop counts size fuel i pos).1 = true := by
  intro fuel
  induction fuel with
  | zero =>
    intro i pos h
    simp only [fwriteLoop, Bool.not_eq_true', decide_eq_false_iff_not]
    omega
  | succ fuel ih =>
    intro i pos h
    have := hc i
    rw [fwriteLoop]
    split
    · dsimp only
      rw [if_neg (by omega)]
      exact ih (by omega)
    · rfl

theorem toInt32_nat (n : Nat) : toInt32 n = if n % 2 ^ 32 < 2 ^ 31 then ((n % 2 ^ 32 : Nat) : Int) else ((n % 2 ^ 32 : Nat) : Int) - 2 ^ 32 := by
  unfold toInt32
  split <;> omega

/-- What a successful `ReadFile` has read. -/
theorem toolRead_ok {io : Stdio} {disk : Disk} {name : String} {content : List Nat} (h : toolRead io disk name = .ok content) :
    ∃ file, disk name = some file ∧ content = file.take (file.length % 2 ^ 32) ∧ file.length % 2 ^ 32 ≠ 0 ∧ file.length % 2 ^ 32 < 2 ^ 31 := by
  unfold toolRead at h
  split at h
  · cases h
  rename_i file hf
  refine ⟨file, hf, ?_⟩
  split at h
  · cases h
  split at h
  · cases h
  rename_i c hr
  split at h
  · cases h
  cases h
  unfold readFileInternal at hr
  dsimp only at hr
  generalize hs : toInt32 (if io.tell = true then (file.length : Int) else -1) = size at hr
  split at hr
  · cases hr
  split at hr
  · cases hr
  split at hr
  · cases hr
  split at hr
  · cases hr
  rename_i h0 _ hn
  split at hr
  · cases hr
  rename_i r hl
  cases hr
  by_cases ht : io.tell = true
  · rw [if_pos ht, toInt32_nat] at hs
    by_cases hc : file.length % 2 ^ 32 < 2 ^ 31
    · rw [if_pos hc] at hs
      subst hs
      rw [Int.toNat_natCast] at hl
      exact ⟨freadLoop_some (k := 0) (by omega) hl (Nat.mod_le _ _), by omega, hc⟩
    · rw [if_neg hc] at hs
      omega
  · rw [if_neg ht] at hs
    subst hs
    exact absurd (by decide) hn

/-- Every call that reads succeeds, and transfers something. -/
structure Stdio.CanRead (io : Stdio) : Prop where
  openIn : io.openIn = true
  seekEnd : io.seekEnd = true
  tell : io.tell = true
  rewind : io.rewind = true
  reads : ∀ i, io.reads i ≠ 0
  closeIn : io.closeIn = true

/-- Every call succeeds, and transfers something. -/
structure Stdio.Healthy (io : Stdio) : Prop extends Stdio.CanRead io where
  openOut : io.openOut = true
  writes : ∀ i, io.writes i ≠ 0
  closeOut : io.closeOut = true

theorem toolRead_healthy {io : Stdio} (hio : io.CanRead) {disk : Disk} {name : String} {file : List Nat} (hf : disk name = some file)
    (h0 : file.length % 2 ^ 32 ≠ 0) (hs : file.length % 2 ^ 32 < 2 ^ 31) : toolRead io disk name = .ok (file.take (file.length % 2 ^ 32)) := by
  unfold toolRead readFileInternal
  rw [hf, hio.openIn, hio.seekEnd, hio.tell, hio.rewind, hio.closeIn]
  simp only [Bool.not_true, Bool.false_eq_true, if_false, if_true]
  have e : toInt32 file.length = ((file.length % 2 ^ 32 : Nat) : Int) := by rw [toInt32_nat, if_pos hs]
  rw [e, if_neg (by omega), if_neg (by omega), Int.toNat_natCast,
    show ([] : List Nat) = file.take 0 from rfl, freadLoop_enough hio.reads (Nat.mod_le _ _) (by omega) (by omega)]

theorem toolRead_huge {io : Stdio} (hio : io.CanRead) {disk : Disk} {name : String} {file : List Nat} (hf : disk name = some file)
    (hs : 2 ^ 31 ≤ file.length % 2 ^ 32) : toolRead io disk name = .error .abort := by
  unfold toolRead readFileInternal
  rw [hf, hio.openIn, hio.seekEnd, hio.tell, hio.rewind, hio.closeIn]
  simp only [Bool.not_true, Bool.false_eq_true, if_false, if_true]
  have e : toInt32 file.length < 0 := by rw [toInt32_nat, if_neg (by omega)]; omega
  rw [if_neg (by omega), if_pos e]

theorem toolWrite_success {io : Stdio} {disk disk' : Disk} {name : String} {content : List Nat} (h : toolWrite io disk name content = (.success, disk')) :
    disk' = disk.put name content := by
  unfold toolWrite at h
  split at h
  · cases h
  dsimp only at h
  split at h
  · rename_i hc
    cases h
    rw [Bool.and_eq_true] at hc
    rw [(fwriteLoop_ok (Nat.zero_le _)).2 hc.1, List.take_length]
  · cases h

theorem toolWrite_healthy {io : Stdio} (hio : io.Healthy) {disk : Disk} {name : String} {content : List Nat} :
    toolWrite io disk name content = (.success, disk.put name content) := by
  have h : (fwriteLoop io.writes content.length content.length 0 0).1 = true := fwriteLoop_enough hio.writes (by omega)
  unfold toolWrite
  rw [hio.openOut, hio.closeOut]
  simp only [Bool.not_true, Bool.false_eq_true, if_false, h, Bool.and_true, if_true]
  rw [(fwriteLoop_ok (Nat.zero_le _)).2 h, List.take_length]

/-- Whatever happens while writing, the file is left alone or holds the beginning of the content. -/
theorem toolWrite_prefix (io : Stdio) (disk : Disk) (name : String) (content : List Nat) :
    (toolWrite io disk name content).2 = disk ∨ ∃ k, (toolWrite io disk name content).2 = disk.put name (content.take k) := by
  unfold toolWrite
  split
  · exact .inl rfl
  · dsimp only
    split
    · exact .inr ⟨_, rfl⟩
    · exact .inr ⟨_, rfl⟩

theorem processFile_success {convert : List Nat → Run (List Nat)} {io : Stdio} {disk disk' : Disk} {a b : String}
    (h : processFile convert io disk a b = (.success, disk')) :
    ∃ file out, disk a = some file ∧ file.length % 2 ^ 32 ≠ 0 ∧ file.length % 2 ^ 32 < 2 ^ 31 ∧ convert (file.take (file.length % 2 ^ 32)) = .ok out ∧
      disk' = disk.put b out := by
  unfold processFile at h
  split at h
  · rename_i e he
    cases h
    exfalso
    unfold toolRead readFileInternal at he
    dsimp only at he
    repeat' split at he
    all_goals try cases he
    all_goals (rename_i hx; repeat' split at hx)
    all_goals cases hx
  · rename_i input hi
    obtain ⟨file, h1, h2, h3, h4⟩ := toolRead_ok hi
    split at h
    · cases h
    · cases h
    · rename_i out ho
      exact ⟨file, out, h1, h3, h4, h2 ▸ ho, toolWrite_success h⟩

theorem processFile_healthy {convert : List Nat → Run (List Nat)} {io : Stdio} (hio : io.Healthy) {disk : Disk} {a b : String} {file out : List Nat}
    (hf : disk a = some file) (h0 : file.length % 2 ^ 32 ≠ 0) (hs : file.length % 2 ^ 32 < 2 ^ 31) (h : convert (file.take (file.length % 2 ^ 32)) = .ok out) :
    processFile convert io disk a b = (.success, disk.put b out) := by
  unfold processFile
  rw [toolRead_healthy hio.toCanRead hf h0 hs]
  dsimp only
  rw [h]
  exact toolWrite_healthy hio

/-- The only file a run can change is its output, and what is left there is the beginning of what was to be written. -/
theorem processFile_frame (convert : List Nat → Run (List Nat)) (io : Stdio) (disk : Disk) (a b : String) :
    (processFile convert io disk a b).2 = disk ∨ ∃ file out k, disk a = some file ∧ convert (file.take (file.length % 2 ^ 32)) = .ok out ∧
      (processFile convert io disk a b).2 = disk.put b (out.take k) := by
  unfold processFile
  split
  · exact .inl rfl
  · rename_i input hi
    obtain ⟨file, h1, h2, -⟩ := toolRead_ok hi
    split
    · exact .inl rfl
    · exact .inl rfl
    · rename_i out ho
      rcases toolWrite_prefix io disk b out with h | ⟨k, h⟩
      · exact .inl h
      · exact .inr ⟨file, out, k, h1, h2 ▸ ho, h⟩

theorem restoreData_encodeData {par : Codec} (hl : par.Lossless) (hcl : par.Clusters) {data out : List Nat} (hd : Bytes data) (h : encodeData par data = .ok out)
    (T : HSlot → CodeTable) : restoreData par T out = .ok data := by
  obtain ⟨s, jpg, h1, h2, -, -, h3⟩ := decodeFile_encodeData hl hcl hd h
  obtain ⟨chunks, h4, h5⟩ := h3 T
  unfold restoreData
  rw [h1]
  dsimp only
  rw [h2]
  dsimp only
  rw [h4, Run.bind, h5]

/-- Of a file made by the encoder, no proper beginning is accepted. -/
theorem restoreData_prefix {par : Codec} (hl : par.Lossless) (hcl : par.Clusters) {data out : List Nat} (hd : Bytes data) (h : encodeData par data = .ok out)
    (T : HSlot → CodeTable) {k : Nat} (hk : k < out.length) : restoreData par T (out.take k) = .fail := by
  obtain ⟨s, jpg, h1, -⟩ := decodeFile_encodeData hl hcl hd h
  have := decodeFile_prefix (p := out.take k) (ext := out.drop k) ((List.take_append_drop k out).symm ▸ h1) (by
    intro e
    have := congrArg List.length e
    rw [List.length_drop, List.length_nil] at this
    omega)
  unfold restoreData
  rw [this]

end Brunsli
