import Verif.HuffTree
/-!
# Descriptions of prefix codes: code lengths with run lengths

`WriteHuffmanTree` and `StoreHuffmanTree` (c/enc/huffman_tree.cc, c/enc/huffman_encode.cc) against
`ReadHuffmanCodeLengths` (c/dec/huffman_decode.cc).
-/

namespace Brunsli

open P

/-! ## Encoder -/

/-- The digits of a repetition, most significant first (c/enc/huffman_tree.cc:174-189, 211-226: the loop writes
them least significant first and reverses them). -/
def repDigits (w r : Nat) : List Nat :=
  if _h : r / 2 ^ w = 0 then [r % 2 ^ w] else repDigits w (r / 2 ^ w - 1) ++ [r % 2 ^ w]
termination_by r
decreasing_by have := Nat.div_le_self r (2 ^ w); generalize r / 2 ^ w = q at *; omega

/-- The tail shared by both functions: fewer than three literals, or a number with code `code` and `w` extra
bits (c/enc/huffman_tree.cc:165-190, 202-227). -/
def repTokens (code w value reps : Nat) : List (Nat × Nat) :=
  if reps < 3 then List.replicate reps (value, 0) else (repDigits w (reps - 3)).map fun d => (code, d)

/-- `WriteHuffmanTreeRepetitions` (c/enc/huffman_tree.cc:145-191). -/
def writeReps (prev value reps : Nat) : List (Nat × Nat) :=
  let lit := if prev ≠ value then 1 else 0
  let reps := reps - lit
  let lit' := if reps = 7 then 1 else 0
  List.replicate (lit + lit') (value, 0) ++ repTokens 16 2 value (reps - lit')

/-- `WriteHuffmanTreeRepetitionsZeros` (c/enc/huffman_tree.cc:193-228). -/
def writeRepsZeros (reps : Nat) : List (Nat × Nat) :=
  let lit := if reps = 11 then 1 else 0
  List.replicate lit (0, 0) ++ repTokens 17 3 0 (reps - lit)

/-- Length of the run that starts a list (c/enc/huffman_tree.cc:240-242, 281-285). -/
def runLen (v : Nat) (l : List Nat) : Nat := (l.takeWhile (· = v)).length

/-- The loop of `DecideOverRleUse` (c/enc/huffman_tree.cc:238-253): totals and counts for zero and non-zero runs. -/
def rleStats (l : List Nat) (tz tn cz cn : Nat) : Nat × Nat × Nat × Nat :=
  match l with
  | [] => (tz, tn, cz, cn)
  | v :: l =>
    let reps := 1 + runLen v l
    let z := 3 ≤ reps ∧ v = 0
    let n := 4 ≤ reps ∧ v ≠ 0
    rleStats (l.drop (runLen v l)) (if z then tz + reps else tz) (if n then tn + reps else tn)
      (if z then cz + 1 else cz) (if n then cn + 1 else cn)
termination_by l.length
decreasing_by simp only [List.length_drop, List.length_cons]; omega

/-- `DecideOverRleUse` (c/enc/huffman_tree.cc:230-256): for non-zero values, and for zeros. -/
def decideRle (l : List Nat) : Bool × Bool :=
  let (tz, tn, cz, cn) := rleStats l 0 0 1 1
  (decide (tn > cn * 2), decide (tz > cz * 2))

/-- "Throw away trailing zeros" (c/enc/huffman_tree.cc:265-273). -/
def trimZeros (l : List Nat) : List Nat := (l.reverse.dropWhile (· = 0)).reverse

/-- "Actual rle coding" (c/enc/huffman_tree.cc:276-298). -/
def writeRuns (rleN rleZ : Bool) (prev : Nat) (l : List Nat) : List (Nat × Nat) :=
  match l with
  | [] => []
  | v :: l =>
    let extra := if (v ≠ 0 ∧ rleN) ∨ (v = 0 ∧ rleZ) then runLen v l else 0
    if v = 0 then writeRepsZeros (1 + extra) ++ writeRuns rleN rleZ prev (l.drop extra)
    else writeReps prev v (1 + extra) ++ writeRuns rleN rleZ v (l.drop extra)
termination_by l.length
decreasing_by all_goals simp only [List.length_drop, List.length_cons]; omega

/-- `WriteHuffmanTree` (c/enc/huffman_tree.cc:258-299): codes with their extra bits. -/
def writeTree (depth : List Nat) : List (Nat × Nat) :=
  let l := trimZeros depth
  let (rleN, rleZ) := if depth.length > 50 then decideRle l else (false, false)
  writeRuns rleN rleZ 8 l

/-- Storage order of the code length code lengths (c/enc/huffman_encode.cc:29-30, c/dec/huffman_decode.cc:21-23). -/
def clcOrder : List Nat := [1, 2, 3, 4, 0, 5, 17, 6, 16, 7, 8, 9, 10, 11, 12, 13, 14, 15]

/-- The static code (c/enc/huffman_encode.cc:41-44). -/
def clcSymbols : List Nat := [0, 7, 3, 2, 1, 15]
def clcBits : List Nat := [2, 4, 3, 2, 2, 4]

/-- One code length code length (c/enc/huffman_encode.cc:65-67). -/
def clcWord (l : Nat) : List Bool := bitsOf (clcBits.getD l 0) (clcSymbols.getD l 0)

/-- `StoreHuffmanTreeOfHuffmanTreeToBitMask` (c/enc/huffman_encode.cc:26-69). -/
def storeClc (numCodes : Nat) (cl : List Nat) : List Bool :=
  let w := clcOrder.map fun o => cl.getD o 0
  let stored := if numCodes > 1 then trimZeros w else w
  let skip := if w.getD 0 0 = 0 ∧ w.getD 1 0 = 0 then (if w.getD 2 0 = 0 then 3 else 2) else 0
  bitsOf 2 skip ++ (stored.drop skip).flatMap clcWord

/-- The statistics of the compact representation (c/enc/huffman_encode.cc:137-141). -/
def tokenHistogram (toks : List (Nat × Nat)) : List Nat :=
  (List.range 18).map fun c => toks.countP fun t => t.1 = c

/-- Extra bits of one entry (c/enc/huffman_encode.cc:82-90). -/
def tokenExtra (t : Nat × Nat) : List Bool :=
  if t.1 = 16 then bitsOf 2 t.2 else if t.1 = 17 then bitsOf 3 t.2 else []

/-- `StoreHuffmanTree` (c/enc/huffman_encode.cc:125-172); `none` if `CreateHuffmanTree` did not end. -/
def storeTree (depth : List Nat) : Option (List Bool) :=
  let toks := writeTree depth
  let histo := tokenHistogram toks
  let count := histo.countP (· ≠ 0)
  let numCodes := min count 2
  let code := histo.findIdx (· ≠ 0)
  match createHuffmanTree histo 5 with
  | none => none
  | some cl =>
    let cl' := if numCodes = 1 then cl.set code 0 else cl
    some (storeClc numCodes cl ++
      toks.flatMap fun t => bitsOf (cl'.getD t.1 0) (huffBits cl t.1) ++ tokenExtra t)

/-! ## Decoder -/

/-- The static decoding table (c/dec/huffman_decode.cc:210-213). -/
def clcTable : List (Nat × Nat) :=
  [(2, 0), (2, 4), (2, 3), (3, 2), (2, 0), (2, 4), (2, 3), (4, 1),
   (2, 0), (2, 4), (2, 3), (3, 2), (2, 0), (2, 4), (2, 3), (4, 5)]

/-- Reading one code length code length (c/dec/huffman_decode.cc:216-220). -/
def readClcWord : P Bool Nat := fun bs =>
  let e := clcTable.getD (ofBits (bs.take 4)) (0, 0)
  if e.1 ≤ bs.length then some (e.2, bs.drop e.1) else none

/-- The loop over the code length code (c/dec/huffman_decode.cc:214-226); `used` is `32 - space`. -/
def readClc : List Nat → List Nat → Nat → Nat → P Bool (List Nat × Nat × Nat)
  | [], cl, used, num => Pure.pure (cl, used, num)
  | o :: os, cl, used, num =>
    if used < 32 then do
      let v ← readClcWord
      if v ≠ 0 then readClc os (cl.set o v) (used + 32 / 2 ^ v) (num + 1) else readClc os (cl.set o v) used num
    else Pure.pure (cl, used, num)

/-- State of `ReadHuffmanCodeLengths` (c/dec/huffman_decode.cc:30-35); `used` is `kFullSpace - space`. -/
structure CL where
  lens : List Nat
  prev : Nat
  rep : Nat
  rcl : Nat
  used : Nat
deriving DecidableEq, Repr

def CL.init : CL := ⟨[], 8, 0, 0, 0⟩

/-- A literal code length (c/dec/huffman_decode.cc:52-58). -/
def CL.lit (st : CL) (c : Nat) : CL :=
  { lens := st.lens ++ [c], prev := if c ≠ 0 then c else st.prev, rep := 0, rcl := st.rcl
    used := if c ≠ 0 then st.used + 2 ^ 15 / 2 ^ c else st.used }

/-- A repetition code (c/dec/huffman_decode.cc:59-86). -/
def CL.repeat (st : CL) (c b : Nat) : CL :=
  let newLen := if c = 16 then st.prev else 0
  let old := if st.rcl ≠ newLen then 0 else st.rep
  let rep := (if old > 0 then (old - 2) * 2 ^ (c - 14) else old) + (b + 3)
  let delta := rep - old
  { lens := st.lens ++ List.replicate delta newLen, prev := st.prev, rep := rep, rcl := newLen
    used := if newLen ≠ 0 then st.used + delta * 2 ^ 15 / 2 ^ newLen else st.used }

theorem repeat_grows (old e b : Nat) (he : 2 ≤ e) :
    old < (if old > 0 then (old - 2) * 2 ^ e else old) + (b + 3) := by
  have h4 : 4 ≤ 2 ^ e := Nat.pow_le_pow_right (n := 2) (i := 2) (by decide) he
  split
  · have : (old - 2) * 4 ≤ (old - 2) * 2 ^ e := Nat.mul_le_mul_left _ h4
    omega
  · omega

theorem CL.repeat_lens (st : CL) {c b : Nat} (hc : 16 ≤ c) : st.lens.length < (st.repeat c b).lens.length := by
  simp only [CL.repeat, List.length_append, List.length_replicate]
  have := repeat_grows (if st.rcl ≠ (if c = 16 then st.prev else 0) then 0 else st.rep) (c - 14) b (by omega)
  omega

/-- The main loop of `ReadHuffmanCodeLengths` (c/dec/huffman_decode.cc:46-88) with the 5-bit table `m`, for `n`
symbols.  Codes above 17 do not occur, as the table is over 18 symbols. -/
def readLens (m : Mem) (n : Nat) (st : CL) (bs : List Bool) : Option (CL × List Bool) :=
  if _h : st.lens.length < n ∧ st.used < 2 ^ 15 then
    match readHuff m 5 bs with
    | none => none
    | some (c, bs) =>
      if _hc : c < 16 then readLens m n (st.lit c) bs
      else
        match readBits (c - 14) bs with
        | none => none
        | some (b, bs) =>
          if _hn : (st.repeat c b).lens.length > n then none else readLens m n (st.repeat c b) bs
  else some (st, bs)
termination_by n - st.lens.length
decreasing_by
  · simp only [CL.lit, List.length_append, List.length_singleton]; omega
  · have := st.repeat_lens (c := c) (b := b) (by omega)
    omega

/-- `ReadHuffmanCodeLengths` (c/dec/huffman_decode.cc:27-94): `some lens` are the accepted lengths; the result
`none` means that the 5-bit table overflowed its 32 entries. -/
def readCodeLengths (cl : List Nat) (n : Nat) : P Bool (Option (List Nat)) := fun bs =>
  match buildTable 32 5 cl with
  | none => some (none, bs)
  | some (m, _) =>
    match readLens m n CL.init bs with
    | none => none
    | some (st, bs) =>
      if st.used ≠ 2 ^ 15 then none
      else some (some (st.lens ++ List.replicate (n - st.lens.length) 0), bs)

/-- Copying the first `total` entries (c/dec/huffman_decode.cc:242). -/
def copyTable (m : Mem) (total : Nat) : Mem := fun i => if i < total then m i else none

/-- The part of `ReadFromBitStream` for codes that are not simple (c/dec/huffman_decode.cc:206-243), after the
two bits `skip`.  As above the inner `none` is a table overflow. -/
def readComplex (n skip : Nat) : P Bool (Option Mem) := do
  let (cl, used, num) ← readClc (clcOrder.drop skip) (List.replicate 18 0) 0 0
  P.guard (num = 1 ∨ used = 32)
  let r ← readCodeLengths cl n
  match r with
  | none => Pure.pure none
  | some lens =>
    match buildTable (n + 376) 8 lens with
    | none => Pure.pure none
    | some (m, total) => do
      P.guard (total > 0)
      Pure.pure (some (copyTable m total))

/-! ## Run lengths -/

/-- The effect of one entry of the compact representation on the decoder. -/
def CL.tok (st : CL) (t : Nat × Nat) : CL := if t.1 < 16 then st.lit t.1 else st.repeat t.1 t.2

/-- The number encoded by digits, continuing from `r`. -/
theorem repDigits_value (w : Nat) (f : Nat → Nat → Nat) (hf : ∀ x d, f x d = (x + 1) * 2 ^ w + d) (r : Nat) :
    ∃ d ds, repDigits w r = d :: ds ∧ ds.foldl f d = r ∧ ∀ x ∈ d :: ds, x < 2 ^ w := by
  induction r using Nat.strongRecOn with
  | _ r ih =>
    rw [repDigits]
    have hlt := Nat.mod_lt r (Nat.two_pow_pos w)
    split
    · rename_i h
      refine ⟨_, [], rfl, ?_, by simpa using hlt⟩
      have := Nat.div_add_mod r (2 ^ w)
      rw [h] at this
      simp only [List.foldl_nil]; omega
    · rename_i h
      obtain ⟨d, ds, e1, e2, e3⟩ := ih (r / 2 ^ w - 1) (by have := Nat.div_le_self r (2 ^ w); generalize r / 2 ^ w = q at *; omega)
      refine ⟨d, ds ++ [r % 2 ^ w], by rw [e1]; rfl, ?_, ?_⟩
      · rw [List.foldl_append, e2]
        simp only [List.foldl_cons, List.foldl_nil]
        rw [hf, show r / 2 ^ w - 1 + 1 = r / 2 ^ w by generalize r / 2 ^ w = q at *; omega, Nat.mul_comm]
        exact Nat.div_add_mod r (2 ^ w)
      · intro x hx
        rw [← List.cons_append, List.mem_append, List.mem_singleton] at hx
        rcases hx with hx | rfl
        · exact e3 x hx
        · exact hlt

/-- Invariant of the decoder's state. -/
structure CL.Ok (st : CL) : Prop where
  used : st.used = kraftLens 15 st.lens
  prev : 1 ≤ st.prev ∧ st.prev ≤ 15
  lens : ∀ l ∈ st.lens, l ≤ 15

theorem kraftLens_append (M : Nat) (a b : List Nat) : kraftLens M (a ++ b) = kraftLens M a + kraftLens M b := by
  simp [kraftLens]

theorem kraftLens_replicate (M k v : Nat) : kraftLens M (List.replicate k v) = if v = 0 then 0 else k * 2 ^ (M - v) := by
  simp only [kraftLens, List.map_replicate, List.sum_replicate_nat]
  split <;> simp

theorem CL.init_ok : CL.init.Ok := ⟨rfl, by decide, by simp [CL.init]⟩

theorem CL.lit_ok {st : CL} (h : st.Ok) {c : Nat} (hc : c < 16) : (st.lit c).Ok where
  used := by
    simp only [CL.lit, kraftLens_append, h.used]
    have := kraftLens_replicate 15 1 c
    rw [List.replicate_one] at this
    rw [this]
    by_cases hz : c = 0
    · simp [hz]
    · simp only [ne_eq, hz, not_false_eq_true, ↓reduceIte]
      rw [Nat.pow_div (by omega) (by decide), Nat.one_mul]
  prev := by
    have := h.prev
    simp only [CL.lit]; split <;> omega
  lens := by
    intro l hl
    simp only [CL.lit, List.mem_append, List.mem_singleton] at hl
    rcases hl with hl | rfl
    · exact h.lens l hl
    · omega

theorem CL.repeat_ok {st : CL} (h : st.Ok) (c b : Nat) : (st.repeat c b).Ok where
  used := by
    simp only [CL.repeat, kraftLens_append, h.used, kraftLens_replicate]
    have hp := h.prev
    generalize hnl : (if c = 16 then st.prev else 0) = nl
    have hnl15 : nl ≤ 15 := by rw [← hnl]; split <;> omega
    by_cases hz : nl = 0
    · simp [hz]
    · simp only [ne_eq, hz, not_false_eq_true, ↓reduceIte]
      rw [Nat.mul_div_assoc _ (Nat.pow_dvd_pow 2 hnl15), Nat.pow_div hnl15 (by decide)]
  prev := h.prev
  lens := by
    intro l hl
    have hp := h.prev
    simp only [CL.repeat, List.mem_append, List.mem_replicate] at hl
    rcases hl with hl | ⟨_, rfl⟩
    · exact h.lens l hl
    · split <;> omega

theorem CL.tok_ok {st : CL} (h : st.Ok) (t : Nat × Nat) : (st.tok t).Ok := by
  unfold CL.tok
  split
  · exact CL.lit_ok h ‹_›
  · exact CL.repeat_ok h _ _

theorem CL.tok_lens (st : CL) (t : Nat × Nat) : st.lens.length < (st.tok t).lens.length := by
  unfold CL.tok
  split
  · simp [CL.lit]
  · exact st.repeat_lens (by omega)

/-- Literals. -/
theorem foldl_lits (v k : Nat) (hv : v < 16) : ∀ st : CL, 0 < k →
    ((List.replicate k (v, 0)).foldl CL.tok st).lens = st.lens ++ List.replicate k v ∧
    ((List.replicate k (v, 0)).foldl CL.tok st).rep = 0 ∧
    ((List.replicate k (v, 0)).foldl CL.tok st).prev = if v ≠ 0 then v else st.prev := by
  induction k with
  | zero => intro st h; omega
  | succ k ih =>
    intro st _
    rw [List.replicate_succ, List.foldl_cons]
    have htok : st.tok (v, 0) = st.lit v := by simp [CL.tok, hv]
    rw [htok]
    by_cases hk : k = 0
    · subst hk
      exact ⟨rfl, rfl, rfl⟩
    · obtain ⟨h1, h2, h3⟩ := ih (st.lit v) (by omega)
      refine ⟨?_, h2, ?_⟩
      · rw [h1]
        simp only [CL.lit, List.append_assoc, List.cons_append, List.nil_append]
        rw [← List.replicate_succ]
      · rw [h3]
        simp only [CL.lit]
        split <;> rfl

/-- A number written with a repetition code. -/
theorem foldl_reps {code w v : Nat} (hcode : code = w + 14) (hw : 2 ≤ w) (st : CL) (hnew : (if code = 16 then st.prev else 0) = v)
    (hfresh : st.rep = 0 ∨ st.rcl ≠ v) (r : Nat) :
    (((repDigits w r).map fun d => (code, d)).foldl CL.tok st).lens = st.lens ++ List.replicate (r + 3) v ∧
    (((repDigits w r).map fun d => (code, d)).foldl CL.tok st).rcl = v ∧
    (((repDigits w r).map fun d => (code, d)).foldl CL.tok st).prev = st.prev := by
  obtain ⟨d, ds, e1, e2, _⟩ := repDigits_value w (fun x d => (x + 1) * 2 ^ w + d) (fun _ _ => rfl) r
  have hc16 : ¬ code < 16 := by omega
  have hcw : code - 14 = w := by omega
  -- the state after the first digit
  have h1 : st.tok (code, d) = { lens := st.lens ++ List.replicate (d + 3) v, prev := st.prev, rep := d + 3, rcl := v
                                 used := if v ≠ 0 then st.used + (d + 3) * 2 ^ 15 / 2 ^ v else st.used } := by
    have : (if st.rcl ≠ v then 0 else st.rep) = 0 := by
      rcases hfresh with h | h
      · rw [h]; split <;> rfl
      · rw [if_pos h]
    simp only [CL.tok, hc16, ↓reduceIte, CL.repeat, hnew, this, hcw]
    simp
  -- later digits
  have h2 : ∀ (ds : List Nat) x (s : CL), s.rep = x + 3 → s.rcl = v → s.prev = st.prev → s.lens = st.lens ++ List.replicate (x + 3) v →
      let s' := (ds.map fun d => (code, d)).foldl CL.tok s
      let y := ds.foldl (fun x d => (x + 1) * 2 ^ w + d) x
      s'.lens = st.lens ++ List.replicate (y + 3) v ∧ s'.rcl = v ∧ s'.prev = st.prev := by
    intro ds
    induction ds with
    | nil => intro x s hx hr hp hl; exact ⟨hl, hr, hp⟩
    | cons d ds ih =>
      intro x s hx hr hp hl
      simp only [List.map_cons, List.foldl_cons]
      apply ih
      · simp only [CL.tok, hc16, ↓reduceIte, CL.repeat, hp, hnew, hr, ne_eq, not_true_eq_false, hx, hcw]
        rw [if_pos (by omega), show x + 3 - 2 = x + 1 by omega]
        omega
      · simp only [CL.tok, hc16, ↓reduceIte, CL.repeat, hp, hnew]
      · simp only [CL.tok, hc16, ↓reduceIte, CL.repeat, hp]
      · simp only [CL.tok, hc16, ↓reduceIte, CL.repeat, hp, hnew, hr, ne_eq, not_true_eq_false, hx, hcw, hl]
        rw [if_pos (by omega), show x + 3 - 2 = x + 1 by omega, List.append_assoc, ← List.replicate_add]
        have : x + 1 ≤ (x + 1) * 2 ^ w := Nat.le_mul_of_pos_right _ (Nat.two_pow_pos w)
        have h4 : 4 ≤ 2 ^ w := Nat.pow_le_pow_right (n := 2) (i := 2) (by decide) hw
        have : (x + 1) * 4 ≤ (x + 1) * 2 ^ w := Nat.mul_le_mul_left _ h4
        congr 2
        omega
  rw [e1, List.map_cons, List.foldl_cons, h1]
  have := h2 ds d { lens := st.lens ++ List.replicate (d + 3) v, prev := st.prev, rep := d + 3, rcl := v
                    used := if v ≠ 0 then st.used + (d + 3) * 2 ^ 15 / 2 ^ v else st.used } rfl rfl rfl rfl
  rw [e2] at this
  exact this

/-- Effect of a whole run: the lengths are appended, and a following repetition of another value starts afresh. -/
def RunDone (st st' : CL) (v k : Nat) : Prop :=
  st'.lens = st.lens ++ List.replicate k v ∧ (st'.rep = 0 ∨ st'.rcl = v) ∧ st'.prev = if v ≠ 0 then v else st.prev

theorem repTokens_done {code w v : Nat} (hcode : code = w + 14) (hw : 2 ≤ w) (hv : v < 16) {st : CL}
    (hnew : (if code = 16 then st.prev else 0) = v) (hfresh : st.rep = 0 ∨ st.rcl ≠ v) {reps : Nat}
    (hreps : 0 < reps ∨ st.rep = 0) : RunDone st ((repTokens code w v reps).foldl CL.tok st) v reps := by
  have hprev : st.prev = if v ≠ 0 then v else st.prev := by
    split
    · rename_i hne
      split at hnew
      · exact hnew
      · omega
    · rfl
  unfold repTokens
  by_cases hlt : reps < 3
  · rw [if_pos hlt]
    by_cases h0 : reps = 0
    · subst h0
      exact ⟨by simp, Or.inl (by simpa using hreps), hprev⟩
    · obtain ⟨h1, h2, h3⟩ := foldl_lits v reps hv st (by omega)
      exact ⟨h1, Or.inl h2, h3⟩
  · rw [if_neg hlt]
    obtain ⟨h1, h2, h3⟩ := foldl_reps hcode hw st hnew hfresh (reps - 3)
    refine ⟨?_, Or.inr h2, by rw [h3]; exact hprev⟩
    rw [h1, show reps - 3 + 3 = reps by omega]

theorem RunDone.prepend {st st1 st2 : CL} {v a b : Nat} (h1 : st1.lens = st.lens ++ List.replicate a v)
    (hp : st1.prev = if v ≠ 0 then v else st.prev) (h2 : RunDone st1 st2 v b) : RunDone st st2 v (a + b) := by
  obtain ⟨e1, e2, e3⟩ := h2
  refine ⟨?_, e2, ?_⟩
  · rw [e1, h1, List.append_assoc, ← List.replicate_add]
  · rw [e3, hp]; split <;> rfl

theorem writeReps_done {st : CL} {v reps : Nat} (hv : 1 ≤ v ∧ v < 16) (hreps : 0 < reps)
    (hfresh : st.rep = 0 ∨ st.rcl ≠ v) : RunDone st ((writeReps st.prev v reps).foldl CL.tok st) v reps := by
  unfold writeReps
  simp only
  rw [List.foldl_append]
  generalize hlit : (if st.prev ≠ v then 1 else 0) = lit
  generalize hlit' : (if reps - lit = 7 then 1 else 0) = lit'
  have hl1 : lit ≤ 1 := by rw [← hlit]; split <;> omega
  have hl2 : lit' ≤ 1 := by rw [← hlit']; split <;> omega
  have hl3 : lit' = 1 → reps - lit = 7 := by
    intro h; rw [h] at hlit'; by_contra hne; rw [if_neg hne] at hlit'; omega
  by_cases h0 : lit + lit' = 0
  · rw [h0]
    simp only [List.replicate_zero, List.foldl_nil]
    have hl0 : lit = 0 := by omega
    have hprev : st.prev = v := by
      rw [hl0] at hlit; by_contra hne; rw [if_pos hne] at hlit; omega
    have := repTokens_done (code := 16) (w := 2) rfl (by decide) hv.2 (st := st) (by simpa using hprev) hfresh
      (reps := reps) (Or.inl hreps)
    rw [show reps - lit - lit' = reps by omega]
    exact this
  · obtain ⟨h1, h2, h3⟩ := foldl_lits v (lit + lit') hv.2 st (by omega)
    generalize (List.replicate (lit + lit') (v, 0)).foldl CL.tok st = st1 at *
    have hpv : st1.prev = v := by rw [h3, if_pos (by omega)]
    have := repTokens_done (code := 16) (w := 2) rfl (by decide) hv.2 (st := st1) (by simpa using hpv) (Or.inl h2)
      (reps := reps - lit - lit') (Or.inr h2)
    have := RunDone.prepend h1 h3 this
    rw [show lit + lit' + (reps - lit - lit') = reps by omega] at this
    exact this

theorem writeRepsZeros_done {st : CL} {reps : Nat} (hreps : 0 < reps) (hfresh : st.rep = 0 ∨ st.rcl ≠ 0) :
    RunDone st ((writeRepsZeros reps).foldl CL.tok st) 0 reps := by
  unfold writeRepsZeros
  simp only
  rw [List.foldl_append]
  by_cases h11 : reps = 11
  · rw [if_pos h11]
    obtain ⟨h1, h2, h3⟩ := foldl_lits 0 1 (by decide) st (by decide)
    generalize (List.replicate 1 (0, 0)).foldl CL.tok st = st1 at *
    have := repTokens_done (code := 17) (w := 3) rfl (by decide) (v := 0) (by decide) (st := st1) rfl (Or.inl h2)
      (reps := reps - 1) (Or.inr h2)
    have := RunDone.prepend h1 h3 this
    rw [show 1 + (reps - 1) = reps by omega] at this
    exact this
  · rw [if_neg h11]
    exact repTokens_done (code := 17) (w := 3) rfl (by decide) (v := 0) (by decide) (st := st) rfl hfresh
      (reps := reps) (Or.inl hreps)

theorem runLen_spec (v : Nat) (l : List Nat) : l = List.replicate (runLen v l) v ++ l.drop (runLen v l) ∧
    (l.drop (runLen v l)).head? ≠ some v := by
  induction l with
  | nil => simp [runLen]
  | cons a l ih =>
    by_cases h : a = v
    · subst h
      have : runLen a (a :: l) = runLen a l + 1 := by simp [runLen]
      rw [this, List.replicate_succ, List.drop_succ_cons, List.cons_append]
      exact ⟨by rw [← ih.1], ih.2⟩
    · have : runLen v (a :: l) = 0 := by simp [runLen, h]
      rw [this]
      simp [h]

/-- **Run length coding of code lengths is undone by the decoder.** -/
theorem writeRuns_done (rleN rleZ : Bool) (l : List Nat) (prev : Nat) (st : CL) (hp : st.prev = prev) (hl : ∀ x ∈ l, x ≤ 15)
    (hfresh : st.rep = 0 ∨ l.head? ≠ some st.rcl) :
    ((writeRuns rleN rleZ prev l).foldl CL.tok st).lens = st.lens ++ l := by
  match l with
  | [] => simp [writeRuns]
  | v :: l =>
    have hv := hl v List.mem_cons_self
    have hfresh' : st.rep = 0 ∨ st.rcl ≠ v := by
      rcases hfresh with h | h
      · exact Or.inl h
      · right; intro he; apply h; simp [he]
    rw [writeRuns]
    generalize hx : (if (v ≠ 0 ∧ rleN = true) ∨ (v = 0 ∧ rleZ = true) then runLen v l else 0) = extra
    have hsplit : l = List.replicate extra v ++ l.drop extra := by
      rw [← hx]; split
      · exact (runLen_spec v l).1
      · simp
    have hwhole : st.lens ++ v :: l = st.lens ++ List.replicate (1 + extra) v ++ l.drop extra := by
      rw [Nat.add_comm 1 extra, List.replicate_succ, List.append_assoc, List.cons_append, ← hsplit]
    have hmem : ∀ x ∈ l.drop extra, x ≤ 15 := fun x hx => hl x (List.mem_cons_of_mem _ (List.mem_of_mem_drop hx))
    have hnext : ∀ st' : CL, st'.rep = 0 ∨ st'.rcl = v → (extra = 0 → st'.rep = 0) →
        st'.rep = 0 ∨ (l.drop extra).head? ≠ some st'.rcl := by
      intro st' h h0
      by_cases hc : (v ≠ 0 ∧ rleN = true) ∨ (v = 0 ∧ rleZ = true)
      · rw [if_pos hc] at hx
        rcases h with h | h
        · exact Or.inl h
        · right; rw [h, ← hx]; exact (runLen_spec v l).2
      · rw [if_neg hc] at hx
        exact Or.inl (h0 hx.symm)
    have hone : ∀ st : CL, (st.tok (v, 0)).rep = 0 := by
      intro st; simp only [CL.tok]; rw [if_pos (by omega)]; rfl
    by_cases hz : v = 0
    · subst hz
      rw [if_pos rfl, List.foldl_append]
      obtain ⟨d1, d2, d3⟩ := writeRepsZeros_done (st := st) (reps := 1 + extra) (by omega) hfresh'
      rw [writeRuns_done rleN rleZ (l.drop extra) prev _ (by rw [d3]; simpa using hp) hmem, d1, hwhole]
      apply hnext _ d2
      intro h0
      subst h0
      have : writeRepsZeros (1 + 0) = [(0, 0)] := by decide
      rw [this]; exact hone st
    · rw [if_neg hz, List.foldl_append]
      subst hp
      obtain ⟨d1, d2, d3⟩ := writeReps_done (st := st) (v := v) (reps := 1 + extra) (by omega) (by omega) hfresh'
      rw [writeRuns_done rleN rleZ (l.drop extra) v _ (by rw [d3, if_pos hz]) hmem, d1, hwhole]
      apply hnext _ d2
      intro h0
      subst h0
      have : writeReps st.prev v (1 + 0) = [(v, 0)] := by
        unfold writeReps repTokens
        by_cases h : st.prev = v <;> simp [h]
      rw [this]; exact hone st
termination_by l.length
decreasing_by all_goals simp only [List.length_drop, List.length_cons]; omega

end Brunsli
