import Verif.HuffRead
/-!
# Storing and reading whole prefix codes

`BuildAndStoreHuffmanTree` (c/enc/huffman_encode.cc) against `HuffmanDecodingData::ReadFromBitStream`
(c/dec/huffman_decode.cc).
-/

namespace Brunsli

open P

/-! ## Simple codes -/

/-- One inner loop of an exchange sort: the element at `i` against all later ones, swapping when the later one
has the smaller key. -/
def selPass (key : Nat → Nat) (a : Nat) : List Nat → Nat × List Nat
  | [] => (a, [])
  | b :: r =>
    if key b < key a then
      let (x, r') := selPass key b r
      (x, a :: r')
    else
      let (x, r') := selPass key a r
      (x, b :: r')

theorem selPass_length (key : Nat → Nat) (l : List Nat) : ∀ a, (selPass key a l).2.length = l.length := by
  induction l with
  | nil => intro a; rfl
  | cons b r ih =>
    intro a
    simp only [selPass]
    split <;> simp [ih]

/-- Exchange sort (c/enc/huffman_encode.cc:101-108 by depth, c/dec/huffman_decode.cc:143-147 by value). -/
def selSort (key : Nat → Nat) (l : List Nat) : List Nat :=
  match l with
  | [] => []
  | a :: l => (selPass key a l).1 :: selSort key (selPass key a l).2
termination_by l.length
decreasing_by rw [selPass_length]; simp

/-- `max_bits` in the encoder (c/enc/huffman_encode.cc:198-203). -/
def bitLength (n : Nat) : Nat := if _h : n = 0 then 0 else bitLength (n / 2) + 1
termination_by n

/-- `StoreSimpleHuffmanTree` (c/enc/huffman_encode.cc:94-123). -/
def storeSimple (depth syms : List Nat) (maxBits : Nat) : List Bool :=
  let s := selSort (fun x => depth.getD x 0) syms
  bitsOf 2 1 ++ (bitsOf 2 (syms.length - 1) ++ (s.flatMap (bitsOf maxBits) ++
    if syms.length ≤ 3 then [] else bitsOf 1 (if depth.getD (s.getD 0 0) 0 = 1 then 1 else 0)))

/-- Symbols that occur, in order. -/
def occurring (histo : List Nat) : List Nat := (List.range histo.length).filter fun i => histo.getD i 0 ≠ 0

/-- `BuildAndStoreHuffmanTree` (c/enc/huffman_encode.cc:177-218): the depths (whose codes are `huffWord`) and the
bits written.  `count` in the C++ code stops at 5; only whether it is at most 1 or at most 4 matters. -/
def buildAndStore (histo : List Nat) : Option (List Nat × List Bool) :=
  let syms := occurring histo
  let maxBits := bitLength (histo.length - 1)
  if syms.length ≤ 1 then
    some (List.replicate histo.length 0, bitsOf 4 1 ++ bitsOf maxBits (syms.getD 0 0))
  else
    match createHuffmanTree histo 15 with
    | none => none
    | some depth =>
      if syms.length ≤ 4 then some (depth, storeSimple depth syms maxBits)
      else
        match storeTree depth with
        | none => none
        | some bits => some (depth, bits)

/-- `max_bits` in the decoder (c/dec/huffman_decode.cc:100-101). -/
def decMaxBits (n : Nat) : Nat := if n > 1 then Nat.log2 (n - 1) + 1 else 0

/-- Two symbols in increasing order. -/
def swap2 (a b : Nat) : Nat × Nat := if a > b then (b, a) else (a, b)

/-- The table before it is doubled: its size in bits and its entries (c/dec/huffman_decode.cc:130-176). -/
def simpleTable (num : Nat) (syms : List Nat) : Option (Nat × List Ent) :=
  match num, syms with
  | 1, [a] => some (0, [⟨0, a⟩])
  | 2, [a, b] => let p := swap2 a b; some (1, [⟨1, p.1⟩, ⟨1, p.2⟩])
  | 3, [a, b, c] => let p := swap2 b c; some (2, [⟨1, a⟩, ⟨2, p.1⟩, ⟨1, a⟩, ⟨2, p.2⟩])
  | 4, syms =>
    let s := selSort id syms
    some (2, [⟨2, s.getD 0 0⟩, ⟨2, s.getD 2 0⟩, ⟨2, s.getD 1 0⟩, ⟨2, s.getD 3 0⟩])
  | 5, [a, b, c, d] =>
    let p := swap2 c d
    some (3, [⟨1, a⟩, ⟨2, b⟩, ⟨1, a⟩, ⟨3, p.1⟩, ⟨1, a⟩, ⟨2, b⟩, ⟨1, a⟩, ⟨3, p.2⟩])
  | _, _ => none

/-- The doubled table (c/dec/huffman_decode.cc:178-183). -/
def doubleTable (t : Nat × List Ent) : Option Mem := doubling 256 t.1 (fun i => t.2[i]?) (8 - t.1)

/-- `num_symbols`, where 5 stands for the second shape with four symbols (c/dec/huffman_decode.cc:121-122). -/
def simpleNum (k : Nat) : P Bool Nat :=
  if k + 1 = 4 then (do let b ← readBits 1; Pure.pure (4 + b)) else Pure.pure (k + 1)

/-- `ReadSimpleCode` (c/dec/huffman_decode.cc:96-187); the inner `none` is a table overflow. -/
def readSimple (n : Nat) : P Bool (Option Mem) := do
  let k ← readBits 2
  let syms ← P.replicate (k + 1) (do
    let s ← readBits (decMaxBits n)
    P.guard (s < n)
    Pure.pure s)
  P.guard syms.Nodup
  let num ← simpleNum k
  match simpleTable num syms with
  | none => P.fail
  | some t => Pure.pure (doubleTable t)

/-- `HuffmanDecodingData::ReadFromBitStream` (c/dec/huffman_decode.cc:189-244) for `n` symbols.  The inner `none`
means that a table was written out of bounds. -/
def readCode (n : Nat) : P Bool (Option Mem) := do
  P.guard (n ≤ 2 ^ 15)
  let skip ← readBits 2
  if skip = 1 then readSimple n else readComplex n skip

/-! ## Codes with a stored tree -/

theorem complete_of_depths {histo cl : List Nat} {limit : Nat} (h : DepthsOk histo cl limit) (hl : limit ≤ 15)
    (hn : histo.length ≤ 2 ^ 15) : Complete cl where
  size := by rw [h.length]; exact hn
  depth_le l hl' := Nat.le_trans (h.le l hl') hl
  kraft := by
    have : ∀ l : List Nat, (∀ x ∈ l, x ≤ limit) → kraftLens 15 l = 2 ^ (15 - limit) * kraftLens limit l := by
      intro l
      induction l with
      | nil => intro _; simp [kraftLens]
      | cons a l ih =>
        intro hx
        have e : ∀ M, kraftLens M (a :: l) = (if a = 0 then 0 else 2 ^ (M - a)) + kraftLens M l := by
          intro M; simp [kraftLens]
        rw [e, e, ih fun x hx' => hx x (List.mem_cons_of_mem _ hx'), Nat.mul_add]
        congr 1
        split
        · simp
        · have := hx a List.mem_cons_self
          rw [← Nat.pow_add]; congr 1; omega
    rw [this cl h.le, h.kraft, ← Nat.pow_add]
    congr 1; omega

theorem tokenHistogram_getD {toks : List (Nat × Nat)} {c : Nat} (hc : c < 18) :
    (tokenHistogram toks).getD c 0 = toks.countP fun t => t.1 = c := by
  rw [tokenHistogram, List.getD_eq_getElem?_getD, List.getElem?_map, List.getElem?_range hc]
  rfl

theorem tokenHistogram_length (toks : List (Nat × Nat)) : (tokenHistogram toks).length = 18 := by simp [tokenHistogram]

theorem single_facts : ∀ s < 18, (depthsOf 18 [(s, 1)]).length = 18 ∧ (∀ l ∈ depthsOf 18 [(s, 1)], l ≤ 5) ∧
    kraftLens 5 (depthsOf 18 [(s, 1)]) < 2 ^ 5 ∧ (depthsOf 18 [(s, 1)]).countP (· ≠ 0) = 1 ∧
    sortedCode 15 (depthsOf 18 [(s, 1)]) = [(1, s)] ∧ ((depthsOf 18 [(s, 1)]).set s 0).getD s 0 = 0 := by
  decide +kernel

theorem fill_mem (cap root : Nat) (hcap : 2 ^ root ≤ cap) (e : Ent) : ∃ m, fill cap (fun _ => none) 0 1 (2 ^ root) e = some m ∧
    ∀ i < 2 ^ root, m i = some e := by
  obtain ⟨m, h1, h2⟩ := fill_spec cap 0 1 e (2 ^ root) (fun _ => none) (by intro j hj; omega)
  refine ⟨m, h1, ?_⟩
  intro i hi
  rw [h2, if_pos ⟨i, hi, by omega⟩]

theorem readHuff_const {m : Mem} {root s : Nat} (h : ∀ i < 2 ^ root, m i = some ⟨0, s⟩) : Reads (readHuff m root) [] s := by
  intro rest
  unfold readHuff lookup
  rw [h _ (Nat.mod_lt _ (Nat.two_pow_pos root))]
  simp

theorem findIdx_unique {l : List Nat} {s : Nat} (hs : s < l.length) (h0 : l.getD s 0 ≠ 0) (hu : ∀ i, l.getD i 0 ≠ 0 → i = s) :
    l.findIdx (· ≠ 0) = s := by
  have hget : l[s] = l.getD s 0 := by rw [List.getD_eq_getElem?_getD, List.getElem?_eq_getElem hs]; rfl
  have hlt : l.findIdx (fun x => decide (x ≠ 0)) < l.length :=
    List.findIdx_lt_length_of_exists ⟨l[s], List.getElem_mem hs, by rw [hget]; simpa using h0⟩
  apply hu
  have := List.findIdx_getElem (w := hlt)
  rw [List.getD_eq_getElem?_getD, List.getElem?_eq_getElem hlt]
  simpa using this

/-- The decoder's table decodes the canonical code of `depth`. -/
def Decodes (m : Mem) (depth : List Nat) : Prop := ∀ W, lookup m 8 W = codeAt 15 0 (sortedCode 15 depth) (rev 15 W)

theorem copyTable_eq {m : Mem} {total : Nat} (h : ∀ i, total ≤ i → m i = none) : copyTable m total = m := by
  funext i
  unfold copyTable
  split
  · rfl
  · rw [h i (by omega)]

theorem readComplex_of {depth : List Nat} (hc : Complete depth) {cl : List Nat} {m5 : Mem} {tot : Nat}
    (hbuild : buildTable 32 5 cl = some (m5, tot)) {word : Nat → List Bool}
    (hword : ∀ t ∈ writeTree depth, Reads (readHuff m5 5) (word t.1) t.1)
    {skip used num : Nat} {e : List Bool} (hgo : num = 1 ∨ used = 32)
    (hclc : Reads (readClc (clcOrder.drop skip) (List.replicate 18 0) 0 0) e (cl, used, num)) :
    ∃ m, Reads (readComplex depth.length skip) (e ++ (writeTree depth).flatMap fun t => word t.1 ++ tokenExtra t) (some m) ∧
      Decodes m depth := by
  obtain ⟨k, htrim, hlast⟩ := trimZeros_spec depth
  have hk : kraftLens 15 (trimZeros depth) = 2 ^ 15 := by
    rw [← hc.kraft]
    conv_rhs => rw [htrim]
    rw [kraftLens_append, kraftLens_replicate, if_pos rfl, Nat.add_zero]
  have hlen : (trimZeros depth).length + k = depth.length := by
    have := congrArg List.length htrim
    simpa using this.symm
  have hlens := readLens_toks (m := m5) (n := depth.length) word (trimZeros depth) hk (by omega)
    (fun a b hab hb => by obtain ⟨x, hx, h0⟩ := hlast a b hab hb; exact kraftLens_pos hx h0)
    (writeTree depth) CL.init CL.init_ok (writeTree_done hc) (writeTree_legal hc) hword
  have hok : ((writeTree depth).foldl CL.tok CL.init).Ok := by
    have : ∀ (ts : List (Nat × Nat)) (st : CL), st.Ok → (ts.foldl CL.tok st).Ok := by
      intro ts
      induction ts with
      | nil => intro st h; exact h
      | cons t ts ih => intro st h; exact ih _ (CL.tok_ok h t)
    exact this _ _ CL.init_ok
  have hread : Reads (readCodeLengths cl depth.length) ((writeTree depth).flatMap fun t => word t.1 ++ tokenExtra t) (some depth) := by
    intro rest
    unfold readCodeLengths
    rw [hbuild]
    simp only
    rw [hlens rest]
    simp only
    rw [if_neg (by rw [hok.used, writeTree_done hc, hk]; simp), writeTree_done hc,
      show depth.length - (trimZeros depth).length = k by omega, ← htrim]
  obtain ⟨m, total, hb, htot, hm⟩ := buildTable_spec (root := 8) (by decide) (by decide) hc (cap := depth.length + 376)
    (Or.inr (by omega))
  refine ⟨m, ?_, hm⟩
  unfold readComplex
  refine Reads.bind hclc ?_
  refine Reads.seqGuard hgo ?_
  refine Reads.bind' hread ?_ (List.append_nil _).symm
  simp only [hb]
  have hpos : total > 0 := by have := htot.1; omega
  have hcopy : copyTable m total = m := copyTable_eq htot.2.2
  exact Reads.seqGuard hpos (Reads.pure' (by rw [hcopy]))

theorem storeTree_read {depth : List Nat} (hc : Complete depth) : ∃ skip e m,
    storeTree depth = some (bitsOf 2 skip ++ e) ∧ skip < 4 ∧ skip ≠ 1 ∧ Reads (readComplex depth.length skip) e (some m) ∧
      Decodes m depth := by
  obtain ⟨b, hb, htl⟩ := foldl_prefix (writeTree depth) CL.init
  rw [writeTree_done hc] at hb
  have hlen : (trimZeros depth).length ≤ depth.length := by
    obtain ⟨k, htrim, _⟩ := trimZeros_spec depth
    have := congrArg List.length htrim
    simp at this; omega
  have htoks : (writeTree depth).length ≤ 2 ^ 15 := by
    have h1 := congrArg List.length hb
    rw [List.length_append] at h1
    have := hc.size
    omega
  have hleg := writeTree_legal hc
  have hne : ∃ t, t ∈ writeTree depth := by
    cases hw : writeTree depth with
    | cons t ts => exact ⟨t, by simp⟩
    | nil =>
      have h := writeTree_done hc
      rw [hw] at h
      obtain ⟨k, htrim, _⟩ := trimZeros_spec depth
      have hk := hc.kraft
      rw [htrim, ← h] at hk
      simp [CL.init, kraftLens_replicate] at hk
  have h18 : ∀ t ∈ writeTree depth, t.1 < 18 := by
    intro t ht
    rcases hleg t ht with h | h | h <;> omega
  have hhist : ∀ t ∈ writeTree depth, (tokenHistogram (writeTree depth)).getD t.1 0 ≠ 0 := by
    intro t ht
    rw [tokenHistogram_getD (h18 t ht)]
    have : 0 < (writeTree depth).countP fun u => decide (u.1 = t.1) := List.countP_pos_iff.mpr ⟨t, ht, by simp⟩
    omega
  have hcnt : ∀ d ∈ tokenHistogram (writeTree depth), d < 2 ^ 31 := by
    intro d hd
    obtain ⟨c, _, rfl⟩ := List.mem_map.mp hd
    have := List.countP_le_length (l := writeTree depth) (p := fun t => decide (t.1 = c))
    omega
  have hpos : 1 ≤ (tokenHistogram (writeTree depth)).countP (· ≠ 0) := by
    obtain ⟨t, ht⟩ := hne
    apply List.countP_pos_iff.mpr
    refine ⟨_, getD_mem (by rw [tokenHistogram_length]; exact h18 t ht), ?_⟩
    simpa using hhist t ht
  unfold storeTree
  simp only
  by_cases h1 : (tokenHistogram (writeTree depth)).countP (· ≠ 0) = 1
  · obtain ⟨s, hs, hs0, hsu, hcreate⟩ := createHuffmanTree_single (limit := 5) h1
    rw [tokenHistogram_length] at hs hcreate
    obtain ⟨f1, f2, f3, f4, f5, f6⟩ := single_facts s hs
    rw [hcreate, h1, findIdx_unique (by rw [tokenHistogram_length]; exact hs) hs0 hsu]
    simp only [show min 1 2 = 1 by decide, ↓reduceIte]
    obtain ⟨e, used, num, e1, e2, e3⟩ := storeClc_single f1 f2 f3 f4
    obtain ⟨hsk, _⟩ := clcSkip_spec (depthsOf 18 [(s, 1)])
    have hall : ∀ t ∈ writeTree depth, t.1 = s := fun t ht => hsu _ (hhist t ht)
    obtain ⟨m5, g1, g2⟩ := fill_mem 32 5 (by decide) ⟨0, s⟩
    have hbuild : buildTable 32 5 (depthsOf 18 [(s, 1)]) = some (m5, 2 ^ 5) := by
      unfold buildTable
      rw [if_neg (by rw [f1]; decide), f5]
      simp only [g1]
    obtain ⟨m, r1, r2⟩ := readComplex_of hc hbuild (word := fun _ => [])
      (fun t ht => by rw [hall t ht]; exact readHuff_const g2) e2 e3
    refine ⟨_, _, m, ?_, hsk.1, hsk.2, r1, r2⟩
    rw [e1, List.append_assoc]
    congr 3
    have : ∀ l : List (Nat × Nat), (∀ t ∈ l, t.1 = s) →
        (l.flatMap fun t => bitsOf (((depthsOf 18 [(s, 1)]).set s 0).getD t.1 0) (huffBits (depthsOf 18 [(s, 1)]) t.1) ++ tokenExtra t) =
        l.flatMap fun t => [] ++ tokenExtra t := by
      intro l
      induction l with
      | nil => intro _; rfl
      | cons t l ih =>
        intro hl
        rw [List.flatMap_cons, List.flatMap_cons, ih fun x hx => hl x (List.mem_cons_of_mem _ hx), hl t List.mem_cons_self, f6]
        rfl
    exact this _ hall
  · have h2 : 2 ≤ (tokenHistogram (writeTree depth)).countP (· ≠ 0) := by omega
    have hle : (tokenHistogram (writeTree depth)).countP (· ≠ 0) ≤ 2 ^ 5 := by
      have := List.countP_le_length (l := tokenHistogram (writeTree depth)) (p := (· ≠ 0))
      rw [tokenHistogram_length] at this
      omega
    obtain ⟨cl, hcreate, hok⟩ := createHuffmanTree_ok h2 hle hcnt
    have hcl18 : cl.length = 18 := by rw [hok.length, tokenHistogram_length]
    have hcc : Complete cl := complete_of_depths hok (by decide) (by rw [tokenHistogram_length]; decide)
    rw [hcreate, show min ((tokenHistogram (writeTree depth)).countP (· ≠ 0)) 2 = 2 by omega]
    simp only [show ¬ (2 = 1) by decide, ↓reduceIte]
    obtain ⟨e, used, num, e1, e2, e3⟩ := storeClc_multi hcl18 hok.le hok.kraft
    obtain ⟨hsk, _⟩ := clcSkip_spec cl
    obtain ⟨m5, tot, hbuild, _, hm5⟩ := buildTable_spec (root := 5) (by decide) (by decide) hcc (cap := 32)
      (Or.inl ⟨hok.le, by decide⟩)
    obtain ⟨m, r1, r2⟩ := readComplex_of hc hbuild (word := fun c => huffWord cl c)
      (fun t ht => by
        have hlt : t.1 < cl.length := by rw [hcl18]; exact h18 t ht
        refine readHuff_reads hcc hm5 hlt ?_
        have := (hok.support t.1 (by rw [tokenHistogram_length]; exact h18 t ht)).mpr (hhist t ht)
        omega) e2 e3
    refine ⟨_, _, m, ?_, hsk.1, hsk.2, r1, r2⟩
    rw [e1, List.append_assoc]
    rfl

/-! ## Sorting -/

theorem selPass_spec (key : Nat → Nat) (l : List Nat) : ∀ a, ((selPass key a l).1 :: (selPass key a l).2).Perm (a :: l) ∧
    ∀ x ∈ a :: l, key (selPass key a l).1 ≤ key x := by
  induction l with
  | nil => intro a; exact ⟨List.Perm.refl _, by simp [selPass]⟩
  | cons b r ih =>
    intro a
    simp only [selPass]
    split
    · rename_i h
      obtain ⟨h1, h2⟩ := ih b
      refine ⟨(List.Perm.swap _ _ _).trans (h1.cons a), ?_⟩
      intro x hx
      have hb := h2 b List.mem_cons_self
      rcases List.mem_cons.mp hx with rfl | hx
      · show key (selPass key b r).1 ≤ _; omega
      · exact h2 x hx
    · rename_i h
      obtain ⟨h1, h2⟩ := ih a
      refine ⟨(List.Perm.swap _ _ _).trans ((h1.cons b).trans (List.Perm.swap _ _ _)), ?_⟩
      intro x hx
      have ha := h2 a List.mem_cons_self
      rcases List.mem_cons.mp hx with rfl | hx
      · exact ha
      · rcases List.mem_cons.mp hx with rfl | hx
        · show key (selPass key a r).1 ≤ _; omega
        · exact h2 x (List.mem_cons_of_mem _ hx)

theorem selSort_spec (key : Nat → Nat) (l : List Nat) : (selSort key l).Perm l ∧ (selSort key l).Pairwise fun a b => key a ≤ key b := by
  match l with
  | [] => simp [selSort]
  | a :: l =>
    obtain ⟨h1, h2⟩ := selPass_spec key l a
    obtain ⟨h3, h4⟩ := selSort_spec key (selPass key a l).2
    rw [selSort]
    refine ⟨(h3.cons _).trans h1, List.pairwise_cons.mpr ⟨?_, h4⟩⟩
    intro x hx
    exact h2 x (h1.mem_iff.mp (List.mem_cons_of_mem _ (h3.mem_iff.mp hx)))
termination_by l.length
decreasing_by rw [selPass_length]; simp

/-! ## Simple codes: the tables -/

/-- The order in which canonical codes are assigned. -/
def LexLt (p q : Nat × Nat) : Prop := p.1 < q.1 ∨ (p.1 = q.1 ∧ p.2 < q.2)

theorem sortedCode_lex (M : Nat) (depth : List Nat) : (sortedCode M depth).Pairwise LexLt := by
  rw [sortedCode_eq, List.pairwise_flatMap]
  refine ⟨?_, ?_⟩
  · intro l _
    rw [List.pairwise_map]
    apply List.Pairwise.imp _ (List.Pairwise.filter _ (List.pairwise_lt_range (n := depth.length)))
    intro a b h
    exact Or.inr ⟨rfl, h⟩
  · apply List.Pairwise.imp _ (List.pairwise_lt_range' (s := 1) (n := M))
    intro a b hab x hx y hy
    simp only [List.mem_map] at hx hy
    obtain ⟨_, _, rfl⟩ := hx
    obtain ⟨_, _, rfl⟩ := hy
    exact Or.inl hab

/-- A list with the right members in the right order is the canonical one. -/
theorem sortedCode_unique {M : Nat} {depth S : List Nat} {L : List (Nat × Nat)} (hS : S.Nodup)
    (hmem : ∀ s, s ∈ S ↔ s < depth.length ∧ depth.getD s 0 ≠ 0) (hM : ∀ l ∈ depth, l ≤ M)
    (hperm : L.Perm (S.map fun s => (depth.getD s 0, s))) (hlex : L.Pairwise LexLt) : sortedCode M depth = L := by
  have hnd : (S.map fun s => (depth.getD s 0, s)).Nodup := hS.map fun a b h => (Prod.mk.inj h).2
  apply List.Perm.eq_of_pairwise (le := LexLt) _ (sortedCode_lex M depth) hlex
  · refine List.Perm.trans ?_ hperm.symm
    rw [List.perm_ext_iff_of_nodup (sortedCode_nodup M depth) hnd]
    intro p
    rw [mem_sortedCode, List.mem_map]
    constructor
    · rintro ⟨h1, h2, h3⟩
      refine ⟨p.2, (hmem p.2).mpr ⟨h2, by omega⟩, ?_⟩
      rw [h3]
    · rintro ⟨s, hs, rfl⟩
      obtain ⟨h1, h2⟩ := (hmem s).mp hs
      have := hM _ (getD_mem h1)
      exact ⟨⟨by simp only; omega, this⟩, h1, rfl⟩
  · intro a b _ _ h1 h2
    rcases h1 with h1 | h1 <;> rcases h2 with h2 | h2 <;> omega

/-- The doubled table answers with the entry for the low bits of the window. -/
theorem doubleTable_lookup {tb : Nat} (htb : tb ≤ 8) {T : List Ent} (hT : T.length = 2 ^ tb) (hbits : ∀ e ∈ T, e.bits ≤ 8) :
    ∃ m, doubleTable (tb, T) = some m ∧ ∀ W, ∃ h : W % 2 ^ tb < T.length,
      lookup m 8 W = some (T[W % 2 ^ tb].bits, T[W % 2 ^ tb].value) := by
  unfold doubleTable
  simp only
  obtain ⟨m, h1, h2, _⟩ := doubling_spec 256 (8 - tb) tb (fun i => T[i]?) (by
    rw [show tb + (8 - tb) = 8 by omega]; decide)
  rw [show tb + (8 - tb) = 8 by omega] at h2
  refine ⟨m, h1, ?_⟩
  intro W
  have hlt : W % 2 ^ tb < T.length := by rw [hT]; exact Nat.mod_lt _ (Nat.two_pow_pos _)
  refine ⟨hlt, ?_⟩
  unfold lookup
  rw [h2 _ (Nat.mod_lt _ (by decide)), Nat.mod_mod_of_dvd _ (Nat.pow_dvd_pow 2 htb), List.getElem?_eq_getElem hlt]
  simp only
  have := hbits _ (List.getElem_mem hlt)
  rw [if_neg (by omega)]

/-- If the entries are those of the canonical code for every window of `tb` bits, the table decodes it. -/
theorem decodes_of_small {depth : List Nat} (hc : Complete depth) {tb : Nat} (htb : tb ≤ 8) (hle : ∀ l ∈ depth, l ≤ tb) {T : List Ent} {m : Mem}
    (hm : ∀ W, ∃ h : W % 2 ^ tb < T.length, lookup m 8 W = some (T[W % 2 ^ tb].bits, T[W % 2 ^ tb].value))
    (hT : ∀ i < 2 ^ tb, T[i]?.map (fun e => (e.bits, e.value)) = codeAt 15 0 (sortedCode 15 depth) (rev 15 i)) : Decodes m depth := by
  intro W
  obtain ⟨h, e⟩ := hm W
  have hok := sortedCode_ok hc.depth_le (Nat.le_of_eq hc.kraft)
  have hblock : codeAt 15 0 (sortedCode 15 depth) (rev 15 W) = codeAt 15 0 (sortedCode 15 depth) (rev 15 (W % 2 ^ tb)) := by
    apply codeAt_block hok (t := tb) _ (by omega) (mod_block (by omega) W)
    intro p hp
    obtain ⟨_, h2, h3⟩ := mem_sortedCode.mp hp
    rw [← h3]; exact hle _ (getD_mem h2)
  rw [e, hblock, ← hT _ (Nat.mod_lt _ (Nat.two_pow_pos _)), List.getElem?_eq_getElem h]
  rfl

theorem rev15 : rev 15 0 = 0 ∧ rev 15 1 = 16384 ∧ rev 15 2 = 8192 ∧ rev 15 3 = 24576 ∧ rev 15 4 = 4096 ∧ rev 15 5 = 20480 ∧
    rev 15 6 = 12288 ∧ rev 15 7 = 28672 := by decide +kernel

theorem kraft2 : ∀ a < 16, ∀ b < 16, (1 ≤ a ∧ a ≤ b ∧ 2 ^ (15 - a) + 2 ^ (15 - b) = 2 ^ 15) → a = 1 ∧ b = 1 := by
  decide +kernel

set_option synthInstance.maxSize 2000 in
set_option synthInstance.maxHeartbeats 200000 in
theorem kraft3 : ∀ a < 16, ∀ b < 16, ∀ c < 16, (1 ≤ a ∧ a ≤ b ∧ b ≤ c) →
    (2 ^ (15 - a) + 2 ^ (15 - b) + 2 ^ (15 - c) = 2 ^ 15 → a = 1 ∧ b = 2 ∧ c = 2) ∧
    (2 ^ (15 - a) + 2 ^ (15 - b) + 2 ^ (15 - c) = 2 ^ 14 → a = 2 ∧ b = 3 ∧ c = 3) := by
  decide +kernel

theorem kraft4 {a b c d : Nat} (hd : d < 16) (h1 : 1 ≤ a) (hab : a ≤ b) (hbc : b ≤ c) (hcd : c ≤ d)
    (h : 2 ^ (15 - a) + 2 ^ (15 - b) + 2 ^ (15 - c) + 2 ^ (15 - d) = 2 ^ 15) :
    (a = 2 ∧ b = 2 ∧ c = 2 ∧ d = 2) ∨ (a = 1 ∧ b = 2 ∧ c = 3 ∧ d = 3) := by
  by_cases ha : a = 1
  · subst ha
    have := (kraft3 b (by omega) c (by omega) d hd ⟨Nat.le_trans h1 hab, hbc, hcd⟩).2 (by omega)
    omega
  · have hle : ∀ x, 3 ≤ x → 2 ^ (15 - x) ≤ 2 ^ 12 := fun x hx => Nat.pow_le_pow_right (by decide) (by omega)
    have hle2 : ∀ x, 2 ≤ x → 2 ^ (15 - x) ≤ 2 ^ 13 := fun x hx => Nat.pow_le_pow_right (by decide) (by omega)
    have ha2 := hle2 a (by omega)
    have hb2 := hle2 b (by omega)
    have hc2 := hle2 c (by omega)
    have hd3 : ¬ 3 ≤ d := by intro h3; have := hle d h3; omega
    omega

theorem swap2_spec {a b : Nat} (h : a ≠ b) : (swap2 a b).1 < (swap2 a b).2 ∧
    (((swap2 a b).1 = a ∧ (swap2 a b).2 = b) ∨ ((swap2 a b).1 = b ∧ (swap2 a b).2 = a)) := by
  unfold swap2
  split
  · exact ⟨by simp only; omega, Or.inr ⟨rfl, rfl⟩⟩
  · exact ⟨by simp only; omega, Or.inl ⟨rfl, rfl⟩⟩

/-- The table for a simple code: `S` are the symbols sorted by depth. -/
theorem simple_decodes {depth S : List Nat} (hc : Complete depth) (hS : S.Nodup)
    (hmem : ∀ s, s ∈ S ↔ s < depth.length ∧ depth.getD s 0 ≠ 0) (hsort : S.Pairwise fun a b => depth.getD a 0 ≤ depth.getD b 0)
    (h2 : 2 ≤ S.length) (h4 : S.length ≤ 4) :
    ∃ t m, simpleTable (if S.length ≤ 3 then S.length else 4 + if depth.getD (S.getD 0 0) 0 = 1 then 1 else 0) S = some t ∧
      doubleTable t = some m ∧ Decodes m depth := by
  have hkraft : (S.map fun s => 2 ^ (15 - depth.getD s 0)).sum = 2 ^ 15 := by
    have h1 : (sortedCode 15 depth).Perm (S.map fun s => (depth.getD s 0, s)) := by
      rw [List.perm_ext_iff_of_nodup (sortedCode_nodup 15 depth) (hS.map fun a b h => (Prod.mk.inj h).2)]
      intro p
      rw [mem_sortedCode, List.mem_map]
      constructor
      · rintro ⟨h1, h2, h3⟩
        refine ⟨p.2, (hmem p.2).mpr ⟨h2, by omega⟩, ?_⟩
        rw [h3]
      · rintro ⟨s, hs, rfl⟩
        obtain ⟨h1, h2⟩ := (hmem s).mp hs
        have := hc.depth_le _ (getD_mem h1)
        exact ⟨⟨by simp only; omega, this⟩, h1, rfl⟩
    have h2 := List.Perm.sum_nat (h1.map fun p => 2 ^ (15 - p.1))
    rw [← kraft_eq_sum, kraft_sortedCode hc.depth_le, hc.kraft, List.map_map] at h2
    exact h2.symm
  have hd : ∀ s ∈ S, 1 ≤ depth.getD s 0 ∧ depth.getD s 0 < 16 := by
    intro s hs
    obtain ⟨h1, h2⟩ := (hmem s).mp hs
    have := hc.depth_le _ (getD_mem h1)
    omega
  have hle : ∀ k, (∀ s ∈ S, depth.getD s 0 ≤ k) → ∀ l ∈ depth, l ≤ k := by
    intro k h l hl
    by_cases h0 : l = 0
    · omega
    · obtain ⟨i, hi, rfl⟩ := List.mem_iff_getElem.mp hl
      have he : depth.getD i 0 = depth[i] := by rw [List.getD_eq_getElem?_getD, List.getElem?_eq_getElem hi]; rfl
      have := h i ((hmem i).mpr ⟨hi, by omega⟩)
      omega
  have huniq := fun L hp hl => sortedCode_unique (M := 15) (L := L) hS hmem hc.depth_le hp hl
  match S, h2, h4 with
  | [a, b], _, _ =>
    simp only [List.map_cons, List.map_nil, List.sum_cons, List.sum_nil] at hkraft
    simp only [List.pairwise_cons, List.mem_cons, List.not_mem_nil, or_false, forall_eq] at hsort
    obtain ⟨ea, eb⟩ := kraft2 _ (hd a (by simp)).2 _ (hd b (by simp)).2 ⟨(hd a (by simp)).1, by simpa using hsort, by omega⟩
    have hab : a ≠ b := by simp at hS; exact hS
    obtain ⟨s1, s2⟩ := swap2_spec hab
    generalize hsw : swap2 a b = p at *
    have hL : sortedCode 15 depth = [(1, p.1), (1, p.2)] := by
      apply huniq
      · simp only [List.map_cons, List.map_nil, ea, eb]
        rcases s2 with ⟨e1, e2⟩ | ⟨e1, e2⟩
        · rw [e1, e2]
        · rw [e1, e2]; exact List.Perm.swap _ _ _
      · simp [LexLt, s1]
    obtain ⟨m, hm1, hm2⟩ := doubleTable_lookup (tb := 1) (by decide) (T := [⟨1, p.1⟩, ⟨1, p.2⟩]) rfl (by simp)
    refine ⟨(1, [⟨1, p.1⟩, ⟨1, p.2⟩]), m, ?_, hm1, ?_⟩
    · simp [simpleTable, hsw]
    · refine decodes_of_small hc (by decide) (hle 1 (by intro s hs; simp only [List.mem_cons, List.not_mem_nil, or_false] at hs; rcases hs with  rfl | rfl <;> omega)) hm2 ?_
      rw [hL]
      intro i hi
      match i, hi with
      | 0, _ => simp [codeAt, rev15]
      | 1, _ => simp [codeAt, rev15]
  | [a, b, c], _, _ =>
    simp only [List.map_cons, List.map_nil, List.sum_cons, List.sum_nil] at hkraft
    simp only [List.pairwise_cons, List.mem_cons, List.not_mem_nil, or_false, forall_eq_or_imp, forall_eq] at hsort
    obtain ⟨ea, eb, ec⟩ := (kraft3 _ (hd a (by simp)).2 _ (hd b (by simp)).2 _ (hd c (by simp)).2
      ⟨(hd a (by simp)).1, hsort.1.1, hsort.2.1⟩).1 (by omega)
    have hbc : b ≠ c := by simp at hS; exact hS.2
    obtain ⟨s1, s2⟩ := swap2_spec hbc
    generalize hsw : swap2 b c = p at *
    have hL : sortedCode 15 depth = [(1, a), (2, p.1), (2, p.2)] := by
      apply huniq
      · simp only [List.map_cons, List.map_nil, ea, eb, ec]
        rcases s2 with ⟨e1, e2⟩ | ⟨e1, e2⟩
        · rw [e1, e2]
        · rw [e1, e2]; exact (List.Perm.swap _ _ _).cons _
      · simp [LexLt, s1]
    obtain ⟨m, hm1, hm2⟩ := doubleTable_lookup (tb := 2) (by decide) (T := [⟨1, a⟩, ⟨2, p.1⟩, ⟨1, a⟩, ⟨2, p.2⟩]) rfl (by simp)
    refine ⟨(2, [⟨1, a⟩, ⟨2, p.1⟩, ⟨1, a⟩, ⟨2, p.2⟩]), m, ?_, hm1, ?_⟩
    · simp [simpleTable, hsw]
    · refine decodes_of_small hc (by decide) (hle 2 (by intro s hs; simp only [List.mem_cons, List.not_mem_nil, or_false] at hs; rcases hs with rfl | rfl | rfl <;> omega)) hm2 ?_
      rw [hL]
      intro i hi
      match i, hi with
      | 0, _ => simp [codeAt, rev15]
      | 1, _ => simp [codeAt, rev15]
      | 2, _ => simp [codeAt, rev15]
      | 3, _ => simp [codeAt, rev15]
  | [a, b, c, d], _, _ =>
    simp only [List.map_cons, List.map_nil, List.sum_cons, List.sum_nil] at hkraft
    simp only [List.pairwise_cons, List.mem_cons, List.not_mem_nil, or_false, forall_eq_or_imp, forall_eq] at hsort
    rcases kraft4 (hd d (by simp)).2 (hd a (by simp)).1 hsort.1.1 hsort.2.1.1 hsort.2.2.1 (by omega) with
      ⟨ea, eb, ec, ed⟩ | ⟨ea, eb, ec, ed⟩
    · obtain ⟨s1, s2⟩ := selSort_spec id [a, b, c, d]
      have hlen := s1.length_eq
      have hnd := s1.nodup_iff.mpr hS
      have hsel : simpleTable 4 [a, b, c, d] = some (2, [⟨2, (selSort id [a, b, c, d]).getD 0 0⟩, ⟨2, (selSort id [a, b, c, d]).getD 2 0⟩,
        ⟨2, (selSort id [a, b, c, d]).getD 1 0⟩, ⟨2, (selSort id [a, b, c, d]).getD 3 0⟩]) := rfl
      generalize selSort id [a, b, c, d] = R at *
      match R, hlen with
      | [w, x, y, z], _ =>
        have hL : sortedCode 15 depth = [(2, w), (2, x), (2, y), (2, z)] := by
          apply huniq
          · have h1 := s1.map fun s => (2, s)
            simp only [List.map_cons, List.map_nil] at h1
            simp only [List.map_cons, List.map_nil, ea, eb, ec, ed]
            exact h1
          · simp only [List.pairwise_cons, List.mem_cons, List.not_mem_nil, or_false, forall_eq_or_imp, forall_eq, id_eq] at s2
            simp only [List.nodup_cons, List.mem_cons, List.not_mem_nil, or_false, not_or] at hnd
            simp only [List.pairwise_cons, List.mem_cons, List.not_mem_nil, or_false, forall_eq_or_imp, forall_eq, LexLt]
            refine ⟨⟨?_, ?_, ?_⟩, ⟨?_, ?_⟩, ?_, ?_⟩ <;> first | (simp; done) | (simp; omega)
        obtain ⟨m, hm1, hm2⟩ := doubleTable_lookup (tb := 2) (by decide) (T := [⟨2, w⟩, ⟨2, y⟩, ⟨2, x⟩, ⟨2, z⟩]) rfl (by simp)
        refine ⟨(2, [⟨2, w⟩, ⟨2, y⟩, ⟨2, x⟩, ⟨2, z⟩]), m, ?_, hm1, ?_⟩
        · rw [show (if [a, b, c, d].length ≤ 3 then [a, b, c, d].length
            else 4 + if depth.getD ([a, b, c, d].getD 0 0) 0 = 1 then 1 else 0) = 4 by
              rw [if_neg (by simp), List.getD_cons_zero, ea]; rfl, hsel]
          rfl
        · refine decodes_of_small hc (by decide) (hle 2 (by intro s hs; simp only [List.mem_cons, List.not_mem_nil, or_false] at hs; rcases hs with rfl | rfl | rfl | rfl <;> omega)) hm2 ?_
          rw [hL]
          intro i hi
          match i, hi with
          | 0, _ => simp [codeAt, rev15]
          | 1, _ => simp [codeAt, rev15]
          | 2, _ => simp [codeAt, rev15]
          | 3, _ => simp [codeAt, rev15]
    · have hcd : c ≠ d := by simp at hS; exact hS.2.2
      obtain ⟨s1, s2⟩ := swap2_spec hcd
      generalize hsw : swap2 c d = p at *
      have hL : sortedCode 15 depth = [(1, a), (2, b), (3, p.1), (3, p.2)] := by
        apply huniq
        · simp only [List.map_cons, List.map_nil, ea, eb, ec, ed]
          rcases s2 with ⟨e1, e2⟩ | ⟨e1, e2⟩
          · rw [e1, e2]
          · rw [e1, e2]; exact ((List.Perm.swap _ _ _).cons _).cons _
        · simp [LexLt, s1]
      obtain ⟨m, hm1, hm2⟩ := doubleTable_lookup (tb := 3) (by decide)
        (T := [⟨1, a⟩, ⟨2, b⟩, ⟨1, a⟩, ⟨3, p.1⟩, ⟨1, a⟩, ⟨2, b⟩, ⟨1, a⟩, ⟨3, p.2⟩]) rfl (by simp)
      refine ⟨_, m, ?_, hm1, ?_⟩
      · rw [show (if [a, b, c, d].length ≤ 3 then [a, b, c, d].length
            else 4 + if depth.getD ([a, b, c, d].getD 0 0) 0 = 1 then 1 else 0) = 5 by
              rw [if_neg (by simp), List.getD_cons_zero, ea]; rfl]
        simp [simpleTable, hsw]
      · refine decodes_of_small hc (by decide) (hle 3 (by intro s hs; simp only [List.mem_cons, List.not_mem_nil, or_false] at hs; rcases hs with rfl | rfl | rfl | rfl <;> omega)) hm2 ?_
        rw [hL]
        intro i hi
        match i, hi with
        | 0, _ => simp [codeAt, rev15]
        | 1, _ => simp [codeAt, rev15]
        | 2, _ => simp [codeAt, rev15]
        | 3, _ => simp [codeAt, rev15]
        | 4, _ => simp [codeAt, rev15]
        | 5, _ => simp [codeAt, rev15]
        | 6, _ => simp [codeAt, rev15]
        | 7, _ => simp [codeAt, rev15]

end Brunsli
