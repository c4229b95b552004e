import Verif.LutSize
import Mathlib.Data.List.Nodup
import Mathlib.Data.List.Perm.Basic
/-!
# Prefix codes: the encoder's words against the decoder's tables
-/

namespace Brunsli

/-! ## Encoder: `ConvertBitDepthsToSymbols` -/

/-- `kLut` of `ReverseBits` (c/enc/huffman_tree.cc:302-305). -/
def kLut : List Nat := [0x0, 0x8, 0x4, 0xc, 0x2, 0xa, 0x6, 0xe, 0x1, 0x9, 0x5, 0xd, 0x3, 0xb, 0x7, 0xf]

/-- The value of `retval` in `ReverseBits` after `k + 1` groups of 4 bits (c/enc/huffman_tree.cc:306-311). -/
def revGroups (bits : Nat) : Nat → Nat
  | 0 => kLut.getD (bits % 16) 0
  | k + 1 => revGroups bits k * 16 ||| kLut.getD (bits / 16 ^ (k + 1) % 16) 0

/-- `ReverseBits` (c/enc/huffman_tree.cc:301-314): the loop runs for `i = 4, 8, ... < num_bits`. -/
def reverseBits (numBits bits : Nat) : Nat :=
  revGroups bits ((numBits + 3) / 4 - 1) / 2 ^ ((4 - numBits % 4) % 4) % 65536

/-- `bl_count` (c/enc/huffman_tree.cc:324-330). -/
def blCount (depth : List Nat) (l : Nat) : Nat := if l = 0 then 0 else depth.countP (· = l)

/-- `next_code` before the last loop (c/enc/huffman_tree.cc:331-339). -/
def nextCode (depth : List Nat) : Nat → Nat
  | 0 => 0
  | i + 1 => (nextCode depth i + blCount depth i) * 2

/-- `bits[s]` after `ConvertBitDepthsToSymbols` (c/enc/huffman_tree.cc:318-345); `next_code[d]` has been
incremented once for each earlier symbol of the same depth.  The 16-bit types are made explicit. -/
def huffBits (depth : List Nat) (s : Nat) : Nat :=
  let d := depth.getD s 0
  reverseBits d ((nextCode depth d % 65536 + (depth.take s).countP (· = d)) % 65536)

/-- The bits written for symbol `s`: `WriteBits(depth[s], bits[s])`. -/
def huffWord (depth : List Nat) (s : Nat) : List Bool := bitsOf (depth.getD s 0) (huffBits depth s)

/-! ## Decoder -/

/-- `HuffmanDecodingData::ReadSymbol` (c/dec/huffman_decode.cc:246-261).  The reader pads with zeros; running
past the end of the input makes the reader unhealthy, which is checked later (here: rejected at once). -/
def readHuff (m : Mem) (root : Nat) : P Bool Nat := fun bs =>
  match lookup m root (ofBits (bs.take 15)) with
  | none => none
  | some (n, s) => if n ≤ bs.length then some (s, bs.drop n) else none

/-! ## Depth vectors -/

/-- Kraft sum of a depth vector (zero depth: no code). -/
def kraftLens (M : Nat) (depth : List Nat) : Nat := (depth.map fun l => if l = 0 then 0 else 2 ^ (M - l)).sum

/-- A complete prefix code with words of at most 15 bits, over an alphabet of at most 2^15 symbols. -/
structure Complete (depth : List Nat) : Prop where
  size : depth.length ≤ 2 ^ 15
  depth_le : ∀ l ∈ depth, l ≤ 15
  kraft : kraftLens 15 depth = 2 ^ 15

/-! ## Proofs: bit reversal -/

theorem kLut_rev : ∀ x < 16, kLut.getD x 0 = rev 4 x := by decide +kernel

theorem revGroups_rev (bits k : Nat) : revGroups bits k = rev (4 * k + 4) bits := by
  induction k with
  | zero =>
    rw [revGroups, kLut_rev _ (Nat.mod_lt _ (by decide))]
    exact rev_mod 4 bits
  | succ k ih =>
    rw [revGroups, ih, kLut_rev _ (Nat.mod_lt _ (by decide)), show (16 : Nat) = 2 ^ 4 by rfl, rev_mod,
      show 4 * (k + 1) + 4 = (4 * k + 4) + 4 by omega, rev_split 4 (4 * k + 4)]
    rw [← Nat.pow_mul, show 4 * (k + 1) = 4 * k + 4 by omega, Nat.mul_comm,
      ← Nat.two_pow_add_eq_or_of_lt (rev_lt 4 _), Nat.add_comm]

theorem reverseBits_rev {n : Nat} (hn : 1 ≤ n) (hn16 : n ≤ 16) (x : Nat) : reverseBits n x = rev n x := by
  unfold reverseBits
  rw [revGroups_rev]
  have h1 : 4 * ((n + 3) / 4 - 1) + 4 = n + (4 - n % 4) % 4 := by omega
  rw [h1, rev_div_low (Nat.le_add_left _ _), Nat.add_sub_cancel]
  apply Nat.mod_eq_of_lt
  have h2 : rev n x < 2 ^ n := rev_lt n x
  have h3 : 2 ^ n ≤ 2 ^ 16 := Nat.pow_le_pow_right (by decide) hn16
  omega

/-! ## Proofs: the sorted code -/

/-- The symbols of depth `l`, in order. -/
def symsOf (depth : List Nat) (l : Nat) : List Nat := (List.range depth.length).filter fun s => depth.getD s 0 = l

theorem sortedCode_eq (M : Nat) (depth : List Nat) :
    sortedCode M depth = (List.range' 1 M).flatMap fun l => (symsOf depth l).map fun s => (l, s) := rfl

theorem mem_sortedCode {M : Nat} {depth : List Nat} {p : Nat × Nat} :
    p ∈ sortedCode M depth ↔ (1 ≤ p.1 ∧ p.1 ≤ M) ∧ p.2 < depth.length ∧ depth.getD p.2 0 = p.1 := by
  rw [sortedCode_eq]
  simp only [List.mem_flatMap, List.mem_map, symsOf, List.mem_filter, List.mem_range, List.mem_range'_1,
    decide_eq_true_eq]
  constructor
  · rintro ⟨l, hl, s, ⟨h1, h2⟩, rfl⟩
    exact ⟨by omega, h1, h2⟩
  · rintro ⟨h1, h2, h3⟩
    exact ⟨p.1, by omega, p.2, ⟨h2, h3⟩, rfl⟩

theorem sortedCode_sorted (M : Nat) (depth : List Nat) : (sortedCode M depth).Pairwise fun p q => p.1 ≤ q.1 := by
  rw [sortedCode_eq, List.pairwise_flatMap]
  refine ⟨?_, ?_⟩
  · intro l _
    rw [List.pairwise_map]
    exact List.pairwise_of_forall (fun _ _ => Nat.le_refl _)
  · apply List.Pairwise.imp _ (List.pairwise_lt_range' (s := 1) (n := M))
    intro a b hab x hx y hy
    simp only [List.mem_map] at hx hy
    obtain ⟨_, _, rfl⟩ := hx
    obtain ⟨_, _, rfl⟩ := hy
    exact Nat.le_of_lt hab

theorem sortedCode_nodup (M : Nat) (depth : List Nat) : (sortedCode M depth).Nodup := by
  rw [sortedCode_eq, List.nodup_flatMap]
  refine ⟨?_, ?_⟩
  · intro l _
    refine List.Nodup.map (fun a b h => (Prod.mk.inj h).2) (List.Nodup.filter _ List.nodup_range)
  · apply List.Pairwise.imp _ (List.pairwise_lt_range' (s := 1) (n := M))
    intro a b hab x hx hy
    simp only [List.mem_map] at hx hy
    obtain ⟨_, _, rfl⟩ := hx
    obtain ⟨_, _, h⟩ := hy
    have := (Prod.mk.inj h).1
    omega

theorem kraft_eq_sum (M : Nat) (L : List (Nat × Nat)) : kraft M L = (L.map fun p => 2 ^ (M - p.1)).sum := by
  induction L with
  | nil => rfl
  | cons p L ih => simp [kraft, ih]

theorem sortedCode_perm {M : Nat} {depth : List Nat} (h : ∀ l ∈ depth, l ≤ M) :
    (sortedCode M depth).Perm
      (((List.range depth.length).filter fun s => depth.getD s 0 ≠ 0).map fun s => (depth.getD s 0, s)) := by
  rw [List.perm_ext_iff_of_nodup (sortedCode_nodup M depth)]
  · intro p
    rw [mem_sortedCode]
    simp only [List.mem_map, List.mem_filter, List.mem_range, decide_eq_true_eq]
    constructor
    · rintro ⟨h1, h2, h3⟩
      exact ⟨p.2, ⟨h2, by omega⟩, by rw [h3]⟩
    · rintro ⟨s, ⟨h1, h2⟩, rfl⟩
      refine ⟨⟨Nat.pos_of_ne_zero h2, ?_⟩, h1, rfl⟩
      apply h
      show depth.getD s 0 ∈ depth
      rw [List.getD_eq_getElem?_getD, List.getElem?_eq_getElem h1]
      exact List.getElem_mem h1
  · exact List.Nodup.map (fun a b h => (Prod.mk.inj h).2) (List.Nodup.filter _ List.nodup_range)

theorem sum_range_getD (f : Nat → Nat) (depth : List Nat) :
    ((List.range depth.length).map fun s => f (depth.getD s 0)).sum = (depth.map f).sum := by
  congr 1
  apply List.ext_getElem
  · simp
  · intro i h1 h2
    simp at h1
    simp [List.getD_eq_getElem?_getD, List.getElem?_eq_getElem h1]

theorem sum_filter_map (p : Nat → Bool) (f : Nat → Nat) (l : List Nat) :
    ((l.filter p).map f).sum = (l.map fun x => if p x then f x else 0).sum := by
  induction l with
  | nil => rfl
  | cons a l ih =>
    rw [List.filter_cons]
    by_cases h : p a <;> simp [h, ih]

theorem kraft_sortedCode {M : Nat} {depth : List Nat} (h : ∀ l ∈ depth, l ≤ M) :
    kraft M (sortedCode M depth) = kraftLens M depth := by
  rw [kraft_eq_sum, List.Perm.sum_nat (List.Perm.map _ (sortedCode_perm h)), List.map_map, sum_filter_map, kraftLens,
    ← sum_range_getD (fun l => if l = 0 then 0 else 2 ^ (M - l)) depth]
  congr 1
  apply List.map_congr_left
  intro s _
  by_cases h0 : depth.getD s 0 = 0 <;> simp

theorem sortedCode_length {M : Nat} {depth : List Nat} (h : ∀ l ∈ depth, l ≤ M) :
    (sortedCode M depth).length ≤ depth.length := by
  rw [(sortedCode_perm h).length_eq, List.length_map]
  exact Nat.le_trans (List.length_filter_le _ _) (by simp)

theorem sortedCode_ok {M : Nat} {depth : List Nat} (h : ∀ l ∈ depth, l ≤ M) (hk : kraftLens M depth ≤ 2 ^ M) :
    CodeOk M 0 (sortedCode M depth) where
  sorted := sortedCode_sorted M depth
  range p hp := (mem_sortedCode.mp hp).1
  dvd _ _ := Nat.dvd_zero _
  fits := by rw [kraft_sortedCode h]; omega

/-- A list sorted by length is its short part followed by its long part. -/
theorem sorted_split {L : List (Nat × Nat)} (h : L.Pairwise fun p q => p.1 ≤ q.1) (t : Nat) :
    L = (L.filter fun p => p.1 ≤ t) ++ (L.filter fun p => t < p.1) := by
  induction L with
  | nil => rfl
  | cons p L ih =>
    have hc := List.pairwise_cons.mp h
    have ihL := ih hc.2
    simp only [List.filter_cons]
    by_cases hp : p.1 ≤ t
    · simp only [hp, decide_true, if_true, show ¬ t < p.1 by omega, decide_false, Bool.false_eq_true, if_false,
        List.cons_append]
      exact congrArg _ ihL
    · have hnil : L.filter (fun p => decide (p.1 ≤ t)) = [] := by
        rw [List.filter_eq_nil_iff]
        intro q hq
        have := hc.1 q hq
        simp; omega
      rw [hnil] at ihL ⊢
      simp only [hp, show t < p.1 by omega, decide_true, if_true, decide_false, Bool.false_eq_true, if_false,
        List.nil_append] at ihL ⊢
      exact congrArg _ ihL

theorem CodeOk.split {M v : Nat} {A B : List (Nat × Nat)} (h : CodeOk M v (A ++ B)) :
    CodeOk M v A ∧ CodeOk M (v + kraft M A) B := by
  induction A generalizing v with
  | nil => exact ⟨⟨List.Pairwise.nil, by simp, by simp, by have := h.fits; simp [kraft] at *; omega⟩, by simpa [kraft] using h⟩
  | cons p A ih =>
    have ht := ih (v := v + 2 ^ (M - p.1)) (CodeOk.tail h)
    refine ⟨⟨?_, ?_, ?_, ?_⟩, ?_⟩
    · exact (List.pairwise_append.mp h.sorted).1
    · intro q hq; exact h.range q (List.mem_append_left _ hq)
    · intro q hq; exact h.dvd q (List.mem_append_left _ hq)
    · have := h.fits; rw [kraft_append] at this; omega
    · have := ht.2
      rw [Nat.add_assoc] at this
      exact this

theorem foldl_max_spec (l : List Nat) : ∀ a, (∀ x ∈ l, x ≤ l.foldl max a) ∧ a ≤ l.foldl max a ∧
    (l.foldl max a = a ∨ l.foldl max a ∈ l) := by
  induction l with
  | nil => intro a; simp
  | cons b l ih =>
    intro a
    obtain ⟨h1, h2, h3⟩ := ih (max a b)
    refine ⟨?_, ?_, ?_⟩
    · intro x hx
      rw [List.mem_cons] at hx
      rcases hx with rfl | hx
      · exact Nat.le_trans (Nat.le_max_right _ _) h2
      · exact h1 x hx
    · exact Nat.le_trans (Nat.le_max_left _ _) h2
    · simp only [List.foldl_cons]
      rcases h3 with h3 | h3
      · rw [h3]
        rcases Nat.le_total a b with h | h
        · right; rw [Nat.max_eq_right h]; exact List.mem_cons_self
        · left; exact Nat.max_eq_left h
      · right; exact List.mem_cons_of_mem _ h3

theorem mod_block {M t : Nat} (h : t ≤ M) (x : Nat) : rev M x / 2 ^ (M - t) = rev M (x % 2 ^ t) / 2 ^ (M - t) := by
  have h1 := rev_div_low (M := M) (l := M - t) (by omega) x
  have h2 := rev_div_low (M := M) (l := M - t) (by omega) (x % 2 ^ t)
  rw [show M - (M - t) = t by omega] at h1 h2
  rw [h1, h2, rev_mod]

theorem buildCode_spec {M root cap : Nat} {L : List (Nat × Nat)} (hr1 : 1 ≤ root) (hroot : root ≤ M) (hok : CodeOk M 0 L)
    (hfull : kraft M L = 2 ^ M) (hcap0 : 2 ^ root ≤ cap) (h160 : 2 ^ root ≤ 65535)
    (hcap : ∀ p ∈ L, root < p.1 → 2 ^ root + L.length + 2 ^ (M - root) + root ≤ cap + M + 1 ∧
      2 ^ root + L.length + 2 ^ (M - root) + root ≤ 65535 + M + 1) :
    ∃ m total, buildCode cap M root L = some (m, total) ∧ (2 ^ root ≤ total ∧ total ≤ cap ∧ ∀ i, total ≤ i → m i = none) ∧
      ∀ W, lookup m root W = codeAt M 0 L (rev M W) := by
  unfold buildCode
  simp only
  generalize htb : (if root > maxLength L then maxLength L else root) = tb
  have hmax := foldl_max_spec (L.map Prod.fst) 1
  have htbr : tb ≤ root := by rw [← htb]; split <;> omega
  have hsplit := sorted_split hok.sorted tb
  have hsp := CodeOk.split (by rw [← hsplit]; exact hok :
    CodeOk M 0 ((L.filter fun p => p.1 ≤ tb) ++ (L.filter fun p => tb < p.1)))
  have hA : ∀ p ∈ L.filter (fun p => decide (p.1 ≤ tb)), p.1 ≤ tb := by
    intro p hp; simpa using (List.mem_filter.mp hp).2
  have hB : ∀ p ∈ L.filter (fun p => decide (tb < p.1)), root < p.1 := by
    intro p hp
    have h1 := (List.mem_filter.mp hp).1
    have h2 : tb < p.1 := by simpa using (List.mem_filter.mp hp).2
    have h3 := hmax.1 p.1 (List.mem_map_of_mem h1)
    rw [← htb] at h2
    unfold maxLength at h2
    split at h2 <;> omega
  have hBlen : (L.filter (fun p => decide (tb < p.1))).length ≤ L.length := List.length_filter_le _ _
  have hBmem : ∀ p ∈ L.filter (fun p => decide (tb < p.1)), p ∈ L := fun p hp => (List.mem_filter.mp hp).1
  have hk : kraft M (L.filter fun p => p.1 ≤ tb) + kraft M (L.filter fun p => tb < p.1) = 2 ^ M := by
    rw [← kraft_append, ← hsplit, hfull]
  have hcode : ∀ x, codeAt M 0 L x = (codeAt M 0 (L.filter fun p => p.1 ≤ tb) x).or
      (codeAt M (0 + kraft M (L.filter fun p => p.1 ≤ tb)) (L.filter fun p => tb < p.1) x) := fun x => by
    rw [← codeAt_append, ← hsplit]
  generalize hgA : L.filter (fun p => decide (p.1 ≤ tb)) = A at *
  generalize hgB : L.filter (fun p => decide (tb < p.1)) = B at *
  rw [Nat.zero_add] at hsp
  have hcaptb : 2 ^ tb ≤ cap := Nat.le_trans (Nat.pow_le_pow_right (by decide) htbr) hcap0
  obtain ⟨m1, key, e1, e2, e3, e4⟩ := rootFill_spec (M := M) hcaptb A 0 (fun _ => none) 0 hsp.1 hA
    (fun _ => (rev_zero M).symm)
  rw [Nat.zero_add] at e2
  obtain ⟨m2, d1, d2, d3⟩ := doubling_spec cap (root - tb) tb m1 (by
    rw [show tb + (root - tb) = root by omega]; exact hcap0)
  rw [show tb + (root - tb) = root by omega] at d2 d3
  -- content of the root table
  have hroottab : ∀ idx < 2 ^ root, m2 idx = (codeAt M 0 A (rev M idx)).map entOf := by
    intro idx hidx
    rw [d2 idx hidx, e4 _ (Nat.mod_lt _ (Nat.two_pow_pos _)), Option.or_none]
    congr 1
    apply codeAt_block hsp.1 hA (by omega)
    have h1 := rev_div_low (M := M) (l := M - tb) (by omega) idx
    have h2 := rev_div_low (M := M) (l := M - tb) (by omega) (idx % 2 ^ tb)
    rw [show M - (M - tb) = tb by omega] at h1 h2
    rw [h1, h2, rev_mod]
  have hrootW : ∀ W, m2 (W % 2 ^ root) = (codeAt M 0 A (rev M W)).map entOf := by
    intro W
    rw [hroottab _ (Nat.mod_lt _ (Nat.two_pow_pos _))]
    congr 1
    apply codeAt_block hsp.1 (fun p hp => Nat.le_trans (hA p hp) htbr) hroot
    have h1 := rev_div_low (M := M) (l := M - root) (by omega) W
    have h2 := rev_div_low (M := M) (l := M - root) (by omega) (W % 2 ^ root)
    rw [show M - (M - root) = root by omega] at h1 h2
    rw [h1, h2, rev_mod]
  have hlk : ∀ W p, codeAt M 0 A (rev M W) = some p → lookup m2 root W = some p := by
    intro W p hp
    have h1 := hA p (codeAt_mem hp)
    unfold lookup
    rw [hrootW, hp]
    simp only [Option.map_some, entOf]
    rw [if_neg (by omega)]
  have hsub : SubInv M root (kraft M A) B ⟨m2, key, 0, 2 ^ root, 0, none⟩ := by
    refine ⟨e2, by simp, Or.inl ⟨rfl, ?_⟩, ?_⟩
    · -- the root codes fill whole buckets
      have : ∀ A : List (Nat × Nat), (∀ p ∈ A, p.1 ≤ root) → 2 ^ (M - root) ∣ kraft M A := by
        intro A
        induction A with
        | nil => intro _; exact Nat.dvd_zero _
        | cons p A ih =>
          intro h
          refine Nat.dvd_add (Nat.pow_dvd_pow 2 ?_) (ih fun q hq => h q (List.mem_cons_of_mem _ hq))
          have := h p List.mem_cons_self
          omega
      exact this A fun p hp => Nat.le_trans (hA p hp) htbr
    · intro W hW
      obtain ⟨p, hp⟩ := codeAt_exists (M := M) (v := 0) (L := A) (Nat.zero_le (rev M W)) (by omega)
      refine ⟨entOf p, by show m2 (W % 2 ^ root) = _; rw [hrootW, hp]; rfl, ?_⟩
      intro h
      have := hA p (codeAt_mem hp)
      simp only [entOf] at h
      omega
  have htotal : subTotal M root key (2 ^ root) none B ≤ 2 ^ root ∨
      subTotal M root key (2 ^ root) none B + 2 + M ≤ 2 ^ root + L.length + 2 ^ (M - root) + root + 1 ∧
        ∃ p ∈ L, root < p.1 := by
    cases B with
    | nil => exact Or.inl (Nat.le_refl _)
    | cons q B =>
      right
      have hq := hB q List.mem_cons_self
      have hqM := hsp.2.range q List.mem_cons_self
      have hbnd := (subTotal_bound (M := M) hroot (q :: B) (kraft M A) key (2 ^ root) hsp.2 hk hB e2).2 q B rfl none
        (by
          rcases hsub.cur with ⟨_, h⟩ | ⟨Bk, h⟩
          · exact h
          · have := h.low; simp at this) (by simp)
      have hgap := two_pow_gap (a := 1) (b := q.1 - root) (by omega)
      refine ⟨?_, q, hBmem q List.mem_cons_self, hq⟩
      omega
  have hT : subTotal M root key (2 ^ root) none B ≤ cap ∧ subTotal M root key (2 ^ root) none B ≤ 65535 := by
    rcases htotal with h | ⟨h1, p, h2, h3⟩
    · omega
    · have := hcap p h2 h3
      omega
  have hsp2 := hsp.2
  obtain ⟨st', f1, f2, f3, f4⟩ := subFill_spec (cap := subTotal M root key (2 ^ root) none B) hroot B (kraft M A)
    ⟨m2, key, 0, 2 ^ root, 0, none⟩ hsp2 hB hsub (by simp) (by simpa using hT.2)
  have hge := subTotal_ge M root B key (2 ^ root) none
  have htbp : 2 ^ tb ≤ 2 ^ root := Nat.pow_le_pow_right (by decide) htbr
  obtain ⟨f1, f5⟩ := subFill_small hT.1 B _ _ f1 (by
    intro i hi
    show m2 i = none
    rw [d3 i (by omega), e3 i (by omega)])
  have f2' : st'.off + st'.size = subTotal M root key (2 ^ root) none B := by rw [f2]; simp
  refine ⟨st'.m, st'.off + st'.size, by simp only [e1, d1, f1], ⟨by rw [f2']; exact hge, by rw [f2']; exact hT.1, by rw [f2']; exact f5⟩, ?_⟩
  intro W
  rw [hcode, Nat.zero_add]
  cases ha : codeAt M 0 A (rev M W) with
  | some p =>
    rw [f3 W (by have := codeAt_ge ha; omega), hlk W p ha]; rfl
  | none =>
    have hge : kraft M A ≤ rev M W := by
      apply Nat.le_of_not_lt
      intro hlt
      obtain ⟨p, hp⟩ := codeAt_exists (M := M) (v := 0) (L := A) (Nat.zero_le (rev M W)) (by omega)
      rw [hp] at ha; simp at ha
    obtain ⟨p, hp⟩ := codeAt_exists (M := M) (L := B) hge (by have := rev_lt M W; omega)
    rw [f4 W p hp, hp]; rfl

/-- **The decoder's table implements canonical decoding**, in a buffer of the size the decoder reserves. -/
theorem buildTable_spec {root : Nat} (hr1 : 1 ≤ root) (hroot : root ≤ 14) {depth : List Nat} (hc : Complete depth) {cap : Nat}
    (hcap : (∀ l ∈ depth, l ≤ root) ∧ 2 ^ root ≤ cap ∨ 2 ^ root + depth.length + 2 ^ (15 - root) + root ≤ cap + 16) :
    ∃ m total, buildTable cap root depth = some (m, total) ∧ (2 ^ root ≤ total ∧ total ≤ cap ∧ ∀ i, total ≤ i → m i = none) ∧
      ∀ W, lookup m root W = codeAt 15 0 (sortedCode 15 depth) (rev 15 W) := by
  obtain ⟨hsize, hle, hkraft⟩ := hc
  have hok := sortedCode_ok hle (Nat.le_of_eq hkraft)
  have hfull : kraft 15 (sortedCode 15 depth) = 2 ^ 15 := by rw [kraft_sortedCode hle, hkraft]
  have hlen := sortedCode_length hle
  have hmem : ∀ p ∈ sortedCode 15 depth, p.1 ∈ depth := by
    intro p hp
    obtain ⟨_, h2, h3⟩ := mem_sortedCode.mp hp
    rw [← h3, List.getD_eq_getElem?_getD, List.getElem?_eq_getElem h2]
    exact List.getElem_mem h2
  have hcap0 : 2 ^ root ≤ cap := by
    rcases hcap with h | h
    · exact h.2
    · have := two_pow_gap (a := 0) (b := 15 - root) (by omega)
      omega
  have hr4 : 2 ^ root + 2 ^ (15 - root) ≤ 2 ^ 14 + 2 ∧ 2 ^ root ≤ 65535 := by
    have : ∀ r ≤ 14, 1 ≤ r → 2 ^ r + 2 ^ (15 - r) ≤ 2 ^ 14 + 2 ∧ 2 ^ r ≤ 65535 := by decide
    exact this root hroot hr1
  have hbody := buildCode_spec (cap := cap) hr1 (by omega : root ≤ 15) hok hfull hcap0 hr4.2 (by
    intro p hp hpr
    rcases hcap with h | h
    · have := h.1 p.1 (hmem p hp); omega
    · omega)
  unfold buildTable
  rw [if_neg (by omega)]
  generalize sortedCode 15 depth = L at *
  cases L with
  | nil => simp [kraft] at hfull
  | cons p L =>
    cases L with
    | nil =>
      have := hok.range p List.mem_cons_self
      have h2 : 2 ^ (15 - p.1) < 2 ^ 15 := Nat.pow_lt_pow_right (by decide) (by omega)
      simp only [kraft] at hfull
      omega
    | cons q L => exact hbody

/-! ## Proofs: the encoder's words are the canonical ones -/

theorem codeAt_mid {M v x : Nat} {A B : List (Nat × Nat)} {p : Nat × Nat} (h1 : v + kraft M A ≤ x)
    (h2 : x < v + kraft M A + 2 ^ (M - p.1)) : codeAt M v (A ++ p :: B) x = some p := by
  rw [codeAt_append]
  cases ha : codeAt M v A x with
  | some q => have := codeAt_ge ha; omega
  | none => simp only [codeAt, Option.none_or]; rw [if_pos ⟨h1, h2⟩]

theorem kraft_const (M l : Nat) (S : List Nat) : kraft M (S.map fun s => (l, s)) = S.length * 2 ^ (M - l) := by
  induction S with
  | nil => simp [kraft]
  | cons a S ih => simp only [List.map_cons, kraft, ih, List.length_cons, Nat.add_mul, Nat.one_mul]; omega

theorem filter_range_length (depth : List Nat) (l : Nat) : ∀ n, n ≤ depth.length →
    ((List.range n).filter fun s => decide (depth.getD s 0 = l)).length = (depth.take n).countP (· = l) := by
  intro n
  induction n with
  | zero => intro _; simp
  | succ n ih =>
    intro hn
    have hlt : n < depth.length := by omega
    rw [List.range_succ, List.filter_append, List.length_append, ih (by omega), List.take_add_one, List.countP_append,
      List.getElem?_eq_getElem hlt, List.filter_singleton, List.getD_eq_getElem?_getD, List.getElem?_eq_getElem hlt]
    by_cases h : depth[n] = l <;> simp [h]

theorem symsOf_length (depth : List Nat) (l : Nat) : (symsOf depth l).length = depth.countP (· = l) := by
  have := filter_range_length depth l depth.length (Nat.le_refl _)
  rwa [List.take_length] at this

theorem kraft_shorter {M : Nat} (depth : List Nat) : ∀ k, k + 1 ≤ M →
    kraft M ((List.range' 1 k).flatMap fun l => (symsOf depth l).map fun s => (l, s)) =
      nextCode depth (k + 1) * 2 ^ (M - (k + 1)) := by
  intro k
  induction k with
  | zero => intro _; simp [kraft, nextCode, blCount]
  | succ k ih =>
    intro hk
    rw [show List.range' 1 (k + 1) = List.range' 1 k ++ [k + 1] by
      rw [List.range'_1_concat, Nat.add_comm 1 k], List.flatMap_append, kraft_append, ih (by omega)]
    simp only [List.flatMap_cons, List.flatMap_nil, List.append_nil]
    rw [kraft_const, symsOf_length, ← Nat.add_mul, show nextCode depth (k + 1 + 1) =
      (nextCode depth (k + 1) + blCount depth (k + 1)) * 2 by rfl, Nat.mul_assoc, ← Nat.pow_succ']
    congr 2
    omega

theorem symsOf_split {depth : List Nat} {s : Nat} (hs : s < depth.length) :
    symsOf depth (depth.getD s 0) = ((List.range s).filter fun t => depth.getD t 0 = depth.getD s 0) ++
      s :: ((List.range' (s + 1) (depth.length - (s + 1))).filter fun t => depth.getD t 0 = depth.getD s 0) := by
  unfold symsOf
  have : List.range depth.length = List.range s ++ s :: List.range' (s + 1) (depth.length - (s + 1)) := by
    have h := List.range'_append_1 (s := 0) (m := s) (n := depth.length - (s + 1) + 1)
    rw [Nat.zero_add, List.range'_succ] at h
    rw [List.range_eq_range', List.range_eq_range', h]
    congr 1; omega
  rw [this, List.filter_append, List.filter_cons, if_pos (by simp)]

/-- Where the word of `s` starts. -/
theorem sortedCode_split {M : Nat} {depth : List Nat} {s : Nat} (hs : s < depth.length) (h1 : 1 ≤ depth.getD s 0)
    (hM : depth.getD s 0 ≤ M) : ∃ A B, sortedCode M depth = A ++ (depth.getD s 0, s) :: B ∧
      kraft M A = (nextCode depth (depth.getD s 0) + (depth.take s).countP (· = depth.getD s 0)) * 2 ^ (M - depth.getD s 0) := by
  have hsp := symsOf_split hs
  have hfr := filter_range_length depth (depth.getD s 0) s (by omega)
  generalize depth.getD s 0 = d at *
  have hr : List.range' 1 M = List.range' 1 (d - 1) ++ d :: List.range' (d + 1) (M - d) := by
    have e : d :: List.range' (d + 1) (M - d) = List.range' (1 + (d - 1)) (M - d + 1) := by
      rw [List.range'_succ, show 1 + (d - 1) = d by omega]
    rw [e, List.range'_append_1]
    congr 1; omega
  rw [sortedCode_eq, hr, List.flatMap_append, List.flatMap_cons, hsp, List.map_append, List.map_cons]
  refine ⟨((List.range' 1 (d - 1)).flatMap fun l => (symsOf depth l).map fun s => (l, s)) ++
      ((List.range s).filter fun t => depth.getD t 0 = d).map fun s => (d, s),
    ((List.range' (s + 1) (depth.length - (s + 1))).filter fun t => depth.getD t 0 = d).map (fun s => (d, s)) ++
      (List.range' (d + 1) (M - d)).flatMap fun l => (symsOf depth l).map fun s => (l, s), ?_, ?_⟩
  · simp only [List.append_assoc, List.cons_append]
  · rw [kraft_append, kraft_shorter depth (d - 1) (by omega), kraft_const, hfr, Nat.sub_add_cancel h1, ← Nat.add_mul]

theorem getD_mem {depth : List Nat} {s : Nat} (hs : s < depth.length) : depth.getD s 0 ∈ depth := by
  rw [List.getD_eq_getElem?_getD, List.getElem?_eq_getElem hs]; exact List.getElem_mem hs

/-- Every window that starts with the encoder's word for `s` is decoded as `s`. -/
theorem codeAt_huff {depth : List Nat} (hc : Complete depth) {s : Nat} (hs : s < depth.length) (h1 : 1 ≤ depth.getD s 0)
    {W : Nat} (hW : W % 2 ^ depth.getD s 0 = huffBits depth s) :
    codeAt 15 0 (sortedCode 15 depth) (rev 15 W) = some (depth.getD s 0, s) := by
  have hM := hc.depth_le _ (getD_mem hs)
  obtain ⟨A, B, e1, e2⟩ := sortedCode_split hs h1 hM
  have hok := sortedCode_ok hc.depth_le (Nat.le_of_eq hc.kraft)
  rw [e1] at hok ⊢
  have hok2 := (CodeOk.split hok).2
  have hv := hok2.lt
  have hd := hok2.dvd _ List.mem_cons_self
  rw [Nat.zero_add] at hv hd
  have hposd := Nat.two_pow_pos (15 - depth.getD s 0)
  have hcode : nextCode depth (depth.getD s 0) + (depth.take s).countP (· = depth.getD s 0) < 65536 := by
    rw [e2] at hv
    have := Nat.le_mul_of_pos_right (nextCode depth (depth.getD s 0) + (depth.take s).countP (· = depth.getD s 0)) hposd
    omega
  have hb : huffBits depth s = rev 15 (kraft 15 A) := by
    unfold huffBits
    simp only
    rw [Nat.mod_add_mod, Nat.mod_eq_of_lt hcode, reverseBits_rev h1 (by omega), rev_aligned hM hd, e2,
      Nat.mul_div_cancel _ hposd]
  rw [hb] at hW
  have := (mod_eq_rev_iff hM hd hv).mp hW
  apply codeAt_mid <;> simp only [Nat.zero_add] <;> omega

theorem huffBits_lt {depth : List Nat} (hc : Complete depth) {s : Nat} (hs : s < depth.length) (h1 : 1 ≤ depth.getD s 0) :
    huffBits depth s < 2 ^ depth.getD s 0 := by
  unfold huffBits
  simp only
  have := hc.depth_le _ (getD_mem hs)
  rw [reverseBits_rev h1 (by omega)]
  exact rev_lt _ _

/-- **A symbol written with the encoder's word is read back**, provided the table implements canonical decoding. -/
theorem readHuff_reads {depth : List Nat} (hc : Complete depth) {m : Mem} {root : Nat}
    (hm : ∀ W, lookup m root W = codeAt 15 0 (sortedCode 15 depth) (rev 15 W)) {s : Nat} (hs : s < depth.length)
    (h1 : 1 ≤ depth.getD s 0) : P.Reads (readHuff m root) (huffWord depth s) s := by
  intro rest
  unfold readHuff
  have hlen : (huffWord depth s).length = depth.getD s 0 := bitsOf_length _ _
  have hM := hc.depth_le _ (getD_mem hs)
  have hW : ofBits ((huffWord depth s ++ rest).take 15) % 2 ^ depth.getD s 0 = huffBits depth s := by
    rw [List.take_append, ofBits_append, List.take_of_length_le (by omega), hlen, Nat.add_mul_mod_self_left]
    unfold huffWord
    rw [ofBits_bitsOf_lt (huffBits_lt hc hs h1), Nat.mod_eq_of_lt (huffBits_lt hc hs h1)]
  rw [hm, codeAt_huff hc hs h1 hW]
  simp only
  rw [if_pos (by rw [List.length_append, hlen]; omega), ← hlen, List.drop_left]

end Brunsli
