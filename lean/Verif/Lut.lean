import Verif.Canon
/-!
# Two-level lookup tables (c/dec/huffman_table.cc)
-/

namespace Brunsli

/-- `HuffmanCode` (c/dec/huffman_table.h): number of bits, and symbol or table offset. -/
structure Ent where
  bits : Nat
  value : Nat
deriving DecidableEq, Repr

/-- Table memory; `none`: never written. -/
abbrev Mem := Nat → Option Ent

/-- A store into a buffer of `cap` entries; `none`: out of bounds. -/
def wr (cap : Nat) (m : Mem) (i : Nat) (e : Ent) : Option Mem :=
  if i < cap then some (fun x => if x = i then some e else m x) else none

/-- `ReplicateValue` (c/dec/huffman_table.cc:29-36): stores `e` at `base + j * step`, `j < n`,
from the last to the first. -/
def fill (cap : Nat) (m : Mem) (base step : Nat) : Nat → Ent → Option Mem
  | 0, _ => some m
  | n + 1, e =>
    match wr cap m (base + n * step) e with
    | none => none
    | some m => fill cap m base step n e

/-- `GetNextKey` (c/dec/huffman_table.cc:20-26); the argument `n` is `log2 step + 1`.  When all bits are
ones `step` becomes 0 and the key is returned unchanged. -/
def nextKey (key : Nat) : Nat → Nat
  | 0 => key
  | n + 1 => if key / 2 ^ n % 2 = 1 then nextKey key n else key % 2 ^ n + 2 ^ n

/-- `NextTableBitSize` (c/dec/huffman_table.cc:41-51; the same function with 16 bits is in
c/enc/jpeg_huffman_decode.cc:15-24); `cnt` is the histogram of remaining lengths. -/
def nextTableBits (maxBits root : Nat) (cnt : Nat → Nat) (len left : Nat) : Nat :=
  if len < maxBits then
    if left ≤ cnt len then len - root
    else nextTableBits maxBits root cnt (len + 1) ((left - cnt len) * 2)
  else len - root
termination_by maxBits - len

/-- Histogram of the lengths of the remaining symbols. -/
def lenCount (L : List (Nat × Nat)) (l : Nat) : Nat := (L.filter fun p => p.1 = l).length

/-- Root table loop (c/dec/huffman_table.cc:118-130), over the symbols with at most `tb` bits in sorted order. -/
def rootFill (cap tb : Nat) : Mem → Nat → List (Nat × Nat) → Option (Mem × Nat)
  | m, key, [] => some (m, key)
  | m, key, p :: L =>
    match fill cap m key (2 ^ p.1) (2 ^ tb / 2 ^ p.1) ⟨p.1, p.2⟩ with
    | none => none
    | some m => rootFill cap tb m (nextKey key p.1) L

/-- The `memcpy` doubling loop (c/dec/huffman_table.cc:134-137): `k` doublings from size `2^tb`. -/
def doubling (cap tb : Nat) (m : Mem) : Nat → Option Mem
  | 0 => some m
  | k + 1 =>
    if 2 ^ (tb + 1) ≤ cap then
      doubling cap (tb + 1) (fun x => if 2 ^ tb ≤ x ∧ x < 2 ^ (tb + 1) then m (x - 2 ^ tb) else m x) k
    else none

/-- State of the second-level loop: memory, `key`, `table - root_table`, `table_size`, `table_bits`, `low`
(`none` for the initial -1).  `total_size` is `off + size` throughout. -/
structure Sub where
  m : Mem
  key : Nat
  off : Nat
  size : Nat
  tb : Nat
  low : Option Nat

/-- Opening a new second-level table if needed (c/dec/huffman_table.cc:144-153).  The stored offset is cast to
16 bits. -/
def openSub (cap maxBits root : Nat) (cnt : Nat → Nat) (len : Nat) (st : Sub) : Option Sub :=
  if st.low = some (st.key % 2 ^ root) then some st
  else
    let off := st.off + st.size
    let tb := nextTableBits maxBits root cnt len (2 ^ (len - root))
    let low := st.key % 2 ^ root
    match wr cap st.m low ⟨tb + root, (off - low) % 65536⟩ with
    | none => none
    | some m => some ⟨m, st.key, off, 2 ^ tb, tb, some low⟩

/-- The second-level loop (c/dec/huffman_table.cc:142-159). -/
def subFill (cap maxBits root : Nat) : Sub → List (Nat × Nat) → Option Sub
  | st, [] => some st
  | st, p :: L =>
    match openSub cap maxBits root (lenCount (p :: L)) p.1 st with
    | none => none
    | some st =>
      match fill cap st.m (st.off + st.key / 2 ^ root) (2 ^ (p.1 - root)) (st.size / 2 ^ (p.1 - root))
          ⟨p.1 - root, p.2⟩ with
      | none => none
      | some m => subFill cap maxBits root { st with m := m, key := nextKey st.key p.1 } L

/-- The symbols with a code, sorted by length and then by value (counting sort, c/dec/huffman_table.cc:76-95). -/
def sortedCode (maxBits : Nat) (lens : List Nat) : List (Nat × Nat) :=
  (List.range' 1 maxBits).flatMap fun l =>
    ((List.range lens.length).filter fun s => lens.getD s 0 = l).map fun s => (l, s)

/-- `max_length` (c/dec/huffman_table.cc:70,80-86). -/
def maxLength (L : List (Nat × Nat)) : Nat := (L.map Prod.fst).foldl max 1

/-- The table construction after the counting sort (c/dec/huffman_table.cc:110-161), for codes of at most
`M` bits; in the C++ code `M` is `kMaxHuffmanBits` = 15. -/
def buildCode (cap M root : Nat) (L : List (Nat × Nat)) : Option (Mem × Nat) :=
  let tb := if root > maxLength L then maxLength L else root
  match rootFill cap tb (fun _ => none) 0 (L.filter fun p => p.1 ≤ tb) with
  | none => none
  | some (m, key) =>
    match doubling cap tb m (root - tb) with
    | none => none
    | some m =>
      match subFill cap M root ⟨m, key, 0, 2 ^ root, 0, none⟩ (L.filter fun p => tb < p.1) with
      | none => none
      | some st => some (st.m, st.off + st.size)

/-- `BuildHuffmanTable` (c/dec/huffman_table.cc:53-162) into a buffer of `cap` entries; the result is the
memory and the total size. -/
def buildTable (cap root : Nat) (lens : List Nat) : Option (Mem × Nat) :=
  if lens.length > 2 ^ 15 then none
  else
    match sortedCode 15 lens with
    | [p] =>
      match fill cap (fun _ => none) 0 1 (2 ^ root) ⟨0, p.2⟩ with
      | none => none
      | some m => some (m, 2 ^ root)
    | L => buildCode cap 15 root L

/-- Two-level lookup with the window `W`, first bit least significant (c/dec/huffman_decode.cc:246-260). -/
def lookup (m : Mem) (root W : Nat) : Option (Nat × Nat) :=
  match m (W % 2 ^ root) with
  | none => none
  | some e =>
    if root < e.bits then
      match m (W % 2 ^ root + e.value + W / 2 ^ root % 2 ^ (e.bits - root)) with
      | none => none
      | some e => some (root + e.bits, e.value)
    else some (e.bits, e.value)

/-! ## Basic lemmas -/

theorem fill_spec (cap : Nat) (base step : Nat) (e : Ent) (n : Nat) : ∀ m : Mem, (∀ j < n, base + j * step < cap) →
    ∃ m', fill cap m base step n e = some m' ∧
      ∀ x, m' x = if ∃ j < n, x = base + j * step then some e else m x := by
  induction n with
  | zero => intro m _; exact ⟨m, rfl, fun x => by simp⟩
  | succ n ih =>
    intro m h
    obtain ⟨m', h1, h2⟩ := ih (fun x => if x = base + n * step then some e else m x) (fun j hj => h j (by omega))
    refine ⟨m', ?_, ?_⟩
    · simp only [fill, wr, if_pos (h n (by omega))]; exact h1
    · intro x
      rw [h2 x]
      by_cases hx : ∃ j < n, x = base + j * step
      · obtain ⟨j, hj, hxj⟩ := hx
        rw [if_pos ⟨j, hj, hxj⟩, if_pos ⟨j, by omega, hxj⟩]
      · rw [if_neg hx]
        by_cases hx2 : x = base + n * step
        · rw [if_pos hx2, if_pos ⟨n, by omega, hx2⟩]
        · rw [if_neg hx2, if_neg]
          rintro ⟨j, hj, hxj⟩
          by_cases hjn : j = n
          · subst hjn; exact hx2 hxj
          · exact hx ⟨j, by omega, hxj⟩

theorem rev_succ (n c : Nat) : rev (n + 1) c = rev n (c / 2) + 2 ^ n * (c % 2) := by
  have := rev_split n 1 c
  rw [Nat.add_comm 1 n] at this
  rw [this]
  have h1 : rev 1 c = c % 2 := by
    simp only [rev, bitsOf, List.reverse_cons, List.reverse_nil, List.nil_append, ofBits]
    rcases Nat.mod_two_eq_zero_or_one c with h | h <;> simp [h]
  rw [h1, Nat.pow_one]

theorem nextKey_rev (n : Nat) : ∀ key c, c + 1 < 2 ^ n → key % 2 ^ n = rev n c → nextKey key n = rev n (c + 1) := by
  induction n with
  | zero => intro key c h; simp at h
  | succ n ih =>
    intro key c hc hk
    rw [rev_succ] at hk
    have hpow : 2 ^ (n + 1) = 2 ^ n * 2 := Nat.pow_succ 2 n
    have hpos := Nat.two_pow_pos n
    have hr := rev_lt n (c / 2)
    have e1 : key % 2 ^ n = rev n (c / 2) := by
      have := congrArg (· % 2 ^ n) hk
      simp only [Nat.add_mul_mod_self_left, Nat.mod_eq_of_lt hr] at this
      rwa [Nat.mod_mod_of_dvd _ ⟨2, hpow⟩] at this
    have e2 : key / 2 ^ n % 2 = c % 2 := by
      have := congrArg (· / 2 ^ n) hk
      simp only [Nat.add_mul_div_left _ _ hpos, Nat.div_eq_of_lt hr, Nat.zero_add] at this
      rwa [hpow, Nat.mod_mul_right_div_self] at this
    rw [nextKey, e2, rev_succ]
    rcases Nat.mod_two_eq_zero_or_one c with h | h
    · rw [if_neg (by omega), e1]
      have a1 : (c + 1) / 2 = c / 2 := by omega
      have a2 : (c + 1) % 2 = 1 := by omega
      rw [a1, a2, Nat.mul_one]
    · rw [if_pos h]
      have a1 : (c + 1) / 2 = c / 2 + 1 := by omega
      have a2 : (c + 1) % 2 = 0 := by omega
      rw [a1, a2, ih key (c / 2) (by omega) e1]; simp

/-- The key follows the canonical code. -/
theorem nextKey_step {M l v : Nat} (hl : l ≤ M) (hd : 2 ^ (M - l) ∣ v) (hv : v + 2 ^ (M - l) < 2 ^ M) :
    nextKey (rev M v) l = rev M (v + 2 ^ (M - l)) := by
  have hpos := Nat.two_pow_pos (M - l)
  have hMl : 2 ^ M = 2 ^ (M - l) * 2 ^ l := by rw [← Nat.pow_add]; congr 1; omega
  rw [rev_aligned hl hd, rev_aligned hl (Nat.dvd_add hd (Nat.dvd_refl _))]
  obtain ⟨c, rfl⟩ := hd
  rw [Nat.mul_div_cancel_left _ hpos]
  have e : (2 ^ (M - l) * c + 2 ^ (M - l)) / 2 ^ (M - l) = c + 1 := by
    rw [Nat.add_div_right _ hpos, Nat.mul_div_cancel_left _ hpos]
  rw [e]
  apply nextKey_rev
  · rw [hMl, ← Nat.mul_succ] at hv
    exact Nat.lt_of_mul_lt_mul_left hv
  · exact Nat.mod_eq_of_lt (rev_lt _ _)

/-- The positions written by `ReplicateValue`. -/
theorem fill_positions {key l tb x : Nat} (hk : key < 2 ^ l) (hl : l ≤ tb) :
    (∃ j < 2 ^ tb / 2 ^ l, x = key + j * 2 ^ l) ↔ x < 2 ^ tb ∧ x % 2 ^ l = key := by
  have hpos := Nat.two_pow_pos l
  have e : 2 ^ tb = 2 ^ (tb - l) * 2 ^ l := by rw [← Nat.pow_add]; congr 1; omega
  have e' : 2 ^ tb / 2 ^ l = 2 ^ (tb - l) := Nat.pow_div hl (by decide)
  rw [e']
  constructor
  · rintro ⟨j, hj, rfl⟩
    refine ⟨?_, by rw [Nat.add_mul_mod_self_right, Nat.mod_eq_of_lt hk]⟩
    have : (j + 1) * 2 ^ l ≤ 2 ^ (tb - l) * 2 ^ l := Nat.mul_le_mul_right _ hj
    rw [Nat.add_mul] at this
    omega
  · rintro ⟨h1, h2⟩
    refine ⟨x / 2 ^ l, ?_, ?_⟩
    · rw [Nat.div_lt_iff_lt_mul hpos]; omega
    · have := Nat.mod_add_div x (2 ^ l)
      rw [h2, Nat.mul_comm] at this; exact this.symm

/-- What a code writes for the window of index `idx`. -/
def entOf (p : Nat × Nat) : Ent := ⟨p.1, p.2⟩

theorem CodeOk.lt {M v : Nat} {p : Nat × Nat} {L : List (Nat × Nat)} (h : CodeOk M v (p :: L)) : v < 2 ^ M := by
  have := h.fits
  have := Nat.two_pow_pos (M - p.1)
  simp only [kraft] at *
  omega

theorem kraft_pos {M : Nat} {L : List (Nat × Nat)} (h : L ≠ []) : 0 < kraft M L := by
  cases L with
  | nil => exact absurd rfl h
  | cons p L => have := Nat.two_pow_pos (M - p.1); simp only [kraft]; omega

theorem rootFill_spec {M cap tb : Nat} (hcap : 2 ^ tb ≤ cap) (L : List (Nat × Nat)) :
    ∀ v (m : Mem) key, CodeOk M v L → (∀ p ∈ L, p.1 ≤ tb) → (v < 2 ^ M → key = rev M v) →
    ∃ m' key', rootFill cap tb m key L = some (m', key') ∧
      (v + kraft M L < 2 ^ M → key' = rev M (v + kraft M L)) ∧
      (∀ idx, 2 ^ tb ≤ idx → m' idx = m idx) ∧
      ∀ idx < 2 ^ tb, m' idx = ((codeAt M v L (rev M idx)).map entOf).or (m idx) := by
  induction L with
  | nil =>
    intro v m key _ _ hk
    exact ⟨m, key, rfl, by simpa [kraft] using hk, fun _ _ => rfl, by simp [codeAt]⟩
  | cons p L ih =>
    intro v m key hc ht hk
    have hv := hc.lt
    have hr := hc.range p List.mem_cons_self
    have hd := hc.dvd p List.mem_cons_self
    have hp := ht p List.mem_cons_self
    have hkey := hk hv
    have hklt : key < 2 ^ p.1 := by
      rw [hkey, rev_aligned hr.2 hd]; exact rev_lt _ _
    have hpos : ∀ x, (∃ j < 2 ^ tb / 2 ^ p.1, x = key + j * 2 ^ p.1) ↔ _ := fun x => fill_positions hklt hp
    obtain ⟨m1, e1, e2⟩ := fill_spec cap key (2 ^ p.1) ⟨p.1, p.2⟩ (2 ^ tb / 2 ^ p.1) m (by
      intro j hj
      have := ((hpos (key + j * 2 ^ p.1)).mp ⟨j, hj, rfl⟩).1
      omega)
    obtain ⟨m', key', f1, f2, f3, f4⟩ := ih (v + 2 ^ (M - p.1)) m1 (nextKey key p.1) hc.tail
      (fun q hq => ht q (List.mem_cons_of_mem _ hq)) (by
        intro h; rw [hkey]; exact nextKey_step hr.2 hd h)
    refine ⟨m', key', ?_, ?_, ?_, ?_⟩
    · simp only [rootFill, e1]; exact f1
    · simp only [kraft, ← Nat.add_assoc]; exact f2
    · intro idx hidx
      rw [f3 idx hidx, e2 idx, if_neg]
      rw [hpos]; omega
    · intro idx hidx
      rw [f4 idx hidx, e2 idx]
      simp only [codeAt]
      have hiff := mod_eq_rev_iff (W := idx) hr.2 hd hv
      by_cases hin : v ≤ rev M idx ∧ rev M idx < v + 2 ^ (M - p.1)
      · rw [if_pos hin, if_pos ((hpos idx).mpr ⟨hidx, by rw [hkey]; exact hiff.mpr hin⟩)]
        cases hcd : codeAt M (v + 2 ^ (M - p.1)) L (rev M idx) with
        | none => rfl
        | some q => have := codeAt_ge hcd; omega
      · rw [if_neg hin, if_neg]
        rw [hpos]
        rintro ⟨_, h⟩
        rw [hkey] at h
        exact hin (hiff.mp h)

theorem doubling_spec (cap : Nat) (k : Nat) : ∀ tb (m : Mem), 2 ^ (tb + k) ≤ cap →
    ∃ m', doubling cap tb m k = some m' ∧ (∀ idx < 2 ^ (tb + k), m' idx = m (idx % 2 ^ tb)) ∧
      ∀ idx, 2 ^ (tb + k) ≤ idx → m' idx = m idx := by
  induction k with
  | zero =>
    intro tb m _
    exact ⟨m, rfl, fun idx h => by rw [Nat.mod_eq_of_lt (by simpa using h)], fun _ _ => rfl⟩
  | succ k ih =>
    intro tb m h
    have hle : 2 ^ (tb + 1) ≤ 2 ^ (tb + (k + 1)) := Nat.pow_le_pow_right (by decide) (by omega)
    obtain ⟨m', e1, e2, e3⟩ := ih (tb + 1)
      (fun x => if 2 ^ tb ≤ x ∧ x < 2 ^ (tb + 1) then m (x - 2 ^ tb) else m x)
      (by rw [show tb + 1 + k = tb + (k + 1) by omega]; exact h)
    have e : tb + 1 + k = tb + (k + 1) := by omega
    rw [e] at e2 e3
    refine ⟨m', by simp only [doubling]; rw [if_pos (by omega)]; exact e1, ?_, ?_⟩
    · intro idx hidx
      rw [e2 idx hidx]
      have hlt := Nat.mod_lt idx (Nat.two_pow_pos (tb + 1))
      have hp : 2 ^ (tb + 1) = 2 ^ tb * 2 := Nat.pow_succ 2 tb
      have hmm : idx % 2 ^ (tb + 1) % 2 ^ tb = idx % 2 ^ tb := Nat.mod_mod_of_dvd _ ⟨2, hp⟩
      by_cases hb : 2 ^ tb ≤ idx % 2 ^ (tb + 1)
      · rw [if_pos ⟨hb, hlt⟩]
        congr 1
        rw [← hmm, Nat.mod_eq_sub_mod hb]
        exact (Nat.mod_eq_of_lt (by omega)).symm
      · rw [if_neg (by omega), ← hmm, Nat.mod_eq_of_lt (Nat.lt_of_not_le hb)]
    · intro idx hidx
      rw [e3 idx hidx, if_neg (by omega)]

/-! ## Widths of second-level tables -/

theorem kraftLe_step (M t : Nat) (L : List (Nat × Nat)) :
    kraftLe M (t + 1) L = kraftLe M t L + lenCount L (t + 1) * 2 ^ (M - (t + 1)) := by
  unfold kraftLe lenCount
  induction L with
  | nil => simp [kraft]
  | cons p L ih =>
    simp only [List.filter_cons]
    by_cases h1 : p.1 = t + 1
    · simp only [h1, decide_true, decide_false, if_true, kraft, List.length_cons,
        Nat.le_refl, Nat.add_mul, Nat.one_mul, show ¬ t + 1 ≤ t by omega, Bool.false_eq_true, if_false]
      omega
    · by_cases h2 : p.1 ≤ t
      · have b : p.1 ≤ t + 1 := by omega
        simp only [h1, h2, b, decide_true, decide_false, if_true, kraft, Bool.false_eq_true, if_false]
        omega
      · have b : ¬ p.1 ≤ t + 1 := by omega
        simp only [h1, h2, b, decide_false, Bool.false_eq_true, if_false]
        exact ih

theorem kraftLe_zero {M t : Nat} {L : List (Nat × Nat)} (h : ∀ p ∈ L, t < p.1) : kraftLe M t L = 0 := by
  unfold kraftLe
  have : L.filter (fun p => decide (p.1 ≤ t)) = [] := by
    rw [List.filter_eq_nil_iff]
    intro p hp
    have := h p hp
    simp; omega
  rw [this]; rfl

theorem nextTableBits_spec {M root : Nat} {L : List (Nat × Nat)} (len left : Nat) (hr : root < len) (hlen : len ≤ M)
    (hleft : 0 < left) (h : left * 2 ^ (M - len) + kraftLe M (len - 1) L = 2 ^ (M - root)) :
    ∃ R, nextTableBits M root (lenCount L) len left = R - root ∧ len ≤ R ∧ R ≤ M ∧
      (R = M ∨ 2 ^ (M - root) ≤ kraftLe M R L) ∧ ∀ t, len ≤ t → t < R → kraftLe M t L < 2 ^ (M - root) := by
  induction len, left using nextTableBits.induct M (lenCount L) with
  | case1 len left hlt hle =>
    rw [nextTableBits, if_pos hlt, if_pos hle]
    refine ⟨len, rfl, Nat.le_refl _, hlen, Or.inr ?_, fun t _ _ => by omega⟩
    obtain ⟨n, rfl⟩ : ∃ n, len = n + 1 := ⟨len - 1, by omega⟩
    rw [kraftLe_step]
    have := Nat.mul_le_mul_right (2 ^ (M - (n + 1))) hle
    simp only [Nat.add_sub_cancel] at h
    omega
  | case2 len left hlt hle ih =>
    rw [nextTableBits, if_pos hlt, if_neg hle]
    obtain ⟨n, rfl⟩ : ∃ n, len = n + 1 := ⟨len - 1, by omega⟩
    have hk := kraftLe_step M n L
    simp only [Nat.add_sub_cancel] at h
    have hp : 2 ^ (M - (n + 1)) = 2 * 2 ^ (M - (n + 1 + 1)) := by
      rw [← Nat.pow_succ']; congr 1; omega
    have hsplit : left * 2 ^ (M - (n + 1)) =
        lenCount L (n + 1) * 2 ^ (M - (n + 1)) + (left - lenCount L (n + 1)) * 2 ^ (M - (n + 1)) := by
      rw [← Nat.add_mul]; congr 1; omega
    have hnew : (left - lenCount L (n + 1)) * 2 * 2 ^ (M - (n + 1 + 1)) + kraftLe M (n + 1 + 1 - 1) L =
        2 ^ (M - root) := by
      rw [Nat.mul_assoc, ← hp, Nat.add_sub_cancel, hk]
      omega
    obtain ⟨R, r1, r2, r3, r4, r5⟩ := ih (by omega) (by omega) (by omega) hnew
    refine ⟨R, r1, by omega, r3, r4, ?_⟩
    intro t h1 h2
    by_cases ht : t = n + 1
    · subst ht
      have hpos : 0 < (left - lenCount L (n + 1)) * 2 ^ (M - (n + 1)) :=
        Nat.mul_pos (by omega) (Nat.two_pow_pos _)
      omega
    · exact r5 t (by omega) h2
  | case3 len left hlt =>
    rw [nextTableBits, if_neg hlt]
    exact ⟨len, rfl, Nat.le_refl _, hlen, Or.inl (by omega), fun t _ _ => by omega⟩

/-- All the codes that start with the same `root` bits as the first one fit in the second-level table. -/
theorem nextTableBits_fits {M root v : Nat} {p : Nat × Nat} {L : List (Nat × Nat)} (hc : CodeOk M v (p :: L))
    (hr : root < p.1) : ∃ R, nextTableBits M root (lenCount (p :: L)) p.1 (2 ^ (p.1 - root)) = R - root ∧
      p.1 ≤ R ∧ R ≤ M ∧
      (∀ x q, codeAt M v (p :: L) x = some q → x < v + 2 ^ (M - root) → q.1 ≤ R) ∧
      (∀ t, p.1 ≤ t → t < R → kraftLe M t (p :: L) < 2 ^ (M - root)) := by
  have hp := hc.range p List.mem_cons_self
  have hz : kraftLe M (p.1 - 1) (p :: L) = 0 := by
    apply kraftLe_zero
    intro q hq
    rw [List.mem_cons] at hq
    rcases hq with rfl | hq
    · omega
    · have := (List.pairwise_cons.mp hc.sorted).1 q hq; omega
  obtain ⟨R, r1, r2, r3, r4, r5⟩ := nextTableBits_spec (M := M) (root := root) (L := p :: L) p.1 (2 ^ (p.1 - root)) hr hp.2
    (Nat.two_pow_pos _) (by rw [hz, Nat.add_zero, ← Nat.pow_add]; congr 1; omega)
  refine ⟨R, r1, r2, r3, ?_, r5⟩
  intro x q hq hx
  rcases r4 with rfl | r4
  · exact (hc.range q (codeAt_mem hq)).2
  · apply Nat.le_of_not_lt
    intro hlt
    have := codeAt_after hc hq hlt
    omega

end Brunsli
