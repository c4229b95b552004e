import Verif.HuffCode
/-!
# Lookup tables for the Huffman codes of a JPEG file (c/enc/jpeg_huffman_decode.cc)

Codes have at most 16 bits, most significant bit first, and may be incomplete.  The root table is indexed by 8 bits.
-/

namespace Brunsli

/-- Table memory of one slot of `kJpegHuffmanLutSize` entries (c/enc/jpeg_huffman_decode.h:20-34). -/
abbrev JMem := Nat → Ent

/-- `kJpegHuffmanLutSize` (c/enc/jpeg_huffman_decode.h:22). -/
def kJpegHuffmanLutSize : Nat := 1024

/-- The entry that stands for no code: `HuffmanTableEntry()` (c/enc/jpeg_huffman_decode.h:27). -/
def badEnt : Ent := ⟨0, 0xffff⟩

/-- A store into the table; `none` is an access beyond its 1024 entries. -/
def jwr (m : JMem) (i : Nat) (e : Ent) : Option JMem :=
  if i < kJpegHuffmanLutSize then some (fun x => if x = i then e else m x) else none

/-- `while (reps--) table[key++] = code` (c/enc/jpeg_huffman_decode.cc:66-69,90-93). -/
def jfill (m : JMem) (i : Nat) : Nat → Ent → Option JMem
  | 0, _ => some m
  | n + 1, e =>
    match jwr m i e with
    | none => none
    | some m => jfill m (i + 1) n e

/-- The root table (c/enc/jpeg_huffman_decode.cc:58-71), over the symbols with at most 8 bits. -/
def jroot (m : JMem) (key : Nat) : List (Nat × Nat) → Option (JMem × Nat)
  | [] => some (m, key)
  | p :: L =>
    match jfill m key (2 ^ (8 - p.1)) ⟨p.1, p.2⟩ with
    | none => none
    | some m => jroot m (key + 2 ^ (8 - p.1)) L

/-- State of the second loop: memory, `key`, `table - lut`, `table_size`, `table_bits`, `low`. -/
structure JSub where
  m : JMem
  key : Nat
  off : Nat
  size : Nat
  tb : Nat
  low : Nat

/-- Start of a new second-level table (c/enc/jpeg_huffman_decode.cc:80-89). -/
def jopen (cnt : Nat → Nat) (len : Nat) (st : JSub) : Option JSub :=
  if st.low ≥ st.size then
    let off := st.off + st.size
    let tb := nextTableBits 16 8 cnt len (2 ^ (len - 8))
    match jwr st.m st.key ⟨tb + 8, (off - st.key) % 65536⟩ with
    | none => none
    | some m => some ⟨m, st.key + 1, off, 2 ^ tb, tb, 0⟩
  else some st

/-- The second loop (c/enc/jpeg_huffman_decode.cc:73-96), over the symbols with more than 8 bits.  A shift by a negative
amount is `none`. -/
def jsub : JSub → List (Nat × Nat) → Option JSub
  | st, [] => some st
  | st, p :: L =>
    match jopen (lenCount (p :: L)) p.1 st with
    | none => none
    | some st =>
      if st.tb < p.1 - 8 then none
      else
        match jfill st.m (st.off + st.low) (2 ^ (st.tb - (p.1 - 8))) ⟨p.1 - 8, p.2⟩ with
        | none => none
        | some m => jsub { st with m := m, low := st.low + 2 ^ (st.tb - (p.1 - 8)) } L

/-- `BuildJpegHuffmanTable` (c/enc/jpeg_huffman_decode.cc:26-98).  The code is given by the list of its lengths and symbols, in order;
the histogram `tmp_count` is that of the symbols not yet processed. -/
def buildJpegTable (m : JMem) (L : List (Nat × Nat)) : Option JMem :=
  match L with
  | [p] => jfill m 0 256 ⟨0, p.2⟩
  | L =>
    match jroot m 0 (L.filter fun p => p.1 ≤ 8) with
    | none => none
    | some (m, key) => (jsub ⟨m, key, 256, 0, 8, 0⟩ (L.filter fun p => 8 < p.1)).map JSub.m

/-- `ReadSymbol` (c/enc/jpeg_data_reader.cc:528-542) on the next 16 bits `x`: number of bits consumed and value. -/
def jlookup (m : JMem) (x : Nat) : Nat × Nat :=
  let e := m (x / 256)
  if 8 < e.bits then
    let e' := m (x / 256 + e.value + x % 256 / 2 ^ (16 - e.bits))
    (8 + e'.bits, e'.value)
  else (e.bits, e.value)

/-- The lookup of the 16 bits `x` stays within the 1024 entries. -/
def JReads (m : JMem) (x : Nat) : Prop :=
  8 < (m (x / 256)).bits → x / 256 + (m (x / 256)).value + x % 256 / 2 ^ (16 - (m (x / 256)).bits) < 1024

/-! ## Stores -/

theorem jwr_ok {m : JMem} {i : Nat} {e : Ent} (h : i < 1024) : jwr m i e = some fun x => if x = i then e else m x := by
  rw [jwr, if_pos (by unfold kJpegHuffmanLutSize; exact h)]

theorem jfill_ok (n : Nat) : ∀ (m : JMem) (i : Nat) (e : Ent), i + n ≤ 1024 →
    jfill m i n e = some fun x => if i ≤ x ∧ x < i + n then e else m x := by
  induction n with
  | zero =>
    intro m i e _
    simp only [jfill, Option.some.injEq]
    funext x
    rw [if_neg (by omega)]
  | succ n ih =>
    intro m i e h
    rw [jfill, jwr_ok (by omega)]
    simp only
    rw [ih _ _ _ (by omega)]
    congr 1
    funext x
    by_cases h1 : x = i
    · subst h1
      rw [if_neg (by omega), if_pos rfl, if_pos (by omega)]
    · by_cases h2 : i + 1 ≤ x ∧ x < i + 1 + n
      · rw [if_pos h2, if_pos (by omega)]
      · rw [if_neg h2, if_neg h1, if_neg (by omega)]

/-! ## The root table -/

theorem pow_root {l : Nat} (h : l ≤ 8) : 2 ^ (16 - l) = 256 * 2 ^ (8 - l) := by
  rw [show 16 - l = 8 + (8 - l) by omega, Nat.pow_add]

theorem jroot_spec (L : List (Nat × Nat)) : ∀ (m : JMem) (key : Nat), CodeOk 16 (256 * key) L → (∀ p ∈ L, p.1 ≤ 8) →
    ∃ m' key', jroot m key L = some (m', key') ∧ 256 * key' = 256 * key + kraft 16 L ∧ key' ≤ 256 ∧
      (∀ i, i < key ∨ key' ≤ i → m' i = m i) ∧
      (∀ x, 256 * key ≤ x → x < 256 * key' → ∃ p, codeAt 16 (256 * key) L x = some p ∧ m' (x / 256) = ⟨p.1, p.2⟩) := by
  induction L with
  | nil =>
    intro m key hc _
    have := hc.fits
    simp only [kraft] at this
    exact ⟨m, key, rfl, by simp [kraft], by omega, fun i _ => rfl, fun x h1 h2 => by omega⟩
  | cons p L ih =>
    intro m key hc hr
    have hp := hr p List.mem_cons_self
    have hf := hc.fits
    simp only [kraft] at hf
    rw [pow_root hp] at hf
    have hpos := Nat.two_pow_pos (8 - p.1)
    have ht := hc.tail
    rw [pow_root hp, ← Nat.mul_add] at ht
    rw [jroot, jfill_ok _ _ _ _ (by omega)]
    simp only
    obtain ⟨m', key', e1, e2, e3, e4, e5⟩ := ih (fun x => if key ≤ x ∧ x < key + 2 ^ (8 - p.1) then ⟨p.1, p.2⟩ else m x)
      (key + 2 ^ (8 - p.1)) ht fun q hq => hr q (List.mem_cons_of_mem _ hq)
    refine ⟨m', key', e1, by simp only [kraft]; rw [pow_root hp]; omega, e3, ?_, ?_⟩
    · intro i hi
      rw [e4 i (by omega)]
      rw [if_neg (by omega)]
    · intro x h1 h2
      by_cases h : x < 256 * key + 2 ^ (16 - p.1)
      · refine ⟨p, by rw [codeAt, if_pos ⟨h1, h⟩], ?_⟩
        rw [pow_root hp] at h
        rw [e4 _ (by omega)]
        rw [if_pos (by omega)]
      · have h' := h
        rw [pow_root hp] at h'
        obtain ⟨q, q1, q2⟩ := e5 x (by omega) h2
        refine ⟨q, ?_, q2⟩
        rw [codeAt, if_neg (by omega), pow_root hp, ← Nat.mul_add]
        exact q1

/-! ## The second level -/

/-- The table being filled: it belongs to the root entry `key - 1`. -/
structure JCur (v : Nat) (L : List (Nat × Nat)) (st : JSub) : Prop where
  key : 1 ≤ st.key
  size : st.size = 2 ^ st.tb
  tb1 : 1 ≤ st.tb
  tb8 : st.tb ≤ 8
  pos : v = 256 * (st.key - 1) + st.low * 2 ^ (8 - st.tb)
  le : st.low ≤ 2 ^ st.tb
  ptr : st.m (st.key - 1) = ⟨st.tb + 8, st.off - (st.key - 1)⟩
  fits : ∀ x q, codeAt 16 v L x = some q → x < 256 * st.key → q.1 ≤ st.tb + 8
  gap : ∀ p L', L = p :: L' → ∀ t, p.1 ≤ t → t < st.tb + 8 → v < 256 * st.key → v + kraftLe 16 t L < 256 * st.key

/-- What the size amounts to, given the number `n` of symbols processed. -/
structure JSize (v n : Nat) (L : List (Nat × Nat)) (st : JSub) : Prop where
  mid : ∀ p L', L = p :: L' → ∀ left, 0 < left → v + left * 2 ^ (16 - p.1) = 256 * st.key → st.low < st.size →
    st.off + st.size + 9 ≤ 256 + n + left + (16 - p.1) + 2 ^ st.tb
  start : ∀ p L', L = p :: L' → st.size ≤ st.low → st.off + st.size + 9 ≤ 256 + n + 2 ^ (p.1 - 8) + (16 - p.1)

structure JInv (m0 : JMem) (v n : Nat) (L : List (Nat × Nat)) (st : JSub) : Prop where
  key : st.key ≤ 256
  base : 256 ≤ st.off
  lowle : st.low ≤ st.size
  cap : st.off + st.size ≤ 1024
  cur : (st.size = 0 ∧ v = 256 * st.key) ∨ JCur v L st
  reads : ∀ x, x < v → x / 256 < st.key ∧ (8 < (st.m (x / 256)).bits → 256 ≤ x / 256 + (st.m (x / 256)).value ∧
    x / 256 + (st.m (x / 256)).value + x % 256 / 2 ^ (16 - (st.m (x / 256)).bits) < st.off + st.low)
  freshRoot : ∀ i, st.key ≤ i → i < 256 → st.m i = m0 i
  freshSub : ∀ i, st.off + st.low ≤ i → st.m i = m0 i
  total : n + L.length ≤ 257
  bound : JSize v n L st

theorem jlookup_congr {m m' : JMem} {x : Nat} (h1 : m' (x / 256) = m (x / 256))
    (h2 : 8 < (m (x / 256)).bits → m' (x / 256 + (m (x / 256)).value + x % 256 / 2 ^ (16 - (m (x / 256)).bits)) =
      m (x / 256 + (m (x / 256)).value + x % 256 / 2 ^ (16 - (m (x / 256)).bits))) : jlookup m' x = jlookup m x := by
  unfold jlookup
  rw [h1]
  simp only
  split
  · rename_i h
    rw [h2 h]
  · rfl

theorem pow_sub8 {l : Nat} (h1 : 8 ≤ l) (h2 : l ≤ 16) : 2 ^ (l - 8) * 2 ^ (16 - l) = 256 := by
  rw [← Nat.pow_add, show l - 8 + (16 - l) = 8 by omega]

theorem pow_gap8 {a b : Nat} (h1 : 8 ≤ a) (h2 : a ≤ b) (h3 : b ≤ 16) : 2 ^ (a - 8) + (16 - a) ≤ 2 ^ (b - 8) + (16 - b) := by
  have := two_pow_gap (a := a - 8) (b := b - 8) (by omega)
  omega

theorem pow_le256 {a : Nat} (h1 : 8 ≤ a) (h3 : a ≤ 16) : 2 ^ (a - 8) + (16 - a) ≤ 256 := by
  have := pow_gap8 h1 h3 (Nat.le_refl 16)
  simpa using this

theorem JCur.full {v : Nat} {L : List (Nat × Nat)} {st : JSub} (h : JCur v L st) (hl : st.size ≤ st.low) : v = 256 * st.key := by
  have h1 := h.pos
  have h2 : st.low = 2 ^ st.tb := by have := h.le; have := h.size; omega
  have h3 : 2 ^ st.tb * 2 ^ (8 - st.tb) = 256 := by rw [← Nat.pow_add, show st.tb + (8 - st.tb) = 8 by have := h.tb8; omega]
  rw [h2, h3] at h1
  have := h.key
  omega

theorem jopen_spec {m0 : JMem} {v n : Nat} {p : Nat × Nat} {L : List (Nat × Nat)} {st : JSub} (hc : CodeOk 16 v (p :: L)) (hp : 8 < p.1)
    (hi : JInv m0 v n (p :: L) st) :
    ∃ st1, jopen (lenCount (p :: L)) p.1 st = some st1 ∧ JInv m0 v n (p :: L) st1 ∧ JCur v (p :: L) st1 ∧ st1.low < st1.size ∧
      st1.off + st1.size ≤ 1024 ∧ ∀ x, x < v → jlookup st1.m x = jlookup st.m x := by
  have hr := hc.range p List.mem_cons_self
  have hv := hc.lt
  have htot := hi.total
  rw [List.length_cons] at htot
  have h256 := pow_le256 (a := p.1) (by omega) hr.2
  by_cases hlow : st.low ≥ st.size
  · have hkey : v = 256 * st.key := by
      rcases hi.cur with h | h
      · exact h.2
      · exact h.full hlow
    have hls : st.low = st.size := by have := hi.lowle; omega
    obtain ⟨R, r1, r2, r3, r4, r5⟩ := nextTableBits_fits hc hp
    have hbase := hi.base
    have hst := hi.bound.start p L rfl hlow
    have hR : 2 ^ (R - 8) ≤ 256 := by
      have := pow_le256 (a := R) (by omega) r3
      omega
    have hpos := Nat.two_pow_pos (R - 8)
    refine ⟨⟨fun x => if x = st.key then ⟨R - 8 + 8, (st.off + st.size - st.key) % 65536⟩ else st.m x, st.key + 1, st.off + st.size, 2 ^ (R - 8), R - 8, 0⟩,
      ?_, ?_, ?_, ?_, ?_, ?_⟩
    · unfold jopen
      rw [if_pos hlow]
      simp only [r1]
      rw [jwr_ok (by omega)]
    · have hcur : JCur v (p :: L) ⟨fun x => if x = st.key then ⟨R - 8 + 8, (st.off + st.size - st.key) % 65536⟩ else st.m x, st.key + 1,
          st.off + st.size, 2 ^ (R - 8), R - 8, 0⟩ := by
        constructor
        · simp
        · rfl
        · show 1 ≤ R - 8; omega
        · show R - 8 ≤ 8; omega
        · simp only; omega
        · simp
        · simp only [Nat.add_sub_cancel, if_true]
          congr 1
          omega
        · intro x q hq hx
          have := r4 x q hq (by simp only at hx; show x < v + 2 ^ 8; omega)
          simp only
          omega
        · intro p' L' he t h1 h2 h3
          obtain ⟨rfl, rfl⟩ := List.cons.inj he
          have := r5 t h1 (by simp only at h2; omega)
          simp only
          have e : (2 : Nat) ^ (16 - 8) = 256 := rfl
          omega
      constructor
      · simp only; omega
      · simp only; omega
      · simp only; omega
      · simp only; omega
      · exact .inr hcur
      · intro x hx
        obtain ⟨h1, h2⟩ := hi.reads x hx
        refine ⟨by simp only; omega, ?_⟩
        simp only
        rw [if_neg (show x / 256 ≠ st.key by omega)]
        intro hb
        have := h2 hb
        omega
      · intro i h1 h2
        simp only at h1 ⊢
        rw [if_neg (by omega)]
        exact hi.freshRoot i (by omega) h2
      · intro i h1
        simp only at h1 ⊢
        rw [if_neg (by omega)]
        exact hi.freshSub i (by omega)
      · exact hi.total
      · constructor
        · intro p' L' he left h1 h2 h3
          obtain ⟨rfl, rfl⟩ := List.cons.inj he
          simp only at h2 ⊢
          have h5 := pow_sub8 (l := p.1) (by omega) hr.2
          have h6 : left = 2 ^ (p.1 - 8) := by
            apply Nat.eq_of_mul_eq_mul_right (Nat.two_pow_pos (16 - p.1))
            omega
          omega
        · intro p' L' he h1
          simp only at h1
          omega
    · constructor
      · simp
      · rfl
      · show 1 ≤ R - 8; omega
      · show R - 8 ≤ 8; omega
      · simp only; omega
      · simp
      · simp only [Nat.add_sub_cancel, if_true]
        congr 1
        omega
      · intro x q hq hx
        have := r4 x q hq (by simp only at hx; show x < v + 2 ^ 8; omega)
        simp only
        omega
      · intro p' L' he t h1 h2 h3
        obtain ⟨rfl, rfl⟩ := List.cons.inj he
        have := r5 t h1 (by simp only at h2; omega)
        simp only
        have e : (2 : Nat) ^ (16 - 8) = 256 := rfl
        omega
    · simp only; omega
    · simp only; omega
    · intro x hx
      obtain ⟨h1, h2⟩ := hi.reads x hx
      apply jlookup_congr
      · simp only; rw [if_neg (by omega)]
      · intro hb
        have := h2 hb
        simp only
        generalize x % 256 / 2 ^ (16 - (st.m (x / 256)).bits) = q at *
        rw [if_neg (by omega)]
  · have hcur : JCur v (p :: L) st := by
      rcases hi.cur with h | h
      · omega
      · exact h
    refine ⟨st, by rw [jopen, if_neg hlow], hi, hcur, by omega, ?_, fun x _ => rfl⟩
    -- the bound
    have hvlt : v < 256 * st.key := by
      have h1 := hcur.pos
      have h2 : st.low * 2 ^ (8 - st.tb) < 2 ^ st.tb * 2 ^ (8 - st.tb) :=
        Nat.mul_lt_mul_of_pos_right (by have := hcur.size; omega) (Nat.two_pow_pos _)
      have h3 : 2 ^ st.tb * 2 ^ (8 - st.tb) = 256 := by rw [← Nat.pow_add, show st.tb + (8 - st.tb) = 8 by have := hcur.tb8; omega]
      have := hcur.key
      omega
    have hge : 256 * (st.key - 1) ≤ v := by have := hcur.pos; omega
    obtain ⟨c, hc'⟩ : 2 ^ (16 - p.1) ∣ 256 * st.key - v := by
      apply Nat.dvd_sub
      · exact Nat.dvd_trans (Nat.pow_dvd_pow 2 (show 16 - p.1 ≤ 8 by omega)) (Nat.dvd_mul_right _ _)
      · exact hc.dvd p List.mem_cons_self
    have hc0 : 0 < c := by
      apply Nat.pos_of_ne_zero
      rintro rfl
      omega
    have h5 := pow_sub8 (l := p.1) (by omega) hr.2
    have hcle : c ≤ 2 ^ (p.1 - 8) := by
      apply Nat.le_of_mul_le_mul_right _ (Nat.two_pow_pos (16 - p.1))
      rw [h5, Nat.mul_comm]
      have := hcur.key
      omega
    have := hi.bound.mid p L rfl c hc0 (by rw [Nat.mul_comm]; omega) (by omega)
    have h9 := pow_le256 (a := st.tb + 8) (by omega) (by have := hcur.tb8; omega)
    rw [Nat.add_sub_cancel] at h9
    omega

theorem jsub_spec {m0 : JMem} (L : List (Nat × Nat)) : ∀ {v n : Nat} {st : JSub}, CodeOk 16 v L → (∀ p ∈ L, 8 < p.1) → JInv m0 v n L st →
    ∃ st', jsub st L = some st' ∧ (∀ x, x < v → jlookup st'.m x = jlookup st.m x) ∧
      (∀ x, v ≤ x → x < v + kraft 16 L → ∃ p, codeAt 16 v L x = some p ∧ jlookup st'.m x = (p.1, p.2)) ∧
      JInv m0 (v + kraft 16 L) (n + L.length) [] st' := by
  induction L with
  | nil =>
    intro v n st _ _ hi
    exact ⟨st, rfl, fun x _ => rfl, fun x h1 h2 => by simp only [kraft] at h2; omega, by simpa [kraft] using hi⟩
  | cons p L ih =>
    intro v n st hc hl hi
    have hp := hl p List.mem_cons_self
    have hr := hc.range p List.mem_cons_self
    obtain ⟨s, o1, hs, hcur, hlt, hsz, hsame⟩ := jopen_spec hc hp hi
    have hkey := hcur.key
    have htb8 := hcur.tb8
    have hpos := hcur.pos
    have hsize := hcur.size
    have hbase := hs.base
    have hk256 := hs.key
    have h256 : 2 ^ s.tb * 2 ^ (8 - s.tb) = 256 := by rw [← Nat.pow_add, show s.tb + (8 - s.tb) = 8 by omega]
    have hvlt : v < 256 * s.key := by
      have h2 : s.low * 2 ^ (8 - s.tb) < 2 ^ s.tb * 2 ^ (8 - s.tb) :=
        Nat.mul_lt_mul_of_pos_right (by omega) (Nat.two_pow_pos _)
      omega
    have hge : 256 * (s.key - 1) ≤ v := by omega
    have hposp := Nat.two_pow_pos (16 - p.1)
    have hpR : p.1 ≤ s.tb + 8 := hcur.fits v p (by rw [codeAt, if_pos (by omega)]) hvlt
    have hstep : 2 ^ (s.tb - (p.1 - 8)) * 2 ^ (8 - s.tb) = 2 ^ (16 - p.1) := by
      rw [← Nat.pow_add]; congr 1; omega
    have hpos8 := Nat.two_pow_pos (8 - s.tb)
    have hdl : 2 ^ (s.tb - (p.1 - 8)) ∣ s.low := by
      have h1 := hc.dvd p List.mem_cons_self
      have h2 : 2 ^ (16 - p.1) ∣ 256 * (s.key - 1) :=
        Nat.dvd_trans (Nat.pow_dvd_pow 2 (show 16 - p.1 ≤ 8 by omega)) (Nat.dvd_mul_right _ _)
      have h3 : 2 ^ (16 - p.1) ∣ s.low * 2 ^ (8 - s.tb) := by
        have := Nat.dvd_sub h1 h2
        rwa [show v - 256 * (s.key - 1) = s.low * 2 ^ (8 - s.tb) by omega] at this
      rw [← hstep] at h3
      exact Nat.dvd_of_mul_dvd_mul_right hpos8 h3
    have hroom : s.low + 2 ^ (s.tb - (p.1 - 8)) ≤ 2 ^ s.tb := by
      obtain ⟨c, hcl⟩ := hdl
      obtain ⟨d, hd⟩ : 2 ^ (s.tb - (p.1 - 8)) ∣ 2 ^ s.tb := Nat.pow_dvd_pow 2 (by omega)
      have hcd : c < d := by
        apply Nat.lt_of_mul_lt_mul_left (a := 2 ^ (s.tb - (p.1 - 8)))
        omega
      have := Nat.mul_le_mul_left (2 ^ (s.tb - (p.1 - 8))) hcd
      rw [Nat.mul_succ] at this
      omega
    have hv' : v + 2 ^ (16 - p.1) = 256 * (s.key - 1) + (s.low + 2 ^ (s.tb - (p.1 - 8))) * 2 ^ (8 - s.tb) := by
      rw [Nat.add_mul, hstep]; omega
    have hv'le : v + 2 ^ (16 - p.1) ≤ 256 * s.key := by
      have := Nat.mul_le_mul_right (2 ^ (8 - s.tb)) hroom
      omega
    have hstpos := Nat.two_pow_pos (s.tb - (p.1 - 8))
    -- the symbols after this one
    have hnew : JInv m0 (v + 2 ^ (16 - p.1)) (n + 1) L { s with
        m := fun x => if s.off + s.low ≤ x ∧ x < s.off + s.low + 2 ^ (s.tb - (p.1 - 8)) then ⟨p.1 - 8, p.2⟩ else s.m x,
        low := s.low + 2 ^ (s.tb - (p.1 - 8)) } := by
      constructor
      · exact hk256
      · exact hbase
      · simp only; omega
      · exact hsz
      · refine .inr ?_
        constructor
        · exact hkey
        · exact hsize
        · exact hcur.tb1
        · exact htb8
        · exact hv'
        · exact hroom
        · simp only
          rw [if_neg (by omega)]
          exact hcur.ptr
        · intro x q hq hx
          have hg := codeAt_ge hq
          refine hcur.fits x q ?_ hx
          rw [codeAt, if_neg (by omega)]; exact hq
        · intro q L' he t h1 h2 h3
          have hpq := (List.pairwise_cons.mp hc.sorted).1 q (by rw [he]; exact List.mem_cons_self)
          have := hcur.gap p L rfl t (by omega) h2 hvlt
          rw [kraftLe_cons_le (by omega)] at this
          simp only
          omega
      · intro x hx
        by_cases hxv : x < v
        · obtain ⟨h1, h2⟩ := hs.reads x hxv
          refine ⟨h1, ?_⟩
          simp only
          rw [if_neg (by omega)]
          intro hb
          have := h2 hb
          omega
        · have hx256 : x / 256 = s.key - 1 := by omega
          refine ⟨by simp only; omega, ?_⟩
          simp only
          rw [if_neg (by omega), hx256, hcur.ptr]
          intro _
          simp only
          have hq : x % 256 / 2 ^ (16 - (s.tb + 8)) < s.low + 2 ^ (s.tb - (p.1 - 8)) := by
            rw [show 16 - (s.tb + 8) = 8 - s.tb by omega, Nat.div_lt_iff_lt_mul hpos8]
            omega
          omega
      · intro i h1 h2
        simp only
        rw [if_neg (by omega)]
        exact hs.freshRoot i h1 h2
      · intro i h1
        simp only at h1 ⊢
        rw [if_neg (by omega)]
        exact hs.freshSub i (by omega)
      · have := hs.total
        rw [List.length_cons] at this
        omega
      · obtain ⟨c, hcc⟩ : 2 ^ (16 - p.1) ∣ 256 * s.key - v := by
          apply Nat.dvd_sub
          · exact Nat.dvd_trans (Nat.pow_dvd_pow 2 (show 16 - p.1 ≤ 8 by omega)) (Nat.dvd_mul_right _ _)
          · exact hc.dvd p List.mem_cons_self
        have hc0 : 0 < c := by
          apply Nat.pos_of_ne_zero
          rintro rfl
          omega
        have hmid := hs.bound.mid p L rfl c hc0 (by rw [Nat.mul_comm]; omega) hlt
        constructor
        · intro q L' he left h1 h2 h3
          have hpq := (List.pairwise_cons.mp hc.sorted).1 q (by rw [he]; exact List.mem_cons_self)
          have hqr := hc.range q (by rw [he]; exact List.mem_cons_of_mem _ List.mem_cons_self)
          simp only at h2 h3 ⊢
          have hposq := Nat.two_pow_pos (16 - q.1)
          have hpp : 2 ^ (q.1 - p.1) * 2 ^ (16 - q.1) = 2 ^ (16 - p.1) := by rw [← Nat.pow_add]; congr 1; omega
          have hleft : left = (c - 1) * 2 ^ (q.1 - p.1) := by
            apply Nat.eq_of_mul_eq_mul_right hposq
            rw [Nat.mul_assoc, hpp, Nat.sub_mul, Nat.one_mul, Nat.mul_comm c]
            omega
          have hc1 : 1 ≤ c - 1 := by
            apply Nat.pos_of_ne_zero
            intro h0
            rw [h0, Nat.zero_mul] at hleft
            omega
          have hpw := succ_le_two_pow (q.1 - p.1)
          have h5 : (c - 1) * (q.1 - p.1 + 1) ≤ (c - 1) * 2 ^ (q.1 - p.1) := Nat.mul_le_mul_left _ hpw
          have h6 : q.1 - p.1 ≤ (c - 1) * (q.1 - p.1) := Nat.le_mul_of_pos_left _ (by omega)
          rw [Nat.mul_add, Nat.mul_one] at h5
          omega
        · intro q L' he h1
          simp only at h1 ⊢
          have hpq := (List.pairwise_cons.mp hc.sorted).1 q (by rw [he]; exact List.mem_cons_self)
          have hqr := hc.range q (by rw [he]; exact List.mem_cons_of_mem _ List.mem_cons_self)
          have hfull : v + 2 ^ (16 - p.1) = 256 * s.key := by
            have : s.low + 2 ^ (s.tb - (p.1 - 8)) = 2 ^ s.tb := by omega
            rw [hv', this, h256]
            omega
          have hc1 : c = 1 := by
            apply Nat.eq_of_mul_eq_mul_left hposp
            omega
          have hRp : s.tb + 8 = p.1 := by
            apply Nat.le_antisymm _ hpR
            apply Nat.le_of_not_lt
            intro hlt'
            have := hcur.gap p L rfl p.1 (Nat.le_refl _) hlt' hvlt
            rw [kraftLe_cons_le (Nat.le_refl _)] at this
            omega
          have := pow_gap8 (a := p.1) (b := q.1) (by omega) hpq hqr.2
          rw [← hRp, Nat.add_sub_cancel] at this
          omega
    obtain ⟨st', e1, e2, e3, e4⟩ := ih hc.tail (fun q hq => hl q (List.mem_cons_of_mem _ hq)) hnew
    have hkeep : ∀ x, x < v → jlookup (fun x => if s.off + s.low ≤ x ∧ x < s.off + s.low + 2 ^ (s.tb - (p.1 - 8)) then ⟨p.1 - 8, p.2⟩ else s.m x) x =
        jlookup s.m x := by
      intro x hx
      obtain ⟨h1, h2⟩ := hs.reads x hx
      apply jlookup_congr
      · rw [if_neg (by omega)]
      · intro hb
        have := h2 hb
        generalize x % 256 / 2 ^ (16 - (s.m (x / 256)).bits) = q at *
        rw [if_neg (by omega)]
    refine ⟨st', ?_, ?_, ?_, ?_⟩
    · rw [jsub, o1]
      simp only
      rw [if_neg (by omega), jfill_ok _ _ _ _ (by omega)]
      exact e1
    · intro x hx
      rw [e2 x (by omega)]
      exact (hkeep x hx).trans (hsame x hx)
    · intro x h1 h2
      simp only [kraft] at h2
      by_cases hx : x < v + 2 ^ (16 - p.1)
      · refine ⟨p, by rw [codeAt, if_pos ⟨h1, hx⟩], ?_⟩
        rw [e2 x hx]
        have hx256 : x / 256 = s.key - 1 := by omega
        have htb1 := hcur.tb1
        have hq1 : x % 256 / 2 ^ (16 - (s.tb + 8)) < s.low + 2 ^ (s.tb - (p.1 - 8)) := by
          rw [show 16 - (s.tb + 8) = 8 - s.tb by omega, Nat.div_lt_iff_lt_mul hpos8]
          omega
        have hq2 : s.low ≤ x % 256 / 2 ^ (16 - (s.tb + 8)) := by
          rw [show 16 - (s.tb + 8) = 8 - s.tb by omega, Nat.le_div_iff_mul_le hpos8]
          omega
        have hpe : (if s.off + s.low ≤ s.key - 1 ∧ s.key - 1 < s.off + s.low + 2 ^ (s.tb - (p.1 - 8)) then ⟨p.1 - 8, p.2⟩ else s.m (s.key - 1)) =
            (⟨s.tb + 8, s.off - (s.key - 1)⟩ : Ent) := by
          rw [if_neg (by omega), hcur.ptr]
        unfold jlookup
        simp only [hx256, hpe]
        rw [if_pos (by omega)]
        generalize x % 256 / 2 ^ (16 - (s.tb + 8)) = q at *
        rw [if_pos (by omega)]
        simp only
        rw [show 8 + (p.1 - 8) = p.1 by omega]
      · obtain ⟨q, q1, q2⟩ := e3 x (by omega) (by omega)
        refine ⟨q, ?_, q2⟩
        rw [codeAt, if_neg (by omega)]
        exact q1
    · simp only [kraft, List.length_cons]
      rw [show v + (2 ^ (16 - p.1) + kraft 16 L) = v + 2 ^ (16 - p.1) + kraft 16 L by omega, show n + (L.length + 1) = n + 1 + L.length by omega]
      exact e4

/-- **The table is the code.** For every code that fits in 16 bits the construction stays in the table; windows that start with a code word give
its length and symbol; if the table was cleared before, the other windows give the invalid value. -/
theorem buildJpegTable_spec {m0 : JMem} {L : List (Nat × Nat)} (hc : CodeOk 16 0 L) (hlen : L.length ≤ 257) (h2 : 2 ≤ L.length) :
    ∃ m, buildJpegTable m0 L = some m ∧
      (∀ x, x < kraft 16 L → ∃ p, codeAt 16 0 L x = some p ∧ jlookup m x = (p.1, p.2) ∧ JReads m x) ∧
      ((∀ i, m0 i = badEnt) → ∀ x, kraft 16 L ≤ x → x < 65536 → (jlookup m x).2 = 0xffff ∧ JReads m x) ∧
      ((∀ p ∈ L, p.2 ≤ 256) → (m 0).value < 0xffff) := by
  have hsplit := sorted_split hc.sorted 8
  have hc' := hc
  rw [hsplit] at hc'
  have hA : ∀ p ∈ L.filter (fun p => decide (p.1 ≤ 8)), p.1 ≤ 8 := by
    intro p hp; simpa using (List.mem_filter.mp hp).2
  have hB : ∀ p ∈ L.filter (fun p => decide (8 < p.1)), 8 < p.1 := by
    intro p hp; simpa using (List.mem_filter.mp hp).2
  have hbuild : buildJpegTable m0 L = match jroot m0 0 (L.filter fun p => p.1 ≤ 8) with
      | none => none
      | some (m, key) => (jsub ⟨m, key, 256, 0, 8, 0⟩ (L.filter fun p => 8 < p.1)).map JSub.m := by
    match L, h2 with
    | _ :: _ :: _, _ => rfl
  rw [hbuild]
  have hmem : ∀ p ∈ L.filter (fun p => decide (p.1 ≤ 8)), p ∈ L := fun p hp => (List.mem_filter.mp hp).1
  have hlenAB : (L.filter fun p => p.1 ≤ 8).length + (L.filter fun p => 8 < p.1).length = L.length := by
    rw [← List.length_append, ← hsplit]
  have hk : kraft 16 L = kraft 16 (L.filter fun p => p.1 ≤ 8) + kraft 16 (L.filter fun p => 8 < p.1) := by
    rw [← kraft_append, ← hsplit]
  have hcode : ∀ x, codeAt 16 0 L x = (codeAt 16 0 (L.filter fun p => p.1 ≤ 8) x).or
      (codeAt 16 (0 + kraft 16 (L.filter fun p => p.1 ≤ 8)) (L.filter fun p => 8 < p.1) x) := fun x => by
    rw [← codeAt_append, ← hsplit]
  have hfit := hc.fits
  generalize L.filter (fun p => decide (p.1 ≤ 8)) = A at *
  generalize L.filter (fun p => decide (8 < p.1)) = B at *
  obtain ⟨hcA, hcB⟩ := CodeOk.split hc'
  obtain ⟨m1, key, r1, r2, r3, r4, r5⟩ := jroot_spec A m0 0 hcA hA
  rw [Nat.mul_zero, Nat.zero_add] at r2
  rw [Nat.zero_add] at hcB hcode
  rw [r1]
  simp only
  have hinit : JInv m0 (kraft 16 A) A.length B ⟨m1, key, 256, 0, 8, 0⟩ := by
    constructor
    · exact r3
    · exact Nat.le_refl _
    · exact Nat.le_refl _
    · show 256 + 0 ≤ 1024; omega
    · exact .inl ⟨rfl, r2.symm⟩
    · intro x hx
      obtain ⟨p, p1, p2⟩ := r5 x (by omega) (by omega)
      refine ⟨by show x / 256 < key; omega, ?_⟩
      show 8 < (m1 (x / 256)).bits → _
      rw [p2]
      intro hb
      have := hA p (codeAt_mem p1)
      simp only at hb
      omega
    · intro i h1 _
      exact r4 i (.inr h1)
    · intro i h1
      exact r4 i (.inr (by simp only at h1; omega))
    · omega
    · constructor
      · intro _ _ _ _ _ _ h
        simp only at h
        omega
      · intro p L' he _
        have hp := hB p (by rw [he]; exact List.mem_cons_self)
        have hpr := hcB.range p (by rw [he]; exact List.mem_cons_self)
        have := pow_gap8 (a := 9) (b := p.1) (by omega) (by omega) hpr.2
        simp only
        have e : 2 ^ (9 - 8) + (16 - 9) = 9 := rfl
        omega
  obtain ⟨st, s1, s2, s3, s4⟩ := jsub_spec B hcB hB hinit
  rw [s1]
  refine ⟨st.m, rfl, ?_, ?_, ?_⟩
  · intro x hx
    have hrd : JReads st.m x := by
      intro hb
      have h1 := (s4.reads x (by omega)).2 hb
      have h2 := s4.cap
      have h3 := s4.lowle
      omega
    by_cases hxA : x < kraft 16 A
    · obtain ⟨p, p1, p2⟩ := r5 x (by omega) (by omega)
      rw [Nat.mul_zero] at p1
      refine ⟨p, by rw [hcode, p1]; rfl, ?_, hrd⟩
      rw [s2 x hxA]
      have hp8 := hA p (codeAt_mem p1)
      unfold jlookup
      simp only [p2]
      rw [if_neg (by omega)]
    · obtain ⟨p, p1, p2⟩ := s3 x (by omega) (by omega)
      refine ⟨p, ?_, p2, hrd⟩
      have : codeAt 16 0 A x = none := by
        cases h : codeAt 16 0 A x with
        | none => rfl
        | some q => have := codeAt_ge h; omega
      rw [hcode, this, p1]; rfl
  · intro hbad x hx1 hx2
    rw [← hk] at s4
    by_cases hroot : st.key ≤ x / 256
    · have := s4.freshRoot (x / 256) hroot (by omega)
      refine ⟨?_, ?_⟩
      · unfold jlookup
        simp only [this, hbad, badEnt]
        rfl
      · intro hb
        rw [this, hbad] at hb
        simp [badEnt] at hb
    · rcases s4.cur with h | h
      · omega
      · have hpos := h.pos
        have hkey := h.key
        have htb8 := h.tb8
        have htb1 := h.tb1
        have hbase := s4.base
        have hk256 := s4.key
        have hpos8 := Nat.two_pow_pos (8 - st.tb)
        have hx256 : x / 256 = st.key - 1 := by omega
        have hq : st.low ≤ x % 256 / 2 ^ (16 - (st.tb + 8)) := by
          rw [show 16 - (st.tb + 8) = 8 - st.tb by omega, Nat.le_div_iff_mul_le hpos8]
          omega
        have hq2 : x % 256 / 2 ^ (16 - (st.tb + 8)) < 2 ^ st.tb := by
          rw [show 16 - (st.tb + 8) = 8 - st.tb by omega, Nat.div_lt_iff_lt_mul hpos8, ← Nat.pow_add, show st.tb + (8 - st.tb) = 8 by omega]
          omega
        unfold jlookup JReads
        simp only [hx256, h.ptr]
        have hcap := s4.cap
        have hsz := h.size
        generalize x % 256 / 2 ^ (16 - (st.tb + 8)) = q at *
        refine ⟨?_, ?_⟩
        · rw [if_pos (by omega), s4.freshSub _ (by omega), hbad]
          rfl
        · intro _
          omega
  · intro hv
    have hk0 : 0 < kraft 16 L := kraft_pos (by intro h; rw [h] at h2; simp at h2)
    rw [← hk] at s4
    obtain ⟨h1, h3⟩ := s4.reads 0 hk0
    rw [Nat.zero_div] at h1 h3
    by_cases hb : 8 < (st.m 0).bits
    · have h4 := h3 hb
      rw [Nat.zero_mod, Nat.zero_div] at h4
      have := s4.cap
      have := s4.lowle
      omega
    · have hx : ∃ p, codeAt 16 0 L 0 = some p ∧ jlookup st.m 0 = (p.1, p.2) := by
        by_cases hxA : 0 < kraft 16 A
        · obtain ⟨p, p1, p2⟩ := r5 0 (by omega) (by omega)
          rw [Nat.mul_zero] at p1
          refine ⟨p, by rw [hcode, p1]; rfl, ?_⟩
          rw [s2 0 hxA]
          have hp8 := hA p (codeAt_mem p1)
          unfold jlookup
          simp only [p2]
          rw [if_neg (by omega)]
        · obtain ⟨p, p1, p2⟩ := s3 0 (by omega) (by omega)
          refine ⟨p, ?_, p2⟩
          have : codeAt 16 0 A 0 = none := by
            cases h : codeAt 16 0 A 0 with
            | none => rfl
            | some q => have := codeAt_ge h; omega
          rw [hcode, this, p1]; rfl
      obtain ⟨p, p1, p2⟩ := hx
      unfold jlookup at p2
      simp only [Nat.zero_div] at p2
      rw [if_neg hb] at p2
      have := hv p (codeAt_mem p1)
      have := (Prod.mk.inj p2).2
      omega

end Brunsli
