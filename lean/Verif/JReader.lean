import Verif.JLut
import Verif.JEntropy
/-!
# The bit reader for entropy-coded JPEG data

`BitReaderState` and `ReadSymbol` (c/enc/jpeg_data_reader.cc:422-542).  The state holds up to 64 bits read ahead; it is shown to
stand for a number of bits consumed of the sequence of bits that the data denote.
-/

namespace Brunsli

/-- A byte of the input; the reader checks positions before it reads. -/
def byteOf (data : List Nat) (i : Nat) : Nat := data.getD i 0

/-- `BitReaderState` (c/enc/jpeg_data_reader.cc:519-524): `pos_`, `val_`, `bits_left_`, `next_marker_pos_`. -/
structure JR where
  pos : Nat
  val : Nat
  left : Nat
  nm : Nat
deriving DecidableEq

/-- `GetNextByte` (c/enc/jpeg_data_reader.cc:439-457) on the position and the position of the next marker: the byte and the new positions. -/
def gnext (data : List Nat) (p nm : Nat) : Nat × Nat × Nat :=
  if nm ≤ p then (0, p + 1, nm)
  else if byteOf data p = 0xff then
    if byteOf data (p + 1) = 0 then (0xff, p + 2, nm) else (0xff, p + 1, p)
  else (byteOf data p, p + 1, nm)

/-- The loop of `FillBitWindow` (c/enc/jpeg_data_reader.cc:461-465); at most 8 rounds. -/
def JR.fillLoop (data : List Nat) : Nat → JR → JR
  | 0, b => b
  | n + 1, b =>
    if b.left ≤ 56 then
      let g := gnext data b.pos b.nm
      JR.fillLoop data n ⟨g.2.1, (b.val * 256 + g.1) % 2 ^ 64, b.left + 8, g.2.2⟩
    else b

/-- `FillBitWindow` (c/enc/jpeg_data_reader.cc:459-467). -/
def JR.fill (data : List Nat) (b : JR) : JR := if b.left ≤ 16 then JR.fillLoop data 8 b else b

/-- `Reset` (c/enc/jpeg_data_reader.cc:430-436); the file is known to have at least 2 bytes. -/
def JR.reset (data : List Nat) (pos : Nat) : JR := JR.fill data ⟨pos, 0, 0, data.length - 2⟩

/-- `ReadBits` (c/enc/jpeg_data_reader.cc:469-475). -/
def JR.readBits (data : List Nat) (n : Nat) (b : JR) : Nat × JR :=
  let b := b.fill data
  (b.val / 2 ^ (b.left - n) % 2 ^ n, { b with left := b.left - n })

/-- `ReadSymbol` (c/enc/jpeg_data_reader.cc:528-542). -/
def JR.readSymbol (data : List Nat) (m : JMem) (b : JR) : Nat × JR :=
  let b := b.fill data
  let i := b.val / 2 ^ (b.left - 8) % 256
  let nbits := (m i).bits - 8
  if 0 < nbits then
    let left := b.left - 8
    let e := m (i + (m i).value + b.val / 2 ^ (left - nbits) % 2 ^ nbits)
    (e.value, { b with left := left - e.bits })
  else ((m i).value, { b with left := b.left - (m i).bits })

/-- `IsUnhealthy` (c/enc/jpeg_data_reader.cc:479-483). -/
def JR.unhealthy (b : JR) : Bool := b.nm + 32 < b.pos

/-- One byte is given back (c/enc/jpeg_data_reader.cc:503-510). -/
def giveBack1 (data : List Nat) (nm pos : Nat) : Nat :=
  let p := pos - 1
  if p < nm ∧ byteOf data p = 0 ∧ byteOf data (p - 1) = 0xff then p - 1 else p

def giveBack (data : List Nat) (nm : Nat) : Nat → Nat → Nat
  | 0, pos => pos
  | n + 1, pos => giveBack data nm n (giveBack1 data nm pos)

/-- `FinishStream` (c/enc/jpeg_data_reader.cc:489-517): the padding bits seen, and the position, unless the data ran out. -/
def JR.finish (data : List Nat) (b : JR) : Option (List Bool × Nat) :=
  let n := b.left % 8
  let pos := giveBack data b.nm (b.left / 8) b.pos
  if b.nm < pos then none else some (msb n (b.val / 2 ^ (b.left - n) % 2 ^ n), pos)

/-! ## The bits the data denote -/

/-- Positions after `n` calls of `GetNextByte`, from the position `start`. -/
def gst (data : List Nat) (start : Nat) : Nat → Nat × Nat
  | 0 => (start, data.length - 2)
  | n + 1 => (gnext data (gst data start n).1 (gst data start n).2).2

/-- The byte that call number `n` gives. -/
def gbyte (data : List Nat) (start n : Nat) : Nat := (gnext data (gst data start n).1 (gst data start n).2).1

def gbytes (data : List Nat) (start n : Nat) : List Nat := (List.range n).map (gbyte data start)

def gbits (data : List Nat) (start n : Nat) : List Bool := bytesMsb (gbytes data start n)

/-- `k` bits from bit number `c` on. -/
def window (data : List Nat) (start c k : Nat) : List Bool := ((gbits data start (c + k)).drop c).take k

theorem gbits_length (data : List Nat) (start n : Nat) : (gbits data start n).length = 8 * n := by
  rw [gbits, bytesMsb_length, gbytes, List.length_map, List.length_range]

theorem gbytes_succ (data : List Nat) (start n : Nat) : gbytes data start (n + 1) = gbytes data start n ++ [gbyte data start n] := by
  rw [gbytes, gbytes, List.range_succ, List.map_append]; rfl

theorem gbits_succ (data : List Nat) (start n : Nat) : gbits data start (n + 1) = gbits data start n ++ msb 8 (gbyte data start n) := by
  rw [gbits, gbits, gbytes_succ, bytesMsb_append]
  simp [bytesMsb]

theorem gbits_prefix (data : List Nat) (start : Nat) {n n' : Nat} (h : n ≤ n') : gbits data start n <+: gbits data start n' := by
  obtain ⟨k, rfl⟩ := Nat.exists_eq_add_of_le h
  induction k with
  | zero => exact List.prefix_refl _
  | succ k ih =>
    refine List.IsPrefix.trans (ih (by omega)) ?_
    rw [show n + (k + 1) = n + k + 1 by omega, gbits_succ]
    exact List.prefix_append _ _

theorem slice_prefix {α : Type} {a b : List α} (h : a <+: b) {c k : Nat} (hk : c + k ≤ a.length) : (b.drop c).take k = (a.drop c).take k := by
  obtain ⟨t, rfl⟩ := h
  rw [List.drop_append_of_le_length (by omega), List.take_append_of_le_length (by rw [List.length_drop]; omega)]

theorem window_eq {data : List Nat} {start c k n : Nat} (h : c + k ≤ 8 * n) : window data start c k = ((gbits data start n).drop c).take k := by
  unfold window
  rcases Nat.le_total n (c + k) with hn | hn
  · exact slice_prefix (gbits_prefix data start hn) (by rw [gbits_length]; exact h)
  · exact (slice_prefix (gbits_prefix data start hn) (by rw [gbits_length]; omega)).symm

theorem window_length (data : List Nat) (start c k : Nat) : (window data start c k).length = k := by
  unfold window
  rw [List.length_take, List.length_drop, gbits_length]
  omega

theorem window_add (data : List Nat) (start c j k : Nat) : window data start c (j + k) = window data start c j ++ window data start (c + j) k := by
  rw [window_eq (n := c + j + k) (by omega), window_eq (k := j) (n := c + j + k) (by omega), window_eq (c := c + j) (n := c + j + k) (by omega)]
  rw [← List.drop_drop, List.take_add]

theorem window_zero (data : List Nat) (start c : Nat) : window data start c 0 = [] := by
  unfold window; rw [List.take_zero]

theorem ofMsb_slice (l : List Bool) {c k : Nat} (h : c + k ≤ l.length) :
    ofMsb ((l.drop c).take k) = ofMsb l / 2 ^ (l.length - c - k) % 2 ^ k := by
  have e : l = l.take c ++ ((l.drop c).take k ++ l.drop (c + k)) := by
    rw [← List.drop_drop, List.take_append_drop, List.take_append_drop]
  have h1 : ((l.drop c).take k).length = k := by rw [List.length_take, List.length_drop]; omega
  have h2 : (l.drop (c + k)).length = l.length - c - k := by rw [List.length_drop]; omega
  have hv : ofMsb l = (ofMsb (l.take c) * 2 ^ k + ofMsb ((l.drop c).take k)) * 2 ^ (l.length - c - k) + ofMsb (l.drop (c + k)) := by
    conv_lhs => rw [e]
    rw [ofMsb_append, ofMsb_append, List.length_append, h1, h2, Nat.add_mul, Nat.pow_add, Nat.mul_assoc, Nat.add_assoc]
  have hlt := ofMsb_lt (l.drop (c + k))
  rw [h2] at hlt
  have hlt2 := ofMsb_lt ((l.drop c).take k)
  rw [h1] at hlt2
  rw [hv, Nat.mul_comm _ (2 ^ (l.length - c - k)), Nat.mul_add_div (Nat.two_pow_pos _), Nat.div_eq_of_lt hlt, Nat.add_zero,
    Nat.mul_comm, Nat.mul_add_mod, Nat.mod_eq_of_lt hlt2]

/-! ## The state stands for a number of bits consumed -/

/-- After `c` bits, `n` bytes have been read, and the rest of them is in the 64-bit word. -/
def JR.RepN (data : List Nat) (start c n : Nat) (b : JR) : Prop :=
  c + b.left = 8 * n ∧ b.left ≤ 64 ∧ (b.pos, b.nm) = gst data start n ∧ b.val = ofMsb (gbits data start n) % 2 ^ 64

def JR.Rep (data : List Nat) (start c : Nat) (b : JR) : Prop := ∃ n, b.RepN data start c n

theorem JR.fillLoop_rep {data : List Nat} {start c : Nat} (hd : Bytes data) (fuel : Nat) : ∀ {n : Nat} {b : JR}, b.RepN data start c n → 56 < b.left + 8 * fuel →
    ∃ n', (JR.fillLoop data fuel b).RepN data start c n' ∧ 56 < (JR.fillLoop data fuel b).left := by
  induction fuel with
  | zero => intro n b h hf; exact ⟨n, h, by simpa [JR.fillLoop] using hf⟩
  | succ fuel ih =>
    intro n b h hf
    rw [JR.fillLoop]
    split
    · rename_i hle
      obtain ⟨h1, h2, h3, h4⟩ := h
      refine ih (n := n + 1) ?_ (by simp only; omega)
      have hp : b.pos = (gst data start n).1 := by rw [← h3]
      have hm : b.nm = (gst data start n).2 := by rw [← h3]
      refine ⟨by simp only; omega, by simp only; omega, ?_, ?_⟩
      · simp only [gst, hp, hm]
      · simp only
        rw [gbits_succ, ofMsb_append, msb_length, hp, hm, h4]
        have hg : gbyte data start n < 256 := by
          unfold gbyte gnext
          split
          · simp
          · split
            · split <;> simp
            · simp only
              unfold byteOf
              rw [List.getD_eq_getElem?_getD]
              cases hi : data[(gst data start n).1]? with
              | none => simp
              | some v => simpa using hd v (List.mem_of_getElem? hi)
        rw [show (gnext data (gst data start n).1 (gst data start n).2).1 = gbyte data start n from rfl, ofMsb_msb_lt hg]
        rw [Nat.add_mod, Nat.mul_mod, Nat.mod_mod, ← Nat.mul_mod, ← Nat.add_mod]
    · exact ⟨n, h, by omega⟩

theorem JR.fill_rep {data : List Nat} {start c : Nat} (hd : Bytes data) {b : JR} (h : b.Rep data start c) :
    ∃ n, (b.fill data).RepN data start c n ∧ 16 < (b.fill data).left := by
  obtain ⟨n, h⟩ := h
  unfold JR.fill
  split
  · obtain ⟨n', h1, h2⟩ := JR.fillLoop_rep hd 8 h (by omega)
    exact ⟨n', h1, by omega⟩
  · exact ⟨n, h, by omega⟩

theorem JR.reset_rep {data : List Nat} (hd : Bytes data) (start : Nat) : (JR.reset data start).Rep data start 0 := by
  obtain ⟨n, h, _⟩ := JR.fill_rep (start := start) (c := 0) hd (b := ⟨start, 0, 0, data.length - 2⟩)
    ⟨0, by simp, by simp, rfl, by simp [gbits, gbytes, bytesMsb, ofMsb]⟩
  exact ⟨n, h⟩

theorem JR.RepN.peek {data : List Nat} {start c n : Nat} {b : JR} (h : b.RepN data start c n) {k : Nat} (hk : k ≤ b.left) :
    b.val / 2 ^ (b.left - k) % 2 ^ k = ofMsb (window data start c k) := by
  obtain ⟨h1, h2, h3, h4⟩ := h
  rw [window_eq (n := n) (by omega), ofMsb_slice _ (by rw [gbits_length]; omega), gbits_length, h4,
    show 8 * n - c - k = b.left - k by omega]
  generalize ofMsb (gbits data start n) = V
  rw [← Nat.mod_mul_right_div_self, ← Nat.mod_mul_right_div_self, ← Nat.pow_add, show b.left - k + k = b.left by omega]
  rw [Nat.mod_mod_of_dvd _ (Nat.pow_dvd_pow 2 h2)]

theorem JR.RepN.advance {data : List Nat} {start c n : Nat} {b : JR} (h : b.RepN data start c n) {k : Nat} (hk : k ≤ b.left) :
    (⟨b.pos, b.val, b.left - k, b.nm⟩ : JR).RepN data start (c + k) n := by
  obtain ⟨h1, h2, h3, h4⟩ := h
  exact ⟨by simp only; omega, by simp only; omega, h3, h4⟩

theorem JR.readBits_rep {data : List Nat} {start c : Nat} (hd : Bytes data) {b : JR} (h : b.Rep data start c) {n : Nat} (hn : n ≤ 16) :
    (b.readBits data n).1 = ofMsb (window data start c n) ∧ (b.readBits data n).2.Rep data start (c + n) := by
  obtain ⟨m, h1, h2⟩ := JR.fill_rep hd h
  exact ⟨h1.peek (by omega), m, h1.advance (by omega)⟩

/-- The lookup stays within 16 bits. -/
def JBits (m : JMem) : Prop := ∀ i, (m i).bits ≤ 16

theorem window_sub {data : List Nat} {start c t : Nat} (h8 : 8 ≤ t) (h16 : t ≤ 16) :
    ofMsb (window data start (c + 8) (t - 8)) = ofMsb (window data start c 16) % 256 / 2 ^ (16 - t) := by
  have e : window data start c 16 = window data start c 8 ++ (window data start (c + 8) (t - 8) ++ window data start (c + 8 + (t - 8)) (16 - t)) := by
    rw [← window_add, show t - 8 + (16 - t) = 8 by omega, ← window_add]
  rw [e, ofMsb_append, ofMsb_append]
  have l1 := ofMsb_lt (window data start (c + 8) (t - 8))
  have l2 := ofMsb_lt (window data start (c + 8 + (t - 8)) (16 - t))
  simp only [window_length, List.length_append] at l1 l2 ⊢
  have e9 : 2 ^ (t - 8) * 2 ^ (16 - t) = 256 := by rw [← Nat.pow_add, show t - 8 + (16 - t) = 8 by omega]
  rw [Nat.pow_add, e9]
  have hpos := Nat.two_pow_pos (16 - t)
  generalize ofMsb (window data start (c + 8) (t - 8)) = u at *
  generalize ofMsb (window data start (c + 8 + (t - 8)) (16 - t)) = w at *
  generalize 2 ^ (16 - t) = q at *
  generalize 2 ^ (t - 8) = r at *
  have hlt : u * q + w < 256 := by
    have : (u + 1) * q ≤ r * q := Nat.mul_le_mul_right _ l1
    rw [Nat.add_mul] at this
    omega
  rw [Nat.mul_comm _ 256, Nat.mul_add_mod, Nat.mod_eq_of_lt hlt, Nat.mul_comm u, Nat.mul_add_div hpos, Nat.div_eq_of_lt l2, Nat.add_zero]

theorem JR.readSymbol_rep {data : List Nat} {start c : Nat} (hd : Bytes data) {b : JR} (h : b.Rep data start c) {m : JMem} (hm : JBits m) :
    (b.readSymbol data m).1 = (jlookup m (ofMsb (window data start c 16))).2 ∧
    ((jlookup m (ofMsb (window data start c 16))).1 ≤ 16 →
      (b.readSymbol data m).2.Rep data start (c + (jlookup m (ofMsb (window data start c 16))).1)) := by
  obtain ⟨n, h1, h2⟩ := JR.fill_rep hd h
  have p16 := h1.peek (k := 16) (by omega)
  have p8 := h1.peek (k := 8) (by omega)
  have s8 : (b.fill data).val / 2 ^ ((b.fill data).left - 8) % 256 = ofMsb (window data start c 16) / 256 := by
    rw [show (256 : Nat) = 2 ^ 8 from rfl, p8, show (16 : Nat) = 8 + 8 from rfl, window_add, ofMsb_append, window_length, Nat.mul_comm,
      Nat.mul_add_div (Nat.two_pow_pos 8)]
    have := ofMsb_lt (window data start (c + 8) 8)
    rw [window_length] at this
    rw [Nat.div_eq_of_lt this, Nat.add_zero]
  unfold JR.readSymbol jlookup
  simp only [s8]
  generalize hx : ofMsb (window data start c 16) = x at *
  by_cases hb : 8 < (m (x / 256)).bits
  · rw [if_pos (by omega), if_pos hb]
    have hb16 := hm (x / 256)
    have hsub : (b.fill data).val / 2 ^ ((b.fill data).left - 8 - ((m (x / 256)).bits - 8)) % 2 ^ ((m (x / 256)).bits - 8) =
        x % 256 / 2 ^ (16 - (m (x / 256)).bits) := by
      have ha := (h1.advance (k := 8) (by omega)).peek (k := (m (x / 256)).bits - 8) (by simp only; omega)
      simp only at ha
      rw [ha, window_sub (by omega) hb16, hx]
    rw [hsub]
    refine ⟨rfl, ?_⟩
    intro h16
    have := (h1.advance (k := 8) (by omega)).advance (k := (m (x / 256 + (m (x / 256)).value + x % 256 / 2 ^ (16 - (m (x / 256)).bits))).bits)
      (by simp only at h16 ⊢; omega)
    exact ⟨n, by rw [Nat.add_assoc] at this; exact this⟩
  · rw [if_neg (by omega), if_neg hb]
    refine ⟨rfl, ?_⟩
    intro h16
    exact ⟨n, h1.advance (by simp only at h16; omega)⟩

/-! ## End of an interval -/

theorem gnext_cases (data : List Nat) (p nm : Nat) :
    (nm ≤ p ∧ gnext data p nm = (0, p + 1, nm)) ∨
    (p < nm ∧ byteOf data p = 255 ∧ byteOf data (p + 1) = 0 ∧ gnext data p nm = (255, p + 2, nm)) ∨
    (p < nm ∧ byteOf data p = 255 ∧ byteOf data (p + 1) ≠ 0 ∧ gnext data p nm = (255, p + 1, p)) ∨
    (p < nm ∧ byteOf data p ≠ 255 ∧ gnext data p nm = (byteOf data p, p + 1, nm)) := by
  unfold gnext
  by_cases h1 : nm ≤ p
  · exact .inl ⟨h1, by rw [if_pos h1]⟩
  · rw [if_neg h1]
    by_cases h2 : byteOf data p = 255
    · rw [if_pos h2]
      by_cases h3 : byteOf data (p + 1) = 0
      · exact .inr (.inl ⟨by omega, h2, h3, by rw [if_pos h3]⟩)
      · exact .inr (.inr (.inl ⟨by omega, h2, h3, by rw [if_neg h3]⟩))
    · exact .inr (.inr (.inr ⟨by omega, h2, by rw [if_neg h2]⟩))

theorem gst_nm_le (data : List Nat) (start n k : Nat) : (gst data start (n + k)).2 ≤ (gst data start n).2 := by
  induction k with
  | zero => exact Nat.le_refl _
  | succ k ih =>
    rw [← Nat.add_assoc, gst]
    rcases gnext_cases data (gst data start (n + k)).1 (gst data start (n + k)).2 with ⟨_, h⟩ | ⟨_, _, _, h⟩ | ⟨_, _, _, h⟩ | ⟨_, _, h⟩ <;>
      rw [h] <;> simp only <;> omega

theorem gst_pos_lt (data : List Nat) (start n k : Nat) : (gst data start n).1 + k ≤ (gst data start (n + k)).1 := by
  induction k with
  | zero => exact Nat.le_refl _
  | succ k ih =>
    rw [← Nat.add_assoc, ← Nat.add_assoc, gst]
    rcases gnext_cases data (gst data start (n + k)).1 (gst data start (n + k)).2 with ⟨_, h⟩ | ⟨_, _, _, h⟩ | ⟨_, _, _, h⟩ | ⟨_, _, h⟩ <;>
      rw [h] <;> simp only <;> omega

/-- The next marker is where it was, or at a later byte. -/
theorem gst_nm_or (data : List Nat) (start n k : Nat) :
    (gst data start (n + k)).2 = (gst data start n).2 ∨ (gst data start n).1 ≤ (gst data start (n + k)).2 := by
  induction k with
  | zero => exact .inl rfl
  | succ k ih =>
    rw [← Nat.add_assoc, gst]
    have hp := gst_pos_lt data start n k
    rcases gnext_cases data (gst data start (n + k)).1 (gst data start (n + k)).2 with ⟨_, h⟩ | ⟨_, _, _, h⟩ | ⟨_, _, _, h⟩ | ⟨_, _, h⟩ <;>
      rw [h] <;> simp only <;> omega

/-- No marker from a position on. -/
def NoMarkFrom (data : List Nat) (start : Nat) : Prop :=
  ∀ q, start ≤ q → q + 2 ≤ data.length → byteOf data q = 255 → byteOf data (q + 1) = 0

/-- As long as no marker has been met, all of the bytes have been seen. -/
theorem gst_seen (data : List Nat) (start n : Nat) : (gst data start n).2 = data.length - 2 →
    ∀ q, start ≤ q → q < (gst data start n).1 → q < data.length - 2 → byteOf data q = 255 → byteOf data (q + 1) = 0 := by
  induction n with
  | zero =>
    intro _ q h1 h2
    simp only [gst] at h2
    omega
  | succ n ih =>
    intro hnm q h1 h2 h3 h4
    have hle := gst_nm_le data start 0 n
    rw [Nat.zero_add] at hle
    simp only [gst] at hnm h2 hle
    rcases gnext_cases data (gst data start n).1 (gst data start n).2 with ⟨c1, h⟩ | ⟨c1, c2, c3, h⟩ | ⟨c1, c2, c3, h⟩ | ⟨c1, c2, h⟩ <;>
      rw [h] at hnm h2 <;> simp only at hnm h2
    · exact ih hnm q h1 (by omega) h3 h4
    · by_cases hq : q < (gst data start n).1
      · exact ih hnm q h1 hq h3 h4
      · by_cases hq2 : q = (gst data start n).1
        · rw [hq2]; exact c3
        · rw [show q = (gst data start n).1 + 1 by omega, c3] at h4
          omega
    · omega
    · by_cases hq : q < (gst data start n).1
      · exact ih hnm q h1 hq h3 h4
      · rw [show q = (gst data start n).1 by omega] at h4
        exact absurd h4 c2

theorem gst_unmarked (data : List Nat) (start n : Nat) : (gst data start n).1 < (gst data start n).2 → (gst data start n).2 = data.length - 2 := by
  induction n with
  | zero => intro _; rfl
  | succ n ih =>
    rw [gst]
    rcases gnext_cases data (gst data start n).1 (gst data start n).2 with ⟨c1, h⟩ | ⟨c1, c2, c3, h⟩ | ⟨c1, c2, c3, h⟩ | ⟨c1, c2, h⟩ <;>
      rw [h] <;> simp only <;> intro hlt
    · omega
    · exact ih (by omega)
    · omega
    · exact ih (by omega)

/-- One byte is given back exactly, unless it is an escaped one right before the last two bytes of the file. -/
theorem giveBack1_exact {data : List Nat} {start i k : Nat} (hi : 1 ≤ i) :
    giveBack1 data (gst data start (i + 1 + k)).2 (gst data start (i + 1)).1 = (gst data start i).1 ∨
    (giveBack1 data (gst data start (i + 1 + k)).2 (gst data start (i + 1)).1 = (gst data start i).1 + 1 ∧ NoMarkFrom data start) := by
  have hnm := gst_nm_or data start (i + 1) k
  have hle := gst_nm_le data start (i + 1) k
  have hle0 := gst_nm_le data start 0 (i + 1 + k)
  rw [Nat.zero_add] at hle0
  simp only [gst.eq_1] at hle0
  obtain ⟨i', rfl⟩ : ∃ i', i = i' + 1 := ⟨i - 1, by omega⟩
  unfold giveBack1
  simp only
  generalize hN : (gst data start (i' + 1 + 1 + k)).2 = N at *
  rw [gst] at hnm hle ⊢
  rcases gnext_cases data (gst data start (i' + 1)).1 (gst data start (i' + 1)).2 with ⟨c1, h⟩ | ⟨c1, c2, c3, h⟩ | ⟨c1, c2, c3, h⟩ | ⟨c1, c2, h⟩ <;>
    rw [h] at hnm hle ⊢ <;> simp only at hnm hle ⊢
  · left
    rw [if_neg (by omega)]
    omega
  · by_cases hlt : (gst data start (i' + 1)).1 + 1 < N
    · left
      rw [if_pos ⟨by omega, by rw [Nat.add_sub_assoc (by omega)]; exact c3, by rw [show (gst data start (i' + 1)).1 + 2 - 1 - 1 = (gst data start (i' + 1)).1 by omega]; exact c2⟩]
      omega
    · right
      rw [if_neg (by omega)]
      refine ⟨by omega, ?_⟩
      have hnn : N = (gst data start (i' + 1)).2 := by omega
      have hN2 := gst_unmarked data start (i' + 1) c1
      intro q q1 q2 q3
      by_cases hq : q < data.length - 2
      · refine gst_seen data start (i' + 1 + 1) (by rw [gst, h]; exact hN2) q q1 ?_ hq q3
        rw [gst, h]
        simp only
        omega
      · have : q = (gst data start (i' + 1)).1 + 1 := by omega
        rw [this, c3] at q3
        omega
  · left
    rw [if_neg (by omega)]
    omega
  · left
    rw [if_neg]
    · omega
    · rintro ⟨g1, g2, g3⟩
      rw [Nat.add_sub_cancel] at g1 g2 g3
      rw [gst] at g1 g2 g3 c1
      rcases gnext_cases data (gst data start i').1 (gst data start i').2 with ⟨d1, h'⟩ | ⟨d1, d2, d3, h'⟩ | ⟨d1, d2, d3, h'⟩ | ⟨d1, d2, h'⟩ <;>
        rw [h'] at g1 g2 g3 c1 <;> simp only at g1 g2 g3 c1
      · omega
      · rw [show (gst data start i').1 + 2 - 1 = (gst data start i').1 + 1 by omega, d3] at g3
        omega
      · omega
      · rw [Nat.add_sub_cancel] at g3
        exact d2 g3

theorem giveBack1_ge {data : List Nat} {nm p : Nat} : p - 2 ≤ giveBack1 data nm p := by
  unfold giveBack1
  simp only
  split <;> omega

theorem giveBack_spec {data : List Nat} {start N : Nat} (k : Nat) : ∀ {i pos : Nat}, 1 ≤ i → i + k ≤ N →
    (pos = (gst data start (i + k)).1 ∨ ((gst data start (i + k)).1 ≤ pos ∧ NoMarkFrom data start)) →
    giveBack data (gst data start N).2 k pos = (gst data start i).1 ∨
      ((gst data start i).1 ≤ giveBack data (gst data start N).2 k pos ∧ NoMarkFrom data start) := by
  induction k with
  | zero => intro i pos _ _ h; exact h
  | succ k ih =>
    intro i pos hi hN h
    rw [giveBack]
    refine ih hi (by omega) ?_
    have hex := giveBack1_exact (data := data) (start := start) (i := i + k) (k := N - (i + k + 1)) (by omega)
    rw [show i + k + 1 + (N - (i + k + 1)) = N by omega] at hex
    rcases h with h | ⟨h, hm⟩
    · rw [h, ← Nat.add_assoc]
      rcases hex with e | ⟨e, hm⟩
      · exact .inl e
      · exact .inr ⟨by rw [e]; omega, hm⟩
    · refine .inr ⟨?_, hm⟩
      rw [← Nat.add_assoc] at h
      have hlt := gst_pos_lt data start (i + k) 1
      by_cases hp : pos = (gst data start (i + k + 1)).1
      · rw [hp]
        rcases hex with e | ⟨e, _⟩ <;> rw [e] <;> omega
      · have := giveBack1_ge (data := data) (nm := (gst data start N).2) (p := pos)
        omega

/-- A slice of the input. -/
def slice (data : List Nat) (a b : Nat) : List Nat := (List.range (b - a)).map fun i => byteOf data (a + i)

theorem slice_eq {data : List Nat} {a b : Nat} (h : b ≤ data.length) : slice data a b = (data.drop a).take (b - a) := by
  apply List.ext_getElem
  · simp [slice]; omega
  · intro i h1 h2
    simp only [slice, List.length_map, List.length_range] at h1
    simp only [slice, byteOf, List.getElem_map, List.getElem_range, List.getElem_take, List.getElem_drop]
    rw [List.getD_eq_getElem?_getD, List.getElem?_eq_getElem (by omega)]
    rfl

theorem slice_append {data : List Nat} {a b c : Nat} (h1 : a ≤ b) (h2 : b ≤ c) : slice data a c = slice data a b ++ slice data b c := by
  unfold slice
  rw [show c - a = (b - a) + (c - b) by omega, List.range_add, List.map_append, List.map_map]
  congr 1
  apply List.map_congr_left
  intro i _
  simp only [Function.comp]
  congr 1
  omega

theorem slice_one (data : List Nat) (a : Nat) : slice data a (a + 1) = [byteOf data a] := by
  unfold slice
  rw [show a + 1 - a = 1 by omega]
  rfl

theorem slice_two (data : List Nat) (a : Nat) : slice data a (a + 2) = [byteOf data a, byteOf data (a + 1)] := by
  unfold slice
  rw [show a + 2 - a = 2 by omega]
  rfl

/-- Bytes up to a position before the next marker are the input without the stuffing. -/
theorem gbytes_stuff (data : List Nat) (start n k : Nat) : (gst data start n).1 ≤ (gst data start (n + k)).2 →
    slice data start (gst data start n).1 = stuff (gbytes data start n) ∧ start ≤ (gst data start n).1 := by
  induction n generalizing k with
  | zero => intro _; exact ⟨by simp [slice, gst, gbytes, stuff], Nat.le_refl _⟩
  | succ n ih =>
    intro h
    have hle := gst_nm_le data start (n + 1) k
    have hp := gst_pos_lt data start n 1
    obtain ⟨e, hs⟩ := ih (k + 1) (by rw [show n + (k + 1) = n + 1 + k by omega]; omega)
    rw [gbytes_succ, stuff_append, ← e]
    rw [gst] at h hle hp ⊢
    unfold gbyte
    rcases gnext_cases data (gst data start n).1 (gst data start n).2 with ⟨c1, h'⟩ | ⟨c1, c2, c3, h'⟩ | ⟨c1, c2, c3, h'⟩ | ⟨c1, c2, h'⟩ <;>
      rw [h'] at h hle hp ⊢ <;> simp only at h hle hp ⊢
    · omega
    · refine ⟨?_, by omega⟩
      rw [slice_append hs (show (gst data start n).1 ≤ (gst data start n).1 + 2 by omega), slice_two, c2, c3]
      simp [stuff]
    · omega
    · refine ⟨?_, by omega⟩
      rw [slice_append hs (show (gst data start n).1 ≤ (gst data start n).1 + 1 by omega), slice_one]
      simp [stuff, c2]

theorem gbyte_lt {data : List Nat} (hd : Bytes data) (start n : Nat) : gbyte data start n < 256 := by
  unfold gbyte gnext
  split
  · simp
  · split
    · split <;> simp
    · simp only
      unfold byteOf
      rw [List.getD_eq_getElem?_getD]
      cases hi : data[(gst data start n).1]? with
      | none => simp
      | some v => simpa using hd v (List.mem_of_getElem? hi)

/-- **End of an interval.** When the reader accepts it, then what lies between its start and the position returned is, with the stuffing removed, the
bits consumed followed by the padding bits recorded; or else no marker follows. -/
theorem JR.finish_spec {data : List Nat} {start c : Nat} (hd : Bytes data) {b : JR} (h : b.Rep data start c) (hc : 1 ≤ c) {pads : List Bool} {pos : Nat}
    (hf : b.finish data = some (pads, pos)) :
    start ≤ pos ∧ ((∃ g, Bytes g ∧ slice data start pos = stuff g ∧ bytesMsb g = window data start 0 c ++ pads ∧ pads.length = padLen c) ∨
      NoMarkFrom data start) := by
  obtain ⟨n, h⟩ := h
  obtain ⟨h1, h2, h3, h4⟩ := h
  unfold JR.finish at hf
  simp only at hf
  split at hf
  · cases hf
  · rename_i hnm
    simp only [Option.some.injEq, Prod.mk.injEq] at hf
    obtain ⟨hpad, hpos⟩ := hf
    have hpn : b.pos = (gst data start n).1 := by rw [← h3]
    have hmn : b.nm = (gst data start n).2 := by rw [← h3]
    have hj : b.left / 8 ≤ n := by omega
    have hgb := giveBack_spec (data := data) (start := start) (N := n) (b.left / 8) (i := n - b.left / 8) (pos := b.pos) (by omega) (by omega)
      (.inl (by rw [hpn, show n - b.left / 8 + b.left / 8 = n by omega]))
    rw [← hmn, hpos] at hgb
    have hst := gst_pos_lt data start 0 (n - b.left / 8)
    rw [Nat.zero_add] at hst
    simp only [gst.eq_1] at hst
    rcases hgb with hgb | ⟨hgb, hm⟩
    · rw [hpos, hgb, hmn] at hnm
      have := gbytes_stuff data start (n - b.left / 8) (b.left / 8) (by rw [show n - b.left / 8 + b.left / 8 = n by omega]; omega)
      refine ⟨by omega, .inl ⟨gbytes data start (n - b.left / 8), ?_, ?_, ?_, ?_⟩⟩
      · intro x hx
        obtain ⟨i, _, rfl⟩ := List.mem_map.mp hx
        exact gbyte_lt hd start i
      · rw [hgb]; exact this.1
      · have hw : window data start 0 (8 * (n - b.left / 8)) = bytesMsb (gbytes data start (n - b.left / 8)) := by
          rw [window_eq (n := n - b.left / 8) (by omega), List.drop_zero, gbits, List.take_of_length_le]
          rw [← gbits, gbits_length]
        rw [← hw, show 8 * (n - b.left / 8) = c + b.left % 8 by omega, window_add, Nat.zero_add]
        congr 1
        have hpk := JR.RepN.peek (data := data) (start := start) (c := c) (n := n) (b := b) ⟨h1, h2, h3, h4⟩ (k := b.left % 8) (by omega)
        rw [← hpad, hpk]
        have := msb_ofMsb (window data start c (b.left % 8))
        rw [window_length] at this
        exact this.symm
      · rw [← hpad, msb_length]
        unfold padLen
        omega
    · exact ⟨by omega, .inr hm⟩

end Brunsli
