import Verif.Base128
/-!
# The bit writer and the bit reader on memory

`Storage`, `WriteBits` (c/enc/write_bits.h:18-90, c/enc/write_bits.cc; little-endian branch) and
`BrunsliBitReader` (c/dec/bit_reader.h, c/dec/bit_reader.cc).
-/

namespace Brunsli

/-- Little-endian value of a byte list. -/
def leVal : List Nat → Nat
  | [] => 0
  | b :: bs => b + 256 * leVal bs

/-- The `k` bytes of `v`, little-endian (`BRUNSLI_UNALIGNED_STORE64LE` for `k = 8`). -/
def leBytes : Nat → Nat → List Nat
  | 0, _ => []
  | k + 1, v => v % 256 :: leBytes k (v / 256)

/-- `Storage` (c/enc/write_bits.h:18-38): the buffer and the number of bits written. -/
structure Storage where
  data : List Nat
  pos : Nat
deriving DecidableEq, Repr

/-- `Storage::Storage` (c/enc/write_bits.cc:12-16): an arbitrary buffer, whose first byte is cleared.
`none`: the `BRUNSLI_CHECK(length > 0)` abort. -/
def Storage.mk' (buf : List Nat) : Option Storage :=
  match buf with
  | [] => none
  | _ :: r => some ⟨0 :: r, 0⟩

/-- `WriteBits` (c/enc/write_bits.h:54-75, little-endian branch): read the current byte, or the bits
in, store eight bytes.  `none`: the access is outside the buffer, or more than 56 bits, or
`bits >> n_bits != 0` (the DCHECKed preconditions). -/
def Storage.writeBits (s : Storage) (n bits : Nat) : Option Storage :=
  if s.pos / 8 + 8 ≤ s.data.length ∧ n ≤ 56 ∧ bits < 2 ^ n then
    match s.data[s.pos / 8]? with
    | none => none
    | some b =>
      let v := b ||| ((bits <<< (s.pos % 8)) % 2 ^ 64)
      some ⟨s.data.take (s.pos / 8) ++ leBytes 8 v ++ s.data.drop (s.pos / 8 + 8), s.pos + n⟩
  else none

/-- `GetBytesUsed` (c/enc/write_bits.h:26-28). -/
def Storage.bytesUsed (s : Storage) : Nat := (s.pos + 7) / 8

/-- A sequence of `WriteBits` calls. -/
def Storage.writes (s : Storage) : List (Nat × Nat) → Option Storage
  | [] => some s
  | (n, v) :: ws =>
    match s.writeBits n v with
    | none => none
    | some s => s.writes ws

/-- `BrunsliBitReader` (c/dec/bit_reader.h:17-38).  `next` is `next_ - buffer` and the buffer is kept
beside. -/
structure BR where
  next : Nat
  numBits : Nat
  bits : Nat
  debt : Nat
  healthy : Bool
deriving DecidableEq, Repr

/-- `BrunsliBitReaderInit` and `Resume` (c/dec/bit_reader.cc:13-26). -/
def BR.init : BR := ⟨0, 0, 0, 0, true⟩

/-- `BrunsliBitReaderMaybeFetchByte`, `OweByte` (c/dec/bit_reader.h:75-93). The shift is on 32 bits. -/
def BR.fetch (buf : List Nat) (n : Nat) (r : BR) : BR :=
  if r.numBits < n then
    match buf[r.next]? with
    | none => { r with numBits := r.numBits + 8, debt := r.debt + 1 }
    | some b => { r with bits := r.bits ||| ((b <<< r.numBits) % 2 ^ 32), numBits := r.numBits + 8
                         next := r.next + 1 }
  else r

/-- `BrunsliBitReaderGet` (c/dec/bit_reader.h:111-120): the fetching part. -/
def BR.fill (buf : List Nat) (n : Nat) (r : BR) : BR :=
  let r := r.fetch buf n
  if n > 8 then
    let r := r.fetch buf n
    if n > 16 then r.fetch buf n else r
  else r

/-- `BrunsliBitReaderRead` (c/dec/bit_reader.h:122-136): get, then drop. -/
def BR.read (buf : List Nat) (n : Nat) (r : BR) : Nat × BR :=
  let r := r.fill buf n
  (r.bits % 2 ^ n, { r with bits := r.bits / 2 ^ n, numBits := r.numBits - n })

/-- `BrunsliBitReaderUnload` (c/dec/bit_reader.cc:35-47): both loops in closed form.  The first returns
`min debt (numBits / 8)` bytes of debt, the second the remaining whole bytes. -/
def BR.unload (r : BR) : BR :=
  let k := min r.debt (r.numBits / 8)
  let nb := r.numBits - 8 * k
  { r with debt := r.debt - k, next := r.next - nb / 8, numBits := nb % 8, bits := r.bits % 2 ^ (nb % 8) }

/-- `BrunsliBitReaderIsHealthy` (c/dec/bit_reader.cc:69-72). -/
def BR.isHealthy (r : BR) : Bool := r.unload.debt = 0 && r.unload.healthy

/-- `BrunsliBitReaderSuspend` (c/dec/bit_reader.cc:49-55): the number of unused bytes. -/
def BR.unused (buf : List Nat) (r : BR) : Nat := buf.length - r.unload.next

/-- `BrunsliBitReaderFinish` (c/dec/bit_reader.cc:57-67). -/
def BR.finish (buf : List Nat) (r : BR) : BR :=
  if r.numBits ≥ 8 then { r with healthy := false }
  else if r.numBits > 0 then
    let p := r.read buf r.numBits
    if p.1 ≠ 0 then { p.2 with healthy := false } else p.2
  else r

/-- `BrunsliBitReaderCanRead` (c/dec/bit_reader.cc:78-84), not in optimistic mode. -/
def BR.canRead (buf : List Nat) (n : Nat) (r : BR) : Bool :=
  if r.debt ≠ 0 then false
  else if r.numBits ≥ n then true
  else decide (r.next + (n - r.numBits + 7) / 8 ≤ buf.length)

/-- A sequence of reads of the given widths. -/
def BR.reads (buf : List Nat) (r : BR) : List Nat → List Nat × BR
  | [] => ([], r)
  | n :: ns =>
    let p := r.read buf n
    let q := BR.reads buf p.2 ns
    (p.1 :: q.1, q.2)

/-! ## Little-endian arithmetic -/

theorem leVal_append (a b : List Nat) : leVal (a ++ b) = leVal a + 256 ^ a.length * leVal b := by
  induction a with
  | nil => simp [leVal]
  | cons x a ih =>
    simp only [List.cons_append, leVal, ih, List.length_cons, Nat.pow_succ]
    rw [Nat.mul_add, ← Nat.mul_assoc, Nat.mul_comm 256 (256 ^ _), Nat.add_assoc]

theorem leVal_lt {bs : List Nat} (h : Bytes bs) : leVal bs < 256 ^ bs.length := by
  induction bs with
  | nil => simp [leVal]
  | cons b bs ih =>
    have h1 := h b (by simp)
    have h2 := ih (fun x hx => h x (by simp [hx]))
    simp only [leVal, List.length_cons, Nat.pow_succ]
    omega

theorem leBytes_length (k v : Nat) : (leBytes k v).length = k := by
  induction k generalizing v with
  | zero => rfl
  | succ k ih => simp [leBytes, ih]

theorem leBytes_bytes (k v : Nat) : Bytes (leBytes k v) := by
  induction k generalizing v with
  | zero => intro b hb; simp [leBytes] at hb
  | succ k ih =>
    intro b hb
    simp only [leBytes, List.mem_cons] at hb
    rcases hb with hb | hb
    · omega
    · exact ih _ b hb

theorem leVal_take_leBytes (k j v : Nat) (hj : j ≤ k) : leVal ((leBytes k v).take j) = v % 256 ^ j := by
  induction k generalizing j v with
  | zero =>
    have : j = 0 := by omega
    subst this; simp [leBytes, leVal, Nat.mod_one]
  | succ k ih =>
    cases j with
    | zero => simp [leVal, Nat.mod_one]
    | succ j =>
      simp only [leBytes, List.take_succ_cons, leVal, ih j (v / 256) (by omega)]
      rw [Nat.pow_succ, Nat.mul_comm (256 ^ j), Nat.mod_mul]

theorem pow256 (k : Nat) : 256 ^ k = 2 ^ (8 * k) := by
  rw [Nat.pow_mul]

theorem leVal_div_mod {bs : List Nat} (h : Bytes bs) (k : Nat) {b : Nat} (hb : bs[k]? = some b) :
    leVal bs / 2 ^ (8 * k) % 256 = b := by
  induction bs generalizing k with
  | nil => simp at hb
  | cons x bs ih =>
    have hx := h x (by simp)
    cases k with
    | zero =>
      simp only [List.getElem?_cons_zero, Option.some.injEq] at hb
      subst hb
      simp only [leVal, Nat.mul_zero, Nat.pow_zero, Nat.div_one]
      omega
    | succ k =>
      simp only [List.getElem?_cons_succ] at hb
      have := ih (fun x hx => h x (by simp [hx])) k hb
      simp only [leVal]
      rw [Nat.mul_add, Nat.pow_add, Nat.mul_comm (2 ^ (8 * k)), ← Nat.div_div_eq_div_mul,
        show (2 : Nat) ^ (8 * 1) = 256 by rfl, show (x + 256 * leVal bs) / 256 = leVal bs by omega]
      exact this

theorem leVal_div_zero {bs : List Nat} (h : Bytes bs) (k : Nat) (hk : bs.length ≤ k) :
    leVal bs / 2 ^ (8 * k) = 0 := by
  apply Nat.div_eq_of_lt
  refine Nat.lt_of_lt_of_le (leVal_lt h) ?_
  rw [pow256]
  exact Nat.pow_le_pow_right (by omega) (by omega)

/-! ## Writer -/

/-- The number formed by the bits of a sequence of writes. -/
def writesVal (pos : Nat) : List (Nat × Nat) → Nat
  | [] => 0
  | (n, v) :: ws => v * 2 ^ pos + writesVal (pos + n) ws

/-- Total width. -/
def writesLen : List (Nat × Nat) → Nat
  | [] => 0
  | (n, _) :: ws => n + writesLen ws

/-- The bytes up to and including the current one hold exactly the bits `W` written so far. -/
structure Storage.Inv (s : Storage) (W : Nat) : Prop where
  bytes : Bytes s.data
  len : s.pos / 8 < s.data.length
  val : leVal (s.data.take (s.pos / 8 + 1)) = W
  lt : W < 2 ^ s.pos

theorem Storage.mk'_inv {buf : List Nat} {s : Storage} (hb : Bytes buf)
    (h : Storage.mk' buf = some s) : s.Inv 0 ∧ s.pos = 0 := by
  unfold Storage.mk' at h
  split at h
  · cases h
  · rename_i b r
    simp only [Option.some.injEq] at h
    subst h
    refine ⟨⟨?_, by simp, by simp [leVal], by simp⟩, rfl⟩
    intro x hx
    simp only [List.mem_cons] at hx
    rcases hx with hx | hx
    · omega
    · exact hb x (by simp [hx])

theorem Storage.writeBits_inv {s : Storage} {W n v : Nat} (h : s.Inv W)
    (hl : (s.pos + n) / 8 + 8 ≤ s.data.length) (hn : n ≤ 56) (hv : v < 2 ^ n) :
    ∃ s', s.writeBits n v = some s' ∧ s'.Inv (W + v * 2 ^ s.pos) ∧ s'.pos = s.pos + n ∧
      s'.data.length = s.data.length := by
  obtain ⟨hb, hlen, hval, hlt⟩ := h
  generalize hq : s.pos / 8 = q at *
  generalize hr : s.pos % 8 = r at *
  have hpos : s.pos = 8 * q + r := by omega
  have hget : s.data[q]? = some s.data[q] := List.getElem?_eq_getElem hlen
  have hqlen : (s.data.take q).length = q := by simp; omega
  have htake : s.data.take (q + 1) = s.data.take q ++ [s.data[q]] := by
    rw [List.take_add_one, hget]; rfl
  rw [htake, leVal_append, hqlen] at hval
  simp only [leVal, Nat.mul_zero, Nat.add_zero] at hval
  -- the current byte holds fewer than `r` bits
  have hcur : s.data[q] < 2 ^ r := by
    have h1 : 256 ^ q * s.data[q] < 256 ^ q * 2 ^ r := by
      rw [hpos, Nat.pow_add, ← pow256] at hlt
      omega
    exact Nat.lt_of_mul_lt_mul_left h1
  have hr8 : r < 8 := by omega
  have hvr : v * 2 ^ r < 2 ^ 64 := by
    have h1 : v * 2 ^ r < 2 ^ n * 2 ^ r := Nat.mul_lt_mul_of_pos_right hv (Nat.two_pow_pos r)
    rw [← Nat.pow_add] at h1
    exact Nat.lt_of_lt_of_le h1 (Nat.pow_le_pow_right (by omega) (by omega))
  have hor : s.data[q] ||| ((v <<< r) % 2 ^ 64) = s.data[q] + v * 2 ^ r := by
    rw [Nat.mod_eq_of_lt (by rw [Nat.shiftLeft_eq]; exact hvr), or_shift hcur]
  have hV : s.data[q] + v * 2 ^ r < 2 ^ (r + n) := by
    have h1 : (v + 1) * 2 ^ r ≤ 2 ^ n * 2 ^ r := Nat.mul_le_mul_right _ hv
    rw [← Nat.pow_add, Nat.add_mul, Nat.add_comm n r] at h1
    omega
  refine ⟨⟨s.data.take q ++ leBytes 8 (s.data[q] + v * 2 ^ r) ++ s.data.drop (q + 8), s.pos + n⟩,
    ?_, ?_, rfl, ?_⟩
  · unfold Storage.writeBits
    rw [hq, hr, if_pos ⟨by omega, hn, hv⟩, hget]
    simp only [hor]
  · have hlen' : (s.data.take q ++ leBytes 8 (s.data[q] + v * 2 ^ r) ++ s.data.drop (q + 8)).length
        = s.data.length := by
      simp [leBytes_length]; omega
    have hq' : (s.pos + n) / 8 = q + (r + n) / 8 := by omega
    refine ⟨?_, ?_, ?_, ?_⟩
    · intro x hx
      simp only [List.mem_append] at hx
      rcases hx with (hx | hx) | hx
      · exact hb x (List.mem_of_mem_take hx)
      · exact leBytes_bytes _ _ x hx
      · exact hb x (List.mem_of_mem_drop hx)
    · simp only; rw [hlen', hq']; omega
    · simp only
      rw [hq', List.take_append_of_le_length (by simp [leBytes_length]; omega), List.take_append,
        hqlen, leVal_append]
      have h8 : q + (r + n) / 8 + 1 - q = (r + n) / 8 + 1 := by omega
      have ht : List.take (q + (r + n) / 8 + 1) (s.data.take q) = s.data.take q := by
        rw [List.take_take]; congr 1; omega
      rw [h8, ht, hqlen, leVal_take_leBytes _ _ _ (by omega)]
      rw [Nat.mod_eq_of_lt]
      · rw [Nat.mul_add, ← Nat.add_assoc, hval, hpos, Nat.pow_add, ← pow256]
        rw [Nat.mul_comm v (2 ^ r), ← Nat.mul_assoc, Nat.mul_comm v]
      · refine Nat.lt_of_lt_of_le hV ?_
        rw [pow256]
        exact Nat.pow_le_pow_right (by omega) (by omega)
    · simp only
      have h1 : (v + 1) * 2 ^ s.pos ≤ 2 ^ n * 2 ^ s.pos := Nat.mul_le_mul_right _ hv
      rw [← Nat.pow_add, Nat.add_mul, Nat.add_comm n] at h1
      omega
  · simp [leBytes_length]; omega

theorem Storage.writes_inv (ws : List (Nat × Nat)) : ∀ (s : Storage) (W : Nat), s.Inv W →
    (s.pos + writesLen ws) / 8 + 8 ≤ s.data.length → (∀ w ∈ ws, w.1 ≤ 56 ∧ w.2 < 2 ^ w.1) →
    ∃ s', s.writes ws = some s' ∧ s'.Inv (W + writesVal s.pos ws) ∧
      s'.pos = s.pos + writesLen ws ∧ s'.data.length = s.data.length := by
  induction ws with
  | nil =>
    intro s W h _ _
    exact ⟨s, rfl, by simpa [writesVal] using h, by simp [writesLen], rfl⟩
  | cons w ws ih =>
    obtain ⟨n, v⟩ := w
    intro s W h hl hw
    simp only [writesLen] at hl
    obtain ⟨hn, hv⟩ := hw (n, v) (by simp)
    obtain ⟨s1, e1, i1, p1, l1⟩ := Storage.writeBits_inv (n := n) (v := v) h (by omega) hn hv
    obtain ⟨s2, e2, i2, p2, l2⟩ := ih s1 _ i1 (by rw [p1, l1]; omega) (fun w hw' => hw w (by simp [hw']))
    refine ⟨s2, by simp [Storage.writes, e1, e2], ?_, ?_, by rw [l2, l1]⟩
    · rw [p1, Nat.add_assoc] at i2
      simpa [writesVal] using i2
    · rw [p2, p1]; simp [writesLen]; omega

/-- The used bytes hold the written bits, zero-padded. -/
theorem Storage.used_val {s : Storage} {W : Nat} (h : s.Inv W) :
    leVal (s.data.take s.bytesUsed) = W ∧ (s.data.take s.bytesUsed).length = s.bytesUsed := by
  obtain ⟨hb, hlen, hval, hlt⟩ := h
  unfold Storage.bytesUsed
  by_cases hr : s.pos % 8 = 0
  · have e : (s.pos + 7) / 8 = s.pos / 8 := by omega
    rw [e]
    refine ⟨?_, by simp; omega⟩
    have hget : s.data[s.pos / 8]? = some s.data[s.pos / 8] := List.getElem?_eq_getElem hlen
    rw [List.take_add_one, hget, leVal_append] at hval
    simp only [Option.toList_some, leVal, Nat.mul_zero, Nat.add_zero] at hval
    have hl : (s.data.take (s.pos / 8)).length = s.pos / 8 := by simp; omega
    rw [hl, pow256, show 8 * (s.pos / 8) = s.pos by omega] at hval
    have hz : s.data[s.pos / 8] = 0 := by
      rcases Nat.eq_zero_or_pos s.data[s.pos / 8] with h0 | h0
      · exact h0
      · have : 2 ^ s.pos * 1 ≤ 2 ^ s.pos * s.data[s.pos / 8] := Nat.mul_le_mul_left _ h0
        omega
    rw [hz] at hval
    omega
  · have e : (s.pos + 7) / 8 = s.pos / 8 + 1 := by omega
    rw [e]
    exact ⟨hval, by simp; omega⟩

/-! ## Reader -/

/-- The reader stands at bit `pos` of the buffer (extended by zeros). -/
structure BR.Inv (buf : List Nat) (r : BR) (pos : Nat) : Prop where
  cons : 8 * (r.next + r.debt) = pos + r.numBits
  le : r.next ≤ buf.length
  debt : r.debt ≠ 0 → r.next = buf.length
  bits : r.bits = leVal buf / 2 ^ pos % 2 ^ r.numBits

theorem BR.init_inv (buf : List Nat) : BR.init.Inv buf 0 := by
  refine ⟨rfl, by simp [BR.init], by simp [BR.init], by simp [BR.init, Nat.mod_one]⟩

theorem div_pow_split (S p k j : Nat) :
    S / 2 ^ p % 2 ^ (k + j) = S / 2 ^ p % 2 ^ k + 2 ^ k * (S / 2 ^ (p + k) % 2 ^ j) := by
  rw [Nat.pow_add, Nat.mod_mul, Nat.div_div_eq_div_mul, ← Nat.pow_add]

theorem BR.fetch_inv {buf : List Nat} {r : BR} {pos n : Nat} (hb : Bytes buf) (h : r.Inv buf pos)
    (hn : n ≤ 24) :
    (r.fetch buf n).Inv buf pos ∧ (r.fetch buf n).healthy = r.healthy ∧
      (r.numBits < n → (r.fetch buf n).numBits = r.numBits + 8) ∧
      (n ≤ r.numBits → (r.fetch buf n) = r) := by
  obtain ⟨h1, h2, h3, h4⟩ := h
  unfold BR.fetch
  by_cases hc : r.numBits < n
  · rw [if_pos hc]
    cases hg : buf[r.next]? with
    | none =>
      rw [List.getElem?_eq_none_iff] at hg
      have hk : r.next = buf.length := by omega
      refine ⟨⟨by simp only; omega, h2, fun _ => hk, ?_⟩, rfl, fun _ => rfl, fun h => by omega⟩
      simp only
      rw [div_pow_split, h4]
      have : leVal buf / 2 ^ (pos + r.numBits) = 0 := by
        rw [← h1]; exact leVal_div_zero hb _ (by omega)
      rw [this]; simp
    | some b =>
      have hlt : r.next < buf.length := by
        rcases Nat.lt_or_ge r.next buf.length with hh | hh
        · exact hh
        · rw [List.getElem?_eq_none hh] at hg; cases hg
      have hd : r.debt = 0 := by
        rcases Nat.eq_zero_or_pos r.debt with h0 | h0
        · exact h0
        · have := h3 (by omega); omega
      have hb' : b < 256 := hb b (List.mem_of_getElem? hg)
      refine ⟨⟨by simp only; omega, hlt, fun h => absurd hd h, ?_⟩, rfl, fun _ => rfl, fun h => by omega⟩
      simp only
      have hlt32 : b <<< r.numBits < 2 ^ 32 := by
        rw [Nat.shiftLeft_eq]
        have e1 : b * 2 ^ r.numBits < 2 ^ 8 * 2 ^ r.numBits :=
          Nat.mul_lt_mul_of_pos_right hb' (Nat.two_pow_pos _)
        rw [← Nat.pow_add] at e1
        exact Nat.lt_of_lt_of_le e1 (Nat.pow_le_pow_right (by omega) (by omega))
      rw [Nat.mod_eq_of_lt hlt32, or_shift (by rw [h4]; exact Nat.mod_lt _ (Nat.two_pow_pos _)),
        div_pow_split, ← h4, ← h1, hd, Nat.add_zero, leVal_div_mod hb _ hg, Nat.mul_comm]
  · rw [if_neg hc]
    exact ⟨⟨h1, h2, h3, h4⟩, rfl, fun h => absurd h hc, fun _ => rfl⟩

theorem BR.fill_inv {buf : List Nat} {r : BR} {pos n : Nat} (hb : Bytes buf) (h : r.Inv buf pos)
    (hn : n ≤ 24) : (r.fill buf n).Inv buf pos ∧ (r.fill buf n).healthy = r.healthy ∧
      n ≤ (r.fill buf n).numBits := by
  obtain ⟨a1, a2, a3, a4⟩ := BR.fetch_inv hb h hn
  obtain ⟨b1, b2, b3, b4⟩ := BR.fetch_inv hb a1 hn
  obtain ⟨c1, c2, c3, c4⟩ := BR.fetch_inv hb b1 hn
  have ka : (r.fetch buf n).numBits = r.numBits + 8 ∨ n ≤ (r.fetch buf n).numBits := by
    rcases Nat.lt_or_ge r.numBits n with hh | hh
    · exact Or.inl (a3 hh)
    · rw [a4 hh]; exact Or.inr hh
  have kb : ((r.fetch buf n).fetch buf n).numBits = (r.fetch buf n).numBits + 8 ∨
      n ≤ ((r.fetch buf n).fetch buf n).numBits := by
    rcases Nat.lt_or_ge (r.fetch buf n).numBits n with hh | hh
    · exact Or.inl (b3 hh)
    · rw [b4 hh]; exact Or.inr hh
  have kc : (((r.fetch buf n).fetch buf n).fetch buf n).numBits
        = ((r.fetch buf n).fetch buf n).numBits + 8 ∨
      n ≤ (((r.fetch buf n).fetch buf n).fetch buf n).numBits := by
    rcases Nat.lt_or_ge ((r.fetch buf n).fetch buf n).numBits n with hh | hh
    · exact Or.inl (c3 hh)
    · rw [c4 hh]; exact Or.inr hh
  have mb : (r.fetch buf n).numBits ≤ ((r.fetch buf n).fetch buf n).numBits := by
    rcases Nat.lt_or_ge (r.fetch buf n).numBits n with hh | hh
    · rw [b3 hh]; omega
    · rw [b4 hh]; omega
  have mc : ((r.fetch buf n).fetch buf n).numBits ≤ (((r.fetch buf n).fetch buf n).fetch buf n).numBits := by
    rcases Nat.lt_or_ge ((r.fetch buf n).fetch buf n).numBits n with hh | hh
    · rw [c3 hh]; omega
    · rw [c4 hh]; omega
  unfold BR.fill
  simp only
  split
  · split
    · exact ⟨c1, by rw [c2, b2, a2], by omega⟩
    · exact ⟨b1, by rw [b2, a2], by omega⟩
  · exact ⟨a1, a2, by omega⟩

theorem BR.read_inv {buf : List Nat} {r : BR} {pos n : Nat} (hb : Bytes buf) (h : r.Inv buf pos)
    (hn : n ≤ 24) : (r.read buf n).1 = leVal buf / 2 ^ pos % 2 ^ n ∧
      (r.read buf n).2.Inv buf (pos + n) ∧ (r.read buf n).2.healthy = r.healthy := by
  obtain ⟨⟨h1, h2, h3, h4⟩, h5, h6⟩ := BR.fill_inv hb h hn
  unfold BR.read
  simp only
  refine ⟨?_, ⟨by simp only; omega, h2, h3, ?_⟩, h5⟩
  · rw [h4, Nat.mod_mod_of_dvd _ (Nat.pow_dvd_pow 2 h6)]
  · simp only
    rw [h4]
    have e : (r.fill buf n).numBits = n + ((r.fill buf n).numBits - n) := by omega
    rw [e, div_pow_split, Nat.add_mul_div_left _ _ (Nat.two_pow_pos n),
      Nat.div_eq_of_lt (Nat.mod_lt _ (Nat.two_pow_pos n)), Nat.zero_add, Nat.add_sub_cancel_left]

theorem BR.isHealthy_iff {buf : List Nat} {r : BR} {pos : Nat} (h : r.Inv buf pos) :
    r.isHealthy = (decide (pos ≤ 8 * buf.length) && r.healthy) := by
  obtain ⟨h1, h2, h3, h4⟩ := h
  unfold BR.isHealthy BR.unload
  simp only
  congr 1
  rw [decide_eq_decide]
  by_cases hd : r.debt = 0
  · constructor <;> omega
  · have := h3 hd; constructor <;> omega

theorem BR.unload_inv {buf : List Nat} {r : BR} {pos : Nat} (h : r.Inv buf pos) :
    r.unload.Inv buf pos ∧ r.unload.numBits < 8 ∧ r.unload.healthy = r.healthy := by
  obtain ⟨h1, h2, h3, h4⟩ := h
  unfold BR.unload
  simp only
  refine ⟨⟨?_, by simp only; omega, ?_, ?_⟩, Nat.mod_lt _ (by omega), trivial⟩
  · simp only
    by_cases hd : r.debt = 0
    · omega
    · have := h3 hd; omega
  · simp only
    intro hd
    have := h3 (by omega)
    omega
  · simp only
    rw [h4, Nat.mod_mod_of_dvd]
    exact Nat.pow_dvd_pow 2 (by omega)

/-- In a normalised state `CanRead` answers exactly whether `n` more bits are present. -/
theorem BR.canRead_iff {buf : List Nat} {r : BR} {pos n : Nat} (h : r.Inv buf pos)
    (hn : r.numBits < 8) (hpos : pos ≤ 8 * buf.length) :
    r.canRead buf n = decide (pos + n ≤ 8 * buf.length) := by
  obtain ⟨h1, h2, h3, h4⟩ := h
  unfold BR.canRead
  have hd : r.debt = 0 := by
    rcases Nat.eq_zero_or_pos r.debt with h0 | h0
    · exact h0
    · have := h3 (by omega); omega
  rw [if_neg (by omega)]
  split
  · symm; rw [decide_eq_true_eq]; omega
  · rw [decide_eq_decide]; constructor <;> omega

theorem BR.reads_inv {buf : List Nat} (hb : Bytes buf) (ws : List (Nat × Nat)) :
    ∀ (r : BR) (pos : Nat), r.Inv buf pos → (∀ w ∈ ws, w.1 ≤ 24 ∧ w.2 < 2 ^ w.1) →
      leVal buf / 2 ^ pos % 2 ^ (writesLen ws) = writesVal 0 ws →
      (r.reads buf (ws.map Prod.fst)).1 = ws.map Prod.snd ∧
        (r.reads buf (ws.map Prod.fst)).2.Inv buf (pos + writesLen ws) ∧
        (r.reads buf (ws.map Prod.fst)).2.healthy = r.healthy := by
  have hshift : ∀ (ws : List (Nat × Nat)) (k j : Nat),
      writesVal (k + j) ws = 2 ^ k * writesVal j ws := by
    intro ws
    induction ws with
    | nil => intro k j; simp [writesVal]
    | cons w ws ih =>
      intro k j
      obtain ⟨n, v⟩ := w
      simp only [writesVal]
      rw [Nat.add_assoc, ih, Nat.mul_add, Nat.pow_add, Nat.mul_left_comm]
  induction ws with
  | nil => intro r pos h _ _; exact ⟨rfl, by simpa [BR.reads, writesLen] using h, rfl⟩
  | cons w ws ih =>
    obtain ⟨n, v⟩ := w
    intro r pos h hw hval
    obtain ⟨hn, hv⟩ := hw (n, v) (by simp)
    simp only at hn hv
    obtain ⟨r1, r2, r3⟩ := BR.read_inv (n := n) hb h hn
    simp only [writesLen, writesVal, Nat.pow_zero, Nat.mul_one] at hval
    rw [Nat.zero_add, show writesVal n ws = 2 ^ n * writesVal 0 ws from hshift ws n 0,
      div_pow_split] at hval
    have hA : leVal buf / 2 ^ pos % 2 ^ n = v := by
      have h1 := Nat.mod_lt (leVal buf / 2 ^ pos) (Nat.two_pow_pos n)
      have := congrArg (· % 2 ^ n) hval
      simpa [Nat.add_mul_mod_self_left, Nat.mod_eq_of_lt hv] using this
    have hB : leVal buf / 2 ^ (pos + n) % 2 ^ writesLen ws = writesVal 0 ws := by
      rw [hA] at hval
      exact Nat.eq_of_mul_eq_mul_left (Nat.two_pow_pos n) (by omega)
    obtain ⟨q1, q2, q3⟩ := ih _ _ r2 (fun w hw' => hw w (by simp [hw'])) hB
    simp only [List.map_cons, BR.reads]
    refine ⟨by rw [r1, hA, q1], ?_, by rw [q3, r3]⟩
    rw [Nat.add_assoc] at q2
    exact q2

theorem BR.finish_ok {buf : List Nat} {r : BR} {pos : Nat} (hb : Bytes buf) (h : r.Inv buf pos)
    (hh : r.healthy = true) (hn : r.numBits < 8) (hpos : pos ≤ 8 * buf.length)
    (hz : leVal buf / 2 ^ pos = 0) : (r.finish buf).isHealthy = true := by
  obtain ⟨r1, r2, r3⟩ := BR.read_inv (n := r.numBits) hb h (by omega)
  unfold BR.finish
  rw [if_neg (by omega)]
  split
  · rw [hz] at r1
    simp only [Nat.zero_mod] at r1
    simp only [r1, ne_eq, not_true_eq_false, if_false]
    rw [BR.isHealthy_iff r2, r3, hh, Bool.and_true, decide_eq_true_eq]
    obtain ⟨h1, h2, h3, h4⟩ := h
    by_cases hd : r.debt = 0
    · omega
    · have := h3 hd; omega
  · rw [BR.isHealthy_iff h, hh, Bool.and_true, decide_eq_true_eq]; exact hpos

end Brunsli
