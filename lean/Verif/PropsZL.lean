import Verif.ByteOrder
/-!
# C71: files do not depend on the byte order of the platform

What is written on a machine of one byte order is, byte for byte, what is written on any other, and it is read back as the same values on all of them.
-/

namespace Brunsli

/-- **C71 (1)**: the words of a section are stored low byte first on each platform. -/
theorem C71_words_stored (o : ByteOrder) (ws : List Nat) (i : Nat) (hi : i < ws.length) :
    (o.storeWords ws).length = 2 * ws.length ∧ (o.storeWords ws)[2 * i]? = some (ws[i] % 256) ∧ (o.storeWords ws)[2 * i + 1]? = some (ws[i] / 256 % 256) := by
  unfold ByteOrder.storeWords
  induction ws generalizing i with
  | nil => exact absurd hi (by simp)
  | cons w ws ih =>
    rw [List.flatMap_cons, store16_eq]
    have hlen : (ws.flatMap o.store16).length = 2 * ws.length := by
      clear ih hi
      induction ws with
      | nil => rfl
      | cons w ws ih => rw [List.flatMap_cons, store16_eq, List.length_append, ih]; simp; omega
    refine ⟨by simp [hlen]; omega, ?_⟩
    cases i with
    | zero => simp
    | succ i =>
      obtain ⟨-, h1, h2⟩ := ih i (by simpa using hi)
      refine ⟨?_, ?_⟩
      · rw [show 2 * (i + 1) = 2 * i + 2 by omega]; simpa using h1
      · rw [show 2 * (i + 1) + 1 = 2 * i + 1 + 2 by omega]; simpa using h2

/-- **C71 (2)**: words stored on one platform are loaded as the same words on any other. -/
theorem C71_words_restored (o o' : ByteOrder) (ws : List Nat) (h : ∀ w ∈ ws, w < 2 ^ 16) : o'.loadWords (o.storeWords ws) = ws := by
  unfold ByteOrder.storeWords
  induction ws with
  | nil => rfl
  | cons w ws ih =>
    have hw := h w (by simp)
    rw [List.flatMap_cons, store16_eq]
    show o'.load16 (w % 256) (w / 256 % 256) :: o'.loadWords (ws.flatMap o.store16) = _
    rw [load16_eq o' (Nat.mod_lt _ (by decide)) (Nat.mod_lt _ (by decide)), ih fun x hx => h x (by simp [hx])]
    congr 1
    omega

/-- **C71 (3)**: and any bytes at all, valid or not, are loaded as the same words on all platforms. -/
theorem C71_words_loaded (o o' : ByteOrder) (bs : List Nat) (h : Bytes bs) : o.loadWords bs = o'.loadWords bs := by
  rw [loadWords_eq o h, loadWords_eq o' h]

/-- **C71 (4)**: bits are written as the same bytes on all platforms: each sequence of calls gives the same buffer, or the same failed check. -/
theorem C71_bits (o o' : ByteOrder) (s : Storage) (ws : List (Nat × Nat)) : s.writesOn o ws = s.writesOn o' ws := by
  rw [writesOn_eq, writesOn_eq]

/-- **C71 (5)**: they are the bytes that the bit reader expects (with C07: the values are read back). -/
theorem C71_bits_read (o : ByteOrder) (buf : List Nat) (ws : List (Nat × Nat)) (s₀ : Storage) (hbuf : Bytes buf) (h₀ : Storage.mk' buf = some s₀)
    (hws : ∀ w ∈ ws, w.1 ≤ 24 ∧ w.2 < 2 ^ w.1) (hroom : (ws.map Prod.fst).sum / 8 + 8 ≤ buf.length) :
    ∃ s, s₀.writesOn o ws = some s ∧ (BR.init.reads (s.data.take s.bytesUsed) (ws.map Prod.fst)).1 = ws.map Prod.snd := by
  obtain ⟨s, h1, -, h2, -⟩ := C07_write_read buf ws s₀ hbuf h₀ hws hroom
  exact ⟨s, by rw [writesOn_eq, h1], h2⟩

/-- **C71 (6)**: the branch of `WriteBits` for other platforms, which is never compiled, writes the same bytes, in a buffer with a byte to spare. -/
theorem C71_other_branch (o : ByteOrder) (buf : List Nat) (ws : List (Nat × Nat)) (s₀ : Storage) (hbuf : Bytes buf) (h₀ : Storage.mk' buf = some s₀)
    (hws : ∀ w ∈ ws, w.1 ≤ 56 ∧ w.2 < 2 ^ w.1) (hroom : (ws.map Prod.fst).sum / 8 + 8 ≤ buf.length) :
    ∃ s s', s₀.writesOn o ws = some s ∧ s₀.writesN ws = some s' ∧ s'.data.take s'.bytesUsed = s.data.take s.bytesUsed := by
  have hlen : ∀ ws : List (Nat × Nat), writesLen ws = (ws.map Prod.fst).sum := by
    intro ws
    induction ws with
    | nil => rfl
    | cons w ws ih => simp [writesLen, ih]
  have hdl : s₀.data.length = buf.length := by
    unfold Storage.mk' at h₀
    split at h₀
    · cases h₀
    · simp only [Option.some.injEq] at h₀; subst h₀; simp
  obtain ⟨i0, p0⟩ := Storage.mk'_inv hbuf h₀
  obtain ⟨s, e1, i1, p1, -⟩ := Storage.writes_inv ws s₀ 0 i0 (by rw [p0, hlen, hdl]; omega) hws
  obtain ⟨s', e2, i2, p2, -⟩ := Storage.writesN_inv ws s₀ 0 i0 (by rw [p0, hlen, hdl]; omega) hws
  refine ⟨s, s', by rw [writesOn_eq, e1], e2, ?_⟩
  obtain ⟨u1, u2⟩ := Storage.used_val i1
  obtain ⟨v1, v2⟩ := Storage.used_val i2
  refine leVal_inj (fun x hx => i2.bytes x (List.mem_of_mem_take hx)) (fun x hx => i1.bytes x (List.mem_of_mem_take hx)) ?_ (by rw [v1, u1])
  rw [v2, u2, Storage.bytesUsed, Storage.bytesUsed, p1, p2]

/-- The check of that branch, `((pos + n_bits) >> 3) < length` (c/enc/write_bits.h:74), is too weak by a byte: with it the branch would write behind the buffer.
No program is affected, since the branch is not compiled. -/
theorem C71_other_branch_check_false : ∃ (s : Storage) (n bits : Nat), (s.pos + n) / 8 < s.data.length ∧ n ≤ 56 ∧ bits < 2 ^ n ∧ s.writeBitsN n bits = none :=
  ⟨⟨[0], 0⟩, 1, 1, by decide, by decide, by decide, by decide⟩

/-! ## Non-vacuity -/

example : (0x1234 : Nat) < 2 ^ 16 ∧ ByteOrder.big.storeWords [0x1234, 0xABCD] = [0x34, 0x12, 0xCD, 0xAB] ∧ ByteOrder.neutral.loadWords [0x34, 0x12, 0xCD, 0xAB] = [0x1234, 0xABCD] := by
  decide

/-- Without the swap the bytes would be others. -/
example : (leBytes 2 0x1234).reverse ≠ ByteOrder.big.store16 0x1234 := by decide

example : Storage.mk' (List.replicate 12 255) = some ⟨0 :: List.replicate 11 255, 0⟩ ∧ (([(3, 5), (24, 0xABCDE)] : List (Nat × Nat)).map Prod.fst).sum / 8 + 8 ≤ 12 ∧
    (Storage.writesOn .big ⟨0 :: List.replicate 11 255, 0⟩ [(3, 5), (24, 0xABCDE)]).map (fun s => s.data.take s.bytesUsed) = some [0xF5, 0xE6, 0x55, 0x00] ∧
    (Storage.writesN ⟨0 :: List.replicate 11 255, 0⟩ [(3, 5), (24, 0xABCDE)]).map (fun s => s.data.take s.bytesUsed) = some [0xF5, 0xE6, 0x55, 0x00] := by
  decide +kernel

end Brunsli
