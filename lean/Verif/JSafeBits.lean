import Verif.JSafe
import Verif.JMatch
/-!
# The checked bit reader

It does what the unchecked one does on every state that the bit reader can reach.
-/

namespace Brunsli

theorem Run.ofOption_map {α β : Type} (o : Option α) (f : α → β) : Run.ofOption (o.map f) = (Run.ofOption o).bind fun a => .ok (f a) := by
  cases o <;> rfl

theorem Run.ofOption_bind {α β : Type} (o : Option α) (f : α → Option β) : Run.ofOption (o.bind f) = (Run.ofOption o).bind fun a => Run.ofOption (f a) := by
  cases o <;> rfl

theorem fetch_ok {data : List Nat} {i : Nat} (h : i < data.length) : fetch data i = .ok (byteOf data i) := by
  unfold fetch byteOf
  rw [List.getD_eq_getElem?_getD, List.getElem?_eq_getElem h]
  rfl

theorem gnextC_ok {data : List Nat} {p nm : Nat} (h : nm ≤ data.length - 2) : gnextC data p nm = .ok (gnext data p nm) := by
  unfold gnextC gnext
  by_cases h1 : nm ≤ p
  · rw [if_pos h1, if_pos h1]
  · rw [if_neg h1, if_neg h1, fetch_ok (by omega)]
    dsimp only [Run.bind]
    by_cases h2 : byteOf data p = 0xff
    · rw [if_pos h2, if_pos h2, fetch_ok (by omega)]
    · rw [if_neg h2, if_neg h2]

theorem gnext_nm {data : List Nat} {p nm : Nat} : (gnext data p nm).2.2 ≤ nm := by
  unfold gnext
  split
  · exact Nat.le_refl _
  · split
    · split
      · exact Nat.le_refl _
      · show p ≤ nm; omega
    · exact Nat.le_refl _

theorem JR.fillLoopC_ok {data : List Nat} (n : Nat) : ∀ {b : JR}, b.nm ≤ data.length - 2 → JR.fillLoopC data n b = .ok (JR.fillLoop data n b) := by
  induction n with
  | zero => intro b _; rfl
  | succ n ih =>
    intro b h
    rw [JR.fillLoopC, JR.fillLoop]
    by_cases hl : b.left ≤ 56
    · rw [if_pos hl, if_pos hl, gnextC_ok h]
      have := gnext_nm (data := data) (p := b.pos) (nm := b.nm)
      exact ih (by show (gnext data b.pos b.nm).2.2 ≤ _; omega)
    · rw [if_neg hl, if_neg hl]

theorem JR.fillC_ok {data : List Nat} {b : JR} (h : b.nm ≤ data.length - 2) : b.fillC data = .ok (b.fill data) := by
  unfold JR.fillC JR.fill
  split
  · exact JR.fillLoopC_ok 8 h
  · rfl

theorem JR.Rep.nm_le {data : List Nat} {start c : Nat} {b : JR} (h : b.Rep data start c) : b.nm ≤ data.length - 2 := by
  obtain ⟨n, -, -, h, -⟩ := h
  have h1 : b.nm = (gst data start n).2 := by rw [← h]
  have := gst_nm_le data start 0 n
  rw [Nat.zero_add] at this
  rw [h1]
  exact this

theorem JR.resetC_ok {data : List Nat} (h : 2 ≤ data.length) (pos : Nat) : JR.resetC data pos = .ok (JR.reset data pos) := by
  unfold JR.resetC
  rw [if_neg (by omega)]
  exact JR.fillC_ok (Nat.le_refl _)

theorem shr64_ok {v left n : Nat} (h1 : n ≤ left) (h2 : left < n + 64) : shr64 v left n = .ok (v / 2 ^ (left - n)) := if_pos ⟨h1, h2⟩

theorem JR.readBitsC_ok {data : List Nat} (hd : Bytes data) {start c : Nat} {b : JR} (h : b.Rep data start c) {n : Nat} (h1 : 1 ≤ n) (h2 : n ≤ 16) :
    b.readBitsC data n = .ok (b.readBits data n) := by
  obtain ⟨m, hf, hl⟩ := JR.fill_rep hd h
  have h64 := hf.2.1
  unfold JR.readBitsC JR.readBits
  rw [JR.fillC_ok h.nm_le]
  dsimp only [Run.bind]
  rw [shr64_ok (by omega) (by omega)]
  dsimp only
  rw [if_pos (by omega)]

theorem JR.readSymbolC_ok {data : List Nat} (hd : Bytes data) {start c : Nat} {b : JR} (h : b.Rep data start c) {m : JMem} (hm : JBits m)
    (hr : ∀ x, x < 65536 → JReads m x) : b.readSymbolC data m = .ok (b.readSymbol data m) := by
  obtain ⟨n, h1, h2⟩ := JR.fill_rep hd h
  have h64 := h1.2.1
  unfold JR.readSymbolC JR.readSymbol
  rw [JR.fillC_ok h.nm_le]
  dsimp only [Run.bind]
  rw [shr64_ok (by omega) (by omega)]
  dsimp only
  have hi : (b.fill data).val / 2 ^ ((b.fill data).left - 8) % 256 < 256 := Nat.mod_lt _ (by decide)
  unfold lutAt
  rw [if_pos (by unfold kJpegHuffmanLutSize; omega)]
  dsimp only
  have p16 := h1.peek (k := 16) (by omega)
  have p8 := h1.peek (k := 8) (by omega)
  have s8 : (b.fill data).val / 2 ^ ((b.fill data).left - 8) % 256 = ofMsb (window data start c 16) / 256 := by
    rw [show (256 : Nat) = 2 ^ 8 from rfl, p8, show (16 : Nat) = 8 + 8 from rfl, window_add, ofMsb_append, window_length, Nat.mul_comm,
      Nat.mul_add_div (Nat.two_pow_pos 8)]
    have := ofMsb_lt (window data start (c + 8) 8)
    rw [window_length] at this
    rw [Nat.div_eq_of_lt this, Nat.add_zero]
  have hx : ofMsb (window data start c 16) < 65536 := by
    have := ofMsb_lt (window data start c 16)
    rwa [window_length] at this
  have hj := hr _ hx
  unfold JReads at hj
  rw [← s8] at hj
  generalize hiv : (b.fill data).val / 2 ^ ((b.fill data).left - 8) % 256 = i at *
  by_cases hb : 0 < (m i).bits - 8
  · have hb16 := hm i
    rw [if_pos hb, if_pos hb, shr64_ok (by omega) (by omega)]
    dsimp only
    have ha := h1.advance (k := 8) (by omega)
    have hp := ha.peek (k := (m i).bits - 8) (by dsimp only; omega)
    dsimp only at hp
    rw [hp, window_sub (t := (m i).bits) (by omega) hb16, if_pos (show _ < kJpegHuffmanLutSize from hj (by omega))]
  · rw [if_neg hb, if_neg hb]

/-! ## Giving bytes back -/

theorem giveBack1C_ok {data : List Nat} {nm pos : Nat} (h : nm ≤ data.length - 2) (hp : 2 ≤ pos) : giveBack1C data nm pos = .ok (giveBack1 data nm pos) := by
  unfold giveBack1C giveBack1
  rw [if_neg (by omega)]
  dsimp only
  by_cases h1 : pos - 1 < nm
  · rw [if_pos h1, fetch_ok (by omega)]
    dsimp only [Run.bind]
    by_cases h2 : byteOf data (pos - 1) = 0
    · rw [if_pos h2, if_neg (by omega), fetch_ok (by omega)]
      dsimp only
      by_cases h3 : byteOf data (pos - 1 - 1) = 0xff
      · rw [if_pos h3, if_pos ⟨h1, h2, h3⟩]
      · rw [if_neg h3, if_neg fun h => h3 h.2.2]
    · rw [if_neg h2, if_neg fun h => h2 h.2.1]
  · rw [if_neg h1, if_neg fun h => h1 h.1]

/-- One byte given back: at most one more than the reader took. -/
theorem giveBack1_low {data : List Nat} {start i N pos : Nat} (hi : 1 ≤ i) (hN : i + 1 ≤ N) (h : (gst data start (i + 1)).1 ≤ pos) :
    (gst data start i).1 ≤ giveBack1 data (gst data start N).2 pos := by
  have hex := giveBack1_exact (data := data) (start := start) (i := i) (k := N - (i + 1)) hi
  rw [show i + 1 + (N - (i + 1)) = N by omega] at hex
  have hlt := gst_pos_lt data start i 1
  by_cases hp : pos = (gst data start (i + 1)).1
  · rw [hp]
    rcases hex with e | ⟨e, _⟩
    · rw [e]
    · rw [e]; omega
  · have := giveBack1_ge (data := data) (nm := (gst data start N).2) (p := pos)
    omega

theorem gst_low (data : List Nat) (start n : Nat) : start + n ≤ (gst data start n).1 := by
  have := gst_pos_lt data start 0 n
  rw [Nat.zero_add] at this
  exact this

theorem giveBackC_ok {data : List Nat} {start N : Nat} (hs : 1 ≤ start) (k : Nat) : ∀ {i pos : Nat}, i + k ≤ N → (gst data start (i + k)).1 ≤ pos →
    giveBackC data (gst data start N).2 k pos = .ok (giveBack data (gst data start N).2 k pos) ∧ start ≤ giveBack data (gst data start N).2 k pos + 1 := by
  induction k with
  | zero =>
    intro i pos _ h
    have := gst_low data start i
    exact ⟨rfl, by show start ≤ pos + 1; simp only [Nat.add_zero] at h; omega⟩
  | succ k ih =>
    intro i pos hN h
    have hnm : (gst data start N).2 ≤ data.length - 2 := by
      have := gst_nm_le data start 0 N
      rw [Nat.zero_add] at this
      exact this
    have hl := gst_low data start (i + (k + 1))
    rw [giveBackC, giveBack, giveBack1C_ok hnm (by omega)]
    show giveBackC _ _ k _ = _ ∧ _
    by_cases hik : 1 ≤ i + k
    · exact ih (by omega) (giveBack1_low hik (by omega) (by rw [show i + k + 1 = i + (k + 1) by omega]; exact h))
    · have hk : k = 0 := by omega
      subst hk
      refine ⟨rfl, ?_⟩
      show start ≤ giveBack1 _ _ _ + 1
      have := giveBack1_ge (data := data) (nm := (gst data start N).2) (p := pos)
      omega

theorem JR.finishC_ok {data : List Nat} {start c : Nat} (hs : 1 ≤ start) {b : JR} (h : b.Rep data start c) :
    b.finishC data = Run.ofOption (b.finish data) ∧ ∀ ps pos, b.finish data = some (ps, pos) → start ≤ pos + 1 := by
  obtain ⟨n, h1, h2, h3, h4⟩ := h
  have hp : b.pos = (gst data start n).1 := by rw [← h3]
  have hm : b.nm = (gst data start n).2 := by rw [← h3]
  obtain ⟨g1, g2⟩ := giveBackC_ok (data := data) (N := n) hs (b.left / 8) (i := n - b.left / 8) (pos := b.pos) (by omega)
    (by rw [show n - b.left / 8 + b.left / 8 = n by omega, hp])
  rw [← hm] at g1 g2
  constructor
  · unfold JR.finishC JR.finish
    by_cases h0 : 0 < b.left % 8
    · rw [if_pos h0, shr64_ok (by omega) (by omega)]
      dsimp only [Run.bind]
      rw [g1]
      dsimp only
      by_cases hx : b.nm < giveBack data b.nm (b.left / 8) b.pos
      · rw [if_pos hx, if_pos hx]; rfl
      · rw [if_neg hx, if_neg hx]; rfl
    · rw [if_neg h0]
      dsimp only [Run.bind]
      rw [g1]
      dsimp only
      by_cases hx : b.nm < giveBack data b.nm (b.left / 8) b.pos
      · rw [if_pos hx, if_pos hx]; rfl
      · rw [if_neg hx, if_neg hx, show b.left % 8 = 0 by omega]; rfl
  · intro ps pos h
    unfold JR.finish at h
    dsimp only at h
    split at h
    · cases h
    · cases h; exact g2

end Brunsli
