import Verif.JCode
/-!
# Property C33: Huffman codes of a JPEG file
-/

namespace Brunsli

/-- The lookup table of a slot after a series of definitions. -/
def dhtLuts (m : JMem) : List HuffCode → Option JMem
  | [] => some m
  | h :: hs => (dhtLut m h).bind fun m => dhtLuts m hs

theorem dhtLuts_ok (hs : List HuffCode) : ∀ {m : JMem}, SlotOk m → (∀ h ∈ hs, h.Ok) → ∃ m', dhtLuts m hs = some m' ∧ SlotOk m' := by
  induction hs with
  | nil => intro m hm _; exact ⟨m, rfl, hm⟩
  | cons h hs ih =>
    intro m hm hok
    obtain ⟨m1, e1, e2, _⟩ := dhtLut_spec hm (hok h List.mem_cons_self)
    obtain ⟨m', e3, e4⟩ := ih e2 fun h hh => hok h (List.mem_cons_of_mem _ hh)
    exact ⟨m', by rw [dhtLuts, e1]; exact e3, e4⟩

theorem dhtLuts_append (as : List HuffCode) : ∀ (m : JMem) (h : HuffCode), dhtLuts m (as ++ [h]) = (dhtLuts m as).bind fun m => dhtLut m h := by
  induction as with
  | nil => intro m h; simp [dhtLuts]
  | cons a as ih =>
    intro m h
    rw [List.cons_append, dhtLuts, dhtLuts]
    cases dhtLut m a with
    | none => rfl
    | some m1 => exact ih m1 h

/-- The canonical code word of the symbol that follows those of `A`, `l` bits long (ISO/IEC 10918-1, annex C). -/
def codeWord (A : List (Nat × Nat)) (l : Nat) : Nat := kraft 16 A / 2 ^ (16 - l)

/-- The 16 bits `x` begin with the word `c` of `l` bits. -/
def BeginsWith (x l c : Nat) : Prop := x / 2 ^ (16 - l) = c

theorem begins_iff {h : HuffCode} (ok : h.Ok) {A B : List (Nat × Nat)} {l s x : Nat} (hc : h.code = A ++ (l, s) :: B) :
    BeginsWith x l (codeWord A l) ↔ kraft 16 A ≤ x ∧ x < kraft 16 A + 2 ^ (16 - l) := by
  have hco := ok.codeOk
  rw [hc] at hco
  have hd := (CodeOk.split hco).2.dvd (l, s) List.mem_cons_self
  rw [Nat.zero_add] at hd
  simp only at hd
  have hpos := Nat.two_pow_pos (16 - l)
  unfold BeginsWith codeWord
  obtain ⟨c, hcc⟩ := hd
  rw [hcc, Nat.mul_div_cancel_left _ hpos, Nat.div_eq_iff hpos, Nat.mul_comm c]
  omega

theorem codeAt_split (L : List (Nat × Nat)) : ∀ {v x : Nat} {p : Nat × Nat}, codeAt 16 v L x = some p →
    ∃ A B, L = A ++ p :: B ∧ v + kraft 16 A ≤ x ∧ x < v + kraft 16 A + 2 ^ (16 - p.1) := by
  induction L with
  | nil => intro v x p h; simp [codeAt] at h
  | cons q L ih =>
    intro v x p h
    rw [codeAt] at h
    split at h
    · rename_i hx
      cases h
      exact ⟨[], L, rfl, by simpa [kraft] using hx.1, by simpa [kraft] using hx.2⟩
    · obtain ⟨A, B, e, h1, h2⟩ := ih h
      exact ⟨q :: A, B, by rw [e]; rfl, by rw [kraft]; omega, by rw [kraft]; omega⟩

/-- **C33, lookup.** After any series of accepted definitions the table has been built without a store outside of its 1024 entries, and for any 16
bits of input: it is not read outside; the lookup gives the length and the symbol of the code word of the last definition with which the bits begin;
and if they begin with no code word, or the reserved one, it gives a value that the reader rejects. -/
theorem C33_lookup (hs : List HuffCode) (h : HuffCode) (hok : ∀ g ∈ hs ++ [h], g.Ok) :
    ∃ m, dhtLuts (fun _ => badEnt) (hs ++ [h]) = some m ∧ ∀ x, x < 2 ^ 16 → JReads m x ∧
      (∀ A B l s, h.code = A ++ (l, s) :: B → s < 256 → BeginsWith x l (codeWord A l) → jlookup m x = (l, s)) ∧
      ((∀ A B l s, h.code = A ++ (l, s) :: B → BeginsWith x l (codeWord A l) → 256 ≤ s) → 256 ≤ (jlookup m x).2) := by
  have okh := hok h (by simp)
  obtain ⟨m1, e1, e2⟩ := dhtLuts_ok hs (m := fun _ => badEnt) (.inl fun _ => rfl) fun g hg => hok g (List.mem_append_left _ hg)
  obtain ⟨m, e3, _, e5⟩ := dhtLut_spec e2 okh
  refine ⟨m, by rw [dhtLuts_append, e1]; exact e3, ?_⟩
  intro x hx
  obtain ⟨r, hm⟩ := e5 x hx
  refine ⟨r, ?_, ?_⟩
  · intro A B l s hc hs hb
    have hb' := (begins_iff okh hc).mp hb
    have : h.symAt x = some (l, s) := by
      unfold HuffCode.symAt
      have hco := okh.codeOk
      rw [hc] at hco ⊢
      rw [codeAt_mid (v := 0) (A := A) (p := (l, s)) (B := B) (by omega) (by simp only; omega)]
      simp [Option.filter, hs]
    rw [this] at hm
    exact hm
  · intro hn
    cases hsy : h.symAt x with
    | none => rw [hsy] at hm; exact hm
    | some p =>
      exfalso
      unfold HuffCode.symAt at hsy
      obtain ⟨h1, h2⟩ := Option.filter_eq_some_iff.mp hsy
      have hlt : p.2 < 256 := by simpa using h2
      obtain ⟨A, B, hAB, hr⟩ := codeAt_split _ h1
      have := hn A B p.1 p.2 hAB ((begins_iff okh hAB).mpr (by omega))
      omega

/-- **C33, code words.** The writer's table of code words built from the same definition, whatever the table held before, has for each
symbol the same length and the canonical word; and no two words can begin the same bits. -/
theorem C33_code_words (h : HuffCode) (ok : h.Ok) (t : CodeTable) : ∃ t', buildCodeTable t h = .ok t' ∧
    (∀ A B l s, h.code = A ++ (l, s) :: B → s < 256 → t'.depth s = l ∧ t'.code s = codeWord A l) ∧
    ∀ A B l s A' B' l' s' x, h.code = A ++ (l, s) :: B → h.code = A' ++ (l', s') :: B' →
      BeginsWith x l (codeWord A l) → BeginsWith x l' (codeWord A' l') → (l, s) = (l', s') := by
  obtain ⟨t', e1, e2⟩ := buildCodeTable_spec ok t
  refine ⟨t', e1, ?_, ?_⟩
  · intro A B l s hc hs
    have hco := ok.codeOk
    have hfit := hco.fits
    rw [hc] at hco hfit
    rw [kraft_append, kraft] at hfit
    have hpos := Nat.two_pow_pos (16 - l)
    have hsym : h.symAt (kraft 16 A) = some (l, s) := by
      unfold HuffCode.symAt
      rw [hc, codeAt_mid (v := 0) (A := A) (p := (l, s)) (B := B) (by omega) (by simp only; omega)]
      simp [Option.filter, hs]
    exact e2 (kraft 16 A) (by simp only at hfit; omega) (l, s) hsym
  · intro A B l s A' B' l' s' x hc hc' hb hb'
    have h1 := (begins_iff ok hc).mp hb
    have h2 := (begins_iff ok hc').mp hb'
    have e3 : codeAt 16 0 h.code x = some (l, s) := by
      rw [hc]; exact codeAt_mid (v := 0) (by omega) (by simp only; omega)
    have e4 : codeAt 16 0 h.code x = some (l', s') := by
      rw [hc']; exact codeAt_mid (v := 0) (by omega) (by simp only; omega)
    rw [e3] at e4
    exact Option.some.inj e4

/-! ## Non-vacuity -/

/-- A code with words of 1, 9 and 16 bits, in the first table for AC coefficients. -/
def exHuff : HuffCode :=
  ⟨[0, 1, 0, 0, 0, 0, 0, 0, 0, 1, 0, 0, 0, 0, 0, 0, 2], [5, 0xF0, 0x11, 256] ++ List.replicate 253 0, 0x10, true⟩

theorem exHuff_ok : exHuff.Ok := by
  constructor <;> decide +kernel

example : exHuff.code = [(1, 5), (9, 0xF0), (16, 0x11), (16, 256)] := by decide +kernel
example : codeWord [(1, 5)] 9 = 0b100000000 ∧ codeWord [(1, 5), (9, 0xF0)] 16 = 0b1000000010000000 := by decide +kernel
example : ((dhtLuts (fun _ => badEnt) [exHuff, exHuff]).map fun m => (jlookup m 0x7ABC, jlookup m 0x8055, jlookup m 0x8080)) =
    some ((1, 5), (9, 0xF0), (16, 0x11)) := by decide +kernel
example : ((dhtLuts (fun _ => badEnt) [exHuff]).map fun m => ((jlookup m 0x8081).2, (jlookup m 0x8082).2, (jlookup m 0xFFFF).2)) =
    some (256, 0xFFFF, 0xFFFF) := by decide +kernel

end Brunsli
