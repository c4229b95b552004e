import Verif.JLut
import Verif.JHuff
import Verif.JWriter
/-!
# Huffman codes of a JPEG file: reader and writer tables

The reader turns a definition into a lookup table (c/enc/jpeg_data_reader.cc:249-336, c/enc/jpeg_huffman_decode.cc), the writer into a table of
code words (c/dec/jpeg_data_writer.cc:265-304).  Both describe the canonical code.
-/

namespace Brunsli

/-- The lengths of the code words, in order. -/
def HuffCode.lens (h : HuffCode) : List Nat := (List.range' 1 16).flatMap fun l => List.replicate (h.counts.getD l 0) l

/-- The code: lengths and symbols, in order. -/
def HuffCode.code (h : HuffCode) : List (Nat × Nat) := h.lens.zip h.values

/-- What the canonical code says about 16 bits of input: the length and the symbol of the code word they begin with, unless it is the reserved one. -/
def HuffCode.symAt (h : HuffCode) (x : Nat) : Option (Nat × Nat) := (codeAt 16 0 h.code x).filter fun p => p.2 < 256

/-- The lookup table of a slot after a definition (c/enc/jpeg_data_reader.cc:313-330): the entries are cleared when the code is incomplete and the table is
not known to be clear. -/
def dhtLut (m : JMem) (h : HuffCode) : Option JMem :=
  let m := if kraft 16 h.code < 65536 ∧ (m 0).value ≠ 0xffff then fun _ => badEnt else m
  buildJpegTable m h.code

/-- The tables a slot can hold: clear, or recognizably not. -/
def SlotOk (m : JMem) : Prop := (∀ i, m i = badEnt) ∨ (m 0).value < 0xffff

theorem pairwise_flatMap_replicate (f : Nat → Nat) (n : Nat) : ∀ a,
    (((List.range' a n).flatMap fun l => List.replicate (f l) l).Pairwise (· ≤ ·)) ∧
    ∀ x ∈ (List.range' a n).flatMap (fun l => List.replicate (f l) l), a ≤ x ∧ x < a + n := by
  induction n with
  | zero => intro a; simp
  | succ n ih =>
    intro a
    obtain ⟨h1, h2⟩ := ih (a + 1)
    rw [List.range'_succ, List.flatMap_cons]
    refine ⟨?_, ?_⟩
    · rw [List.pairwise_append]
      refine ⟨List.pairwise_replicate.mpr (.inr (Nat.le_refl _)), h1, ?_⟩
      intro x hx y hy
      have := h2 y hy
      have := (List.mem_replicate.mp hx).2
      omega
    · intro x hx
      rcases List.mem_append.mp hx with h | h
      · have := (List.mem_replicate.mp h).2
        omega
      · have := h2 x h
        omega

theorem flatMap_replicate_length (f : Nat → Nat) (l : List Nat) : (l.flatMap fun x => List.replicate (f x) x).length = (l.map f).sum := by
  induction l with
  | nil => rfl
  | cons a l ih => simp [ih]

theorem kraft_zip (vs : List Nat) : ∀ ls : List Nat, ls.length ≤ vs.length → kraft 16 (ls.zip vs) = (ls.map fun l => 2 ^ (16 - l)).sum := by
  induction vs with
  | nil => intro ls h; cases ls with
    | nil => rfl
    | cons => simp at h
  | cons v vs ih =>
    intro ls h
    cases ls with
    | nil => rfl
    | cons l ls => simp only [List.zip_cons_cons, kraft, List.map_cons, List.sum_cons, ih ls (by simpa using h)]

theorem HuffCode.lens_length {h : HuffCode} (hl : h.counts.length = 17) (hz : h.counts.getD 0 0 = 0) : h.lens.length = h.counts.sum := by
  unfold HuffCode.lens
  rw [flatMap_replicate_length, ← sum_map_getD h.counts, hl, show (List.range 17) = 0 :: List.range' 1 16 by decide]
  simp only [List.map_cons, List.sum_cons, hz, Nat.zero_add]

theorem HuffCode.code_length {h : HuffCode} (hl : h.counts.length = 17) (hz : h.counts.getD 0 0 = 0) (hv : h.counts.sum ≤ h.values.length) :
    h.code.length = h.counts.sum := by
  unfold HuffCode.code
  rw [List.length_zip, HuffCode.lens_length hl hz]
  omega

theorem kraft_lens (h : HuffCode) : (h.lens.map fun l => 2 ^ (16 - l)).sum =
    ((List.range' 1 16).map fun i => h.counts.getD i 0 * 2 ^ (16 - i)).sum := by
  unfold HuffCode.lens
  generalize List.range' 1 16 = l
  induction l with
  | nil => rfl
  | cons a l ih =>
    rw [List.flatMap_cons, List.map_append, List.sum_append_nat, ih, List.map_cons, List.sum_cons, List.map_replicate, List.sum_replicate_nat]

theorem HuffCode.Ok.kraft_code {h : HuffCode} (ok : h.Ok) : Brunsli.kraft 16 h.code =
    ((List.range' 1 16).map fun i => h.counts.getD i 0 * 2 ^ (16 - i)).sum := by
  obtain ⟨h1, h2⟩ := ok.length
  unfold HuffCode.code
  rw [kraft_zip _ _ (by rw [HuffCode.lens_length ok.countsLength ok.zero, ok.valuesLength]; omega), kraft_lens]

theorem HuffCode.Ok.codeOk {h : HuffCode} (ok : h.Ok) : CodeOk 16 0 h.code := by
  obtain ⟨hp1, hp2⟩ := pairwise_flatMap_replicate (fun l => h.counts.getD l 0) 16 1
  have hfst : ∀ p ∈ h.code, p.1 ∈ h.lens := fun p hp => (List.of_mem_zip hp).1
  have hmap : h.code.map Prod.fst = h.lens := by
    obtain ⟨h1, h2⟩ := ok.length
    unfold HuffCode.code
    rw [List.map_fst_zip]
    rw [HuffCode.lens_length ok.countsLength ok.zero, ok.valuesLength]; omega
  constructor
  · have : (h.code.map Prod.fst).Pairwise (· ≤ ·) := by rw [hmap]; exact hp1
    exact List.pairwise_map.mp this
  · intro p hp
    have := hp2 p.1 (hfst p hp)
    omega
  · intro p _
    exact Nat.dvd_zero _
  · rw [ok.kraft_code, Nat.zero_add]
    exact ok.kraft

theorem HuffCode.Ok.values_le {h : HuffCode} (ok : h.Ok) : ∀ p ∈ h.code, p.2 ≤ 256 := by
  intro p hp
  have h1 := (List.of_mem_zip hp).2
  rw [ok.values] at h1
  rcases List.mem_append.mp h1 with h1 | h1
  · have := ok.bound p.2 h1
    split at this <;> omega
  · rcases List.mem_cons.mp h1 with h1 | h1
    · omega
    · have := (List.mem_replicate.mp h1).2
      omega

/-- **The lookup table decodes the canonical code**, whatever codes the slot held before, and is built without leaving its 1024 entries. -/
theorem dhtLut_spec {m : JMem} {h : HuffCode} (hm : SlotOk m) (ok : h.Ok) : ∃ m', dhtLut m h = some m' ∧ SlotOk m' ∧
    ∀ x, x < 65536 → JReads m' x ∧ match h.symAt x with
      | some p => jlookup m' x = p
      | none => 256 ≤ (jlookup m' x).2 := by
  obtain ⟨hl1, hl2⟩ := ok.length
  have hc := ok.codeOk
  have hlen : h.code.length = h.counts.sum := HuffCode.code_length ok.countsLength ok.zero (by rw [ok.valuesLength]; omega)
  have hcl : kraft 16 h.code < 65536 → ∀ i, (if kraft 16 h.code < 65536 ∧ (m 0).value ≠ 0xffff then fun _ => badEnt else m) i = badEnt := by
    intro hk i
    split
    · rfl
    · rename_i hn
      rcases hm with hm | hm
      · exact hm i
      · exact absurd ⟨hk, by omega⟩ hn
  unfold dhtLut
  simp only
  generalize (if kraft 16 h.code < 65536 ∧ (m 0).value ≠ 0xffff then fun _ => badEnt else m) = m1 at *
  by_cases h2 : 2 ≤ h.code.length
  · obtain ⟨m', e1, e2, e3, e4⟩ := buildJpegTable_spec (m0 := m1) hc (by omega) h2
    refine ⟨m', e1, .inr (e4 ok.values_le), ?_⟩
    intro x hx
    unfold HuffCode.symAt
    by_cases hxk : x < kraft 16 h.code
    · obtain ⟨p, p1, p2, p3⟩ := e2 x hxk
      rw [p1]
      refine ⟨p3, ?_⟩
      by_cases hp : p.2 < 256
      · simp only [Option.filter, hp, decide_true, if_true]
        exact p2
      · simp only [Option.filter, hp, decide_false, Bool.false_eq_true, if_false]
        rw [p2]
        simp only
        omega
    · have hn : codeAt 16 0 h.code x = none := by
        cases hcx : codeAt 16 0 h.code x with
        | none => rfl
        | some q => have := codeAt_ge hcx; omega
      rw [hn]
      simp only [Option.filter]
      obtain ⟨e5, e6⟩ := e3 (hcl (by omega)) x (by omega) hx
      rw [e5]
      exact ⟨e6, by omega⟩
  · have ht := ok.total
    have h1 : h.counts.sum = 1 := by omega
    have hv : h.values = 256 :: List.replicate 256 0 := by
      have h0 : h.symbols = [] := by
        apply List.length_eq_zero_iff.mp
        omega
      rw [ok.values, h0, h1]; rfl
    match hcd : h.code, hlen with
    | [p], _ =>
      have hp : p.2 = 256 := by
        have hlens : h.lens.length = 1 := by rw [HuffCode.lens_length ok.countsLength ok.zero]; exact h1
        match hle : h.lens, hlens with
        | [l], _ =>
          unfold HuffCode.code at hcd
          rw [hle, hv] at hcd
          simp only [List.zip_cons_cons, List.zip_nil_left, List.cons.injEq, and_true] at hcd
          rw [← hcd]
      rw [buildJpegTable, jfill_ok _ _ _ _ (by omega)]
      refine ⟨_, rfl, .inr ?_, ?_⟩
      · simp [hp]
      · intro x hx
        have hs : h.symAt x = none := by
          unfold HuffCode.symAt
          rw [hcd]
          simp only [codeAt]
          split
          · simp [Option.filter, hp]
          · rfl
        rw [hs]
        simp only
        have hx2 : x / 256 < 256 := by omega
        refine ⟨?_, by simp [jlookup, hp, hx2]⟩
        unfold JReads
        simp [hx2]
    | [], hlen => simp at hlen; omega
    | _ :: _ :: _, hlen => simp at hlen; omega

/-! ## The writer's table -/

/-- `HuffmanCodeTable` (c/dec/serialization_state.h:23-26). -/
structure CodeTable where
  depth : Nat → Nat
  code : Nat → Nat

/-- The arguments of `WriteBits` for a symbol (c/dec/jpeg_data_writer.cc:521 and others).  An index of 256 or more into the table of 256 is undefined behaviour,
as is a number of bits that the writer can never take. -/
def CodeTable.word (t : CodeTable) (s : Nat) : Nat × Nat := if s < 256 then (t.depth s, t.code s) else (65, 0)

/-- `table->depth[i] = …; table->code[i] = …` (c/dec/jpeg_data_writer.cc:299-303). -/
def CodeTable.put (t : CodeTable) (e : Nat × Nat × Nat) : CodeTable :=
  ⟨fun s => if s = e.1 then e.2.1 else t.depth s, fun s => if s = e.1 then e.2.2 else t.code s⟩

/-- The code words (c/dec/jpeg_data_writer.cc:286-296), as symbol, length and word: each word is the previous one plus one, shifted by the difference of the lengths. -/
def jcodes (code si : Nat) : List (Nat × Nat) → List (Nat × Nat × Nat)
  | [] => []
  | p :: L => (p.2, p.1, code * 2 ^ (p.1 - si)) :: jcodes (code * 2 ^ (p.1 - si) + 1) p.1 L

/-- `BuildHuffmanCodeTable` (c/dec/jpeg_data_writer.cc:265-304); an index of 256 or more into the table of 256 is undefined behaviour. -/
def buildCodeTable (t : CodeTable) (h : HuffCode) : Run CodeTable :=
  if 257 < h.lens.length then .fail
  else if h.lens = [] then .ok t
  else
    let real := h.code.dropLast
    if real.all fun p => p.2 < 256 then .ok ((jcodes 0 (h.lens.headD 0) real).foldl CodeTable.put t) else .ub

theorem jcodes_spec (L : List (Nat × Nat)) : ∀ {v code si : Nat}, CodeOk 16 v L → code * 2 ^ (16 - si) = v → si ≤ 16 → (∀ p ∈ L, si ≤ p.1) →
    ∀ x p, codeAt 16 v L x = some p → (p.2, p.1, x / 2 ^ (16 - p.1)) ∈ jcodes code si L := by
  induction L with
  | nil => intro v code si _ _ _ _ x p h; simp [codeAt] at h
  | cons q L ih =>
    intro v code si hc hv hs16 hsi x p h
    have hr := hc.range q List.mem_cons_self
    have hq := hsi q List.mem_cons_self
    have hshift : code * 2 ^ (q.1 - si) * 2 ^ (16 - q.1) = v := by
      rw [Nat.mul_assoc, ← Nat.pow_add, show q.1 - si + (16 - q.1) = 16 - si by omega, hv]
    have hpos := Nat.two_pow_pos (16 - q.1)
    rw [codeAt] at h
    rw [jcodes]
    split at h
    · rename_i hx
      cases h
      have : x / 2 ^ (16 - q.1) = code * 2 ^ (q.1 - si) := by
        apply Nat.div_eq_of_lt_le
        · rw [hshift]; exact hx.1
        · rw [Nat.add_mul, Nat.one_mul, hshift]; exact hx.2
      rw [this]
      exact List.mem_cons_self
    · refine List.mem_cons_of_mem _ (ih hc.tail ?_ hr.2 ?_ x p h)
      · rw [Nat.add_mul, hshift, Nat.one_mul]
      · intro r hr
        exact (List.pairwise_cons.mp hc.sorted).1 r hr

theorem jcodes_symbols (L : List (Nat × Nat)) : ∀ code si, (jcodes code si L).map (·.1) = L.map (·.2) := by
  induction L with
  | nil => intro _ _; rfl
  | cons p L ih => intro code si; simp [jcodes, ih]

theorem foldl_put_other (es : List (Nat × Nat × Nat)) : ∀ {t : CodeTable} {s : Nat}, s ∉ es.map (·.1) →
    (es.foldl CodeTable.put t).depth s = t.depth s ∧ (es.foldl CodeTable.put t).code s = t.code s := by
  induction es with
  | nil => intro t s _; exact ⟨rfl, rfl⟩
  | cons e es ih =>
    intro t s h
    rw [List.map_cons, List.mem_cons, not_or] at h
    obtain ⟨h1, h2⟩ := ih (t := t.put e) h.2
    rw [List.foldl_cons, h1, h2]
    simp only [CodeTable.put, if_neg h.1, and_self]

theorem foldl_put_mem (es : List (Nat × Nat × Nat)) : ∀ {t : CodeTable} {e : Nat × Nat × Nat}, (es.map (·.1)).Nodup → e ∈ es →
    (es.foldl CodeTable.put t).depth e.1 = e.2.1 ∧ (es.foldl CodeTable.put t).code e.1 = e.2.2 := by
  induction es with
  | nil => intro t e _ h; simp at h
  | cons a es ih =>
    intro t e hn h
    rw [List.map_cons, List.nodup_cons] at hn
    rcases List.mem_cons.mp h with h | h
    · subst h
      obtain ⟨h1, h2⟩ := foldl_put_other es (t := t.put e) hn.1
      rw [List.foldl_cons, h1, h2]
      simp [CodeTable.put]
    · exact ih hn.2 h

/-- A table of code words agrees with a code. -/
def CodeTable.Agrees (t : CodeTable) (h : HuffCode) : Prop :=
  ∀ x, x < 65536 → ∀ p, h.symAt x = some p → t.depth p.2 = p.1 ∧ t.code p.2 = x / 2 ^ (16 - p.1)

theorem HuffCode.Ok.code_eq {h : HuffCode} (ok : h.Ok) : ∃ l, h.code = h.code.dropLast ++ [(l, 256)] ∧ h.code.dropLast.map Prod.snd = h.symbols := by
  obtain ⟨hl1, hl2⟩ := ok.length
  have ht := ok.total
  have hlens := HuffCode.lens_length ok.countsLength ok.zero
  have hne : h.lens ≠ [] := by
    intro he
    rw [he] at hlens
    simp at hlens
    omega
  have hsplit : h.lens = h.lens.dropLast ++ [h.lens.getLast hne] := (List.dropLast_append_getLast hne).symm
  have hdl : h.lens.dropLast.length = h.symbols.length := by rw [List.length_dropLast]; omega
  have hcode : h.code = h.lens.dropLast.zip h.symbols ++ [(h.lens.getLast hne, 256)] := by
    unfold HuffCode.code
    rw [ok.values]
    conv_lhs => rw [hsplit]
    rw [List.zip_append hdl]
    congr 1
  refine ⟨h.lens.getLast hne, ?_, ?_⟩
  · rw [hcode, List.dropLast_concat]
  · rw [hcode, List.dropLast_concat, List.map_snd_zip]
    omega

/-- **The writer's table is the same code**, whatever it held before. -/
theorem buildCodeTable_spec {h : HuffCode} (ok : h.Ok) (t : CodeTable) : ∃ t', buildCodeTable t h = .ok t' ∧ t'.Agrees h := by
  obtain ⟨hl1, hl2⟩ := ok.length
  have ht := ok.total
  have hlens := HuffCode.lens_length ok.countsLength ok.zero
  obtain ⟨l, hcode, hsyms⟩ := ok.code_eq
  have hne : h.lens ≠ [] := by
    intro he
    rw [he] at hlens
    simp at hlens
    omega
  have hall : (h.code.dropLast.all fun p => decide (p.2 < 256)) = true := by
    rw [List.all_eq_true]
    intro p hp
    have : p.2 ∈ h.symbols := by rw [← hsyms]; exact List.mem_map.mpr ⟨p, hp, rfl⟩
    have := ok.bound p.2 this
    simp only [decide_eq_true_eq]
    split at this <;> omega
  refine ⟨(jcodes 0 (h.lens.headD 0) h.code.dropLast).foldl CodeTable.put t, ?_, ?_⟩
  · unfold buildCodeTable
    rw [if_neg (by omega), if_neg hne]
    simp only
    rw [if_pos hall]
  · intro x hx p hp
    have hc := ok.codeOk
    unfold HuffCode.symAt at hp
    cases hca : codeAt 16 0 h.code x with
    | none => rw [hca] at hp; simp [Option.filter] at hp
    | some q =>
      rw [hca] at hp
      simp only [Option.filter] at hp
      split at hp
      · rename_i hlt
        rw [Option.some.injEq] at hp
        subst hp
        have hlt' : q.2 < 256 := by simpa using hlt
        rw [hcode] at hca hc
        have hdrop : codeAt 16 0 h.code.dropLast x = some q := by
          rw [codeAt_append] at hca
          cases hd : codeAt 16 0 h.code.dropLast x with
          | some r => rw [hd] at hca; simpa using hca
          | none =>
            rw [hd, Option.none_or] at hca
            have := codeAt_mem hca
            simp at this
            rw [this] at hlt'
            simp at hlt'
        have hhead : ∀ p ∈ h.code.dropLast, h.lens.headD 0 ≤ p.1 := by
          intro r hr
          have h1 : r ∈ h.code := List.dropLast_subset _ hr
          have h2 := (List.of_mem_zip h1).1
          have hs := (pairwise_flatMap_replicate (fun l => h.counts.getD l 0) 16 1).1
          have hs' : h.lens.Pairwise (· ≤ ·) := hs
          match hle : h.lens, hne with
          | a :: ls, _ =>
            rw [hle] at h2 hs'
            rcases List.mem_cons.mp h2 with h2 | h2
            · simp [h2]
            · exact (List.pairwise_cons.mp hs').1 _ h2
        have h16 : h.lens.headD 0 ≤ 16 := by
          have hs := (pairwise_flatMap_replicate (fun l => h.counts.getD l 0) 16 1).2
          match hle : h.lens, hne with
          | a :: ls, _ =>
            have := hs a (show a ∈ h.lens by rw [hle]; exact List.mem_cons_self)
            simp
            omega
        have hm := jcodes_spec h.code.dropLast (CodeOk.split hc).1 (Nat.zero_mul _) h16 hhead x q hdrop
        exact foldl_put_mem _ (by rw [jcodes_symbols, hsyms]; exact ok.nodup) hm
      · cases hp

end Brunsli
