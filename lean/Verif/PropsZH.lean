import Verif.BitSections
/-!
# Property C67: the bit reader and the pieces of a section

A section made of bits arrives in pieces.  Each call of the decoder lends the bit reader the bytes at hand, and takes back what it did not need; the bits of a byte
that was begun stay in the reader.  If the end of the section is in view, the histograms are read without asking first, and the reader makes up zeros when the bytes are
over.  Here the reader is modelled with its fields (`next_`, `num_bits_`, `bits_`, `num_debt_bytes_`, `is_healthy_`), and everything it must not do is an outcome of its own:
reading more than 24 bits at once, dropping more bits than are held, stepping back before the bytes of the call, an entry of a table that is missing, and a reader that is
resumed or put to sleep unhealthy.
-/

namespace Brunsli

open P

/-- The calls for a section of `size` bytes, from its first byte; in the end it must have been consumed wholly (`IsAtSectionBoundary`,
c/dec/brunsli_decode.cc:1093-1096, 1794, 1923). -/
def BP.feedSection {α : Type} (opt : Bool) (p : BP α) (size : Nat) (pieces : List (List Nat)) : FOut α :=
  match p.feedBits opt BR.init size [] pieces with
  | .done a rest => if pieces.flatten.length = size + rest.length then .done a rest else .bad
  | o => o

theorem feedBits_start {α : Type} {post within : α → Prop} {opt : Bool} {p : BP α} {pieces : List (List Nat)} {payload extra : List Nat}
    (hne : pieces ≠ []) (he : pieces.flatten = payload ++ extra) (hb : Bytes pieces.flatten) (hf : p.Fit post) (hw : p.Within within 0)
    (ho : opt = true ∨ p.Narrow post) :
    p.feedBits opt BR.init payload.length [] pieces = match bitSem opt ([], p) payload with
      | some (a, rest) => .done a (rest ++ extra)
      | none => .bad :=
  BP.feedBits_right extra pieces (hist := []) (pend := []) hne he rfl hb BR.init_idle hf hw ho

theorem feedSection_start {α : Type} {post within : α → Prop} {opt : Bool} {p : BP α} {pieces : List (List Nat)} {payload extra : List Nat}
    (hne : pieces ≠ []) (he : pieces.flatten = payload ++ extra) (hb : Bytes pieces.flatten) (hf : p.Fit post) (hw : p.Within within 0)
    (ho : opt = true ∨ p.Narrow post) :
    p.feedSection opt payload.length pieces = match atEnd (bitSem opt ([], p) payload) with
      | some a => .done a extra
      | none => .bad := by
  rw [BP.feedSection, feedBits_start hne he hb hf hw ho]
  cases bitSem opt ([], p) payload with
  | none => rfl
  | some y =>
    obtain ⟨a, rest⟩ := y
    simp only [he, List.length_append]
    cases rest with
    | nil => simp [atEnd]
    | cons b rest =>
      rw [if_neg (by simp only [List.length_cons]; omega)]
      rfl

/-! ## Fields of given widths -/

/-- Reading fields of the given widths, each after a test for its bits. -/
def widthsBP : List Nat → BP (List Nat)
  | [] => Pure.pure []
  | n :: ns => do
    let v ← BP.bits n
    let vs ← widthsBP ns
    Pure.pure (v :: vs)

/-- The fields: numbers made of the successive bits. -/
def fieldsOf : List Nat → List Bool → List Nat
  | [], _ => []
  | n :: ns, bs => ofBits (bs.take n) :: fieldsOf ns (bs.drop n)

theorem widthsBP_narrow : ∀ {ns : List Nat}, (∀ n ∈ ns, n ≤ 24) → (widthsBP ns).Narrow (fun _ => True)
  | [], _ => trivial
  | n :: _, h => BP.Narrow.seq (BP.Narrow.bits (h n List.mem_cons_self)) fun _ _ =>
      BP.Narrow.seq (widthsBP_narrow fun m hm => h m (List.mem_cons_of_mem _ hm)) fun _ _ => trivial

theorem widthsBP_within : ∀ {ns : List Nat}, (∀ n ∈ ns, n ≤ 24) → (widthsBP ns).Within (fun _ => True) 0
  | [], _ => trivial
  | n :: _, h => BP.Within.seq (BP.Within.bits (Nat.le_trans (h n List.mem_cons_self) (by decide))) fun _ _ =>
      BP.Within.seq (widthsBP_within fun m hm => h m (List.mem_cons_of_mem _ hm)) fun _ _ => trivial

theorem widthsBP_run : ∀ (ns : List Nat) (bs : List Bool),
    (widthsBP ns).run false bs = if ns.sum ≤ bs.length then some (fieldsOf ns bs, bs.drop ns.sum) else none
  | [], bs => by simp [widthsBP, fieldsOf, BP.run_ret, pure_apply]
  | n :: ns, bs => by
    rw [widthsBP, BP.run_seq, bind_apply, BP.run_bits, readBits, List.sum_cons]
    by_cases hn : n ≤ bs.length
    · rw [if_pos hn]
      simp only
      rw [BP.run_seq, bind_apply, widthsBP_run ns, List.length_drop]
      by_cases hs : ns.sum ≤ bs.length - n
      · rw [if_pos hs, if_pos (by omega)]
        simp only [BP.run_ret, pure_apply, fieldsOf, List.drop_drop]
      · rw [if_neg hs, if_neg (by omega)]
    · rw [if_neg hn, if_neg (by omega)]

/-- **C67 (1).** Fields of at most 24 bits, however the bytes that hold them arrive: the reader gives the fields and takes the bytes they are in, and no other. -/
theorem C67_fields {ns payload extra : List Nat} {pieces : List (List Nat)} (hn : ∀ n ∈ ns, n ≤ 24) (hne : pieces ≠ []) (he : pieces.flatten = payload ++ extra)
    (hb : Bytes pieces.flatten) (hfit : ns.sum ≤ 8 * payload.length)
    (hz : ∀ b ∈ ((bytesBits payload).take (8 * ((ns.sum + 7) / 8))).drop ns.sum, b = false) :
    (widthsBP ns).feedBits false BR.init payload.length [] pieces = .done (fieldsOf ns (bytesBits payload)) (payload.drop ((ns.sum + 7) / 8) ++ extra) := by
  rw [feedBits_start hne he hb (widthsBP_narrow hn).fit (widthsBP_within hn) (Or.inr (widthsBP_narrow hn))]
  have hl := bytesBits_length payload
  simp only [bitSem, List.nil_append]
  rw [widthsBP_run, if_pos (by omega)]
  simp only [finishSem]
  have e1 : ((bytesBits payload).drop ns.sum).length % 8 = 8 * ((ns.sum + 7) / 8) - ns.sum := by rw [List.length_drop]; omega
  have e2 : payload.length - ((bytesBits payload).drop ns.sum).length / 8 = (ns.sum + 7) / 8 := by rw [List.length_drop]; omega
  rw [e1, e2, if_neg]
  intro h
  obtain ⟨b, hb1, hb2⟩ := List.any_eq_true.mp h
  rw [List.drop_take] at hz
  rw [hz b hb1] at hb2
  cases hb2

/-- **C67 (2).** If the section is too short for the fields, or the bits after them are not zero, it is rejected: what the reader makes up at the end of a section never counts. -/
theorem C67_fields_bad {ns payload extra : List Nat} {pieces : List (List Nat)} (hn : ∀ n ∈ ns, n ≤ 24) (hne : pieces ≠ []) (he : pieces.flatten = payload ++ extra)
    (hb : Bytes pieces.flatten)
    (hbad : 8 * payload.length < ns.sum ∨ ∃ b ∈ ((bytesBits payload).take (8 * ((ns.sum + 7) / 8))).drop ns.sum, b = true) :
    (widthsBP ns).feedBits false BR.init payload.length [] pieces = .bad := by
  rw [feedBits_start hne he hb (widthsBP_narrow hn).fit (widthsBP_within hn) (Or.inr (widthsBP_narrow hn))]
  have hl := bytesBits_length payload
  simp only [bitSem, List.nil_append]
  rw [widthsBP_run]
  by_cases hfit : ns.sum ≤ (bytesBits payload).length
  · rw [if_pos hfit]
    simp only [finishSem]
    have e1 : ((bytesBits payload).drop ns.sum).length % 8 = 8 * ((ns.sum + 7) / 8) - ns.sum := by rw [List.length_drop]; omega
    rw [e1, if_pos]
    rcases hbad with h | ⟨b, hb1, hb2⟩
    · omega
    · rw [List.drop_take] at hb1
      exact List.any_eq_true.mpr ⟨b, hb1, hb2⟩
  · rw [if_neg hfit]
    rfl

/-! ## The sections -/

/-- **C67 (3).** The histogram section, in any pieces, is what its bits say; the bytes of the next section are left alone. -/
theorem C67_histograms {ncomp : Nat} (h1 : 1 ≤ ncomp) (h4 : ncomp ≤ 4) {payload extra : List Nat} {pieces : List (List Nat)} (hne : pieces ≠ [])
    (he : pieces.flatten = payload ++ extra) (hb : Bytes pieces.flatten) :
    (histBP ncomp).feedSection true payload.length pieces = match wholeOpt (decodeHistogramData ncomp (bytesBits payload)) with
      | some d => .done d extra
      | none => .bad := by
  rw [feedSection_start hne he hb (histBP_fit ncomp) (histBP_within h1 h4) (Or.inl rfl), hist_sem h1 h4]
  cases wholeOpt (decodeHistogramData ncomp (bytesBits payload)) <;> rfl

/-- **C67 (4).** The section of quantisation tables. -/
theorem C67_quant (precs : List Nat) (ncomp : Nat) {payload extra : List Nat} {pieces : List (List Nat)} (hne : pieces ≠ [])
    (he : pieces.flatten = payload ++ extra) (hb : Bytes pieces.flatten) :
    (quantBP precs ncomp).feedSection false payload.length pieces = match whole (decodeQuantData precs ncomp (bytesBits payload)) with
      | some q => .done q extra
      | none => .bad := by
  rw [feedSection_start hne he hb (quantBP_narrow precs ncomp).fit (quantBP_within precs ncomp) (Or.inr (quantBP_narrow precs ncomp)), quant_sem]
  cases whole (decodeQuantData precs ncomp (bytesBits payload)) <;> rfl

/-- **C67 (5).** The bits at the beginning of the section of internals: the unused bits of the last byte are zero, and the bytes that follow are left alone. -/
theorem C67_internals (limit ncomp : Nat) {payload extra : List Nat} {pieces : List (List Nat)} (hne : pieces ≠ [])
    (he : pieces.flatten = payload ++ extra) (hb : Bytes pieces.flatten) :
    (internalsBP (8 * payload.length) limit ncomp).feedBits false BR.init payload.length [] pieces =
      match readInternalsBits limit ncomp (bytesBits payload) with
      | some (x, r) => if (r.take (r.length % 8)).any id then .bad else .done x (payload.drop (payload.length - r.length / 8) ++ extra)
      | none => .bad := by
  rw [feedBits_start hne he hb (internalsBP_narrow _ limit ncomp).fit (internalsBP_within _ limit ncomp) (Or.inr (internalsBP_narrow _ limit ncomp))]
  simp only [bitSem, List.nil_append]
  rw [internalsBP_agrees (8 * payload.length) limit ncomp _ (Nat.le_of_eq (bytesBits_length _))]
  cases readInternalsBits limit ncomp (bytesBits payload) with
  | none => rfl
  | some y =>
    obtain ⟨x, r⟩ := y
    simp only [finishSem]
    by_cases h : (r.take (r.length % 8)).any id = true
    · rw [if_pos h, if_pos h]
    · rw [if_neg h, if_neg h]

/-- **C67 (6).** Whatever bytes have come so far, in whatever pieces: the reader never does what it must not. -/
theorem C67_defined {pieces : List (List Nat)} (hb : Bytes pieces.flatten) (size : Nat) :
    (∀ ncomp, 1 ≤ ncomp → ncomp ≤ 4 → (histBP ncomp).feedSection true size pieces ≠ .ub) ∧
    (∀ precs ncomp, (quantBP precs ncomp).feedSection false size pieces ≠ .ub) ∧
    (∀ fuel limit ncomp, (internalsBP fuel limit ncomp).feedBits false BR.init size [] pieces ≠ .ub) := by
  have sec : ∀ {α : Type} {opt : Bool} {p : BP α}, p.feedBits opt BR.init size [] pieces ≠ .ub → p.feedSection opt size pieces ≠ .ub := by
    intro α opt p h
    unfold BP.feedSection
    split
    · split <;> simp
    · exact h
  refine ⟨fun ncomp h1 h4 => sec ?_, fun precs ncomp => sec ?_, fun fuel limit ncomp => ?_⟩
  · exact BP.feedBits_defined pieces (hist := []) (pend := []) hb BR.init_idle (histBP_fit ncomp) (histBP_within h1 h4) (Or.inl rfl)
  · exact BP.feedBits_defined pieces (hist := []) (pend := []) hb BR.init_idle (quantBP_narrow precs ncomp).fit (quantBP_within precs ncomp)
      (Or.inr (quantBP_narrow precs ncomp))
  · exact BP.feedBits_defined pieces (hist := []) (pend := []) hb BR.init_idle (internalsBP_narrow _ limit ncomp).fit (internalsBP_within _ limit ncomp)
      (Or.inr (internalsBP_narrow _ limit ncomp))

/-! ## Cases -/

/-- Three fields over byte borders, in three pieces of which one is empty; two bytes of the next section follow. -/
example : (widthsBP [3, 11, 2]).feedBits false BR.init 2 [] [[0x5d], [], [0x2c, 7, 8]] = .done [5, 1419, 0] [7, 8] :=
  (C67_fields (payload := [0x5d, 0x2c]) (extra := [7, 8]) (by decide) (by decide) rfl (by unfold Bytes; decide) (by decide) (by decide)).trans
    (congrArg (fun l => FOut.done l [7, 8]) (by decide))

/-- The same with a bit set after the last field. -/
example : (widthsBP [3, 11]).feedBits false BR.init 2 [] [[0x5d], [0x80 + 0x2c]] = .bad :=
  C67_fields_bad (payload := [0x5d, 0x80 + 0x2c]) (extra := []) (by decide) (by decide) rfl (by unfold Bytes; decide) (Or.inr (by decide))

/-- A histogram section of two bytes, of which the second arrives with the next section. -/
example : ∃ d, (histBP 1).feedSection true 2 [[0x11], [3, 9]] = .done d [9] := by
  have h := C67_histograms (ncomp := 1) (by decide) (by decide) (payload := [0x11, 3]) (extra := [9]) (pieces := [[0x11], [3, 9]]) (by decide) rfl (by unfold Bytes; decide)
  have hs : (wholeOpt (decodeHistogramData 1 (bytesBits [0x11, 3]))).isSome = true := by decide +kernel
  obtain ⟨d, hd⟩ := Option.isSome_iff_exists.mp hs
  exact ⟨d, h.trans (by rw [hd])⟩

/-- The first byte alone is no section: the reader would have to make up bits. -/
example : (histBP 1).feedSection true 1 [[0x11]] = .bad := by
  have h := C67_histograms (ncomp := 1) (by decide) (by decide) (payload := [0x11]) (extra := []) (pieces := [[0x11]]) (by decide) rfl (by unfold Bytes; decide)
  have hs : wholeOpt (decodeHistogramData 1 (bytesBits [0x11])) = none := by
    have : (wholeOpt (decodeHistogramData 1 (bytesBits [0x11]))).isNone = true := by decide +kernel
    exact Option.isNone_iff_eq_none.mp this
  exact h.trans (by rw [hs])

/-- A section of one byte that names a stock table. -/
example : ∃ q, (quantBP [0] 1).feedSection false 1 [[], [0, 5]] = .done q [5] := by
  have h := C67_quant [0] 1 (payload := [0]) (extra := [5]) (pieces := [[], [0, 5]]) (by decide) rfl (by unfold Bytes; decide)
  have hs : (whole (decodeQuantData [0] 1 (bytesBits [0]))).isSome = true := by decide +kernel
  obtain ⟨q, hq⟩ := Option.isSome_iff_exists.mp hs
  exact ⟨q, h.trans (by rw [hq])⟩

end Brunsli
