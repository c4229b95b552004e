import Verif.JWriterSpec
/-!
# Entropy coded data as a function of the requests

`entropy` says which bytes a scan consists of: the bits of each restart interval, completed to whole bytes and
stuffed, with the restart markers between them.  `scan_writes` shows that the bit writer of the serializer
produces exactly that.
-/

namespace Brunsli

/-- Bits to bytes, most significant bit first. -/
def pack : List Bool → List Nat
  | a :: b :: c :: d :: e :: f :: g :: h :: bs => ofMsb [a, b, c, d, e, f, g, h] :: pack bs
  | _ => []

theorem pack_bytesMsb {g : List Nat} (hg : Bytes g) : pack (bytesMsb g) = g := by
  induction g with
  | nil => rfl
  | cons b g ih =>
    have hb := hg b List.mem_cons_self
    have e : bytesMsb (b :: g) = msb 8 b ++ bytesMsb g := rfl
    rw [e]
    have h8 : ofMsb (msb 8 b) = b := ofMsb_msb_lt hb
    simp only [msb, List.cons_append, List.nil_append, pack] at h8 ⊢
    rw [h8, ih fun z hz => hg z (List.mem_cons_of_mem _ hz)]

instance (n : Nat) (pads : Pads) : Decidable (PadOk n pads) := by
  unfold PadOk
  cases pads <;> infer_instance

/-- One restart interval: its bits, the padding, and the zeros after 0xFF. -/
def interval (pads : Pads) (ws : List (Nat × Nat)) : List Nat :=
  stuff (pack (actBits ws ++ padBits (padLen (actBits ws).length) pads))

/-- The entropy coded data of a scan: the first restart interval, and the others with their marker numbers; `none` when the
padding bits run out. -/
def entropy (pads : Pads) (ws : List (Nat × Nat)) : List (Nat × List (Nat × Nat)) → Option (List Nat × Pads)
  | [] => if PadOk (padLen (actBits ws).length) pads then some (interval pads ws, padRest (padLen (actBits ws).length) pads) else none
  | (m, ws') :: rest =>
    if PadOk (padLen (actBits ws).length) pads then
      (entropy (padRest (padLen (actBits ws).length) pads) ws' rest).map fun (bs, p) => (interval pads ws ++ ([0xFF, 0xD0 + m] ++ bs), p)
    else none

/-- The requests: the bits of the intervals, and a restart before each interval but the first. -/
def scanActs (ws : List (Nat × Nat)) (rest : List (Nat × List (Nat × Nat))) : List Act :=
  (ws.map fun x => Act.bits x.1 x.2) ++ rest.flatMap fun r => Act.restart r.1 :: r.2.map fun x => Act.bits x.1 x.2

/-- A scan of the serializer: the requests and the final `JumpToByteBoundary` (c/dec/jpeg_data_writer.cc:697-854). -/
def BW.scan (w : BW) (pads : Pads) (as : List Act) : Run (BW × Pads) :=
  (w.acts pads as).bind fun (w, pads) => w.jump pads

theorem jump_fails {w : BW} {pads : Pads} (h : ¬ PadOk (w.left % 8) pads) : w.jump pads = .fail := by
  cases pads with
  | none => exact absurd trivial h
  | some ps =>
    have h' : ps.length < w.left % 8 := by
      have : ¬ (w.left % 8 ≤ ps.length) := h
      omega
    rw [BW.jump, padPattern, if_pos h']
    rfl

/-- The bit writer produces the entropy coded data, or fails when the padding bits run out. -/
theorem scan_writes (rest : List (Nat × List (Nat × Nat))) : ∀ {w : BW} {pads : Pads} {ws : List (Nat × Nat)},
    w.left = 64 → w.buf = 0 → w.data.length ≤ kBitWriterChunkSize → GoodBits ws → (∀ r ∈ rest, GoodBits r.2) →
    match entropy pads ws rest with
    | none => w.scan pads (scanActs ws rest) = .fail
    | some (bs, pads') => ∃ w', w.scan pads (scanActs ws rest) = .ok (w', pads') ∧ w'.out = w.out ++ bs ∧ w'.healthy = w.healthy ∧
        w'.left = 64 ∧ w'.buf = 0 ∧ w'.data.length ≤ kBitWriterChunkSize := by
  induction rest with
  | nil =>
    intro w pads ws hl hb hd hg _
    obtain ⟨w1, a1, b1, c1, d1⟩ := BW.bits_holds ws (pads := pads) (BW.holds_empty hl hb hd) (by omega) hg
    rw [List.nil_append] at b1
    have hpad := b1.pad
    have hs : w.scan pads (scanActs ws []) = w1.jump pads := by
      simp only [BW.scan, scanActs, List.flatMap_nil, List.append_nil, a1, Run.bind]
    rw [hs, entropy]
    by_cases hp : PadOk (padLen (actBits ws).length) pads
    · rw [if_pos hp]
      rw [← hpad] at hp
      obtain ⟨w2, g, e1, e2, e3, e4, e5, e6, e7, e8⟩ := BW.jump_holds b1 d1 hp
      refine ⟨w2, by rw [e1, hpad], ?_, by rw [e2, c1], e3, e4, e8⟩
      rw [e7, interval, ← hpad, ← e6, pack_bytesMsb e5]
    · rw [if_neg hp]
      rw [← hpad] at hp
      exact jump_fails hp
  | cons r rest ih =>
    intro w pads ws hl hb hd hg hgs
    obtain ⟨w1, a1, b1, c1, d1⟩ := BW.bits_holds ws (pads := pads) (BW.holds_empty hl hb hd) (by omega) hg
    rw [List.nil_append] at b1
    have hpad := b1.pad
    have hs : w.scan pads (scanActs ws (r :: rest)) =
        ((w1.jump pads).bind fun (w, pads) => (w.emitMarker (0xD0 + r.1)).bind fun w => w.scan pads (scanActs r.2 rest)) := by
      rw [BW.scan, scanActs, BW.acts_append, a1]
      simp only [Run.bind, List.flatMap_cons, List.cons_append, BW.acts]
      cases w1.jump pads with
      | ok p =>
        simp only [Run.bind]
        cases p.1.emitMarker (0xD0 + r.1) with
        | ok v => rfl
        | fail => rfl
        | ub => rfl
      | fail => rfl
      | ub => rfl
    rw [hs, entropy]
    by_cases hp : PadOk (padLen (actBits ws).length) pads
    · rw [if_pos hp]
      rw [← hpad] at hp
      obtain ⟨w2, g, e1, e2, e3, e4, e5, e6, e7, e8⟩ := BW.jump_holds b1 d1 hp
      obtain ⟨w3, f1, f2, f3, f4, f5, f6⟩ := BW.emitMarker_spec (w := w2) (m := 0xD0 + r.1)
      have := ih (w := w3) (pads := padRest (w1.left % 8) pads) (ws := r.2) (by rw [f3, e3]) (by rw [f4, e4]) f6
        (hgs r List.mem_cons_self) fun x hx => hgs x (List.mem_cons_of_mem _ hx)
      rw [e1]
      simp only [Run.bind, f1]
      rw [← hpad]
      cases he : entropy (padRest (w1.left % 8) pads) r.2 rest with
      | none => rw [he] at this; exact this
      | some q =>
        rw [he] at this
        obtain ⟨w', g1, g2, g3, g4, g5, g6⟩ := this
        refine ⟨w', g1, ?_, by rw [g3, f2, e2, c1], g4, g5, g6⟩
        rw [g2, f5, e7, interval, ← hpad, ← e6, pack_bytesMsb e5]
        simp
    · rw [if_neg hp]
      rw [← hpad] at hp
      rw [jump_fails hp]
      rfl

theorem actBits_append (a b : List (Nat × Nat)) : actBits (a ++ b) = actBits a ++ actBits b := by
  induction a with
  | nil => rfl
  | cons x a ih => simp [actBits, ih]

/-- What an interval holds: whole bytes without a marker, whose bits are those written and the padding. -/
theorem interval_spec {pads : Pads} {ws : List (Nat × Nat)} (hp : PadOk (padLen (actBits ws).length) pads) :
    NoMarker (interval pads ws) ∧ Bytes (interval pads ws) ∧
      bytesMsb (unstuff (interval pads ws)) = actBits ws ++ padBits (padLen (actBits ws).length) pads := by
  obtain ⟨-, hlen⟩ := padPattern_ok hp
  have key : ∀ n (B : List Bool), B.length = 8 * n → bytesMsb (pack B) = B ∧ Bytes (pack B) := by
    intro n
    induction n with
    | zero => intro B hB; cases B with
      | nil => exact ⟨rfl, by intro b hb; simp [pack] at hb⟩
      | cons => simp at hB
    | succ n ih =>
      intro B hB
      match B, hB with
      | a :: b :: c :: d :: e :: f :: g :: h :: bs, hB =>
        have hl : bs.length = 8 * n := by simp only [List.length_cons] at hB; omega
        obtain ⟨h1, h2⟩ := ih bs hl
        refine ⟨?_, ?_⟩
        · have e8 := msb_ofMsb [a, b, c, d, e, f, g, h]
          have e1 : bytesMsb (pack (a :: b :: c :: d :: e :: f :: g :: h :: bs)) =
              msb 8 (ofMsb [a, b, c, d, e, f, g, h]) ++ bytesMsb (pack bs) := rfl
          rw [e1, h1, show msb 8 (ofMsb [a, b, c, d, e, f, g, h]) = _ from e8]
          rfl
        · intro z hz
          rcases List.mem_cons.mp hz with hz | hz
          · rw [hz]; have := ofMsb_lt [a, b, c, d, e, f, g, h]; simp only [List.length_cons, List.length_nil] at this; exact this
          · exact h2 z hz
      | [], hB => simp at hB
      | [_], hB => simp at hB; omega
      | [_, _], hB => simp at hB; omega
      | [_, _, _], hB => simp at hB; omega
      | [_, _, _, _], hB => simp at hB; omega
      | [_, _, _, _, _], hB => simp at hB; omega
      | [_, _, _, _, _, _], hB => simp at hB; omega
      | [_, _, _, _, _, _, _], hB => simp at hB; omega
  have hB : (actBits ws ++ padBits (padLen (actBits ws).length) pads).length = 8 * (((actBits ws).length + 7) / 8) := by
    rw [List.length_append, hlen]
    unfold padLen
    omega
  obtain ⟨h1, h2⟩ := key _ _ hB
  unfold interval
  exact ⟨stuff_noMarker _, stuff_bytes h2, by rw [unstuff_stuff, h1]⟩

end Brunsli
