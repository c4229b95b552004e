import Verif.BitMachine
/-!
# Reading a section made of bits in several calls, on the bit reader itself
-/

namespace Brunsli

open P

/-! ## Programs that the bit reader can serve -/

/-- A value that some bits lead to. -/
def Prim.Seen (q : Prim) (a : q.Out) : Prop := ∃ bs rest, q.run bs = some (a, rest)

/-- An access out of bounds while a code or a histogram is read. -/
def Prim.lost : (q : Prim) → q.Out → Bool
  | .code _, a => a.isNone
  | .hist, a => a.isNone
  | _, _ => false

theorem Prim.not_lost {q : Prim} {a : q.Out} (h : q.Seen a) : q.lost a = false := by
  obtain ⟨bs, rest, h⟩ := h
  cases q with
  | bits n => rfl
  | sym m => rfl
  | code n =>
    obtain ⟨⟨m, e, _⟩, _⟩ := (readCode_takes n).res _ _ _ h
    rw [e]; rfl
  | hist =>
    obtain ⟨⟨m, e, _⟩, _⟩ := readHistogram_takes.res _ _ _ h
    rw [e]; rfl

/-- All reads of the program can be served, whatever was read before. -/
def BP.Fit {α : Type} (post : α → Prop) : BP α → Prop
  | .ret a => post a
  | .fail => True
  | .need _ k => BP.Fit post k
  | .prim q k => q.Sound ∧ ∀ a, q.Seen a → BP.Fit post (k a)

/-- The program only reads numbers of bits. -/
def BP.Narrow {α : Type} (post : α → Prop) : BP α → Prop
  | .ret a => post a
  | .fail => True
  | .need _ k => BP.Narrow post k
  | .prim (.bits n) k => n ≤ 24 ∧ ∀ a : Nat, a < 2 ^ n → BP.Narrow post (k a)
  | .prim _ _ => False

theorem BP.Fit.bind {α β : Type} {p1 : α → Prop} {p2 : β → Prop} {f : α → BP β} (hf : ∀ a, p1 a → Fit p2 (f a)) :
    ∀ {p : BP α}, Fit p1 p → Fit p2 (BP.bind p f)
  | ret a, h => hf a h
  | fail, _ => trivial
  | need _ k, h => Fit.bind hf (p := k) h
  | prim _ _, h => ⟨h.1, fun a ha => Fit.bind hf (h.2 a ha)⟩

theorem BP.Narrow.bind {α β : Type} {p1 : α → Prop} {p2 : β → Prop} {f : α → BP β} (hf : ∀ a, p1 a → Narrow p2 (f a)) :
    ∀ {p : BP α}, Narrow p1 p → Narrow p2 (BP.bind p f)
  | ret a, h => hf a h
  | fail, _ => trivial
  | need _ k, h => Narrow.bind hf (p := k) h
  | prim (.bits _) _, h => ⟨h.1, fun a ha => Narrow.bind hf (h.2 a ha)⟩
  | prim (.code _) _, h => h.elim
  | prim (.sym _) _, h => h.elim
  | prim .hist _, h => h.elim

theorem BP.Narrow.fit {α : Type} {post : α → Prop} : ∀ {p : BP α}, Narrow post p → Fit post p
  | ret _, h => h
  | fail, _ => trivial
  | need _ k, h => Narrow.fit (p := k) h
  | prim (.bits _) _, h => ⟨h.1, fun a ha => by
      obtain ⟨bs, rest, ha⟩ := ha
      exact Narrow.fit (h.2 a (readBits_lt ha))⟩
  | prim (.code _) _, h => h.elim
  | prim (.sym _) _, h => h.elim
  | prim .hist _, h => h.elim

/-! ## One call -/

/-- What running up to the next failing test gives. -/
inductive MOut (α : Type) where
  | done (a : α) (r : BR)
  | wait (p : BP α) (r : BR)
  | bad (r : BR)
  | ub

/-- Run on the reader until a test fails; `opt` is `is_optimistic_` (`BrunsliBitReaderCanRead`, c/dec/bit_reader.cc:78-84). -/
def BP.mexec {α : Type} (opt : Bool) (chunk : List Nat) : BP α → BR → MOut α
  | .ret a, r => .done a r
  | .fail, r => .bad r
  | .need n k, r => if opt = true ∨ r.canRead chunk n = true then mexec opt chunk k r else .wait (.need n k) r
  | .prim q k, r =>
    match q.client.mrun chunk r with
    | .ok a r => if q.lost a = true then .ub else mexec opt chunk (k a) r
    | .fail r => .bad r
    | .ub => .ub

/-- How a call of the decoder of a section ends: `n` bytes consumed. -/
inductive COut (α : Type) where
  | done (a : α) (n : Nat)
  | wait (p : BP α) (r : BR) (n : Nat)
  | bad
  | ub

/-- One call of the decoder of a section made of bits, with `rem` bytes of the section left and `w` at hand: `PrepareBitReader`, the
program, `SuspendBitReader` with `CheckBoundary`, and at the end of the program `BrunsliBitReaderFinish` and
`BrunsliBitReaderIsHealthy` (c/dec/brunsli_decode.cc:1374-1407, 1570-1577, 1789-1793, 1798-1822, 1919-1922).  `opt`: the section is
parsed optimistically when its end is in view (c/dec/brunsli_decode.cc:1814-1818).  The assertions that the reader is healthy after
`PrepareBitReader` and when the call waits for more are taken as undefined behaviour if they fail. -/
def BP.call {α : Type} (opt : Bool) (p : BP α) (r : BR) (rem : Nat) (w : List Nat) : COut α :=
  let chunk := w.take rem
  -- BrunsliBitReaderResume
  match BR.unloadC { r with next := 0 } with
  | none => .ub
  | some r =>
    if ¬(r.debt = 0 ∧ r.healthy = true) then .ub
    else
      match p.mexec (opt && decide (rem ≤ w.length)) chunk r with
      | .ub => .ub
      | .bad r =>
        match r.unloadC with
        | none => .ub
        | some _ => .bad
      | .wait p r =>
        match r.unloadC with
        | none => .ub
        | some r =>
          let n := chunk.length - (chunk.length - r.next)
          if rem - n ≤ w.length - n then .bad
          else if ¬(r.debt = 0 ∧ r.healthy = true) then .ub
          else .wait p r n
      | .done a r =>
        match r.unloadC with
        | none => .ub
        | some r => if (r.finish []).isHealthy = true then .done a (chunk.length - (chunk.length - r.next)) else .bad

/-! ## Running -/

variable {α : Type} {hist chunk : List Nat}

/-- One read. -/
theorem Prim.ran (hb : Bytes (hist ++ chunk)) {q : Prim} (hq : q.Sound) {r : BR} {pos : Nat} (ha : BR.At hist chunk r pos) :
    match q.client.mrun chunk r with
    | .ok a r' => ∃ c, BR.At hist chunk r' (pos + c) ∧ q.Seen a ∧ (pos ≤ 8 * (hist ++ chunk).length →
        q.run ((bytesBits (hist ++ chunk)).drop pos) =
          if pos + c ≤ 8 * (hist ++ chunk).length then some (a, (bytesBits (hist ++ chunk)).drop (pos + c)) else none)
    | .fail r' => (∃ p, BR.At hist chunk r' p) ∧ (pos ≤ 8 * (hist ++ chunk).length → q.run ((bytesBits (hist ++ chunk)).drop pos) = none)
    | .ub => False := by
  have hm := Prim.client_meets hq
  have := BC.mrun_spec hb q.client r pos 0 ha (hm.safe _) (Nat.zero_le _)
  have hl : ((bytesBits (hist ++ chunk)).drop pos).length = 8 * (hist ++ chunk).length - pos := by
    rw [List.length_drop, bytesBits_length]
  cases hr : q.client.mrun chunk r with
  | ok a r' =>
    rw [hr] at this
    obtain ⟨c, h1, h2⟩ := this
    refine ⟨c, h2, ?_, fun hp => ?_⟩
    · obtain ⟨rest, h3⟩ := BC.sem_of_count h1
      exact ⟨_, rest, by rw [← hm.sem]; exact h3⟩
    · rw [← hm.sem]
      unfold BC.sem
      rw [h1]
      simp only [hl, List.drop_drop]
      by_cases hc : pos + c ≤ 8 * (hist ++ chunk).length
      · rw [if_pos hc, if_pos (by omega)]
      · rw [if_neg hc, if_neg (by omega)]
  | fail r' =>
    rw [hr] at this
    obtain ⟨h1, h2⟩ := this
    refine ⟨h1, fun hp => ?_⟩
    rw [← hm.sem]
    unfold BC.sem
    cases hc : q.client.count ((bytesBits (hist ++ chunk)).drop pos) with
    | none => rfl
    | some y =>
      have := h2 y.1 y.2 hc
      simp only [hl]
      rw [if_neg (by omega)]
  | ub => rw [hr] at this; exact this

/-- With the end of the section in view and without tests. -/
theorem BP.mexec_opt {post : α → Prop} (hb : Bytes (hist ++ chunk)) (p : BP α) : ∀ (r : BR) (pos : Nat), BR.At hist chunk r pos → p.Fit post →
    match p.mexec true chunk r with
    | .done a r' => ∃ pos', pos ≤ pos' ∧ BR.At hist chunk r' pos' ∧ (pos ≤ 8 * (hist ++ chunk).length →
        p.run true ((bytesBits (hist ++ chunk)).drop pos) =
          if pos' ≤ 8 * (hist ++ chunk).length then some (a, (bytesBits (hist ++ chunk)).drop pos') else none)
    | .bad r' => (∃ q, BR.At hist chunk r' q) ∧ (pos ≤ 8 * (hist ++ chunk).length → p.run true ((bytesBits (hist ++ chunk)).drop pos) = none)
    | .wait _ _ => False
    | .ub => False := by
  induction p with
  | ret a => intro r pos ha _; exact ⟨pos, Nat.le_refl _, ha, fun hp => by rw [if_pos hp]; rfl⟩
  | fail => intro r pos ha _; exact ⟨⟨pos, ha⟩, fun _ => rfl⟩
  | need n k ih =>
    intro r pos ha hf
    have := ih r pos ha hf
    simp only [mexec, run, true_or, if_true]
    exact this
  | prim q k ih =>
    intro r pos ha hf
    have hq := Prim.ran hb hf.1 ha
    simp only [mexec, run]
    cases hr : q.client.mrun chunk r with
    | ub => rw [hr] at hq; exact hq
    | fail r' =>
      rw [hr] at hq
      exact ⟨hq.1, fun hp => by rw [hq.2 hp]⟩
    | ok a r' =>
      rw [hr] at hq
      obtain ⟨c, h1, h2, h3⟩ := hq
      simp only
      rw [if_neg (by rw [Prim.not_lost h2]; simp)]
      have := ih a r' (pos + c) h1 (hf.2 a h2)
      cases hk : (k a).mexec true chunk r' with
      | ub => rw [hk] at this; exact this
      | wait _ _ => rw [hk] at this; exact this
      | bad r2 =>
        rw [hk] at this
        refine ⟨this.1, fun hp => ?_⟩
        rw [h3 hp]
        by_cases hc : pos + c ≤ 8 * (hist ++ chunk).length
        · rw [if_pos hc]; exact this.2 hc
        · rw [if_neg hc]
      | done b r2 =>
        rw [hk] at this
        obtain ⟨pos', g1, g2, g3⟩ := this
        refine ⟨pos', by omega, g2, fun hp => ?_⟩
        rw [h3 hp]
        by_cases hc : pos + c ≤ 8 * (hist ++ chunk).length
        · rw [if_pos hc]; exact g3 hc
        · rw [if_neg hc, if_neg (by omega)]

theorem BR.At.fill_debt {r : BR} {pos n : Nat} (ha : BR.At hist chunk r pos) (hb : Bytes (hist ++ chunk)) (hn : n ≤ 24) (hd : r.debt = 0)
    (hp : pos + n ≤ 8 * (hist ++ chunk).length) : (r.fill chunk n).debt = 0 := by
  have key : ∀ r : BR, BR.At hist chunk r pos → r.debt = 0 → (r.fetch chunk n).debt = 0 ∧ BR.At hist chunk (r.fetch chunk n) pos := by
    intro r ha hd
    obtain ⟨i1, i2, _⟩ := BR.fetch_inv hb ha.inv hn
    rw [BR.fetch_shift] at i1 i2
    refine ⟨?_, ⟨i1, ha.start, i2.trans ha.healthy⟩⟩
    obtain ⟨⟨h1, h2, h3, h4⟩, _, _⟩ := ha
    simp only [BR.shift] at h1 h2
    rw [List.length_append] at h2 hp
    unfold BR.fetch
    split
    · rw [List.getElem?_eq_getElem (by omega)]; exact hd
    · exact hd
  have a1 := key r ha hd
  have a2 := key _ a1.2 a1.1
  have a3 := key _ a2.2 a2.1
  unfold BR.fill
  simp only
  split
  · split
    · exact a3.1
    · exact a2.1
  · exact a1.1

/-- With tests, which announce all that is read. -/
theorem BP.mexec_tests {post within : α → Prop} (opt : Bool) (hb : Bytes (hist ++ chunk)) (p : BP α) : ∀ (r : BR) (pos b : Nat), BR.At hist chunk r pos →
    p.Fit post → p.Within within b → pos + b ≤ 8 * (hist ++ chunk).length →
    match p.mexec false chunk r with
    | .done a r' => ∃ pos', pos' ≤ 8 * (hist ++ chunk).length ∧ BR.At hist chunk r' pos' ∧
        ∀ x, p.run opt ((bytesBits (hist ++ chunk)).drop pos ++ x) = some (a, (bytesBits (hist ++ chunk)).drop pos' ++ x)
    | .bad r' => (∃ q, BR.At hist chunk r' q) ∧ ∀ x, p.run opt ((bytesBits (hist ++ chunk)).drop pos ++ x) = none
    | .wait p' r' => ∃ pos', pos' ≤ 8 * (hist ++ chunk).length ∧ BR.At hist chunk r' pos' ∧ p'.Fit post ∧ p'.Within within 0 ∧
        (∀ x, p.run opt ((bytesBits (hist ++ chunk)).drop pos ++ x) = p'.run opt ((bytesBits (hist ++ chunk)).drop pos' ++ x)) ∧
        (p.Narrow post → r.debt = 0 → p'.Narrow post ∧ p'.run false ((bytesBits (hist ++ chunk)).drop pos') = none)
    | .ub => False := by
  have hlen : ∀ pos, ((bytesBits (hist ++ chunk)).drop pos).length = 8 * (hist ++ chunk).length - pos := fun pos => by
    rw [List.length_drop, bytesBits_length]
  induction p with
  | ret a => intro r pos b ha _ _ hp; exact ⟨pos, by omega, ha, fun _ => rfl⟩
  | fail => intro r pos b ha _ _ _; exact ⟨⟨pos, ha⟩, fun _ => rfl⟩
  | need n k ih =>
    intro r pos b ha hf hw hp
    have hcan := ha.canRead (n := n)
    simp only [mexec, Bool.false_eq_true, false_or]
    by_cases hc : r.canRead chunk n = true
    · rw [if_pos hc]
      have hfit := hcan.1 hc
      have hrun : ∀ x, (BP.need n k).run opt ((bytesBits (hist ++ chunk)).drop pos ++ x) = k.run opt ((bytesBits (hist ++ chunk)).drop pos ++ x) := by
        intro x
        simp only [run]
        rw [if_pos (Or.inr (by rw [List.length_append, hlen]; omega))]
      have := ih r pos n ha hf hw.2 hfit
      simp only [hrun]
      cases hk : k.mexec false chunk r with
      | ub => rw [hk] at this; exact this
      | bad r2 => rw [hk] at this; exact this
      | done a r2 => rw [hk] at this; exact this
      | wait p' r2 => rw [hk] at this; exact this
    · rw [if_neg hc]
      refine ⟨pos, by omega, ha, hf, hw, fun _ => rfl, fun hpl hd => ⟨hpl, ?_⟩⟩
      have := hcan.2 hd (by simpa using hc)
      simp only [run, Bool.false_eq_true, false_or]
      rw [if_neg (by rw [hlen]; omega)]
  | prim q k ih =>
    intro r pos b ha hf hw hp
    obtain ⟨ht, hcost, hw⟩ := hw
    have hq := Prim.ran hb hf.1 ha
    have hext : ∀ x, q.run ((bytesBits (hist ++ chunk)).drop pos ++ x) =
        (q.run ((bytesBits (hist ++ chunk)).drop pos)).map fun y => (y.1, y.2 ++ x) := fun x => ht.ext _ x (by rw [hlen]; omega)
    simp only [mexec, run]
    simp only [hext]
    cases hr : q.client.mrun chunk r with
    | ub => rw [hr] at hq; exact hq
    | fail r' =>
      rw [hr] at hq
      refine ⟨hq.1, fun x => ?_⟩
      rw [hq.2 (by omega)]
      rfl
    | ok a r' =>
      rw [hr] at hq
      obtain ⟨c, h1, h2, h3⟩ := hq
      have h3 := h3 (by omega)
      -- nothing is read behind the end
      have hin : pos + c ≤ 8 * (hist ++ chunk).length ∧ c ≤ q.cost := by
        have hm := Prim.client_meets hf.1
        have hran := BC.mrun_spec hb q.client r pos 0 ha (hm.safe _) (Nat.zero_le _)
        rw [hr] at hran
        obtain ⟨c', e1, e2⟩ := hran
        have hcc : pos + c = pos + c' := by
          have i1 := h1.inv.cons
          have i2 := e2.inv.cons
          omega
        have hcc : c = c' := by omega
        subst hcc
        -- with `c` zeros more there is a result, which takes at most `cost` bits
        obtain ⟨rest, hs⟩ := BC.sem_of_count e1
        have hs' := hs
        rw [hm.sem] at hs
        obtain ⟨_, u, hu, hul⟩ := ht.res _ _ _ hs
        have e3 : rest = ((bytesBits (hist ++ chunk)).drop pos ++ List.replicate c false).drop c := by
          obtain ⟨c2, k1, k2, k3⟩ := BC.sem_some hs'
          rw [BC.count_zeros, e1] at k1
          have := (Prod.mk.inj (Option.some.inj k1)).2
          rw [k3, this]
        have e4 := congrArg List.length hu
        rw [e3] at e4
        simp only [List.length_append, List.length_drop, List.length_replicate] at e4
        omega
      rw [if_pos hin.1] at h3
      rw [h3]
      simp only [Option.map_some]
      rw [if_neg (by rw [Prim.not_lost h2]; simp)]
      have hpost := (ht.res _ _ _ h3).1
      have := ih a r' (pos + c) (b - q.cost) h1 (hf.2 a h2) (hw a hpost) (by omega)
      cases hk : (k a).mexec false chunk r' with
      | ub => rw [hk] at this; exact this
      | bad r2 => rw [hk] at this; exact this
      | done a r2 => rw [hk] at this; exact this
      | wait p' r2 =>
        rw [hk] at this
        obtain ⟨pos', g1, g2, g3, g4, g5, g6⟩ := this
        refine ⟨pos', g1, g2, g3, g4, g5, fun hpl hd => ?_⟩
        cases q with
        | bits n =>
          obtain ⟨bs, rest, h2⟩ := h2
          refine g6 (hpl.2 a (readBits_lt h2)) ?_
          have hn : n ≤ 24 := hpl.1
          have hfd := ha.fill_debt (n := n) hb hn hd (by have : Prim.cost (.bits n) = n := rfl; omega)
          simp only [Prim.client, BC.bits, BC.mrun, if_pos hn] at hr
          split at hr
          · cases hr; exact hfd
          · cases hr
        | code n => exact hpl.elim
        | sym m => exact hpl.elim
        | hist => exact hpl.elim

end Brunsli
