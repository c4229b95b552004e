import Verif.Resume
import Verif.BitBytes
import Verif.HuffSafe
import Verif.Histogram
/-!
# Reading bits while the section arrives

The functions reading the sections made of bits suspend where `BrunsliBitReaderCanRead` (c/dec/bit_reader.cc) says that
there are too few bits, and are resumed there.  They are written here as programs whose nodes are those tests and the
reads between them.
-/

namespace Brunsli

open P

/-- What is read between two tests. -/
inductive Prim where
  /-- `BrunsliBitReaderRead` (c/dec/bit_reader.h). -/
  | bits (n : Nat)
  /-- `HuffmanDecodingData::ReadFromBitStream` (c/dec/huffman_decode.cc:189-244). -/
  | code (n : Nat)
  /-- `HuffmanDecodingData::ReadSymbol` (c/dec/huffman_decode.cc:246-261). -/
  | sym (m : Mem)
  /-- `ReadHistogram` (c/dec/histogram_decode.cc:40-104). -/
  | hist

/-- The type of what is read. -/
abbrev Prim.Out : Prim → Type
  | .bits _ => Nat
  | .code _ => Option Mem
  | .sym _ => Nat
  | .hist => Option (List Nat)

/-- Reading it. -/
def Prim.run : (q : Prim) → P Bool q.Out
  | .bits n => readBits n
  | .code n => readCode n
  | .sym m => readHuff m 8
  | .hist => readHistogram

/-- A program reading bits. -/
inductive BP (α : Type) where
  | ret (a : α)
  | fail
  /-- `BrunsliBitReaderCanRead(n)`, and suspension if it fails. -/
  | need (n : Nat) (k : BP α)
  | prim (q : Prim) (k : q.Out → BP α)

namespace BP

/-- Sequencing. -/
def bind {α β : Type} : BP α → (α → BP β) → BP β
  | ret a, f => f a
  | fail, _ => fail
  | need n k, f => need n (bind k f)
  | prim q k, f => prim q fun a => bind (k a) f

/-- Run up to the next test or the end. -/
def exec {α : Type} : BP α → List Bool → Option (BP α × List Bool)
  | ret a, bs => some (ret a, bs)
  | fail, _ => none
  | need n k, bs => some (need n k, bs)
  | prim q k, bs =>
    match q.run bs with
    | none => none
    | some (a, bs) => exec (k a) bs

/-- Run to the end with all the bits of the section at hand.  When `opt`, the tests are not made (`is_optimistic_`,
c/dec/bit_reader.h). -/
def run {α : Type} (opt : Bool) : BP α → P Bool α
  | ret a, bs => some (a, bs)
  | fail, _ => none
  | need n k, bs => if opt = true ∨ n ≤ bs.length then run opt k bs else none
  | prim q k, bs =>
    match q.run bs with
    | none => none
    | some (a, bs) => run opt (k a) bs

theorem run_bind {α β : Type} (opt : Bool) (p : BP α) (f : α → BP β) : run opt (bind p f) = (run opt p >>= fun a => run opt (f a)) := by
  funext bs
  induction p generalizing bs with
  | ret a => rfl
  | fail => rfl
  | need n k ih =>
    rw [bind_apply]
    simp only [bind, run]
    split
    · rw [ih, bind_apply]
    · rfl
  | prim q k ih =>
    simp only [bind, run, bind_apply]
    cases q.run bs with
    | none => rfl
    | some r => simp only; rw [ih]; rfl

theorem run_exec {α : Type} (opt : Bool) (p : BP α) (bs : List Bool) :
    run opt p bs = match exec p bs with
      | none => none
      | some (p', bs') => run opt p' bs' := by
  induction p generalizing bs with
  | ret a => rfl
  | fail => rfl
  | need n k ih => rfl
  | prim q k ih =>
    simp only [run, exec]
    cases q.run bs with
    | none => rfl
    | some r => exact ih _ _

end BP

/-! ## How much a reader takes -/

/-- A reader that takes at most `c` bits, whose outcome depends on those only, and whose results satisfy `post`. -/
structure Takes {α : Type} (c : Nat) (r : P Bool α) (post : α → Prop) : Prop where
  ext : ∀ bs x, c ≤ bs.length → r (bs ++ x) = (r bs).map fun y => (y.1, y.2 ++ x)
  res : ∀ bs a rest, r bs = some (a, rest) → post a ∧ ∃ u, bs = u ++ rest ∧ u.length ≤ c

namespace Takes

theorem mono {α : Type} {c c' : Nat} {r : P Bool α} {p p' : α → Prop} (h : Takes c r p) (hc : c ≤ c') (hp : ∀ a, p a → p' a) : Takes c' r p' where
  ext bs x hl := h.ext bs x (Nat.le_trans hc hl)
  res bs a rest hr := by
    obtain ⟨h1, u, h2, h3⟩ := h.res bs a rest hr
    exact ⟨hp a h1, u, h2, Nat.le_trans h3 hc⟩

theorem pure {α : Type} {a : α} {p : α → Prop} (h : p a) : Takes 0 (Pure.pure a : P Bool α) p where
  ext bs x _ := rfl
  res bs b rest hr := by
    obtain ⟨rfl, rfl⟩ := pure_some hr
    exact ⟨h, [], rfl, Nat.le_refl _⟩

theorem fail {α : Type} {p : α → Prop} : Takes 0 (P.fail : P Bool α) p where
  ext bs x _ := rfl
  res bs b rest hr := by cases hr

theorem bind {α β : Type} {c d : Nat} {r : P Bool α} {f : α → P Bool β} {p : α → Prop} {q : β → Prop} (hr : Takes c r p)
    (hf : ∀ a, p a → Takes d (f a) q) : Takes (c + d) (r >>= f) q where
  ext bs x hl := by
    rw [bind_apply, bind_apply, hr.ext bs x (by omega)]
    cases h : r bs with
    | none => rfl
    | some y =>
      obtain ⟨a, rest⟩ := y
      obtain ⟨h1, u, h2, h3⟩ := hr.res bs a rest h
      have : bs.length = u.length + rest.length := by rw [h2, List.length_append]
      exact (hf a h1).ext rest x (by omega)
  res bs b rest h := by
    obtain ⟨a, mid, h1, h2⟩ := bind_some h
    obtain ⟨pa, u, e1, l1⟩ := hr.res _ _ _ h1
    obtain ⟨qb, v, e2, l2⟩ := (hf a pa).res _ _ _ h2
    exact ⟨qb, u ++ v, by rw [e1, e2, List.append_assoc], by rw [List.length_append]; omega⟩

theorem bits (n : Nat) : Takes n (readBits n) (fun v => v < 2 ^ n) where
  ext bs x hl := by
    unfold readBits
    rw [if_pos (by rw [List.length_append]; omega), if_pos hl, List.take_append_of_le_length hl, List.drop_append_of_le_length hl]
    rfl
  res bs a rest h := by
    refine ⟨readBits_lt h, ?_⟩
    unfold readBits at h
    split at h
    · cases h
      exact ⟨bs.take n, (List.take_append_drop n bs).symm, by rw [List.length_take]; omega⟩
    · cases h

theorem guard {c : Prop} [Decidable c] : Takes 0 (P.guard c : P Bool Unit) (fun _ => c) where
  ext bs x _ := by rw [guard_apply, guard_apply]; split <;> rfl
  res bs a rest h := by
    rw [guard_apply] at h
    split at h
    · cases h; exact ⟨by assumption, [], rfl, Nat.le_refl _⟩
    · cases h

theorem seqGuard {β : Type} {c : Prop} [Decidable c] {d : Nat} {r : P Bool β} {q : β → Prop} (h : c → Takes d r q) :
    Takes d (P.guard c >>= fun _ => r) q := by
  have := bind (f := fun _ => r) (guard (c := c)) (fun _ hc => h hc)
  rwa [Nat.zero_add] at this

theorem ite {α : Type} {c : Prop} [Decidable c] {n : Nat} {r s : P Bool α} {q : α → Prop} (h1 : c → Takes n r q)
    (h2 : ¬c → Takes n s q) : Takes n (if c then r else s) q := by
  split
  · exact h1 (by assumption)
  · exact h2 (by assumption)

theorem replicate {α : Type} {c : Nat} {r : P Bool α} {p : α → Prop} (h : Takes c r p) : ∀ n : Nat,
    Takes (n * c) (P.replicate n r) (fun l => l.length = n ∧ ∀ a ∈ l, p a)
  | 0 => by
    rw [Nat.zero_mul]
    exact Takes.pure (a := ([] : List α)) ⟨rfl, by simp⟩
  | n + 1 => by
    refine (bind (f := fun a => P.replicate n r >>= fun as => Pure.pure (a :: as)) (c := c) (d := n * c) h fun a ha => ?_).mono (by rw [Nat.succ_mul]; omega) fun _ h => h
    refine (bind (c := n * c) (d := 0) (replicate h n) fun l hl => ?_).mono (by omega) fun _ h => h
    exact Takes.pure ⟨by simp [hl.1], by simpa using ⟨ha, hl.2⟩⟩

end Takes

/-- The number of bits announced for each read. -/
def Prim.cost : Prim → Nat
  | .bits n => n
  | .code n => 74 + 8 * n
  | .sym _ => 15
  | .hist => 9 + 18 * 11

/-- What holds of the values read. -/
def Prim.post : (q : Prim) → q.Out → Prop
  | .bits n, v => v < 2 ^ n
  | .code n, r => ∃ m, r = some m ∧ Total m 8 n
  | .sym m, v => ∀ n, Total m 8 n → v < n
  | .hist, r => ∃ h, r = some h ∧ h.length = 18 ∧ h.sum = 1024

/-- Programs that respect their tests: what is read between two tests fits into what the first has asked for. -/
def BP.Within {α : Type} (post : α → Prop) : BP α → Nat → Prop
  | .ret a, _ => post a
  | .fail, _ => True
  | .need n k, _ => n ≤ 4700 ∧ BP.Within post k n
  | .prim q k, b => Takes q.cost q.run q.post ∧ q.cost ≤ b ∧ ∀ a, q.post a → BP.Within post (k a) (b - q.cost)

namespace BP

/-- Suspended or finished. -/
def Stops {α : Type} : BP α → Prop
  | prim _ _ => False
  | _ => True

theorem Within.mono {α : Type} {post : α → Prop} : ∀ {p : BP α} {b b' : Nat}, Within post p b → b ≤ b' → Within post p b'
  | ret _, _, _, h, _ => h
  | fail, _, _, _, _ => trivial
  | need _ _, _, _, h, _ => h
  | prim _ _, _, _, h, hb => ⟨h.1, Nat.le_trans h.2.1 hb, fun a ha => (h.2.2 a ha).mono (Nat.sub_le_sub_right hb _)⟩

theorem Within.bind {α β : Type} {p1 : α → Prop} {p2 : β → Prop} {f : α → BP β} (hf : ∀ a, p1 a → Within p2 (f a) 0) :
    ∀ {p : BP α} {b : Nat}, Within p1 p b → Within p2 (BP.bind p f) b
  | ret a, _, h => (hf a h).mono (Nat.zero_le _)
  | fail, _, _ => trivial
  | need _ _, _, h => ⟨h.1, Within.bind hf h.2⟩
  | prim _ _, _, h => ⟨h.1, h.2.1, fun a ha => Within.bind hf (h.2.2 a ha)⟩

theorem exec_stops {α : Type} (p : BP α) : ∀ {bs : List Bool} {p' : BP α} {bs' : List Bool}, exec p bs = some (p', bs') → Stops p' := by
  induction p with
  | ret a => intro bs p' bs' h; cases h; trivial
  | fail => intro bs p' bs' h; cases h
  | need n k ih => intro bs p' bs' h; cases h; trivial
  | prim q k ih =>
    intro bs p' bs' h
    simp only [exec] at h
    split at h
    · cases h
    · exact ih _ h

/-- What is left is the end of what there was, and the residual program respects its tests. -/
theorem exec_res {α : Type} {post : α → Prop} (p : BP α) : ∀ {b : Nat} {bs : List Bool} {p' : BP α} {bs' : List Bool}, Within post p b →
    exec p bs = some (p', bs') → Within post p' 0 ∧ ∃ u, bs = u ++ bs' := by
  induction p with
  | ret a => intro b bs p' bs' hw h; cases h; exact ⟨hw, [], rfl⟩
  | fail => intro b bs p' bs' hw h; cases h
  | need n k ih => intro b bs p' bs' hw h; cases h; exact ⟨hw, [], rfl⟩
  | prim q k ih =>
    intro b bs p' bs' hw h
    simp only [exec] at h
    split at h
    · cases h
    · rename_i a mid hq
      obtain ⟨pa, u, e, _⟩ := hw.1.res _ _ _ hq
      obtain ⟨h1, v, e'⟩ := ih a (hw.2.2 a pa) h
      exact ⟨h1, u ++ v, by rw [e, e', List.append_assoc]⟩

/-- With enough bits the bits that follow do not matter. -/
theorem exec_ext {α : Type} {post : α → Prop} (p : BP α) : ∀ {b : Nat} {bs : List Bool} (x : List Bool), Within post p b → b ≤ bs.length →
    exec p (bs ++ x) = (exec p bs).map fun y => (y.1, y.2 ++ x) := by
  induction p with
  | ret a => intro b bs x hw hl; rfl
  | fail => intro b bs x hw hl; rfl
  | need n k ih => intro b bs x hw hl; rfl
  | prim q k ih =>
    intro b bs x hw hl
    simp only [exec]
    rw [hw.1.ext bs x (by have := hw.2.1; omega)]
    cases hq : q.run bs with
    | none => rfl
    | some y =>
      obtain ⟨a, rest⟩ := y
      obtain ⟨pa, u, e, l⟩ := hw.1.res _ _ _ hq
      have : bs.length = u.length + rest.length := by rw [e, List.length_append]
      have hl2 : b - q.cost ≤ rest.length := by omega
      exact ih a x (hw.2.2 a pa) hl2

end BP

/-! ## The reader of a section made of bits -/

/-- A step: from one test to the next.  The state consists of the unread bits of the last byte taken and the program at
a test; a test that fails at the end of the section rejects the file (`CheckBoundary`, c/dec/brunsli_decode.cc).
When `opt`, tests are not made once the end of the section is in view (c/dec/brunsli_decode.cc:1814-1818). -/
def bitBody {α : Type} (opt : Bool) : Body (List Bool × BP α) α := fun t rem w =>
  match t.2 with
  | .ret a => if t.1.any id then .bad else .done a 0
  | .need n k =>
    if n ≤ t.1.length + 8 * (w.take rem).length ∨ (opt = true ∧ rem ≤ w.length) then
      match k.exec (t.1 ++ bytesBits (w.take rem)) with
      | none => .bad
      | some (p, bs) => .more (bs.take (bs.length % 8), p) ((w.take rem).length - bs.length / 8)
    else if rem ≤ w.length then .bad
    else .wait t 0
  | _ => .bad

/-- The remainder of a byte, which has to be zero, and the bytes that follow (`BrunsliBitReaderFinish`). -/
def finishSem {α : Type} (payload : List Nat) : Option (α × List Bool) → Option (α × List Nat)
  | none => none
  | some (a, r) => if (r.take (r.length % 8)).any id then none else some (a, payload.drop (payload.length - r.length / 8))

/-- What is read from the whole rest of the section. -/
def bitSem {α : Type} (opt : Bool) (t : List Bool × BP α) (payload : List Nat) : Option (α × List Nat) :=
  finishSem payload (t.2.run opt (t.1 ++ bytesBits payload))

/-- States at a test, respecting it. -/
def bitInv {α : Type} (post : α → Prop) (t : List Bool × BP α) (_ : Nat) : Prop :=
  t.1.length < 8 ∧ t.2.Stops ∧ t.2.Within post 0

theorem bytesBits_drop (B : List Nat) (j : Nat) : bytesBits (B.drop j) = (bytesBits B).drop (8 * j) := by
  induction B generalizing j with
  | nil => simp [bytesBits]
  | cons b B ih =>
    cases j with
    | zero => rfl
    | succ j =>
      rw [List.drop_succ_cons, ih, show b :: B = [b] ++ B from rfl, bytesBits_append, List.drop_append]
      have : (bytesBits [b]).length = 8 := by rw [bytesBits_length]; rfl
      rw [this, show 8 * (j + 1) - 8 = 8 * j by omega, List.drop_eq_nil_of_le (as := bytesBits [b]) (by omega), List.nil_append]

/-- Bits left over are those of the last byte taken and those of the bytes not taken. -/
theorem bits_split {acc u bs : List Bool} {B : List Nat} (hacc : acc.length < 8) (h : acc ++ bytesBits B = u ++ bs) :
    bs.take (bs.length % 8) ++ bytesBits (B.drop (B.length - bs.length / 8)) = bs ∧ bs.length / 8 ≤ B.length := by
  have hl : acc.length + 8 * B.length = u.length + bs.length := by
    have := congrArg List.length h
    simpa only [List.length_append, bytesBits_length] using this
  have hq : bs.length / 8 ≤ B.length := by omega
  refine ⟨?_, hq⟩
  have e : bytesBits (B.drop (B.length - bs.length / 8)) = bs.drop (bs.length % 8) := by
    rw [bytesBits_drop]
    have h1 : bs = (acc ++ bytesBits B).drop u.length := by rw [h, List.drop_left]
    have h2 : bs.drop (bs.length % 8) = (acc ++ bytesBits B).drop (u.length + bs.length % 8) := by
      rw [← List.drop_drop, ← h1]
    rw [h2, show u.length + bs.length % 8 = acc.length + 8 * (B.length - bs.length / 8) by omega, ← List.drop_drop, List.drop_left]
  rw [e, List.take_append_drop]

theorem bitBody_fits {α : Type} {opt : Bool} {post : α → Prop} (t : List Bool × BP α) (rem : Nat) (w : List Nat) (hi : bitInv post t rem) :
    Fits (bitBody opt) (bitInv post) post t rem w (bitBody opt t rem w) := by
  obtain ⟨acc, p⟩ := t
  obtain ⟨h1, h2, h3⟩ := hi
  simp only at h1 h2 h3
  cases p with
  | ret a =>
    simp only [bitBody]
    split
    · intro x; simp only [bitBody]; rw [if_pos (by assumption)]
    · exact ⟨Nat.zero_le _, Nat.zero_le _, h3, fun x => by simp only [bitBody]; rw [if_neg (by assumption)]⟩
  | fail => exact fun x => rfl
  | prim q k => exact h2.elim
  | need n k =>
    have hn := h3.1
    have hk : BP.Within post k n := h3.2
    simp only [bitBody]
    by_cases hlast : rem ≤ w.length
    · -- the end of the section is in view
      have hx : ∀ x, (w ++ x).take rem = w.take rem := fun x => take_append_ge x hlast
      have hx2 : ∀ x : List Nat, rem ≤ (w ++ x).length := fun x => by rw [List.length_append]; omega
      by_cases hc : n ≤ acc.length + 8 * (w.take rem).length ∨ (opt = true ∧ rem ≤ w.length)
      · rw [if_pos hc]
        have hcx : ∀ x : List Nat, n ≤ acc.length + 8 * ((w ++ x).take rem).length ∨ (opt = true ∧ rem ≤ (w ++ x).length) := fun x => by
          rw [hx]; exact hc.imp id fun h => ⟨h.1, hx2 x⟩
        cases he : k.exec (acc ++ bytesBits (w.take rem)) with
        | none => intro x; simp only [bitBody]; rw [if_pos (hcx x), hx, he]
        | some y =>
          obtain ⟨p', bs'⟩ := y
          obtain ⟨hw', u, e⟩ := BP.exec_res k hk he
          refine ⟨?_, ?_, ⟨?_, BP.exec_stops k he, hw'⟩, ?_⟩
          · rw [List.length_take]; omega
          · rw [List.length_take]; omega
          · simp only [List.length_take]; omega
          · intro x; simp only [bitBody]; rw [if_pos (hcx x), hx, he]
      · rw [if_neg hc, if_pos hlast]
        intro x
        simp only [bitBody]
        have hcx : ¬(n ≤ acc.length + 8 * ((w ++ x).take rem).length ∨ (opt = true ∧ rem ≤ (w ++ x).length)) := fun h => by
          rw [hx] at h; exact hc (h.imp id fun h => ⟨h.1, hlast⟩)
        rw [if_neg hcx, if_pos (hx2 x)]
    · have htake : w.take rem = w := List.take_of_length_le (by omega)
      by_cases hc : n ≤ acc.length + 8 * (w.take rem).length
      · rw [if_pos (Or.inl hc)]
        rw [htake] at hc ⊢
        have hext : ∀ x, ∃ y, (w ++ x).take rem = w ++ y := fun x => ⟨x.take (rem - w.length), by
          rw [List.take_append]; rw [List.take_of_length_le (by omega)]⟩
        have hbits : n ≤ (acc ++ bytesBits w).length := by rw [List.length_append, bytesBits_length]; exact hc
        cases he : k.exec (acc ++ bytesBits w) with
        | none =>
          intro x
          simp only [bitBody]
          obtain ⟨y, hy⟩ := hext x
          rw [if_pos (Or.inl (by rw [hy, List.length_append]; omega)), hy, bytesBits_append, ← List.append_assoc,
            BP.exec_ext k _ hk hbits, he]
          rfl
        | some z =>
          obtain ⟨p', bs'⟩ := z
          obtain ⟨hw', u, e⟩ := BP.exec_res k hk he
          refine ⟨?_, ?_, ⟨?_, BP.exec_stops k he, hw'⟩, ?_⟩
          · omega
          · omega
          · simp only [List.length_take]; omega
          · intro x
            simp only [bitBody]
            obtain ⟨y, hy⟩ := hext x
            rw [if_pos (Or.inl (by rw [hy, List.length_append]; omega)), hy, bytesBits_append, ← List.append_assoc,
              BP.exec_ext k _ hk hbits, he]
            simp only [Option.map_some]
            obtain ⟨_, hq⟩ := bits_split h1 e
            have e1 : (bs' ++ bytesBits y).length = bs'.length + 8 * y.length := by rw [List.length_append, bytesBits_length]
            have e2 : (bs' ++ bytesBits y).length % 8 = bs'.length % 8 := by omega
            have e3 : (bs' ++ bytesBits y).length / 8 = bs'.length / 8 + y.length := by omega
            rw [e2, e3, List.take_append_of_le_length (Nat.mod_le _ _), List.length_append,
              show w.length + y.length - (bs'.length / 8 + y.length) = w.length - bs'.length / 8 by omega]
      · have hc' : ¬(n ≤ acc.length + 8 * (w.take rem).length ∨ (opt = true ∧ rem ≤ w.length)) := fun h => h.elim hc fun h => hlast h.2
        rw [if_neg hc', if_neg hlast]
        rw [htake] at hc
        refine ⟨Nat.zero_le _, Nat.zero_le _, ⟨h1, h2, h3⟩, ?_, ?_⟩
        · omega
        · intro x; rw [BOut.shift_zero]; rfl

theorem finishSem_drop {α : Type} {B : List Nat} {bs u : List Bool} {acc : List Bool} (hacc : acc.length < 8) (h : acc ++ bytesBits B = u ++ bs)
    {p : BP α} {opt : Bool} (hs : ∀ a r, p.run opt bs = some (a, r) → ∃ v, bs = v ++ r) :
    finishSem B (p.run opt bs) = finishSem (B.drop (B.length - bs.length / 8)) (p.run opt bs) := by
  cases hr : p.run opt bs with
  | none => rfl
  | some y =>
    obtain ⟨a, r⟩ := y
    obtain ⟨v, hv⟩ := hs a r hr
    obtain ⟨_, hq⟩ := bits_split hacc h
    have hl : bs.length = v.length + r.length := by rw [hv, List.length_append]
    simp only [finishSem, List.length_drop, List.drop_drop]
    rw [show B.length - bs.length / 8 + (B.length - (B.length - bs.length / 8) - r.length / 8) = B.length - r.length / 8 by omega]

theorem BP.run_suffix {α : Type} {post : α → Prop} {opt : Bool} (p : BP α) : ∀ {b : Nat} {bs : List Bool} {a : α} {r : List Bool},
    p.Within post b → p.run opt bs = some (a, r) → ∃ v, bs = v ++ r := by
  induction p with
  | ret a => intro b bs a' r hw h; cases h; exact ⟨[], rfl⟩
  | fail => intro b bs a' r hw h; cases h
  | need n k ih =>
    intro b bs a' r hw h
    simp only [run] at h
    split at h
    · exact ih hw.2 h
    · cases h
  | prim q k ih =>
    intro b bs a' r hw h
    simp only [run] at h
    split at h
    · cases h
    · rename_i a mid hq
      obtain ⟨pa, u, e, _⟩ := hw.1.res _ _ _ hq
      obtain ⟨v, e'⟩ := ih a (hw.2.2 a pa) h
      exact ⟨u ++ v, by rw [e, e', List.append_assoc]⟩

theorem bitBody_total {α : Type} {opt : Bool} {post : α → Prop} (p : BP α) :
    (∀ acc rem w, bitInv post (acc, p) rem → rem ≤ w.length → Verdict (bitBody opt) (acc, p) rem w (bitSem opt (acc, p) (w.take rem))) ∧
    ∀ bs p' bs', p.exec bs = some (p', bs') → ∀ acc rem w, bitInv post (acc, p') rem → rem ≤ w.length →
      Verdict (bitBody opt) (acc, p') rem w (bitSem opt (acc, p') (w.take rem)) := by
  induction p with
  | ret a =>
    have h : ∀ acc rem w, bitInv post (acc, .ret a) rem → rem ≤ w.length →
        Verdict (bitBody opt) (acc, .ret a) rem w (bitSem opt (acc, .ret a) (w.take rem)) := by
      intro acc rem w hi hr
      have hacc := hi.1
      simp only at hacc
      have hl : (acc ++ bytesBits (w.take rem)).length = acc.length + 8 * (w.take rem).length := by
        rw [List.length_append, bytesBits_length]
      simp only [bitSem, BP.run, finishSem]
      rw [show (acc ++ bytesBits (w.take rem)).length % 8 = acc.length by omega, List.take_left,
        show (w.take rem).length - (acc ++ bytesBits (w.take rem)).length / 8 = 0 by omega]
      by_cases hz : acc.any id = true
      · rw [if_pos hz]; exact .bad (by simp only [bitBody]; rw [if_pos hz])
      · rw [if_neg hz]; exact .done (by simp only [bitBody]; rw [if_neg hz])
    exact ⟨h, fun bs p' bs' he => by cases he; exact h⟩
  | fail => exact ⟨fun acc rem w _ _ => .bad rfl, fun bs p' bs' he => by cases he⟩
  | need n k ih =>
    have h : ∀ acc rem w, bitInv post (acc, .need n k) rem → rem ≤ w.length →
        Verdict (bitBody opt) (acc, .need n k) rem w (bitSem opt (acc, .need n k) (w.take rem)) := by
      intro acc rem w hi hr
      obtain ⟨hacc, _, hw⟩ := hi
      simp only at hacc
      have hwk : BP.Within post k n := hw.2
      have hl : (acc ++ bytesBits (w.take rem)).length = acc.length + 8 * (w.take rem).length := by
        rw [List.length_append, bytesBits_length]
      simp only [bitSem, BP.run]
      by_cases hc : opt = true ∨ n ≤ (acc ++ bytesBits (w.take rem)).length
      · rw [if_pos hc]
        have hc' : n ≤ acc.length + 8 * (w.take rem).length ∨ (opt = true ∧ rem ≤ w.length) := by
          rw [hl] at hc; exact hc.elim (fun h => Or.inr ⟨h, hr⟩) Or.inl
        rw [BP.run_exec]
        cases he : k.exec (acc ++ bytesBits (w.take rem)) with
        | none => exact .bad (by simp only [bitBody]; rw [if_pos hc', he])
        | some y =>
          obtain ⟨p', bs'⟩ := y
          obtain ⟨hw', u, e⟩ := BP.exec_res k hwk he
          obtain ⟨hsplit, hq⟩ := bits_split hacc e
          refine .more (t' := (bs'.take (bs'.length % 8), p')) (n := (w.take rem).length - bs'.length / 8) ?_ ?_
          · simp only [bitBody]; rw [if_pos hc', he]
          · have hlen : (w.take rem).length = rem := by rw [List.length_take]; omega
            have := ih.2 _ _ _ he (bs'.take (bs'.length % 8)) (rem - ((w.take rem).length - bs'.length / 8))
              (w.drop ((w.take rem).length - bs'.length / 8)) ⟨by simp only [List.length_take]; omega, BP.exec_stops k he, hw'⟩
              (by rw [List.length_drop]; omega)
            simp only
            rw [finishSem_drop hacc e fun a r => BP.run_suffix p' hw']
            have e2 : (w.drop ((w.take rem).length - bs'.length / 8)).take (rem - ((w.take rem).length - bs'.length / 8)) =
                (w.take rem).drop ((w.take rem).length - bs'.length / 8) := by
              rw [List.take_drop, show (w.take rem).length - bs'.length / 8 + (rem - ((w.take rem).length - bs'.length / 8)) = rem by omega]
            rw [e2] at this
            simp only [bitSem, hsplit] at this
            exact this
      · rw [if_neg hc]
        have hc' : ¬(n ≤ acc.length + 8 * (w.take rem).length ∨ (opt = true ∧ rem ≤ w.length)) := by
          rw [hl] at hc; exact fun h => hc (h.elim Or.inr fun h => Or.inl h.1)
        exact .bad (by simp only [bitBody]; rw [if_neg hc', if_pos hr])
    exact ⟨h, fun bs p' bs' he => by cases he; exact h⟩
  | prim q k ih =>
    refine ⟨fun acc rem w hi => hi.2.1.elim, fun bs p' bs' he => ?_⟩
    simp only [BP.exec] at he
    split at he
    · cases he
    · exact (ih _).2 _ _ _ he

/-- A section made of bits can be read while it arrives. -/
theorem bitBody_resumes {α : Type} (opt : Bool) (post : α → Prop) : Resumes (bitBody (α := α) opt) (bitSem opt) (bitInv post) post where
  fits := bitBody_fits
  total t rem w hi hr := (bitBody_total t.2).1 t.1 rem w hi hr

end Brunsli
