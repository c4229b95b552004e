import Verif.Resume
import Verif.StreamInter
import Verif.PropsE
/-!
# Sections made of words, read while they arrive

`DecodeDCDataSection`, `DecodeACDataSection` (c/dec/brunsli_decode.cc:1932-1976) hand the words that have arrived to `DecodeDC`,
`DecodeAC` (:615-739, :865-976), which test before each block whether the words that the block may take are there
(`WordSource::CanRead`, c/dec/brunsli_input.h:38-46), and stop if not.  Once the end of the section is in view the tests always
succeed, and words beyond the end are an error (:27-36).
-/

namespace Brunsli

/-- A use of the sub-decoders: set-up (`EnsureSubdecodersInitialized`), final checks (`FinalizeSubdecoders`,
c/dec/brunsli_decode.cc:597-613), a symbol, a group of bits, an adaptive bit. -/
inductive WOp where
  | init
  | fin
  | code (ctx : Nat)
  | bits (n : Nat)
  | bit (prob : Nat)

/-- What it yields. -/
@[reducible] def WOp.Out : WOp → Type
  | .init => Unit
  | .fin => Unit
  | .code _ => Nat
  | .bits _ => Nat
  | .bit _ => Bool

/-- On the real sub-decoders. -/
def WOp.run (maps : Nat → Option (List SymInfo)) : (q : WOp) → DecSt → List Nat → Option (q.Out × DecSt × List Nat)
  | .init, _, ws => (decInit ws).map fun r => ((), r)
  | .fin, d, ws => if decFinish d then some ((), d, ws) else none
  | .code c, d, ws => decCode maps c d ws
  | .bits n, d, ws => decBits n d ws
  | .bit p, d, ws => decBit p d ws

/-- What others see of the parser while it waits: `next_mcu_y` (c/dec/state_internal.h) and the coefficients stored so far. -/
structure Seen where
  row : Nat
  coeffs : List (List Int)

/-- A program with tests: `need n` is `CanRead(n)` followed by what is done if it succeeds; `e` is what can be seen if it does not. -/
inductive WP (α : Type) where
  | ret (a : α)
  | fail
  | ub
  | need (n : Nat) (e : Seen) (k : WP α)
  | op (q : WOp) (k : q.Out → WP α)

namespace WP
variable {α β : Type}

/-- Sequencing. -/
def bind : WP α → (α → WP β) → WP β
  | ret a, f => f a
  | fail, _ => fail
  | ub, _ => ub
  | need n e k, f => need n e (bind k f)
  | op q k, f => op q fun a => bind (k a) f

/-- A program without tests. -/
def ofProg : Prog α → WP α
  | .ret a => ret a
  | .fail => fail
  | .ub => ub
  | .code c k => op (.code c) fun s => ofProg (k s)
  | .bits n k => op (.bits n) fun v => ofProg (k v)
  | .bit p k => op (.bit p) fun b => ofProg (k b)

/-- Run from one test to the next. -/
def exec (maps : Nat → Option (List SymInfo)) : WP α → DecSt → List Nat → Option (WP α × DecSt × List Nat)
  | ret a, d, ws => some (ret a, d, ws)
  | fail, _, _ => none
  | ub, _, _ => none
  | need n e k, d, ws => some (need n e k, d, ws)
  | op q k, d, ws =>
    match q.run maps d ws with
    | none => none
    | some r => exec maps (k r.1) r.2.1 r.2.2

/-- Run to the end, the end of the section being in view. -/
def run (maps : Nat → Option (List SymInfo)) : WP α → DecSt → List Nat → Option (α × DecSt × List Nat)
  | ret a, d, ws => some (a, d, ws)
  | fail, _, _ => none
  | ub, _, _ => none
  | need _ _ k, d, ws => run maps k d ws
  | op q k, d, ws =>
    match q.run maps d ws with
    | none => none
    | some r => run maps (k r.1) r.2.1 r.2.2

theorem run_bind (maps : Nat → Option (List SymInfo)) (p : WP α) (f : α → WP β) (d : DecSt) (ws : List Nat) :
    (p.bind f).run maps d ws = (match p.run maps d ws with | none => none | some (a, d, ws) => (f a).run maps d ws) := by
  induction p generalizing d ws with
  | ret a => rfl
  | fail => rfl
  | ub => rfl
  | need n e k ih => exact ih d ws
  | op q k ih =>
    simp only [bind, run]
    cases q.run maps d ws with
    | none => rfl
    | some r => exact ih _ _ _

theorem run_ofProg (maps : Nat → Option (List SymInfo)) (p : Prog α) (d : DecSt) (ws : List Nat) :
    (ofProg p).run maps d ws = p.run maps d ws := by
  induction p generalizing d ws with
  | ret a => rfl
  | fail => rfl
  | ub => rfl
  | code c k ih =>
    simp only [ofProg, run, Prog.run, WOp.run]
    cases decCode maps c d ws with
    | none => rfl
    | some r => exact ih _ _ _
  | bits n k ih =>
    simp only [ofProg, run, Prog.run, WOp.run]
    cases decBits n d ws with
    | none => rfl
    | some r => exact ih _ _ _
  | bit q k ih =>
    simp only [ofProg, run, Prog.run, WOp.run]
    cases decBit q d ws with
    | none => rfl
    | some r => exact ih _ _ _

theorem run_exec (maps : Nat → Option (List SymInfo)) (p : WP α) (d : DecSt) (ws : List Nat) :
    p.run maps d ws = (match p.exec maps d ws with | none => none | some (p', d', ws') => p'.run maps d' ws') := by
  induction p generalizing d ws with
  | ret a => rfl
  | fail => rfl
  | ub => rfl
  | need n e k ih => rfl
  | op q k ih =>
    simp only [run, exec]
    cases q.run maps d ws with
    | none => rfl
    | some r => exact ih _ _ _

end WP

/-! ## How many words a program takes -/

/-- At most so many words, apart from the words fetched for bits. -/
def WOp.words : WOp → Nat
  | .init => 5
  | .fin => 0
  | .code _ => 1
  | .bits _ => 0
  | .bit _ => 1

/-- The number of bits taken from the bit reader. -/
def WOp.nbits : WOp → Nat
  | .bits n => n
  | _ => 0

/-- What holds of the values read. -/
def WOp.post : (q : WOp) → q.Out → Prop
  | .init, _ => True
  | .fin, _ => True
  | .code _, s => s < 18
  | .bits n, v => v < 2 ^ n
  | .bit _, _ => True

/-- There are words for `b` fetches and `r` bits; at most 16 bits of the word being read have been used. -/
def WBudget (b r : Nat) (d : DecSt) (ws : List Nat) : Prop := b ≤ ws.length ∧ 16 * b + d.bpos + r ≤ 16 * ws.length + 16

theorem decBitsCore_bpos (n val : Nat) (d : DecSt) : (decBitsCore n val d).2.bpos = if d.bpos + n > 16 then d.bpos + n - 16 else d.bpos + n := by
  unfold decBitsCore
  simp only
  split <;> rfl

theorem decBitsCore_lt (n val : Nat) (d : DecSt) : (decBitsCore n val d).1 < 2 ^ n := by
  unfold decBitsCore
  simp only
  split <;> exact Nat.mod_lt _ (Nat.two_pow_pos n)

theorem readSymbol_res {map : List SymInfo} {x s x' : Nat} {ws ws' : List Nat} (h : readSymbol map x ws = some (s, x', ws')) :
    ∃ u : List Nat, ws = u ++ ws' ∧ u.length ≤ 1 := by
  unfold readSymbol at h
  split at h
  · cases h
  · simp only at h
    split at h
    · cases ws with
      | nil => cases h
      | cons w ws => cases h; exact ⟨[w], rfl, Nat.le_refl 1⟩
    · cases h; exact ⟨[], rfl, Nat.zero_le 1⟩

theorem readSymbol_ext {map : List SymInfo} {x : Nat} {ws : List Nat} (y : List Nat) (h : 1 ≤ ws.length) :
    readSymbol map x (ws ++ y) = (readSymbol map x ws).map fun r => (r.1, r.2.1, r.2.2 ++ y) := by
  cases ws with
  | nil => cases h
  | cons w ws =>
    unfold readSymbol
    split
    · rfl
    · simp only [List.cons_append]
      split <;> rfl

theorem decBit_res {p : Nat} {d d' : DecSt} {b : Bool} {ws ws' : List Nat} (h : decBit p d ws = some (b, d', ws')) :
    (∃ u : List Nat, ws = u ++ ws' ∧ u.length ≤ 1) ∧ d'.bpos = d.bpos := by
  unfold decBit decBitAs at h
  simp only at h
  split at h
  · cases ws with
    | nil => cases h
    | cons w ws => cases h; exact ⟨⟨[w], rfl, Nat.le_refl 1⟩, rfl⟩
  · cases h; exact ⟨⟨[], rfl, Nat.zero_le 1⟩, rfl⟩

theorem decBit_ext {p : Nat} {d : DecSt} {ws : List Nat} (y : List Nat) (h : 1 ≤ ws.length) :
    decBit p d (ws ++ y) = (decBit p d ws).map fun r => (r.1, r.2.1, r.2.2 ++ y) := by
  cases ws with
  | nil => cases h
  | cons w ws =>
    unfold decBit decBitAs
    simp only [List.cons_append]
    split <;> rfl

theorem decInit_res {ws ws' : List Nat} {d : DecSt} (h : decInit ws = some (d, ws')) : (∃ u : List Nat, ws = u ++ ws' ∧ u.length = 5) ∧ d.bpos = 0 := by
  match ws with
  | [] | [_] | [_, _] | [_, _, _] | [_, _, _, _] => cases h
  | a :: b :: c :: d :: e :: ws => cases h; exact ⟨⟨[a, b, c, d, e], rfl, rfl⟩, rfl⟩

theorem decInit_ext {ws : List Nat} (y : List Nat) (h : 5 ≤ ws.length) :
    decInit (ws ++ y) = (decInit ws).map fun r => (r.1, r.2 ++ y) := by
  match ws with
  | [] | [_] | [_, _] | [_, _, _] | [_, _, _, _] => simp only [List.length_cons, List.length_nil] at h; omega
  | a :: b :: c :: d :: e :: ws => rfl

/-- Nothing but the end of the words is left over; the value is in range; and the words it may take are what it takes. -/
theorem WOp.res {maps : Nat → Option (List SymInfo)} (hm : Prog.MapsOk maps) (q : WOp) (hq : q.nbits ≤ 16) {d d' : DecSt} {ws ws' : List Nat}
    {a : q.Out} (h : q.run maps d ws = some (a, d', ws')) (hd : d.bpos ≤ 16) :
    q.post a ∧ (∃ u, ws = u ++ ws') ∧ d'.bpos ≤ 16 ∧
      ∀ b r, WBudget b r d ws → q.words ≤ b → q.nbits ≤ r → WBudget (b - q.words) (r - q.nbits) d' ws' := by
  cases q with
  | init =>
    simp only [WOp.run] at h
    cases hi : decInit ws with
    | none => rw [hi] at h; cases h
    | some y =>
      obtain ⟨d1, ws1⟩ := y
      rw [hi] at h
      cases h
      obtain ⟨⟨u, e, l⟩, hb⟩ := decInit_res hi
      refine ⟨trivial, ⟨u, e⟩, by omega, fun b r h1 h2 h3 => ?_⟩
      have : ws.length = u.length + ws'.length := by rw [e, List.length_append]
      unfold WBudget at *
      simp only [WOp.words, WOp.nbits] at *
      omega
  | fin =>
    simp only [WOp.run] at h
    split at h
    · cases h
      exact ⟨trivial, ⟨[], rfl⟩, hd, fun b r h1 _ _ => h1⟩
    · cases h
  | code c =>
    simp only [WOp.run, decCode] at h
    cases hc : maps c with
    | none => rw [hc] at h; cases h
    | some m =>
      rw [hc] at h
      simp only at h
      cases hr : readSymbol m d.ans ws with
      | none => rw [hr] at h; cases h
      | some y =>
        obtain ⟨s, x, ws1⟩ := y
        rw [hr] at h
        cases h
        obtain ⟨u, e, l⟩ := readSymbol_res hr
        obtain ⟨counts, hl, hcm⟩ := hm c m hc
        refine ⟨Nat.lt_of_lt_of_le (Prog.readSymbol_symbol hcm hr) hl, ⟨u, e⟩, hd, fun b r h1 h2 h3 => ?_⟩
        have : ws.length = u.length + ws'.length := by rw [e, List.length_append]
        unfold WBudget at *
        simp only [WOp.words, WOp.nbits] at *
        omega
  | bits n =>
    simp only [WOp.run, decBits] at h
    have hn : n ≤ 16 := hq
    split at h
    · rename_i hp
      cases ws with
      | nil => cases h
      | cons w ws =>
        cases h
        have hb := decBitsCore_bpos n (d.bval ||| (w <<< 16)) d
        rw [if_pos hp] at hb
        refine ⟨decBitsCore_lt _ _ _, ⟨[w], rfl⟩, by omega, fun b r h1 h2 h3 => ?_⟩
        unfold WBudget at *
        simp only [WOp.words, WOp.nbits, List.length_cons] at *
        omega
    · rename_i hp
      cases h
      have hb := decBitsCore_bpos n d.bval d
      rw [if_neg hp] at hb
      refine ⟨decBitsCore_lt _ _ _, ⟨[], rfl⟩, by omega, fun b r h1 h2 h3 => ?_⟩
      unfold WBudget at *
      simp only [WOp.words, WOp.nbits] at *
      omega
  | bit p =>
    simp only [WOp.run] at h
    obtain ⟨⟨u, e, l⟩, hb⟩ := decBit_res h
    refine ⟨trivial, ⟨u, e⟩, by omega, fun b r h1 h2 h3 => ?_⟩
    have : ws.length = u.length + ws'.length := by rw [e, List.length_append]
    unfold WBudget at *
    simp only [WOp.words, WOp.nbits] at *
    omega

/-- With words for it, the words that follow do not matter. -/
theorem WOp.ext {maps : Nat → Option (List SymInfo)} (q : WOp) {b r : Nat} {d : DecSt} {ws : List Nat} (hb : WBudget b r d ws)
    (hw : q.words ≤ b) (hr : q.nbits ≤ r) (y : List Nat) :
    q.run maps d (ws ++ y) = (q.run maps d ws).map fun r => (r.1, r.2.1, r.2.2 ++ y) := by
  cases q with
  | init =>
    simp only [WOp.run]
    rw [decInit_ext y (Nat.le_trans hw hb.1)]
    cases decInit ws <;> rfl
  | fin =>
    simp only [WOp.run]
    split <;> rfl
  | code c =>
    simp only [WOp.run, decCode]
    cases maps c with
    | none => rfl
    | some m =>
      simp only
      rw [readSymbol_ext y (Nat.le_trans hw hb.1)]
      cases readSymbol m d.ans ws <;> rfl
  | bits n =>
    simp only [WOp.run, decBits]
    have h2 := hb.2
    simp only [WOp.nbits] at hr
    split
    · cases ws with
      | nil => simp only [List.length_nil] at h2; omega
      | cons w ws => rfl
    · rfl
  | bit p => exact decBit_ext y (Nat.le_trans hw hb.1)

/-- Programs that respect their tests: what is used between two tests fits into the words the first has asked for, whatever
the state of the bit reader. -/
def WP.Within {α : Type} (post : α → Prop) : WP α → Nat → Nat → Prop
  | .ret a, _, _ => post a
  | .fail, _, _ => True
  | .ub, _, _ => True
  | .need n e k, _, _ => n ≤ 297 ∧ ∃ b r, 16 * b + r ≤ 16 * n ∧ WP.Within post k b r
  | .op q k, b, r => q.nbits ≤ 16 ∧ q.words ≤ b ∧ q.nbits ≤ r ∧ ∀ a, q.post a → WP.Within post (k a) (b - q.words) (r - q.nbits)

namespace WP

/-- Suspended or finished. -/
def Stops {α : Type} : WP α → Prop
  | op _ _ => False
  | _ => True

theorem Within.mono {α : Type} {post : α → Prop} : ∀ {p : WP α} {b r b' r' : Nat}, Within post p b r → b ≤ b' → r ≤ r' → Within post p b' r'
  | ret _, _, _, _, _, h, _, _ => h
  | fail, _, _, _, _, _, _, _ => trivial
  | ub, _, _, _, _, _, _, _ => trivial
  | need _ _ _, _, _, _, _, h, _, _ => h
  | op _ _, _, _, _, _, h, hb, hr => ⟨h.1, Nat.le_trans h.2.1 hb, Nat.le_trans h.2.2.1 hr,
      fun a ha => (h.2.2.2 a ha).mono (Nat.sub_le_sub_right hb _) (Nat.sub_le_sub_right hr _)⟩

theorem Within.bind {α β : Type} {p1 : α → Prop} {p2 : β → Prop} {f : α → WP β} (hf : ∀ a, p1 a → Within p2 (f a) 0 0) :
    ∀ {p : WP α} {b r : Nat}, Within p1 p b r → Within p2 (WP.bind p f) b r
  | ret a, _, _, h => (hf a h).mono (Nat.zero_le _) (Nat.zero_le _)
  | fail, _, _, _ => trivial
  | ub, _, _, _ => trivial
  | need _ _ _, _, _, h => ⟨h.1, h.2.elim fun b h => ⟨b, h.elim fun r h => ⟨r, h.1, Within.bind hf h.2⟩⟩⟩
  | op _ _, _, _, h => ⟨h.1, h.2.1, h.2.2.1, fun a ha => Within.bind hf (h.2.2.2 a ha)⟩

theorem exec_stops {α : Type} {maps : Nat → Option (List SymInfo)} (p : WP α) : ∀ {d : DecSt} {ws : List Nat} {p' : WP α} {d' : DecSt} {ws' : List Nat},
    exec maps p d ws = some (p', d', ws') → Stops p' := by
  induction p with
  | ret a => intro d ws p' d' ws' h; cases h; trivial
  | fail => intro d ws p' d' ws' h; cases h
  | ub => intro d ws p' d' ws' h; cases h
  | need n e k ih => intro d ws p' d' ws' h; cases h; trivial
  | op q k ih =>
    intro d ws p' d' ws' h
    simp only [exec] at h
    split at h
    · cases h
    · exact ih _ h

/-- What is left is the end of what there was, and the residual program respects its tests. -/
theorem exec_res {α : Type} {maps : Nat → Option (List SymInfo)} (hm : Prog.MapsOk maps) {post : α → Prop} (p : WP α) :
    ∀ {b r : Nat} {d : DecSt} {ws : List Nat} {p' : WP α} {d' : DecSt} {ws' : List Nat}, Within post p b r → d.bpos ≤ 16 →
      exec maps p d ws = some (p', d', ws') → Within post p' 0 0 ∧ d'.bpos ≤ 16 ∧ ∃ u, ws = u ++ ws' := by
  induction p with
  | ret a => intro b r d ws p' d' ws' hw hd h; cases h; exact ⟨hw, hd, [], rfl⟩
  | fail => intro b r d ws p' d' ws' hw hd h; cases h
  | ub => intro b r d ws p' d' ws' hw hd h; cases h
  | need n e k ih => intro b r d ws p' d' ws' hw hd h; cases h; exact ⟨hw, hd, [], rfl⟩
  | op q k ih =>
    intro b r d ws p' d' ws' hw hd h
    simp only [exec] at h
    split at h
    · cases h
    · rename_i y hq
      obtain ⟨a, d1, ws1⟩ := y
      obtain ⟨pa, ⟨u, e⟩, hd1, _⟩ := WOp.res hm q hw.1 hq hd
      obtain ⟨h1, h2, v, e'⟩ := ih a (hw.2.2.2 a pa) hd1 h
      exact ⟨h1, h2, u ++ v, by rw [e, List.append_assoc]; exact congrArg (u ++ ·) e'⟩

/-- With enough words the words that follow do not matter. -/
theorem exec_ext {α : Type} {maps : Nat → Option (List SymInfo)} (hm : Prog.MapsOk maps) {post : α → Prop} (p : WP α) :
    ∀ {b r : Nat} {d : DecSt} {ws : List Nat} (y : List Nat), Within post p b r → d.bpos ≤ 16 → WBudget b r d ws →
      exec maps p d (ws ++ y) = (exec maps p d ws).map fun x => (x.1, x.2.1, x.2.2 ++ y) := by
  induction p with
  | ret a => intro b r d ws y hw hd hb; rfl
  | fail => intro b r d ws y hw hd hb; rfl
  | ub => intro b r d ws y hw hd hb; rfl
  | need n e k ih => intro b r d ws y hw hd hb; rfl
  | op q k ih =>
    intro b r d ws y hw hd hb
    simp only [exec]
    rw [WOp.ext q hb hw.2.1 hw.2.2.1 y]
    cases hq : q.run maps d ws with
    | none => rfl
    | some x =>
      obtain ⟨a, d1, ws1⟩ := x
      obtain ⟨pa, _, hd1, hb1⟩ := WOp.res hm q hw.1 hq hd
      exact ih a y (hw.2.2.2 a pa) hd1 (hb1 b r hb hw.2.1 hw.2.2.1)

theorem run_suffix {α : Type} {maps : Nat → Option (List SymInfo)} (hm : Prog.MapsOk maps) {post : α → Prop} (p : WP α) :
    ∀ {b r : Nat} {d : DecSt} {ws : List Nat} {a : α} {d' : DecSt} {ws' : List Nat}, Within post p b r → d.bpos ≤ 16 →
      run maps p d ws = some (a, d', ws') → ∃ u, ws = u ++ ws' := by
  induction p with
  | ret a => intro b r d ws a' d' ws' hw hd h; cases h; exact ⟨[], rfl⟩
  | fail => intro b r d ws a' d' ws' hw hd h; cases h
  | ub => intro b r d ws a' d' ws' hw hd h; cases h
  | need n e k ih =>
    intro b r d ws a' d' ws' hw hd h
    obtain ⟨_, b, r, _, hk⟩ := hw
    exact ih hk hd h
  | op q k ih =>
    intro b r d ws a' d' ws' hw hd h
    simp only [run] at h
    split at h
    · cases h
    · rename_i y hq
      obtain ⟨a, d1, ws1⟩ := y
      obtain ⟨pa, ⟨u, e⟩, hd1, _⟩ := WOp.res hm q hw.1 hq hd
      obtain ⟨v, e'⟩ := ih a (hw.2.2.2 a pa) hd1 h
      exact ⟨u ++ v, by rw [e, List.append_assoc]; exact congrArg (u ++ ·) e'⟩

end WP

/-! ## The words of bytes -/

theorem bytesWords_length : ∀ B : List Nat, (bytesWords B).length = B.length / 2
  | [] => rfl
  | [_] => by simp [bytesWords]
  | a :: b :: B => by
    simp only [bytesWords, List.length_cons]
    rw [bytesWords_length B]
    omega

theorem bytesWords_append : ∀ (A B : List Nat), A.length % 2 = 0 → bytesWords (A ++ B) = bytesWords A ++ bytesWords B
  | [], _, _ => rfl
  | [_], _, h => by simp at h
  | a :: b :: A, B, h => by
    simp only [List.cons_append, bytesWords]
    rw [bytesWords_append A B (by simp only [List.length_cons] at h; omega)]

theorem bytesWords_drop : ∀ (B : List Nat) (j : Nat), bytesWords (B.drop (2 * j)) = (bytesWords B).drop j
  | B, 0 => rfl
  | [], j + 1 => by simp [bytesWords]
  | [x], j + 1 => by
    rw [show 2 * (j + 1) = 2 * j + 1 + 1 by omega, List.drop_succ_cons]
    simp [bytesWords]
  | a :: b :: B, j + 1 => by
    rw [show 2 * (j + 1) = 2 * j + 1 + 1 by omega, List.drop_succ_cons, List.drop_succ_cons, bytesWords, List.drop_succ_cons]
    exact bytesWords_drop B j

/-- Later bytes may only complete the last word. -/
theorem bytesWords_later (A X : List Nat) : ∃ Y, bytesWords (A ++ X) = bytesWords A ++ Y := by
  refine ⟨bytesWords (A.drop (2 * (A.length / 2)) ++ X), ?_⟩
  have e : A ++ X = A.take (2 * (A.length / 2)) ++ (A.drop (2 * (A.length / 2)) ++ X) := by
    rw [← List.append_assoc, List.take_append_drop]
  have hl : (A.take (2 * (A.length / 2))).length = 2 * (A.length / 2) := by rw [List.length_take]; omega
  rw [e, bytesWords_append _ _ (by rw [hl]; omega)]
  congr 1
  have h2 : bytesWords A = bytesWords (A.take (2 * (A.length / 2)) ++ A.drop (2 * (A.length / 2))) := by rw [List.take_append_drop]
  rw [h2, bytesWords_append _ _ (by rw [hl]; omega)]
  have h3 : bytesWords (A.drop (2 * (A.length / 2))) = [] := by
    rw [bytesWords_drop]
    exact List.drop_eq_nil_of_le (by rw [bytesWords_length]; omega)
  rw [h3, List.append_nil]

/-! ## The reader of a section made of words -/

/-- The state: the tables, the sub-decoders, the rest of the program. -/
structure WordSt (α : Type) where
  maps : Nat → Option (List SymInfo)
  dec : DecSt
  prog : WP α

/-- A step: from one test to the next. -/
def wordBody {α : Type} : Body (WordSt α) α := fun t rem w =>
  match t.prog with
  | .ret a => .done a 0
  | .need n e k =>
    if n ≤ (bytesWords (w.take rem)).length ∨ rem ≤ w.length then
      match k.exec t.maps t.dec (bytesWords (w.take rem)) with
      | none => .bad
      | some (p, d, ws) => .more ⟨t.maps, d, p⟩ (2 * ((bytesWords (w.take rem)).length - ws.length))
    else .wait t 0
  | _ => .bad

/-- What is read from the whole rest of the section. -/
def wordSem {α : Type} (t : WordSt α) (payload : List Nat) : Option (α × List Nat) :=
  match t.prog.run t.maps t.dec (bytesWords payload) with
  | none => none
  | some (a, _, ws) => some (a, payload.drop (2 * ((bytesWords payload).length - ws.length)))

/-- States at a test, respecting it; what is left of the section is a number of words. -/
def wordInv {α : Type} (post : α → Prop) (t : WordSt α) (rem : Nat) : Prop :=
  Prog.MapsOk t.maps ∧ t.dec.bpos ≤ 16 ∧ rem % 2 = 0 ∧ t.prog.Stops ∧ t.prog.Within post 0 0

theorem suffix_drop {ws ws' u : List Nat} (e : ws = u ++ ws') : ws.drop (ws.length - ws'.length) = ws' := by
  subst e
  rw [List.length_append, Nat.add_sub_cancel, List.drop_left]

theorem wordBody_fits {α : Type} {post : α → Prop} (t : WordSt α) (rem : Nat) (w : List Nat) (hi : wordInv post t rem) :
    Fits wordBody (wordInv post) post t rem w (wordBody t rem w) := by
  obtain ⟨maps, dec, prog⟩ := t
  obtain ⟨hm, hd, hev, hs, hw⟩ := hi
  simp only at hm hd hs hw
  cases prog with
  | ret a => exact ⟨Nat.zero_le _, Nat.zero_le _, hw, fun x => rfl⟩
  | fail => exact fun x => rfl
  | ub => exact fun x => rfl
  | op q k => exact hs.elim
  | need n e k =>
    obtain ⟨hn, b, r, hbr, hk⟩ := hw
    have hl := bytesWords_length (w.take rem)
    have hl2 : (w.take rem).length = min rem w.length := List.length_take
    by_cases hc : n ≤ (bytesWords (w.take rem)).length ∨ rem ≤ w.length
    · -- the outcome does not depend on later bytes
      have key : ∀ x, wordBody ⟨maps, dec, .need n e k⟩ rem (w ++ x) = wordBody ⟨maps, dec, .need n e k⟩ rem w := by
        intro x
        by_cases hr : rem ≤ w.length
        · simp only [wordBody]
          rw [take_append_ge x hr, if_pos hc, if_pos (Or.inr (by rw [List.length_append]; omega))]
        · have hn' : n ≤ (bytesWords (w.take rem)).length := by omega
          have ht : w.take rem = w := List.take_of_length_le (by omega)
          obtain ⟨Y, hY⟩ : ∃ Y, bytesWords ((w ++ x).take rem) = bytesWords (w.take rem) ++ Y := by
            rw [List.take_append, ht]
            exact bytesWords_later w _
          simp only [wordBody]
          rw [hY, if_pos hc, if_pos (Or.inl (by rw [List.length_append]; omega)),
            WP.exec_ext hm k Y hk hd ⟨by omega, by omega⟩]
          cases k.exec maps dec (bytesWords (w.take rem)) with
          | none => rfl
          | some y =>
            obtain ⟨p, d, ws⟩ := y
            simp only [Option.map_some, List.length_append]
            rw [Nat.add_sub_add_right]
      cases he : wordBody ⟨maps, dec, .need n e k⟩ rem w with
      | bad => exact fun x => by rw [key, he]
      | more t' m =>
        have he' := he
        simp only [wordBody] at he
        rw [if_pos hc] at he
        cases hx : k.exec maps dec (bytesWords (w.take rem)) with
        | none => rw [hx] at he; cases he
        | some y =>
          obtain ⟨p, d, ws⟩ := y
          rw [hx] at he
          cases he
          obtain ⟨hw', hd', u, e⟩ := WP.exec_res hm k hk hd hx
          refine ⟨by omega, by omega, ⟨hm, hd', ?_, WP.exec_stops k hx, hw'⟩, fun x => by rw [key, he']⟩
          omega
      | done a m =>
        simp only [wordBody] at he
        rw [if_pos hc] at he
        cases hx : k.exec maps dec (bytesWords (w.take rem)) with
        | none => rw [hx] at he; cases he
        | some y => rw [hx] at he; cases he
      | wait t' m =>
        simp only [wordBody] at he
        rw [if_pos hc] at he
        cases hx : k.exec maps dec (bytesWords (w.take rem)) with
        | none => rw [hx] at he; cases he
        | some y => rw [hx] at he; cases he
    · have he : wordBody ⟨maps, dec, .need n e k⟩ rem w = .wait ⟨maps, dec, .need n e k⟩ 0 := by
        simp only [wordBody]; rw [if_neg hc]
      rw [he]
      refine ⟨Nat.zero_le _, Nat.zero_le _, ⟨hm, hd, hev, hs, hn, b, r, hbr, hk⟩, by omega, fun x => ?_⟩
      rw [Nat.sub_zero, List.drop_zero, BOut.shift_zero]

theorem wordBody_total {α : Type} {maps : Nat → Option (List SymInfo)} {post : α → Prop} (p : WP α) :
    (∀ d rem w, wordInv post ⟨maps, d, p⟩ rem → rem ≤ w.length → Verdict wordBody ⟨maps, d, p⟩ rem w (wordSem ⟨maps, d, p⟩ (w.take rem))) ∧
    ∀ d₀ ws₀ p' d' ws', p.exec maps d₀ ws₀ = some (p', d', ws') → ∀ d rem w, wordInv post ⟨maps, d, p'⟩ rem → rem ≤ w.length →
      Verdict wordBody ⟨maps, d, p'⟩ rem w (wordSem ⟨maps, d, p'⟩ (w.take rem)) := by
  induction p with
  | ret a =>
    have h : ∀ d rem w, wordInv post ⟨maps, d, .ret a⟩ rem → rem ≤ w.length →
        Verdict wordBody ⟨maps, d, .ret a⟩ rem w (wordSem ⟨maps, d, .ret a⟩ (w.take rem)) := by
      intro d rem w hi hr
      simp only [wordSem, WP.run, Nat.sub_self]
      exact .done rfl
    exact ⟨h, fun d₀ ws₀ p' d' ws' he => by cases he; exact h⟩
  | fail => exact ⟨fun d rem w _ _ => .bad rfl, fun d₀ ws₀ p' d' ws' he => by cases he⟩
  | ub => exact ⟨fun d rem w _ _ => .bad rfl, fun d₀ ws₀ p' d' ws' he => by cases he⟩
  | need n e k ih =>
    have h : ∀ d rem w, wordInv post ⟨maps, d, .need n e k⟩ rem → rem ≤ w.length →
        Verdict wordBody ⟨maps, d, .need n e k⟩ rem w (wordSem ⟨maps, d, .need n e k⟩ (w.take rem)) := by
      intro d rem w hi hr
      obtain ⟨hm, hd, hev, hs, hn, b, r, hbr, hk⟩ := hi
      simp only at hm hd hev
      have hlen : (w.take rem).length = rem := by rw [List.length_take]; omega
      have hbl := bytesWords_length (w.take rem)
      simp only [wordSem, WP.run]
      rw [WP.run_exec]
      have hc : n ≤ (bytesWords (w.take rem)).length ∨ rem ≤ w.length := Or.inr hr
      cases he : k.exec maps d (bytesWords (w.take rem)) with
      | none => exact .bad (by simp only [wordBody]; rw [if_pos hc, he])
      | some y =>
        obtain ⟨p', d', ws'⟩ := y
        obtain ⟨hw', hd', u, e⟩ := WP.exec_res hm k hk hd he
        refine .more (t' := ⟨maps, d', p'⟩) (n := 2 * ((bytesWords (w.take rem)).length - ws'.length)) ?_ ?_
        · simp only [wordBody]; rw [if_pos hc, he]
        · generalize hj : (bytesWords (w.take rem)).length - ws'.length = j
          have := ih.2 _ _ _ _ _ he d' (rem - 2 * j) (w.drop (2 * j)) ⟨hm, hd', by omega, WP.exec_stops k he, hw'⟩
            (by rw [List.length_drop]; omega)
          have e2 : (w.drop (2 * j)).take (rem - 2 * j) = (w.take rem).drop (2 * j) := by
            rw [List.take_drop, show 2 * j + (rem - 2 * j) = rem by omega]
          have e3 : bytesWords ((w.take rem).drop (2 * j)) = ws' := by
            rw [bytesWords_drop, ← hj]; exact suffix_drop e
          rw [e2] at this
          simp only [wordSem, e3] at this
          simp only
          cases hrun : p'.run maps d' ws' with
          | none => rw [hrun] at this; exact this
          | some z =>
            obtain ⟨a, d2, ws2⟩ := z
            rw [hrun] at this
            obtain ⟨v, ev⟩ := WP.run_suffix hm p' hw' hd' hrun
            have hl1 : (bytesWords (w.take rem)).length = u.length + ws'.length := by rw [e, List.length_append]
            have hl2 : ws'.length = v.length + ws2.length := by rw [ev, List.length_append]
            simp only [List.drop_drop] at this ⊢
            rw [show 2 * j + 2 * (ws'.length - ws2.length) = 2 * ((bytesWords (w.take rem)).length - ws2.length) by omega] at this
            exact this
    exact ⟨h, fun d₀ ws₀ p' d' ws' he => by cases he; exact h⟩
  | op q k ih =>
    refine ⟨fun d rem w hi => hi.2.2.2.1.elim, fun d₀ ws₀ p' d' ws' he => ?_⟩
    simp only [WP.exec] at he
    split at he
    · cases he
    · exact (ih _).2 _ _ _ _ _ he

/-- A section made of words can be read while it arrives. -/
theorem wordBody_resumes {α : Type} (post : α → Prop) : Resumes (wordBody (α := α)) wordSem (wordInv post) post where
  fits := wordBody_fits
  total t rem w hi hr := by
    obtain ⟨maps, d, p⟩ := t
    exact (wordBody_total p).1 d rem w hi hr

/-! ## What decoding takes -/

namespace Prog
variable {α β : Type}

/-- Uses at most `b` words, apart from bits, and at most `r` bits; results satisfy `post`. -/
def Costs (post : α → Prop) : Prog α → Nat → Nat → Prop
  | .ret a, _, _ => post a
  | .fail, _, _ => True
  | .ub, _, _ => True
  | .code _ k, b, r => 1 ≤ b ∧ ∀ s < 18, (k s).Costs post (b - 1) r
  | .bits n k, b, r => n ≤ 16 ∧ n ≤ r ∧ ∀ v < 2 ^ n, (k v).Costs post b (r - n)
  | .bit _ k, b, r => 1 ≤ b ∧ ∀ x, (k x).Costs post (b - 1) r

theorem Costs.mono {post post' : α → Prop} (hp : ∀ a, post a → post' a) : ∀ {p : Prog α} {b r b' r' : Nat}, p.Costs post b r → b ≤ b' → r ≤ r' →
    p.Costs post' b' r'
  | .ret _, _, _, _, _, h, _, _ => hp _ h
  | .fail, _, _, _, _, _, _, _ => trivial
  | .ub, _, _, _, _, _, _, _ => trivial
  | .code _ _, _, _, _, _, h, hb, hr => ⟨Nat.le_trans h.1 hb, fun s hs => (h.2 s hs).mono hp (Nat.sub_le_sub_right hb _) hr⟩
  | .bits _ _, _, _, _, _, h, hb, hr => ⟨h.1, Nat.le_trans h.2.1 hr, fun s hs => (h.2.2 s hs).mono hp hb (Nat.sub_le_sub_right hr _)⟩
  | .bit _ _, _, _, _, _, h, hb, hr => ⟨Nat.le_trans h.1 hb, fun s => (h.2 s).mono hp (Nat.sub_le_sub_right hb _) hr⟩

theorem Costs.bind' {p1 : α → Prop} {p2 : β → Prop} {f : α → Prog β} {b₂ r₂ : Nat} (hf : ∀ a, p1 a → (f a).Costs p2 b₂ r₂) :
    ∀ {p : Prog α} {b₁ r₁ b r : Nat}, p.Costs p1 b₁ r₁ → b₁ + b₂ ≤ b → r₁ + r₂ ≤ r → (p.bind f).Costs p2 b r
  | .ret a, _, _, _, _, h, hb, hr => (hf a h).mono (fun _ h => h) (by omega) (by omega)
  | .fail, _, _, _, _, _, _, _ => trivial
  | .ub, _, _, _, _, _, _, _ => trivial
  | .code _ _, _, _, _, _, h, hb, hr => ⟨by have := h.1; omega, fun s hs => Costs.bind' hf (h.2 s hs) (by have := h.1; omega) hr⟩
  | .bits _ _, _, _, _, _, h, hb, hr => ⟨h.1, by have := h.2.1; omega, fun s hs => Costs.bind' hf (h.2.2 s hs) hb (by have := h.2.1; omega)⟩
  | .bit _ _, _, _, _, _, h, hb, hr => ⟨by have := h.1; omega, fun s => Costs.bind' hf (h.2 s) (by have := h.1; omega) hr⟩

theorem Costs.bind {p1 : α → Prop} {p2 : β → Prop} {p : Prog α} {f : α → Prog β} {b₁ r₁ b₂ r₂ b r : Nat} (hp : p.Costs p1 b₁ r₁)
    (hf : ∀ a, p1 a → (f a).Costs p2 b₂ r₂) (hb : b₁ + b₂ ≤ b) (hr : r₁ + r₂ ≤ r) : (p >>= f).Costs p2 b r := Costs.bind' hf hp hb hr

theorem Costs.pure {post : α → Prop} {a : α} {b r : Nat} (h : post a) : (Pure.pure a : Prog α).Costs post b r := h

theorem Costs.lift (o : Option α) : (Prog.lift o).Costs (fun a => o = some a) 0 0 := by
  cases o with
  | none => trivial
  | some a => exact (rfl : some a = some a)

theorem Costs.bitAt (l : List Prob) (i : Nat) : (Prog.bitAt l i).Costs (fun _ => True) 1 0 := by
  unfold Prog.bitAt
  cases l[i]? with
  | none => trivial
  | some p =>
    refine ⟨Nat.le_refl 1, fun x => ?_⟩
    show Prog.Costs _ (match p.add x with | none => .ub | some p' => .ret (x, l.set i p')) _ _
    cases p.add x <;> trivial

theorem Costs.codeAt (n c : Nat) : (Prog.codeAt n c).Costs (· < 18) 1 0 := by
  unfold Prog.codeAt
  split
  · exact ⟨Nat.le_refl 1, fun s hs => hs⟩
  · trivial

theorem Costs.within {post : α → Prop} : ∀ {p : Prog α} {b r : Nat}, p.Costs post b r → (WP.ofProg p).Within post b r
  | .ret _, _, _, h => h
  | .fail, _, _, _ => trivial
  | .ub, _, _, _ => trivial
  | .code _ _, _, _, h => ⟨Nat.zero_le _, h.1, Nat.zero_le _, fun s hs => (h.2 s hs).within⟩
  | .bits _ _, _, _, h => ⟨h.1, Nat.zero_le _, h.2.1, fun s hs => (h.2.2 s hs).within⟩
  | .bit _ _, _, _, h => ⟨Nat.zero_le _, h.1, Nat.zero_le _, fun s _ => (h.2 s).within⟩

end Prog
end Brunsli
