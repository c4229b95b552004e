import Verif.DataStream
/-!
# Composition lemmas for decoding programs
-/

namespace Brunsli
namespace Prog
variable {α β : Type}

/-- `p`, answered with the calls `e`, uses all of them and returns `a`. -/
def Eats (p : Prog α) (e : List Op) (a : α) : Prop := P.Reads p.feed e a

theorem Eats.ret (a : α) : Eats (.ret a) [] a := fun _ => rfl

theorem Eats.pure (a : α) : Eats (Pure.pure a : Prog α) [] a := fun _ => rfl

theorem Eats.pure' {a b : α} (h : a = b) : Eats (Pure.pure a : Prog α) [] b := by
  subst h; exact Eats.pure a

theorem Eats.bind {p : Prog α} {f : α → Prog β} {e₁ e₂ : List Op} {a : α} {b : β}
    (h₁ : Eats p e₁ a) (h₂ : Eats (f a) e₂ b) : Eats (p >>= f) (e₁ ++ e₂) b := by
  intro rest
  rw [feed_bind, List.append_assoc, h₁ (e₂ ++ rest)]
  exact h₂ rest

theorem Eats.bind' {p : Prog α} {f : α → Prog β} {e e₁ e₂ : List Op} {a : α} {b : β}
    (h₁ : Eats p e₁ a) (h₂ : Eats (f a) e₂ b) (he : e = e₁ ++ e₂) : Eats (p >>= f) e b := by
  subst he; exact h₁.bind h₂

theorem Eats.code {c s : Nat} {k : Nat → Prog α} {e : List Op} {a : α} (h : Eats (k s) e a) :
    Eats (.code c k) (.code c s :: e) a := by
  intro rest
  simp only [List.cons_append, feed, if_true]
  exact h rest

theorem Eats.bits {n v : Nat} {k : Nat → Prog α} {e : List Op} {a : α} (h : Eats (k v) e a) :
    Eats (.bits n k) (.bits n v :: e) a := by
  intro rest
  simp only [List.cons_append, feed, if_true]
  exact h rest

theorem Eats.bit {p : Nat} {b : Bool} {k : Bool → Prog α} {e : List Op} {a : α} (h : Eats (k b) e a) :
    Eats (.bit p k) (.bit p b :: e) a := by
  intro rest
  simp only [List.cons_append, feed, if_true]
  exact h rest

theorem Eats.feed {p : Prog α} {e : List Op} {a : α} (h : Eats p e a) : p.feed e = some (a, []) := by
  have := h []
  simpa using this

/-- Read one symbol. -/
def readCode (ctx : Nat) : Prog Nat := .code ctx .ret
/-- Read `n` bits. -/
def readBits (n : Nat) : Prog Nat := .bits n .ret
/-- Read one adaptive bit. -/
def readBit (p : Nat) : Prog Bool := .bit p .ret

theorem readCode_eats (c s : Nat) : Eats (readCode c) [.code c s] s := Eats.code (Eats.ret s)
theorem readBits_eats (n v : Nat) : Eats (readBits n) [.bits n v] v := Eats.bits (Eats.ret v)
theorem readBit_eats (p : Nat) (b : Bool) : Eats (readBit p) [.bit p b] b := Eats.bit (Eats.ret b)

/-- Fail unless `c`. -/
def guard (c : Prop) [Decidable c] : Prog Unit := if c then .ret () else .fail

theorem Eats.seqGuard {c : Prop} [Decidable c] {f : Unit → Prog β} {e : List Op} {b : β}
    (h : c) (h₂ : Eats (f ()) e b) : Eats (guard c >>= f) e b := by
  have : Eats (guard c) [] () := by
    unfold guard; rw [if_pos h]; exact Eats.ret ()
  exact this.bind h₂

/-- Every value `p` can return, whatever the (possibly malicious) stream answers, satisfies `q`, and `p` never
runs into undefined behaviour.
The answers are restricted only by their type: symbols below 18 (`BRUNSLI_ANS_MAX_SYMBOLS`), `n`-bit
groups below `2^n`. -/
def All (q : α → Prop) : Prog α → Prop
  | .ret a => q a
  | .fail => True
  | .ub => False
  | .code _ k => ∀ s < 18, (k s).All q
  | .bits n k => ∀ v < 2 ^ n, (k v).All q
  | .bit _ k => ∀ b, (k b).All q

theorem All.mono {q r : α → Prop} (h : ∀ a, q a → r a) {p : Prog α} (hp : p.All q) : p.All r := by
  induction p with
  | ret a => exact h a hp
  | fail => trivial
  | ub => exact hp
  | code c k ih => exact fun s hs => ih s (hp s hs)
  | bits n k ih => exact fun s hs => ih s (hp s hs)
  | bit n k ih => exact fun s => ih s (hp s)

theorem All.bind {q : α → Prop} {r : β → Prop} {p : Prog α} {f : α → Prog β}
    (hp : p.All q) (hf : ∀ a, q a → (f a).All r) : (p >>= f).All r := by
  show (p.bind f).All r
  induction p with
  | ret a => exact hf a hp
  | fail => trivial
  | ub => exact hp
  | code c k ih => exact fun s hs => ih s (hp s hs)
  | bits n k ih => exact fun s hs => ih s (hp s hs)
  | bit n k ih => exact fun s => ih s (hp s)

theorem All.pure {q : α → Prop} {a : α} (h : q a) : (Pure.pure a : Prog α).All q := h

/-- Decoding tables with at most 18 symbols. -/
def MapsOk (maps : Nat → Option (List SymInfo)) : Prop :=
  ∀ c m, maps c = some m → ∃ counts : List Nat, counts.length ≤ 18 ∧ ansMap counts = some m

theorem ansMapFrom_symbol (cs : List Nat) : ∀ i e, e ∈ ansMapFrom i cs → e.symbol < i + cs.length := by
  induction cs with
  | nil => intro i e he; simp [ansMapFrom] at he
  | cons c cs ih =>
    intro i e he
    simp only [ansMapFrom, List.mem_append, List.mem_map, List.mem_range] at he
    rcases he with ⟨j, hj, rfl⟩ | he
    · simp
    · have := ih _ _ he
      simp only [List.length_cons]; omega

theorem readSymbol_symbol {counts : List Nat} {map : List SymInfo} {state s st' : Nat} {ws ws' : List Nat}
    (hmap : ansMap counts = some map) (h : readSymbol map state ws = some (s, st', ws')) :
    s < counts.length := by
  unfold ansMap at hmap
  simp only at hmap
  split at hmap
  · simp only [Option.some.injEq] at hmap
    subst hmap
    unfold readSymbol at h
    split at h
    · cases h
    · rename_i e he
      have hs := ansMapFrom_symbol counts 0 e (List.mem_of_getElem? he)
      simp only at h
      split at h
      · cases ws with
        | nil => simp at h
        | cons w ws => simp only [Option.some.injEq, Prod.mk.injEq] at h; omega
      · simp only [Option.some.injEq, Prod.mk.injEq] at h; omega
  · cases hmap

theorem run_all {maps} (hm : MapsOk maps) {q : α → Prop} (p : Prog α) (hp : p.All q) :
    ∀ {d ws a d' ws'}, p.run maps d ws = some (a, d', ws') → q a := by
  induction p with
  | ret a => intro d ws a' d' ws' h; simp only [run, Option.some.injEq, Prod.mk.injEq] at h; rw [← h.1]; exact hp
  | fail => intro d ws a' d' ws' h; simp [run] at h
  | ub => intro d ws a' d' ws' h; simp [run] at h
  | code c k ih =>
    intro d ws a d' ws' h
    simp only [run] at h
    cases hc : decCode maps c d ws with
    | none => simp [hc] at h
    | some r =>
      obtain ⟨s, d1, ws1⟩ := r
      simp only [hc] at h
      refine ih s (hp s ?_) h
      unfold decCode at hc
      cases hmc : maps c with
      | none => simp [hmc] at hc
      | some m =>
        simp only [hmc] at hc
        obtain ⟨counts, hl, hcm⟩ := hm c m hmc
        cases hr : readSymbol m d.ans ws with
        | none => simp [hr] at hc
        | some r =>
          obtain ⟨s', x, w⟩ := r
          simp only [hr, Option.some.injEq, Prod.mk.injEq] at hc
          rw [← hc.1]
          exact Nat.lt_of_lt_of_le (readSymbol_symbol hcm hr) hl
  | bits n k ih =>
    intro d ws a d' ws' h
    simp only [run] at h
    cases hc : decBits n d ws with
    | none => simp [hc] at h
    | some r =>
      obtain ⟨v, d1, ws1⟩ := r
      simp only [hc] at h
      refine ih v (hp v ?_) h
      have core : ∀ val, (decBitsCore n val d).1 < 2 ^ n := by
        intro val
        unfold decBitsCore
        simp only
        split <;> exact Nat.mod_lt _ (Nat.two_pow_pos n)
      unfold decBits at hc
      split at hc
      · cases ws with
        | nil => simp at hc
        | cons w ws =>
          simp only [Option.some.injEq, Prod.mk.injEq] at hc
          rw [← hc.1]; exact core _
      · simp only [Option.some.injEq, Prod.mk.injEq] at hc
        rw [← hc.1]; exact core _
  | bit n k ih =>
    intro d ws a d' ws' h
    simp only [run] at h
    cases hc : decBit n d ws with
    | none => simp [hc] at h
    | some r =>
      obtain ⟨b, d1, ws1⟩ := r
      simp only [hc] at h
      exact ih b (hp b) h

/-- Whether a program, run on the real sub-decoders, runs into undefined behaviour. -/
def hitsUb (maps : Nat → Option (List SymInfo)) : Prog α → DecSt → List Nat → Bool
  | .ret _, _, _ => false
  | .fail, _, _ => false
  | .ub, _, _ => true
  | .code c k, d, ws =>
    match decCode maps c d ws with
    | none => false
    | some (s, d, ws) => (k s).hitsUb maps d ws
  | .bits n k, d, ws =>
    match decBits n d ws with
    | none => false
    | some (v, d, ws) => (k v).hitsUb maps d ws
  | .bit p k, d, ws =>
    match decBit p d ws with
    | none => false
    | some (b, d, ws) => (k b).hitsUb maps d ws

theorem decCode_lt {maps} (hm : MapsOk maps) {c : Nat} {d d' : DecSt} {ws ws' : List Nat} {s : Nat}
    (hc : decCode maps c d ws = some (s, d', ws')) : s < 18 := by
  unfold decCode at hc
  cases hmc : maps c with
  | none => simp [hmc] at hc
  | some m =>
    simp only [hmc] at hc
    obtain ⟨counts, hl, hcm⟩ := hm c m hmc
    cases hr : readSymbol m d.ans ws with
    | none => simp [hr] at hc
    | some r =>
      obtain ⟨s', x, w⟩ := r
      simp only [hr, Option.some.injEq, Prod.mk.injEq] at hc
      rw [← hc.1]
      exact Nat.lt_of_lt_of_le (readSymbol_symbol hcm hr) hl

theorem decBits_lt {n v : Nat} {d d' : DecSt} {ws ws' : List Nat} (hc : decBits n d ws = some (v, d', ws')) : v < 2 ^ n := by
  have core : ∀ val, (decBitsCore n val d).1 < 2 ^ n := by
    intro val
    unfold decBitsCore
    simp only
    split <;> exact Nat.mod_lt _ (Nat.two_pow_pos n)
  unfold decBits at hc
  split at hc
  · cases ws with
    | nil => simp at hc
    | cons w ws =>
      simp only [Option.some.injEq, Prod.mk.injEq] at hc
      rw [← hc.1]; exact core _
  · simp only [Option.some.injEq, Prod.mk.injEq] at hc
    rw [← hc.1]; exact core _

/-- `All` rules out undefined behaviour on every stream. -/
theorem All.no_ub {maps} (hm : MapsOk maps) {q : α → Prop} (p : Prog α) (hp : p.All q) :
    ∀ d ws, p.hitsUb maps d ws = false := by
  induction p with
  | ret a => intro d ws; rfl
  | fail => intro d ws; rfl
  | ub => exact hp.elim
  | code c k ih =>
    intro d ws
    rw [hitsUb]
    split
    · rfl
    · rename_i s d' ws' h
      exact ih s (hp s (decCode_lt hm h)) _ _
  | bits n k ih =>
    intro d ws
    rw [hitsUb]
    split
    · rfl
    · rename_i s d' ws' h
      exact ih s (hp s (decBits_lt h)) _ _
  | bit n k ih =>
    intro d ws
    rw [hitsUb]
    split
    · rfl
    · rename_i s d' ws' h
      exact ih s (hp s) _ _

end Prog

/-- Whether decoding a section runs into undefined behaviour. -/
def decodeHitsUb {α : Type} (maps : Nat → Option (List SymInfo)) (p : Prog α) (ws : List Nat) : Bool :=
  match decInit ws with
  | none => false
  | some (d, ws) => p.hitsUb maps d ws

theorem decodeHitsUb_false {α : Type} {maps} (hm : Prog.MapsOk maps) {q : α → Prop} {p : Prog α} (hp : p.All q) (ws : List Nat) :
    decodeHitsUb maps p ws = false := by
  unfold decodeHitsUb
  split
  · rfl
  · exact Prog.All.no_ub hm p hp _ _

/-- Whatever words it is given, a section decoder only returns values satisfying `q`. -/
theorem decodeWords_all {α : Type} {maps} (hm : Prog.MapsOk maps) {q : α → Prop} {p : Prog α} (hp : p.All q)
    {ws : List Nat} {a : α} (h : decodeWords maps p ws = some a) : q a := by
  unfold decodeWords at h
  cases hi : decInit ws with
  | none => simp [hi] at h
  | some r =>
    obtain ⟨d, ws1⟩ := r
    simp only [hi] at h
    cases hr : p.run maps d ws1 with
    | none => simp [hr] at h
    | some r =>
      obtain ⟨a', d', ws'⟩ := r
      simp only [hr] at h
      cases ws' with
      | nil =>
        simp only at h
        split at h
        · simp only [Option.some.injEq] at h
          rw [← h]; exact Prog.run_all hm p hp hr
        · simp at h
      | cons w ws' => simp at h

end Brunsli
