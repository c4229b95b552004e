import Verif.Enc
import Mathlib.Logic.Function.Basic
/-!
# The order in which blocks are coded

The loops of `EncodeDC`, `EncodeAC` (c/enc/brunsli_encode.cc:1115-1124, 1217-1239), `DecodeDC`, `DecodeAC`
(c/dec/brunsli_decode.cc:644-668, 905-938) over MCU rows, components, block rows and columns.
-/

namespace Brunsli

/-- The part of `ComponentMeta` the loops use: `width_in_blocks`, `v_samp` and, for the contexts, `context_offset`
and `context_bits` (c/enc/state.h:28-46, c/dec/state.h:36-60). -/
structure Meta where
  w : Nat
  vs : Nat
  ctxOffset : Nat
  ctxBits : Nat
deriving DecidableEq, Repr

/-- The positions (component, y, x) of one row of blocks. -/
def rowPos (c w y : Nat) : List (Nat × Nat × Nat) := (List.range w).map fun x => (c, y, x)

/-- The rows of one component in one MCU row. -/
def compPos (c : Nat) (m : Meta) (r : Nat) : List (Nat × Nat × Nat) := (List.range m.vs).flatMap fun iy => rowPos c m.w (r * m.vs + iy)

/-- All components of one MCU row. -/
def mcuPos (r : Nat) : Nat → List Meta → List (Nat × Nat × Nat)
  | _, [] => []
  | c, m :: ms => compPos c m r ++ mcuPos r (c + 1) ms

/-- The whole image. -/
def schedule (rows : Nat) (ms : List Meta) : List (Nat × Nat × Nat) := (List.range rows).flatMap fun r => mcuPos r 0 ms

/-- `d c` blocks of component `c` have been visited; each further position is the next one, in raster order, of its
component. -/
def Sched (rows : Nat) (ms : List Meta) : (Nat → Nat) → List (Nat × Nat × Nat) → (Nat → Nat) → Prop
  | d, [], d' => d = d'
  | d, (c, y, x) :: l, d' => ∃ m, ms[c]? = some m ∧ x < m.w ∧ y < rows * m.vs ∧ d c = y * m.w + x ∧
    Sched rows ms (Function.update d c (d c + 1)) l d'

theorem Sched.append {rows : Nat} {ms : List Meta} : ∀ {l₁ l₂ : List (Nat × Nat × Nat)} {d d' d'' : Nat → Nat},
    Sched rows ms d l₁ d' → Sched rows ms d' l₂ d'' → Sched rows ms d (l₁ ++ l₂) d'' := by
  intro l₁
  induction l₁ with
  | nil => intro l₂ d d' d'' h1 h2; rw [show d = d' from h1]; exact h2
  | cons p l₁ ih =>
    obtain ⟨c, y, x⟩ := p
    intro l₂ d d' d'' h1 h2
    obtain ⟨m, a, b, e, f, g⟩ := h1
    exact ⟨m, a, b, e, f, ih g h2⟩

theorem sched_row {rows : Nat} {ms : List Meta} {c : Nat} {m : Meta} {y : Nat} (hm : ms[c]? = some m) (hy : y < rows * m.vs)
    {d : Nat → Nat} (hd : d c = y * m.w) : Sched rows ms d (rowPos c m.w y) (Function.update d c ((y + 1) * m.w)) := by
  have key : ∀ k x, x + k = m.w → ∀ d : Nat → Nat, d c = y * m.w + x →
      Sched rows ms d ((List.range' x k).map fun x => (c, y, x)) (Function.update d c ((y + 1) * m.w)) := by
    intro k
    induction k with
    | zero =>
      intro x hx d hd
      show d = _
      have e : d c = (y + 1) * m.w := by rw [hd, Nat.add_mul]; omega
      rw [← e, Function.update_eq_self]
    | succ k ih =>
      intro x hx d hd
      rw [List.range'_succ, List.map_cons]
      refine ⟨m, hm, by omega, hy, hd, ?_⟩
      have := ih (x + 1) (by omega) (Function.update d c (d c + 1)) (by rw [Function.update_self]; omega)
      rw [Function.update_idem] at this
      exact this
  have := key m.w 0 (by omega) d (by rw [hd]; omega)
  rw [← List.range_eq_range'] at this
  exact this

theorem sched_comp {rows : Nat} {ms : List Meta} {c : Nat} {m : Meta} {r : Nat} (hm : ms[c]? = some m) (hr : r < rows)
    {d : Nat → Nat} (hd : d c = r * m.vs * m.w) :
    Sched rows ms d (compPos c m r) (Function.update d c ((r + 1) * m.vs * m.w)) := by
  have hb : (r + 1) * m.vs ≤ rows * m.vs := Nat.mul_le_mul_right _ hr
  rw [Nat.add_mul, Nat.one_mul] at hb
  have key : ∀ k i, i + k = m.vs → ∀ d : Nat → Nat, d c = (r * m.vs + i) * m.w →
      Sched rows ms d ((List.range' i k).flatMap fun iy => rowPos c m.w (r * m.vs + iy)) (Function.update d c ((r + 1) * m.vs * m.w)) := by
    intro k
    induction k with
    | zero =>
      intro i hi d hd
      show d = _
      have e : d c = (r + 1) * m.vs * m.w := by rw [hd, Nat.add_mul r, Nat.one_mul]; congr 2
      rw [← e, Function.update_eq_self]
    | succ k ih =>
      intro i hi d hd
      rw [List.range'_succ, List.flatMap_cons]
      refine (sched_row hm (by omega) hd).append ?_
      have := ih (i + 1) (by omega) (Function.update d c ((r * m.vs + i + 1) * m.w)) (by rw [Function.update_self]; rfl)
      rw [Function.update_idem] at this
      exact this
  have := key m.vs 0 (by omega) d (by rw [hd]; rfl)
  rw [← List.range_eq_range'] at this
  exact this

/-- Blocks visited after `r` MCU rows. -/
def visited (ms : List Meta) (r c : Nat) : Nat :=
  match ms[c]? with
  | none => 0
  | some m => r * m.vs * m.w

theorem sched_mcu {rows : Nat} {ms : List Meta} {r : Nat} (hr : r < rows) :
    Sched rows ms (visited ms r) (mcuPos r 0 ms) (visited ms (r + 1)) := by
  have key : ∀ (rest : List Meta) (c : Nat), ms.drop c = rest → ∀ d : Nat → Nat,
      (∀ i, d i = if i < c then visited ms (r + 1) i else visited ms r i) →
      Sched rows ms d (mcuPos r c rest) (visited ms (r + 1)) := by
    intro rest
    induction rest with
    | nil =>
      intro c hc d hd
      have hlen : ms.length ≤ c := List.drop_eq_nil_iff.mp hc
      show d = _
      funext i
      rw [hd i]
      split
      · rfl
      · have : ms[i]? = none := List.getElem?_eq_none (by omega)
        unfold visited; rw [this]
    | cons m rest ih =>
      intro c hc d hd
      have hm : ms[c]? = some m := by
        have : (ms.drop c)[0]? = some m := by rw [hc]; rfl
        rwa [List.getElem?_drop, Nat.add_zero] at this
      have hrest : ms.drop (c + 1) = rest := by
        have : (ms.drop c).drop 1 = rest := by rw [hc]; rfl
        rwa [List.drop_drop] at this
      rw [mcuPos]
      refine (sched_comp hm hr (d := d) ?_).append (ih (c + 1) hrest _ ?_)
      · rw [hd c, if_neg (by omega)]; unfold visited; rw [hm]
      · intro i
        by_cases hi : i = c
        · subst hi
          rw [Function.update_self, if_pos (by omega)]; unfold visited; rw [hm]
        · rw [Function.update_of_ne hi, hd i]
          by_cases h : i < c
          · rw [if_pos h, if_pos (by omega)]
          · rw [if_neg h, if_neg (by omega)]
  exact key ms 0 rfl _ fun i => by rw [if_neg (by omega)]

theorem sched_all {rows : Nat} {ms : List Meta} : Sched rows ms (fun _ => 0) (schedule rows ms) (visited ms rows) := by
  have key : ∀ k r, r + k = rows → Sched rows ms (visited ms r) ((List.range' r k).flatMap fun r => mcuPos r 0 ms) (visited ms rows) := by
    intro k
    induction k with
    | zero => intro r hr; show _ = _; rw [show r = rows by omega]
    | succ k ih =>
      intro r hr
      rw [List.range'_succ, List.flatMap_cons]
      exact (sched_mcu (by omega)).append (ih (r + 1) (by omega))
  have h0 : visited ms 0 = fun _ => 0 := by
    funext c; unfold visited; split <;> simp
  have := key rows 0 (by omega)
  rw [h0, ← List.range_eq_range'] at this
  exact this

/-! ## Loops -/

/-- A decoding loop. -/
def Prog.loop {α ι : Type} (f : α → ι → Prog α) : α → List ι → Prog α
  | a, [] => Pure.pure a
  | a, i :: l => f a i >>= fun a => Prog.loop f a l

/-- An encoding loop. -/
def E.loop {α ι : Type} (f : α → ι → E α) : α → List ι → E α
  | a, [] => Pure.pure a
  | a, i :: l => f a i >>= fun a => E.loop f a l

theorem Prog.loop_all {α ι : Type} {f : α → ι → Prog α} {q : α → Prop} {l : List ι} (hf : ∀ i ∈ l, ∀ a, q a → (f a i).All q) :
    ∀ {a : α}, q a → (Prog.loop f a l).All q := by
  induction l with
  | nil => intro a ha; exact Prog.All.pure ha
  | cons i l ih =>
    intro a ha
    exact Prog.All.bind (hf i List.mem_cons_self a ha) fun a' ha' => ih (fun j hj => hf j (List.mem_cons_of_mem _ hj)) ha'

/-- Encoder and decoder in step along the schedule. -/
theorem Sim.loop {α β : Type} {n rows : Nat} {ms : List Meta} {f : α → Nat × Nat × Nat → E α} {g : β → Nat × Nat × Nat → Prog β}
    {R : (Nat → Nat) → α → β → Prop}
    (hstep : ∀ d a b c y x m, R d a b → ms[c]? = some m → x < m.w → y < rows * m.vs → d c = y * m.w + x →
      Sim n (R (Function.update d c (d c + 1))) (f a (c, y, x)) (g b (c, y, x))) :
    ∀ {l : List (Nat × Nat × Nat)} {d d' : Nat → Nat} {a : α} {b : β}, Sched rows ms d l d' → R d a b →
      Sim n (R d') (E.loop f a l) (Prog.loop g b l) := by
  intro l
  induction l with
  | nil => intro d d' a b hs hr; rw [show d = d' from hs] at hr; exact Sim.pure hr
  | cons p l ih =>
    obtain ⟨c, y, x⟩ := p
    intro d d' a b hs hr
    obtain ⟨m, h1, h2, h3, h4, h5⟩ := hs
    exact Sim.bind (hstep d a b c y x m hr h1 h2 h3 h4) fun a' b' hr' => ih h5 hr'

theorem Sched.mem {rows : Nat} {ms : List Meta} : ∀ {l : List (Nat × Nat × Nat)} {d d' : Nat → Nat}, Sched rows ms d l d' →
    ∀ p ∈ l, ∃ m, ms[p.1]? = some m ∧ p.2.2 < m.w ∧ p.2.1 < rows * m.vs := by
  intro l
  induction l with
  | nil => intro d d' _ p hp; simp at hp
  | cons q l ih =>
    obtain ⟨c, y, x⟩ := q
    intro d d' h p hp
    obtain ⟨m, h1, h2, h3, h4, h5⟩ := h
    rcases List.mem_cons.mp hp with rfl | hp
    · exact ⟨m, h1, h2, h3⟩
    · exact ih h5 p hp

end Brunsli
