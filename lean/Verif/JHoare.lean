import Verif.JMark
/-!
# Reasoning about readers

`m.Wp d p Q`: the reader has no undefined behaviour on the input `d` from position `p` on, and if it succeeds, `Q` holds of its result and position.
-/

namespace Brunsli

def JM.Wp {α : Type} (m : JM α) (d : List Nat) (p : Nat) (Q : α → Nat → Prop) : Prop :=
  match m d p with
  | .ok (a, p') => Q a p'
  | .fail => True
  | .ub => False

namespace JM

theorem Wp.mono {α : Type} {m : JM α} {d : List Nat} {p : Nat} {Q Q' : α → Nat → Prop} (h : m.Wp d p Q) (hq : ∀ a p', Q a p' → Q' a p') : m.Wp d p Q' := by
  unfold Wp at h ⊢
  split <;> rename_i e <;> rw [e] at h
  · exact hq _ _ h
  · trivial
  · exact h

theorem Wp.ok {α : Type} {m : JM α} {d : List Nat} {p : Nat} {Q : α → Nat → Prop} (h : m.Wp d p Q) {a : α} {p' : Nat} (e : m d p = .ok (a, p')) : Q a p' := by
  unfold Wp at h
  rw [e] at h
  exact h

theorem Wp.of_ok {α : Type} {m : JM α} {d : List Nat} {p : Nat} (h : m.Wp d p fun _ _ => True) {Q : α → Nat → Prop} (hq : ∀ a p', m d p = .ok (a, p') → Q a p') : m.Wp d p Q := by
  unfold Wp at h ⊢
  split <;> rename_i e <;> rw [e] at h
  · exact hq _ _ e
  · trivial
  · exact h

theorem Wp.not_ub {α : Type} {m : JM α} {d : List Nat} {p : Nat} {Q : α → Nat → Prop} (h : m.Wp d p Q) : m d p ≠ .ub := by
  intro e
  unfold Wp at h
  rw [e] at h
  exact h

theorem wp_bind {α β : Type} {m : JM α} {f : α → JM β} {d : List Nat} {p : Nat} {Q : β → Nat → Prop} :
    (m >>= f).Wp d p Q ↔ m.Wp d p fun a p' => (f a).Wp d p' Q := by
  show (JM.andThen m f).Wp d p Q ↔ _
  unfold Wp JM.andThen
  cases h : m d p with
  | ok q => obtain ⟨a, p'⟩ := q; rfl
  | fail => rfl
  | ub => rfl

theorem wp_pure {α : Type} {a : α} {d : List Nat} {p : Nat} {Q : α → Nat → Prop} : (pure a : JM α).Wp d p Q ↔ Q a p := Iff.rfl

theorem wp_fail {α : Type} {d : List Nat} {p : Nat} {Q : α → Nat → Prop} : JM.Wp (α := α) (fun _ _ => .fail) d p Q ↔ True := Iff.rfl

theorem wp_pos {d : List Nat} {p : Nat} {Q : Nat → Nat → Prop} : pos.Wp d p Q ↔ Q p p := Iff.rfl

theorem wp_check {c : Bool} {d : List Nat} {p : Nat} {Q : Unit → Nat → Prop} : (check c).Wp d p Q ↔ (c = true → Q () p) := by
  unfold Wp check
  cases c <;> simp

theorem wp_need {n : Nat} {d : List Nat} {p : Nat} {Q : Unit → Nat → Prop} : (need n).Wp d p Q ↔ (p + n ≤ d.length → Q () p) := by
  unfold Wp need
  by_cases h : d.length < p + n
  · simp [h]
  · simp [h, Nat.not_lt.mp h]

theorem wp_u8 {d : List Nat} {p : Nat} {Q : Nat → Nat → Prop} : u8.Wp d p Q ↔ (p < d.length ∧ Q (byteOf d p) (p + 1)) := by
  unfold Wp u8
  by_cases h : p < d.length <;> simp [h]

theorem wp_u16 {d : List Nat} {p : Nat} {Q : Nat → Nat → Prop} : u16.Wp d p Q ↔ (p + 1 < d.length ∧ Q (byteOf d p * 256 + byteOf d (p + 1)) (p + 2)) := by
  unfold Wp u16
  by_cases h : p + 1 < d.length <;> simp [h]

theorem wp_endsAt {e : Nat} {d : List Nat} {p : Nat} {Q : Unit → Nat → Prop} : (endsAt e).Wp d p Q ↔ (e = p → Q () p) := by
  unfold Wp endsAt
  by_cases h : e = p <;> simp [h]

end JM

theorem byteOf_lt {d : List Nat} (hd : Bytes d) (i : Nat) : byteOf d i < 256 := by
  unfold byteOf
  rw [List.getD_eq_getElem?_getD]
  cases h : d[i]? with
  | none => simp
  | some b => exact hd b (List.mem_of_getElem? h)

theorem slice_nil (d : List Nat) {a b : Nat} (h : b ≤ a) : slice d a b = [] := by
  unfold slice
  rw [show b - a = 0 by omega]
  rfl

theorem slice_cons (d : List Nat) {a b : Nat} (h : a < b) : slice d a b = byteOf d a :: slice d (a + 1) b := by
  rw [slice_append (b := a + 1) (by omega) (by omega), slice_one]
  rfl

theorem slice_length (d : List Nat) (a b : Nat) : (slice d a b).length = b - a := by
  unfold slice
  simp

theorem slice_bytes {d : List Nat} (hd : Bytes d) (a b : Nat) : Bytes (slice d a b) := by
  intro x hx
  unfold slice at hx
  obtain ⟨i, -, rfl⟩ := List.mem_map.mp hx
  exact byteOf_lt hd _

theorem be16_u16 {a b : Nat} (ha : a < 256) (hb : b < 256) : be16 (a * 256 + b) = [a, b] := by
  unfold be16
  rw [show (a * 256 + b) / 256 % 256 = a by omega, show (a * 256 + b) % 256 = b by omega]

end Brunsli
