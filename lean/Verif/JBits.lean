import Verif.Bits
import Verif.Base128
/-!
# Bits and bytes of entropy-coded JPEG data

JPEG packs bits into bytes from the most significant bit down, and writes a zero byte after every 0xFF byte.  These
are the specifications of the two operations, independent of the code.
-/

namespace Brunsli

/-- The `n` low bits of `v`, most significant first. -/
def msb : Nat → Nat → List Bool
  | 0, _ => []
  | n + 1, v => decide (v / 2 ^ n % 2 = 1) :: msb n v

/-- The number denoted by a bit list, most significant bit first. -/
def ofMsb : List Bool → Nat
  | [] => 0
  | b :: bs => b.toNat * 2 ^ bs.length + ofMsb bs

/-- The bits of a byte string. -/
def bytesMsb (g : List Nat) : List Bool := g.flatMap (msb 8)

/-- Byte stuffing: a zero after every 0xFF. -/
def stuff : List Nat → List Nat
  | [] => []
  | b :: g => if b = 255 then 255 :: 0 :: stuff g else b :: stuff g

/-- Removal of the stuffing. -/
def unstuff : List Nat → List Nat
  | [] => []
  | 255 :: 0 :: g => 255 :: unstuff g
  | b :: g => b :: unstuff g

/-- In a byte string every 0xFF is followed by a zero. -/
def NoMarker : List Nat → Prop
  | [] => True
  | [b] => b ≠ 255
  | b :: c :: g => (b = 255 → c = 0) ∧ NoMarker (c :: g)

@[simp] theorem msb_length (n v : Nat) : (msb n v).length = n := by
  induction n with
  | zero => rfl
  | succ n ih => simp [msb, ih]

theorem ofMsb_lt (bs : List Bool) : ofMsb bs < 2 ^ bs.length := by
  induction bs with
  | nil => simp [ofMsb]
  | cons b bs ih =>
    simp only [ofMsb, List.length_cons, Nat.pow_succ]
    cases b <;> simp <;> omega

theorem ofMsb_append (a b : List Bool) : ofMsb (a ++ b) = ofMsb a * 2 ^ b.length + ofMsb b := by
  induction a with
  | nil => simp [ofMsb]
  | cons x a ih =>
    simp only [List.cons_append, ofMsb, ih, List.length_append, Nat.pow_add, Nat.add_mul, Nat.mul_assoc, Nat.add_assoc]

theorem ofMsb_msb (n v : Nat) : ofMsb (msb n v) = v % 2 ^ n := by
  induction n with
  | zero => simp [msb, ofMsb, Nat.mod_one]
  | succ n ih =>
    simp only [msb, ofMsb, ih, msb_length]
    have h : v % 2 ^ (n + 1) = v % 2 ^ n + 2 ^ n * (v / 2 ^ n % 2) := by rw [Nat.pow_succ, Nat.mod_mul]
    rw [h]
    rcases Nat.mod_two_eq_zero_or_one (v / 2 ^ n) with h | h <;> simp [h] <;> omega

theorem ofMsb_msb_lt {n v : Nat} (h : v < 2 ^ n) : ofMsb (msb n v) = v := by
  rw [ofMsb_msb, Nat.mod_eq_of_lt h]

theorem msb_congr {n a b : Nat} (h : a % 2 ^ n = b % 2 ^ n) : msb n a = msb n b := by
  induction n with
  | zero => rfl
  | succ n ih =>
    have h1 : a % 2 ^ n = b % 2 ^ n := by
      have e : ∀ x : Nat, x % 2 ^ n = x % 2 ^ (n + 1) % 2 ^ n := fun x => by
        rw [Nat.mod_mod_of_dvd _ (Nat.pow_dvd_pow 2 (Nat.le_succ n))]
      rw [e a, e b, h]
    have h2 : a / 2 ^ n % 2 = b / 2 ^ n % 2 := by
      have e : ∀ x : Nat, x / 2 ^ n % 2 = x % 2 ^ (n + 1) / 2 ^ n := fun x => by
        rw [Nat.pow_succ, Nat.mod_mul, Nat.add_mul_div_left _ _ (Nat.two_pow_pos n),
          Nat.div_eq_of_lt (Nat.mod_lt _ (Nat.two_pow_pos n)), Nat.zero_add]
      rw [e a, e b, h]
    simp only [msb, ih h1, h2]

theorem msb_ofMsb (bs : List Bool) : msb bs.length (ofMsb bs) = bs := by
  induction bs with
  | nil => rfl
  | cons b bs ih =>
    have hl := ofMsb_lt bs
    have h1 : (b.toNat * 2 ^ bs.length + ofMsb bs) / 2 ^ bs.length = b.toNat := by
      rw [Nat.mul_comm, Nat.mul_add_div (Nat.two_pow_pos _), Nat.div_eq_of_lt hl, Nat.add_zero]
    have h2 : msb bs.length (b.toNat * 2 ^ bs.length + ofMsb bs) = bs := by
      refine Eq.trans (msb_congr ?_) ih
      rw [Nat.mul_comm, Nat.mul_add_mod]
    simp only [List.length_cons, msb, ofMsb, h1, h2]
    cases b <;> rfl

theorem ofMsb_inj {a b : List Bool} (hl : a.length = b.length) (h : ofMsb a = ofMsb b) : a = b := by
  rw [← msb_ofMsb a, ← msb_ofMsb b, hl, h]

theorem msb_append (m n v : Nat) : msb (m + n) v = msb m (v / 2 ^ n) ++ msb n v := by
  induction m with
  | zero => simp [msb]
  | succ m ih =>
    rw [Nat.succ_add]
    simp only [msb, ih, List.cons_append, Nat.div_div_eq_div_mul, ← Nat.pow_add, Nat.add_comm n m]

@[simp] theorem bytesMsb_length (g : List Nat) : (bytesMsb g).length = 8 * g.length := by
  induction g with
  | nil => rfl
  | cons b g ih =>
    unfold bytesMsb at ih ⊢
    rw [List.flatMap_cons, List.length_append, ih, msb_length, List.length_cons]; omega

theorem bytesMsb_append (a b : List Nat) : bytesMsb (a ++ b) = bytesMsb a ++ bytesMsb b := List.flatMap_append

theorem bytesMsb_inj {a b : List Nat} (ha : Bytes a) (hb : Bytes b) (h : bytesMsb a = bytesMsb b) : a = b := by
  induction a generalizing b with
  | nil =>
    cases b with
    | nil => rfl
    | cons y b => have := congrArg List.length h; simp at this
  | cons x a ih =>
    cases b with
    | nil => have := congrArg List.length h; simp at this
    | cons y b =>
      unfold bytesMsb at h
      rw [List.flatMap_cons, List.flatMap_cons] at h
      have h' := List.append_inj h (by simp)
      have e : x = y := by
        have := congrArg ofMsb h'.1
        rwa [ofMsb_msb_lt (ha x List.mem_cons_self), ofMsb_msb_lt (hb y List.mem_cons_self)] at this
      rw [e, ih (fun z hz => ha z (List.mem_cons_of_mem _ hz)) (fun z hz => hb z (List.mem_cons_of_mem _ hz)) h'.2]

theorem stuff_append (a b : List Nat) : stuff (a ++ b) = stuff a ++ stuff b := by
  induction a with
  | nil => rfl
  | cons x a ih =>
    simp only [List.cons_append, stuff, ih]
    split <;> simp

theorem unstuff_stuff (g : List Nat) : unstuff (stuff g) = g := by
  induction g with
  | nil => rfl
  | cons x g ih =>
    rw [stuff]
    split
    · rename_i h; subst h; rw [unstuff, ih]
    · rename_i h
      rw [unstuff, ih]
      intro g' h'; exact absurd h' h

theorem stuff_ne_nil {g : List Nat} (h : g ≠ []) : stuff g ≠ [] := by
  cases g with
  | nil => exact absurd rfl h
  | cons x g => rw [stuff]; split <;> simp

theorem stuff_noMarker (g : List Nat) : NoMarker (stuff g) := by
  induction g with
  | nil => trivial
  | cons x g ih =>
    have key : ∀ y, y ≠ 255 → NoMarker (y :: stuff g) := by
      intro y hy
      cases hs : stuff g with
      | nil => exact hy
      | cons c t => rw [hs] at ih; exact ⟨fun h => absurd h hy, ih⟩
    rw [stuff]
    split
    · exact ⟨fun _ => rfl, key 0 (by decide)⟩
    · rename_i h; exact key x h

theorem stuff_bytes {g : List Nat} (h : Bytes g) : Bytes (stuff g) := by
  induction g with
  | nil => exact h
  | cons x g ih =>
    have h1 := h x List.mem_cons_self
    have h2 := ih fun z hz => h z (List.mem_cons_of_mem _ hz)
    rw [stuff]
    split
    · intro z hz
      rcases List.mem_cons.mp hz with rfl | hz
      · decide
      · rcases List.mem_cons.mp hz with rfl | hz
        · decide
        · exact h2 z hz
    · intro z hz
      rcases List.mem_cons.mp hz with rfl | hz
      · exact h1
      · exact h2 z hz

end Brunsli
