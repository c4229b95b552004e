import Verif.JSafeBits
import Verif.JValues
import Mathlib.Tactic.Linarith
/-!
# The checked block decoders

Symbol by symbol and bit by bit they are the unchecked ones, as long as the numbers they start from are in range.
-/

namespace Brunsli

/-- The checked program does the same as the unchecked one, for all symbols and bits, and the results have the property `Q`. -/
inductive CProg.Same {α : Type} (Q : α → Prop) : CProg α → JProg α → Prop where
  | pure {a : α} : Q a → CProg.Same Q (.pure a) (.pure a)
  | fail : CProg.Same Q .fail .fail
  | sym {t : HSlot} {k : Nat → CProg α} {k' : Nat → JProg α} : (∀ v, v < 256 → CProg.Same Q (k v) (k' v)) → CProg.Same Q (.sym t k) (.sym t k')
  | bits {n : Nat} {k : Nat → CProg α} {k' : Nat → JProg α} : 1 ≤ n → n ≤ 16 → (∀ x, x < 2 ^ n → CProg.Same Q (k x) (k' x)) → CProg.Same Q (.bits n k) (.bits n k')

namespace CProg

theorem Same.bind {α β : Type} {Q : α → Prop} {R : β → Prop} {p : CProg α} {p' : JProg α} (h : p.Same Q p') {f : α → CProg β} {f' : α → JProg β}
    (hf : ∀ a, Q a → (f a).Same R (f' a)) : (p.bind f).Same R (p'.bind f') := by
  induction h with
  | pure ha => exact hf _ ha
  | fail => exact .fail
  | sym _ ih => exact .sym fun v hv => ih v hv
  | bits h1 h2 _ ih => exact .bits h1 h2 fun x hx => ih x hx

theorem Same.imp {α : Type} {Q R : α → Prop} {p : CProg α} {p' : JProg α} (h : p.Same Q p') (hq : ∀ a, Q a → R a) : p.Same R p' := by
  induction h with
  | pure ha => exact .pure (hq _ ha)
  | fail => exact .fail
  | sym _ ih => exact .sym ih
  | bits h1 h2 _ ih => exact .bits h1 h2 ih

theorem int_eq {α : Type} {x : Int} (h : -2147483648 ≤ x ∧ x ≤ 2147483647) (k : Int → CProg α) : CProg.int x k = k x := if_pos h

theorem short_eq {α : Type} {x : Int} (h : -32768 ≤ x ∧ x ≤ 32767) (k : Int → CProg α) : CProg.short x k = k x := if_pos h

theorem spot_eq {α : Type} {k : Nat} (h : k < 64) (p : CProg α) : CProg.spot k p = p := if_pos h

/-- **The checked program runs like the unchecked one.** -/
theorem Same.run {α : Type} {Q : α → Prop} {data : List Nat} (hd : Bytes data) {lut : HSlot → JMem} {T : HSlot → CodeTable} (hT : ∀ t, SlotMatch (lut t) (T t)) {start : Nat}
    {p : CProg α} {p' : JProg α} (h : p.Same Q p') : ∀ {c : Nat} {b : JR}, b.Rep data start c →
    p.run data lut b = Run.ofOption (p'.run data lut b) ∧ ∀ a b', p'.run data lut b = some (a, b') → Q a ∧ ∃ c', b'.Rep data start c' := by
  induction h with
  | pure ha =>
    intro c b hb
    refine ⟨rfl, fun a b' h => ?_⟩
    rw [JProg.run] at h
    cases h
    exact ⟨ha, c, hb⟩
  | fail => intro c b _; exact ⟨rfl, nofun⟩
  | sym _ ih =>
    rename_i t k k' _
    intro c b hb
    have hx : ofMsb (window data start c 16) < 65536 := by
      have := ofMsb_lt (window data start c 16)
      rwa [window_length] at this
    obtain ⟨e1, e2⟩ := JR.readSymbol_rep hd hb (m := lut t) (hT t).bits
    rw [CProg.run, JProg.run, JR.readSymbolC_ok hd hb (hT t).bits fun x hx => ((hT t).word x hx).1]
    dsimp only [Run.bind]
    by_cases hlt : (b.readSymbol data (lut t)).1 < 256
    · rw [if_pos hlt, if_pos hlt]
      exact ih _ hlt (e2 (((hT t).word _ hx).2 (by rw [← e1]; exact hlt)).2.1)
    · rw [if_neg hlt, if_neg hlt]
      exact ⟨rfl, nofun⟩
  | bits h1 h2 _ ih =>
    rename_i n k k' _
    intro c b hb
    obtain ⟨e1, e2⟩ := JR.readBits_rep hd hb h2
    rw [CProg.run, JProg.run, JR.readBitsC_ok hd hb h1 h2]
    dsimp only [Run.bind]
    refine ih _ ?_ e2
    rw [e1]
    have := ofMsb_lt (window data start c n)
    rwa [window_length] at this

end CProg

open CProg

theorem pow_cases (s : Nat) (h : s ≤ 15) : (2 : Int) ^ s ≤ 32768 ∧ 1 ≤ (2 : Int) ^ s := by
  have h1 : 2 ^ s ≤ 2 ^ 15 := Nat.pow_le_pow_right (by decide) h
  have h2 := Nat.two_pow_pos s
  have h3 : ((2 ^ s : Nat) : Int) = (2 : Int) ^ s := by rw [Int.natCast_pow]; rfl
  omega

theorem huffExtend_bound {x s : Nat} (hx : x < 2 ^ s) : -(2 : Int) ^ s < huffExtend x s ∧ huffExtend x s < 2 ^ s := by
  unfold huffExtend
  have h3 : ((2 ^ s : Nat) : Int) = (2 : Int) ^ s := by rw [Int.natCast_pow]; rfl
  split <;> omega

theorem huffExtendC_eq {α : Type} {x s : Nat} (h1 : 1 ≤ s) (h2 : s ≤ 15) (hx : x < 2 ^ s) (k : Int → CProg α) : huffExtendC x s k = k (huffExtend x s) := by
  have hp := pow_cases s h2
  have hb := huffExtend_bound hx
  have h3 : ((2 ^ s : Nat) : Int) = (2 : Int) ^ s := by rw [Int.natCast_pow]; rfl
  unfold huffExtendC
  rw [if_neg (by omega), int_eq (by omega)]
  unfold huffExtend at hb ⊢
  by_cases h : 2 ^ (s - 1) ≤ x
  · rw [if_pos h, if_pos h]
  · rw [if_neg h] at hb
    rw [if_neg h, if_neg h, int_eq (by omega), int_eq (by omega)]

/-- What is known of the numbers after a block that began with the run `e`. -/
structure BlkPost (e : Int) (o : BlkOut) : Prop where
  low : e - 1 ≤ o.eob ∨ 0 ≤ o.eob
  high : o.eob ≤ 32767
  last : -32768 ≤ o.last ∧ o.last ≤ 32767

theorem endRunC_same {B : Blk} {last e e0 : Int} {reset : Bool} {nzr : Nat} (h1 : -1073741824 ≤ e) (h2 : e ≤ 32768) (h0 : e0 ≤ e ∨ 1 ≤ e) (hl : -32768 ≤ last ∧ last ≤ 32767) :
    (endRunC B last e reset nzr).Same (BlkPost e0) (.pure ⟨B, last, e - 1, reset, nzr⟩) := by
  unfold endRunC
  rw [int_eq (by omega)]
  exact .pure ⟨by show e0 - 1 ≤ e - 1 ∨ 0 ≤ e - 1; omega, by show e - 1 ≤ 32767; omega, hl⟩

theorem run_value {r x : Nat} (h1 : r < 15) (hx : x < 2 ^ r) : (2 : Int) ^ r + x ≤ 32768 ∧ 1 ≤ (2 : Int) ^ r + x ∧ ((2 ^ r + x : Nat) : Int) = 2 ^ r + x := by
  have h3 : ((2 ^ r : Nat) : Int) = (2 : Int) ^ r := by rw [Int.natCast_pow]; rfl
  have h4 : 2 ^ r ≤ 2 ^ 14 := Nat.pow_le_pow_right (by decide) (by omega)
  have := Nat.two_pow_pos r
  omega

/-- A coefficient that is not out of range fits. -/
theorem ac_value {c : Int} {s Al : Nat} (h : s + Al < 12) (h1 : -(2 : Int) ^ s < c) (h2 : c < 2 ^ s) : -32768 ≤ c * 2 ^ Al ∧ c * 2 ^ Al ≤ 32767 := by
  have e : (2 : Int) ^ s * 2 ^ Al = 2 ^ (s + Al) := (Int.pow_add 2 s Al).symm
  have hp := pow_cases (s + Al) (by omega)
  have hq : (2 : Int) ^ (s + Al) ≤ 2048 := by
    have h1 : 2 ^ (s + Al) ≤ 2 ^ 11 := Nat.pow_le_pow_right (by decide) (by omega)
    have h3 : ((2 ^ (s + Al) : Nat) : Int) = (2 : Int) ^ (s + Al) := by rw [Int.natCast_pow]; rfl
    omega
  have ha : (0 : Int) ≤ 2 ^ Al := by have := (pow_cases Al (by omega)).2; omega
  have b1 : c * 2 ^ Al ≤ 2 ^ s * 2 ^ Al := Int.mul_le_mul_of_nonneg_right (by omega) ha
  have b2 : -(2 : Int) ^ s * 2 ^ Al ≤ c * 2 ^ Al := Int.mul_le_mul_of_nonneg_right (by omega) ha
  rw [Int.neg_mul] at b2
  omega

theorem decACC_same {ac : HSlot} {Ss Se Al : Nat} {allowed : Bool} {last e : Int} (hse : Se ≤ 63) (he : -1073741824 ≤ e ∧ e ≤ 32767)
    (hl : -32768 ≤ last ∧ last ≤ 32767) (n : Nat) : ∀ {k nzr : Nat} {B : Blk},
    (decACC ac Ss Se Al allowed last e n k nzr B).Same (BlkPost e) (decAC ac Ss Se Al allowed last e n k nzr B) := by
  induction n with
  | zero =>
    intro k nzr B
    exact endRunC_same he.1 (by omega) (by omega) hl
  | succ n ih =>
    intro k nzr B
    rw [decACC, decAC]
    by_cases h1 : Se < k
    · rw [if_pos h1, if_pos h1]
      exact endRunC_same he.1 (by omega) (by omega) hl
    rw [if_neg h1, if_neg h1]
    refine .sym fun sr hsr => ?_
    by_cases h2 : 0 < sr % 16
    · rw [if_pos h2, if_pos h2]
      by_cases h3 : Se < k + sr / 16
      · rw [if_pos h3, if_pos h3]; exact .fail
      rw [if_neg h3, if_neg h3]
      by_cases h4 : 12 ≤ sr % 16 + Al
      · rw [if_pos h4, if_pos h4]; exact .fail
      rw [if_neg h4, if_neg h4]
      refine .bits h2 (by omega) fun x hx => ?_
      obtain ⟨b1, b2⟩ := huffExtend_bound hx
      have hv := ac_value (Al := Al) (by omega) b1 b2
      rw [huffExtendC_eq h2 (by omega) hx, int_eq (by omega), short_eq hv, spot_eq (by omega)]
      exact ih
    · rw [if_neg h2, if_neg h2]
      by_cases h3 : sr / 16 = 15
      · rw [if_pos h3, if_pos h3]
        exact ih
      rw [if_neg h3, if_neg h3]
      have hp := pow_cases (sr / 16) (by omega)
      rw [int_eq (by omega)]
      by_cases h4 : 0 < sr / 16
      · rw [if_pos h4, if_pos h4]
        by_cases h5 : allowed = true
        · rw [if_pos h5, if_pos h5]
          refine .bits h4 (by omega) fun x hx => ?_
          obtain ⟨v1, v2, v3⟩ := run_value (r := sr / 16) (by omega) hx
          rw [int_eq (by omega), v3]
          exact endRunC_same (by omega) (by omega) (.inr (by omega)) hl
        · rw [if_neg h5, if_neg h5]; exact .fail
      · rw [if_neg h4, if_neg h4]
        have h0 : sr / 16 = 0 := by omega
        rw [h0]
        exact endRunC_same (e := 1) (by omega) (by omega) (.inr (by omega)) hl

theorem decRestC_same {ac : HSlot} {Ss Se Al : Nat} {allowed : Bool} {last e : Int} {B : Blk} (hse : Se ≤ 63) (he : -1073741824 ≤ e ∧ e ≤ 32767)
    (hl : -32768 ≤ last ∧ last ≤ 32767) : (decRestC ac Ss Se Al allowed last e B).Same (BlkPost e) (decRest ac Ss Se Al allowed last e B) := by
  unfold decRestC decRest
  by_cases h1 : Se < Ss
  · rw [if_pos h1, if_pos h1]
    exact .pure ⟨by show e - 1 ≤ e ∨ 0 ≤ e; omega, he.2, hl⟩
  rw [if_neg h1, if_neg h1]
  by_cases h2 : 0 < e
  · rw [if_pos h2, if_pos h2]
    exact endRunC_same he.1 (by omega) (by omega) hl
  · rw [if_neg h2, if_neg h2]
    exact decACC_same hse he hl _

theorem dc_value {c : Int} {Al : Nat} (hal : Al ≤ 10) (h : -65536 ≤ c ∧ c ≤ 65536) : (-2147483648 ≤ c * 2 ^ Al ∧ c * 2 ^ Al ≤ 2147483647) ∧
    (i16 (c * 2 ^ Al) = c * 2 ^ Al → -32768 ≤ c ∧ c ≤ 32767) := by
  have hp := pow_cases Al (by omega)
  have hq : (2 : Int) ^ Al ≤ 1024 := by
    have h1 : 2 ^ Al ≤ 2 ^ 10 := Nat.pow_le_pow_right (by decide) hal
    have h3 : ((2 ^ Al : Nat) : Int) = (2 : Int) ^ Al := by rw [Int.natCast_pow]; rfl
    omega
  generalize (2 : Int) ^ Al = a at *
  refine ⟨?_, fun hi => ?_⟩
  · constructor <;> nlinarith
  · have hr := i16_self hi
    constructor <;> nlinarith

theorem decodeBlockC_same {dc ac : HSlot} {Ss Se Al : Nat} {last e : Int} {B : Blk} (hse : Se ≤ 63) (hal : Al ≤ 10) (he : -1073741824 ≤ e ∧ e ≤ 32767)
    (hl : -32768 ≤ last ∧ last ≤ 32767) : (decodeBlockC dc ac Ss Se Al last e B).Same (BlkPost e) (decodeBlock dc ac Ss Se Al last e B) := by
  unfold decodeBlockC decodeBlock
  have hp := pow_cases Al (by omega)
  rw [int_eq (by omega)]
  by_cases h0 : Ss = 0
  · rw [if_pos h0, if_pos h0]
    refine .sym fun s hs => ?_
    dsimp only
    have step : ∀ diff : Int, -32768 ≤ diff ∧ diff ≤ 32768 →
        (CProg.int (diff + last) fun c => CProg.int (c * 2 ^ Al) fun v =>
          if i16 v = v then CProg.short c fun l => decRestC ac 1 Se Al false l e (B.set 0 v) else CProg.fail).Same (BlkPost e)
        (if i16 ((diff + last) * 2 ^ Al) = (diff + last) * 2 ^ Al then
          decRest ac 1 Se Al false (i16 (diff + last)) e (B.set 0 ((diff + last) * 2 ^ Al)) else .fail) := by
      intro diff hdf
      obtain ⟨d1, d2⟩ := dc_value hal (c := diff + last) (by omega)
      rw [int_eq (by omega), int_eq d1]
      by_cases hi : i16 ((diff + last) * 2 ^ Al) = (diff + last) * 2 ^ Al
      · rw [if_pos hi, if_pos hi]
        have hs := d2 hi
        have e16 : i16 (diff + last) = diff + last := by
          unfold i16
          exact Int.bmod_eq_of_le (by omega) (by omega)
        rw [short_eq hs, e16]
        exact decRestC_same hse he hs
      · rw [if_neg hi, if_neg hi]; exact .fail
    by_cases h1 : 12 ≤ s
    · rw [if_pos h1, if_pos h1]; exact .fail
    rw [if_neg h1, if_neg h1]
    by_cases h2 : 0 < s
    · rw [if_pos h2, if_pos h2]
      refine .bits h2 (by omega) fun x hx => ?_
      rw [huffExtendC_eq h2 (by omega) hx]
      obtain ⟨b1, b2⟩ := huffExtend_bound hx
      have hps := pow_cases s (by omega)
      exact step _ (by omega)
    · rw [if_neg h2, if_neg h2]
      exact step 0 (by omega)
  · rw [if_neg h0, if_neg h0]
    exact decRestC_same hse he hl

/-- Adding a bit to a coefficient from `k` on leaves it in range. -/
def Room (Al k : Nat) (B : Blk) : Prop := ∀ j, k ≤ j → j ≤ 63 → (B j).natAbs + 2 ^ Al ≤ 32767

theorem Room.set {Al k i : Nat} {B : Blk} {v : Int} (h : Room Al k B) (hi : k ≤ i) : Room Al (i + 1) (B.set i v) := by
  intro j hj h63
  unfold Blk.set
  rw [if_neg (by omega)]
  exact h j (by omega) h63

theorem Room.later {Al k i : Nat} {B : Blk} (h : Room Al k B) (hi : k ≤ i) : Room Al i B := fun j hj h63 => h j (by omega) h63

theorem refBitC_eq {α : Type} {Al : Nat} {v : Int} {b : Nat} (h : v.natAbs + 2 ^ Al ≤ 32767) (k : Int → CProg α) : refBitC Al v b k = k (refBit Al v b) := by
  have h3 : ((2 ^ Al : Nat) : Int) = (2 : Int) ^ Al := by rw [Int.natCast_pow]; rfl
  have h4 := Nat.two_pow_pos Al
  unfold refBitC refBit
  by_cases h1 : b ≠ 0
  · rw [if_pos h1, if_pos h1]
    by_cases h2 : v / 2 ^ Al % 2 = 0
    · rw [if_pos h2, if_pos h2, short_eq (by split <;> omega)]
    · rw [if_neg h2, if_neg h2]
  · rw [if_neg h1, if_neg h1]

theorem refSkipC_same {Al : Nat} (n : Nat) : ∀ {k r : Nat} {B : Blk}, k + n ≤ 64 → Room Al k B →
    (refSkipC Al n k r B).Same (fun q => k ≤ q.1 ∧ q.1 ≤ k + n ∧ Room Al q.1 q.2) (refSkip Al n k r B) := by
  induction n with
  | zero => intro k r B _ h; exact .pure ⟨Nat.le_refl _, Nat.le_refl _, h⟩
  | succ n ih =>
    intro k r B hk h
    rw [refSkipC, refSkip, spot_eq (by omega)]
    by_cases h0 : B k ≠ 0
    · rw [if_pos h0, if_pos h0]
      refine .bits (by omega) (by omega) fun x _ => ?_
      rw [refBitC_eq (h k (Nat.le_refl _) (by omega))]
      exact (ih (by omega) (h.set (Nat.le_refl _))).imp fun q hq => ⟨by omega, by omega, hq.2.2⟩
    · rw [if_neg h0, if_neg h0]
      by_cases hr : r = 0
      · rw [if_pos hr, if_pos hr]
        exact .pure ⟨Nat.le_refl _, by omega, h⟩
      · rw [if_neg hr, if_neg hr]
        exact (ih (by omega) (h.later (by omega))).imp fun q hq => ⟨by omega, by omega, hq.2.2⟩

theorem refACC_same {ac : HSlot} {Ss Se Al : Nat} {allowed : Bool} {e : Int} (hse : Se ≤ 63) (hal : Al ≤ 10) (he : -1073741824 ≤ e ∧ e ≤ 32767) (n : Nat) :
    ∀ {k : Nat} {z : Bool} {B : Blk}, Room Al k B →
    (refACC ac Ss Se Al allowed e n k z B).Same (fun q => Room Al q.1 q.2.2.1 ∧ q.2.2.2.1 ≤ 32768 ∧ (q.2.2.2.1 = e ∨ 1 ≤ q.2.2.2.1)) (refAC ac Ss Se Al allowed e n k z B) := by
  have h3 : ((2 ^ Al : Nat) : Int) = (2 : Int) ^ Al := by rw [Int.natCast_pow]; rfl
  have hp := pow_cases Al (by omega)
  have hq : 2 ^ Al ≤ 2 ^ 10 := Nat.pow_le_pow_right (by decide) hal
  induction n with
  | zero => intro k z B h; exact .pure ⟨h, by show e ≤ _; omega, .inl rfl⟩
  | succ n ih =>
    intro k z B h
    rw [refACC, refAC]
    by_cases h1 : Se < k
    · rw [if_pos h1, if_pos h1]
      exact .pure ⟨h, by show e ≤ _; omega, .inl rfl⟩
    rw [if_neg h1, if_neg h1]
    refine .sym fun sr hsr => ?_
    by_cases h2 : sr % 16 ≠ 0
    · rw [if_pos h2, if_pos h2]
      by_cases h4 : sr % 16 ≠ 1
      · rw [if_pos h4, if_pos h4]; exact .fail
      rw [if_neg h4, if_neg h4]
      refine .bits (by omega) (by omega) fun b _ => ?_
      refine (refSkipC_same _ (by omega) h).bind fun q hq' => ?_
      by_cases h5 : Se < q.1
      · rw [if_pos h5, if_pos h5]; exact .fail
      rw [if_neg h5, if_neg h5, short_eq (by split <;> omega), spot_eq (by omega)]
      exact ih (hq'.2.2.set (Nat.le_refl _))
    · rw [if_neg h2, if_neg h2]
      by_cases h4 : sr / 16 ≠ 15
      · rw [if_pos h4, if_pos h4]
        have hpr := pow_cases (sr / 16) (by omega)
        rw [int_eq (by omega)]
        by_cases h5 : 0 < sr / 16
        · rw [if_pos h5, if_pos h5]
          by_cases h6 : allowed = true
          · rw [if_pos h6, if_pos h6]
            refine .bits h5 (by omega) fun x hx => ?_
            obtain ⟨v1, v2, v3⟩ := run_value (r := sr / 16) (by omega) hx
            rw [int_eq (by omega), v3]
            exact .pure ⟨h, by show (2 : Int) ^ (sr / 16) + x ≤ _; omega, .inr v2⟩
          · rw [if_neg h6, if_neg h6]; exact .fail
        · rw [if_neg h5, if_neg h5, show sr / 16 = 0 by omega]
          exact .pure ⟨h, by show (2 : Int) ^ 0 ≤ 32768; decide, .inr (by show 1 ≤ (2 : Int) ^ 0; decide)⟩
      · rw [if_neg h4, if_neg h4]
        refine (refSkipC_same _ (by omega) h).bind fun q hq' => ?_
        exact ih (hq'.2.2.later (by omega))

theorem refTailC_same {Al : Nat} (n : Nat) : ∀ {k : Nat} {B : Blk}, n = 0 ∨ k + n ≤ 64 → Room Al k B → (refTailC Al n k B).Same (fun _ => True) (refTail Al n k B) := by
  induction n with
  | zero => intro k B _ _; exact .pure trivial
  | succ n ih =>
    intro k B hk h
    rw [refTailC, refTail, spot_eq (by omega)]
    by_cases h0 : B k ≠ 0
    · rw [if_pos h0, if_pos h0]
      refine .bits (by omega) (by omega) fun x _ => ?_
      rw [refBitC_eq (h k (Nat.le_refl _) (by omega))]
      exact ih (by omega) (h.set (Nat.le_refl _))
    · rw [if_neg h0, if_neg h0]
      exact ih (by omega) (h.later (by omega))

theorem refRestC_same {ac : HSlot} {Ss Se Al : Nat} {allowed : Bool} {last e : Int} {B : Blk} (hse : Se ≤ 63) (hal : Al ≤ 10) (he : -1073741824 ≤ e ∧ e ≤ 32767)
    (hl : -32768 ≤ last ∧ last ≤ 32767) (h : Room Al Ss B) : (refRestC ac Ss Se Al allowed last e B).Same (BlkPost e) (refRest ac Ss Se Al allowed last e B) := by
  unfold refRestC refRest
  by_cases h1 : Se < Ss
  · rw [if_pos h1, if_pos h1]
    exact .pure ⟨by show e - 1 ≤ e ∨ 0 ≤ e; omega, he.2, hl⟩
  rw [if_neg h1, if_neg h1]
  refine CProg.Same.bind (Q := fun q => Room Al q.1 q.2.2.1 ∧ q.2.2.2.1 ≤ 32768 ∧ (q.2.2.2.1 = e ∨ 1 ≤ q.2.2.2.1)) ?_ fun q hq => ?_
  · by_cases h2 : e ≤ 0
    · rw [if_pos h2, if_pos h2]
      exact refACC_same hse hal he _ h
    · rw [if_neg h2, if_neg h2]
      exact .pure ⟨h, by show e ≤ _; omega, .inl rfl⟩
  · obtain ⟨q1, q2, q3⟩ := hq
    by_cases h2 : q.2.1 = true
    · rw [if_pos h2, if_pos h2]; exact .fail
    rw [if_neg h2, if_neg h2]
    by_cases h3 : 0 < q.2.2.2.1
    · rw [if_pos h3, if_pos h3]
      refine (refTailC_same _ (by omega) q1).bind fun B _ => ?_
      exact endRunC_same (by omega) q2 (by omega) hl
    · rw [if_neg h3, if_neg h3]
      exact endRunC_same (by omega) q2 (by omega) hl

theorem refineBlockC_same {ac : HSlot} {Ss Se Al : Nat} {last e : Int} {B : Blk} (hse : Se ≤ 63) (hal : Al ≤ 10) (he : -1073741824 ≤ e ∧ e ≤ 32767)
    (hl : -32768 ≤ last ∧ last ≤ 32767) (h : Room Al (max 1 Ss) B) (h0 : Ss = 0 → -32768 ≤ B 0 ∧ B 0 + 2 ^ Al ≤ 32767) :
    (refineBlockC ac Ss Se Al last e B).Same (BlkPost e) (refineBlock ac Ss Se Al last e B) := by
  unfold refineBlockC refineBlock
  have hp := pow_cases Al (by omega)
  rw [int_eq (by omega)]
  by_cases hs : Ss = 0
  · rw [if_pos hs, if_pos hs]
    obtain ⟨z1, z2⟩ := h0 hs
    refine .bits (by omega) (by omega) fun s hx => ?_
    have hs2 : s = 0 ∨ s = 1 := by omega
    rw [int_eq (by rcases hs2 with rfl | rfl <;> simp <;> omega), short_eq (by split <;> omega)]
    refine refRestC_same hse hal he hl fun j hj h63 => ?_
    unfold Blk.set
    rw [if_neg (by omega)]
    exact h j (by omega) h63
  · rw [if_neg hs, if_neg hs]
    rw [show max 1 Ss = Ss by omega] at h
    exact refRestC_same hse hal he hl h

end Brunsli
