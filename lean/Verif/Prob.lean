import Verif.Bits
/-!
# Adaptive probabilities

`Prob` (c/common/distributions.h:24-103).
-/

namespace Brunsli

/-- `kDivLut17` (c/common/distributions.h:26-50), copied from the source by a script. -/
def kDivLut17 : List Nat :=
  [0, 0, 0, 43690, 32768, 26214, 21845, 18724, 16384, 14563, 13107, 11915, 10922, 10082, 9362,
   8738, 8192, 7710, 7281, 6898, 6553, 6241, 5957, 5698, 5461, 5242, 5041, 4854, 4681, 4519,
   4369, 4228, 4096, 3971, 3855, 3744, 3640, 3542, 3449, 3360, 3276, 3196, 3120, 3048, 2978,
   2912, 2849, 2788, 2730, 2674, 2621, 2570, 2520, 2473, 2427, 2383, 2340, 2299, 2259, 2221,
   2184, 2148, 2114, 2080, 2048, 2016, 1985, 1956, 1927, 1899, 1872, 1846, 1820, 1795, 1771,
   1747, 1724, 1702, 1680, 1659, 1638, 1618, 1598, 1579, 1560, 1542, 1524, 1506, 1489, 1472,
   1456, 1440, 1424, 1409, 1394, 1379, 1365, 1351, 1337, 1323, 1310, 1297, 1285, 1272, 1260,
   1248, 1236, 1224, 1213, 1202, 1191, 1180, 1170, 1159, 1149, 1139, 1129, 1120, 1110, 1101,
   1092, 1083, 1074, 1065, 1057, 1048, 1040, 1032, 1024, 1016, 1008, 1000, 992, 985, 978, 970,
   963, 956, 949, 942, 936, 929, 923, 916, 910, 903, 897, 891, 885, 879, 873, 868, 862, 856, 851,
   845, 840, 834, 829, 824, 819, 814, 809, 804, 799, 794, 789, 784, 780, 775, 771, 766, 762, 757,
   753, 748, 744, 740, 736, 732, 728, 724, 720, 716, 712, 708, 704, 700, 697, 693, 689, 686, 682,
   679, 675, 672, 668, 665, 661, 658, 655, 652, 648, 645, 642, 639, 636, 633, 630, 627, 624, 621,
   618, 615, 612, 609, 606, 604, 601, 598, 595, 593, 590, 587, 585, 582, 579, 577, 574, 572, 569,
   567, 564, 562, 560, 557, 555, 553, 550, 548, 546, 543, 541, 539, 537, 534, 532, 530, 528, 526,
   524, 522, 520, 518, 516]

/-- `Prob` (c/common/distributions.h:66-103): `prob8`, `total` are `uint8_t`, `count` is `uint16_t`. -/
structure Prob where
  prob8 : Nat
  total : Nat
  count : Nat
deriving DecidableEq, Repr

/-- Default constructor (c/common/distributions.h:68-70, kInitProb = 134, kInitProbCount = 3). -/
def Prob.default : Prob := ⟨134, 3, 134 * 3⟩

instance : Inhabited Prob := ⟨Prob.default⟩

/-- `Prob::Init` (c/common/distributions.h:73-77). -/
def Prob.init (p : Nat) : Prob := ⟨p, 3, (3 * p) % 2 ^ 16⟩

/-- `FastDivide` (c/common/distributions.h:52-57).  `none`: the table index is out of bounds. The
multiplication is on 32 bits and the result is narrowed to 8 bits. -/
def fastDivide (num den : Nat) : Option Nat :=
  match kDivLut17[den]? with
  | none => none
  | some d => some (((num * d) % 2 ^ 32) / 2 ^ 17 % 2 ^ 8)

/-- `Prob::Add` (c/common/distributions.h:79-91), with the machine widths explicit.
`bit = true` is `val != 0`. -/
def Prob.add (p : Prob) (bit : Bool) : Option Prob :=
  let total := (p.total + 1) % 2 ^ 8
  let count := (p.count + if bit then 1 else 256) % 2 ^ 16
  match fastDivide count total with
  | none => none
  | some prob8 =>
    if total = 254 then some ⟨prob8, 254 / 2, count / 2⟩ else some ⟨prob8, total, count⟩

/-- A history of observed bits. -/
def Prob.addAll (p : Prob) : List Bool → Option Prob
  | [] => some p
  | b :: bs =>
    match p.add b with
    | none => none
    | some p => p.addAll bs

/-- The state invariant. -/
def Prob.Ok (p : Prob) : Prop :=
  p.prob8 < 256 ∧ 3 ≤ p.total ∧ p.total < 254 ∧ p.count < 256 * p.total

instance (p : Prob) : Decidable p.Ok := inferInstanceAs (Decidable (_ ∧ _))

theorem Prob.default_ok : Prob.default.Ok := by decide

theorem Prob.init_ok {p : Nat} (h : p < 256) : (Prob.init p).Ok := by
  unfold Prob.init Prob.Ok
  rw [Nat.mod_eq_of_lt (by omega)]
  simp only
  omega

theorem kDivLut17_spec : ∀ d < 255, 3 ≤ d → kDivLut17[d]? = some (2 ^ 17 / d) := by
  decide +kernel

/-- In range, the table division is the exact reciprocal multiplication and needs no narrowing. -/
theorem fastDivide_spec {num den : Nat} (h3 : 3 ≤ den) (hd : den < 255) (hn : num < 256 * den) :
    fastDivide num den = some (num * (2 ^ 17 / den) / 2 ^ 17) ∧ num * (2 ^ 17 / den) / 2 ^ 17 < 256 ∧
      num * (2 ^ 17 / den) < 2 ^ 32 := by
  have h1 : 2 ^ 17 / den * den ≤ 2 ^ 17 := Nat.div_mul_le_self _ _
  generalize hq : 2 ^ 17 / den = q at *
  have hq0 : 0 < q := by
    rw [← hq]; exact Nat.div_pos (by omega) (by omega)
  have h2 : num * q < 256 * 2 ^ 17 := by
    have h4 : num * q < 256 * den * q := Nat.mul_lt_mul_of_pos_right hn hq0
    have h5 : 256 * den * q = 256 * (q * den) := by rw [Nat.mul_assoc, Nat.mul_comm den]
    have h6 : 256 * (q * den) ≤ 256 * 2 ^ 17 := Nat.mul_le_mul_left _ h1
    omega
  have h7 : num * q / 2 ^ 17 < 256 := Nat.div_lt_of_lt_mul (by omega)
  refine ⟨?_, h7, by omega⟩
  unfold fastDivide
  rw [kDivLut17_spec den hd h3, hq]
  simp only
  rw [Nat.mod_eq_of_lt (show num * q < 2 ^ 32 by omega), Nat.mod_eq_of_lt (show _ < 2 ^ 8 by omega)]

/-- One update: nothing wraps, the table access is in bounds and the invariant is kept. -/
theorem Prob.add_ok {p : Prob} (h : p.Ok) (b : Bool) :
    ∃ p', p.add b = some p' ∧ p'.Ok ∧ p.total + 1 < 2 ^ 8 ∧
      (p.count + if b then 1 else 256) < 2 ^ 16 := by
  obtain ⟨h1, h2, h3, h4⟩ := h
  generalize hi : (if b = true then 1 else 256) = i
  have hi' : i = 1 ∨ i = 256 := by subst hi; cases b <;> simp
  have ht : (p.total + 1) % 2 ^ 8 = p.total + 1 := Nat.mod_eq_of_lt (by omega)
  have hc : (p.count + i) % 2 ^ 16 = p.count + i := Nat.mod_eq_of_lt (by omega)
  obtain ⟨f1, f2, f3⟩ := fastDivide_spec (num := p.count + i) (den := p.total + 1) (by omega) (by omega)
    (by omega)
  unfold Prob.add
  simp only [hi, ht, hc, f1]
  by_cases h254 : p.total + 1 = 254
  · rw [if_pos h254]
    exact ⟨_, rfl, ⟨f2, by simp only; omega, by simp only; omega, by simp only; omega⟩, by omega, by omega⟩
  · rw [if_neg h254]
    exact ⟨_, rfl, ⟨f2, by simp only; omega, by simp only; omega, by simp only; omega⟩, by omega, by omega⟩

theorem Prob.addAll_ok (bs : List Bool) : ∀ {p : Prob}, p.Ok → ∃ p', p.addAll bs = some p' ∧ p'.Ok := by
  induction bs with
  | nil => intro p h; exact ⟨p, rfl, h⟩
  | cons b bs ih =>
    intro p h
    obtain ⟨p1, e1, o1, _⟩ := p.add_ok h b
    obtain ⟨p2, e2, o2⟩ := ih o1
    exact ⟨p2, by simp [Prob.addAll, e1, e2], o2⟩

/-- Total version, used by the coefficient coders (`add_ok` shows that the `none` branch is never
taken from a reachable state). -/
def Prob.upd (p : Prob) (b : Bool) : Prob := (p.add b).getD p

theorem Prob.upd_ok {p : Prob} (h : p.Ok) (b : Bool) : (p.upd b).Ok := by
  obtain ⟨p', e, o, _⟩ := p.add_ok h b
  simp [Prob.upd, e, o]

end Brunsli
