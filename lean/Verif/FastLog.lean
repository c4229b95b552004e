import Verif.PopCost
import Mathlib.Analysis.SpecialFunctions.Log.Base
/-!
# The table of logarithms

c/enc/fast_log.h: `FastLog2`.  The table holds single precision numbers, given as decimal fractions with 16 digits.
-/

namespace Brunsli

/-- `kLog2Table` (c/enc/fast_log.h:21-108), the literals multiplied by 10^16. -/
def kLog2Table : List Nat := [
  0, 0, 10000000000000000, 15849625007211563, 20000000000000000, 23219280948873622, 25849625007211561, 28073549220576042,
  30000000000000000, 31699250014423126, 33219280948873626, 34594316186372978, 35849625007211565, 37004397181410922, 38073549220576037, 39068905956085187,
  40000000000000000, 40874628412503400, 41699250014423122, 42479275134435852, 43219280948873626, 43923174227787607, 44594316186372973, 45235619560570131,
  45849625007211570, 46438561897747244, 47004397181410926, 47548875021634691, 48073549220576037, 48579809951275728, 49068905956085187, 49541963103868758,
  50000000000000000, 50443941193584534, 50874628412503400, 51292830169449664, 51699250014423122, 52094533656289501, 52479275134435852, 52854022188622487,
  53219280948873626, 53575520046180838, 53923174227787607, 54262647547020979, 54594316186372973, 54918530963296748, 55235619560570131, 55545888516776376,
  55849625007211570, 56147098441152083, 56438561897747244, 56724253419714961, 57004397181410926, 57279204545631996, 57548875021634691, 57813597135246599,
  58073549220576046, 58328900141647422, 58579809951275719, 58826430493618416, 59068905956085187, 59307373375628867, 59541963103868758, 59772799234999168,
  60000000000000000, 60223678130284544, 60443941193584534, 60660891904577721, 60874628412503400, 61085244567781700, 61292830169449672, 61497471195046822,
  61699250014423122, 61898245588800176, 62094533656289510, 62288186904958804, 62479275134435861, 62667865406949019, 62854022188622487, 63037807481771031,
  63219280948873617, 63398500028846252, 63575520046180847, 63750394313469254, 63923174227787598, 64093909361377026, 64262647547020979, 64429434958487288,
  64594316186372982, 64757334309663976, 64918530963296748, 65077946401986964, 65235619560570131, 65391588111080319, 65545888516776376, 65698556083309478,
  65849625007211561, 65999128421871278, 66147098441152092, 66293566200796095, 66438561897747253, 66582114827517955, 66724253419714952, 66865005271832185,
  67004397181410917, 67142455176661224, 67279204545631988, 67414669864011465, 67548875021634691, 67681843247769260, 67813597135246599, 67944158663501062,
  68073549220576037, 68201789624151887, 68328900141647422, 68454900509443757, 68579809951275719, 68703647195834048, 68826430493618416, 68948177633079437,
  69068905956085187, 69188632372745955, 69307373375628867, 69425145053392399, 69541963103868758, 69657842846620879, 69772799234999168, 69886846867721664,
  70000000000000000, 70112272554232540, 70223678130284544, 70334230015374501, 70443941193584534, 70552824355011898, 70660891904577721, 70768155970508317,
  70874628412503400, 70980320829605272, 71085244567781700, 71189410727235076, 71292830169449664, 71395513523987937, 71497471195046822, 71598713367783891,
  71699250014423130, 71799090900149345, 71898245588800176, 71996723448363644, 72094533656289492, 72191685204621621, 72288186904958804, 72384047393250794,
  72479275134435861, 72573878426926521, 72667865406949019, 72761244052742384, 72854022188622487, 72946207488916270, 73037807481771031, 73128829552843557,
  73219280948873617, 73309168781146177, 73398500028846243, 73487281542310781, 73575520046180847, 73663222142458151, 73750394313469254, 73837042924740528,
  73923174227787607, 74008794362821844, 74093909361377026, 74178525148858991, 74262647547020979, 74346282276367255, 74429434958487288, 74512111118323299,
  74594316186372973, 74676055500829976, 74757334309663976, 74838157772642564, 74918530963296748, 74998458870832057, 75077946401986964, 75156998382840436,
  75235619560570131, 75313814605163119, 75391588111080319, 75468944598876373, 75545888516776376, 75622424242210728, 75698556083309478, 75774288280357487,
  75849625007211561, 75924570372680806, 75999128421871278, 76073303137496113, 76147098441152075, 76220518194563764, 76293566200796095, 76366246205436488,
  76438561897747244, 76510516911789290, 76582114827517955, 76653359171851765, 76724253419714952, 76794800995054464, 76865005271832185, 76934869574993252,
  77004397181410926, 77073591320808825, 77142455176661224, 77210991887071856, 77279204545631996, 77347096202258392, 77414669864011465, 77481928495894596,
  77548875021634691, 77615512324444795, 77681843247769260, 77747870596011737, 77813597135246608, 77879025593914317, 77944158663501062, 78008998999203047,
  78073549220576037, 78137811912170374, 78201789624151887, 78265484872909159, 78328900141647422, 78392037880969445, 78454900509443757, 78517490414160571,
  78579809951275719, 78641861446542798, 78703647195834048, 78765169465650002, 78826430493618425, 78887432488982601, 78948177633079446, 79008668079807496,
  79068905956085187, 79128893362299619, 79188632372745955, 79248125036057813, 79307373375628867, 79366379390025719, 79425145053392399, 79483672315846778,
  79541963103868758, 79600019320680806, 79657842846620870, 79715435539507720, 79772799234999168, 79829935746943104, 79886846867721664, 79943534368588578]

/-- The number of bits after the point that a single precision number of this size has (24 significant bits, all numbers being 0 or from 1 to 8). -/
def fracBits (n : Nat) : Nat := 23 - Nat.log2 (n / 10 ^ 16)

/-- The compiler turns a literal into the nearest single precision number: it is this one divided by 2 ^ `fracBits n`. -/
def literalBits (n : Nat) : Nat := (2 * n * 2 ^ fracBits n + 10 ^ 16) / (2 * 10 ^ 16)

/-- An entry of the table in memory. -/
def log2Entry (v : Nat) : ℚ := (literalBits (kLog2Table.getD v 0) : ℚ) / 2 ^ fracBits (kLog2Table.getD v 0)

/-- `FastLog2` (c/enc/fast_log.h:110-116); `libm` is `log2` of the C library.  Arguments are not negative: counts, sums of counts and sizes of sets. -/
def fastLog2 (libm : Nat → ℚ) (v : Nat) : ℚ := if v < kLog2Table.length then log2Entry v else libm v

/-- What has to be known of `log2` of the C library: its integer part is right, and it is exact for 1024. -/
structure LibmOk (libm : Nat → ℚ) : Prop where
  range : ∀ v, 256 ≤ v → (Nat.log2 v : ℚ) ≤ libm v ∧ libm v < Nat.log2 v + 1
  exact : libm 1024 = 10

/-! ## The entries -/

theorem kLog2Table_length : kLog2Table.length = 256 := by decide +kernel

/-- Integer part, the order of neighbours and, in units of 2^-20, the logarithm: for each entry. -/
def entryCheck (v : Nat) : Bool :=
  let n := kLog2Table.getD v 0
  let q := literalBits n
  let f := fracBits n
  decide (f ≤ 23) && decide (Nat.log2 v * 2 ^ f ≤ q) && decide (q < (Nat.log2 v + 1) * 2 ^ f) &&
    (let a := q * 2 ^ 20 / 2 ^ f
     decide (2 ^ a ≤ v ^ 1048576 * 2) && decide (v ^ 1048576 < 2 ^ (a + 2)))

theorem entries : ∀ v, v < 256 → 0 < v → entryCheck v = true := by decide +kernel

theorem entryCheck_spec {v : Nat} (h : entryCheck v = true) :
    ∃ q f : Nat, log2Entry v = (q : ℚ) / 2 ^ f ∧ Nat.log2 v * 2 ^ f ≤ q ∧ q < (Nat.log2 v + 1) * 2 ^ f ∧ 2 ^ (q * 2 ^ 20 / 2 ^ f) ≤ v ^ 1048576 * 2 ∧
      v ^ 1048576 < 2 ^ (q * 2 ^ 20 / 2 ^ f + 2) := by
  unfold entryCheck at h
  unfold log2Entry
  generalize kLog2Table.getD v 0 = n at *
  dsimp only at h
  generalize literalBits n = q at *
  generalize fracBits n = f at *
  simp only [Bool.and_eq_true, decide_eq_true_eq] at h
  exact ⟨q, f, rfl, h.1.1.2, h.1.2, h.2.1, h.2.2⟩

/-- The integer part of an entry is right. -/
theorem log2Entry_range {v : Nat} (h0 : 0 < v) (h : v < 256) : (Nat.log2 v : ℚ) ≤ log2Entry v ∧ log2Entry v < Nat.log2 v + 1 := by
  obtain ⟨q, f, e, h1, h2, -, -⟩ := entryCheck_spec (entries v h h0)
  have hf : (0 : ℚ) < 2 ^ f := by positivity
  rw [e, le_div_iff₀ hf, div_lt_iff₀ hf]
  exact ⟨by exact_mod_cast h1, by exact_mod_cast h2⟩

/-- An entry is the logarithm, up to a small error. -/
theorem log2Entry_close {v : Nat} (h0 : 0 < v) (h : v < 256) : |((log2Entry v : ℚ) : ℝ) - Real.logb 2 v| ≤ 1 / 2 ^ 19 := by
  obtain ⟨q, f, e, -, -, h1, h2⟩ := entryCheck_spec (entries v h h0)
  have hd := Nat.div_add_mod (q * 2 ^ 20) (2 ^ f)
  have hm := Nat.mod_lt (q * 2 ^ 20) (Nat.two_pow_pos f)
  generalize q * 2 ^ 20 / 2 ^ f = a at *
  generalize hN : (1048576 : Nat) = N at *
  have hv : (0 : ℝ) < v := by exact_mod_cast h0
  have r1 : (2 : ℝ) ^ a ≤ (v : ℝ) ^ N * 2 := by exact_mod_cast h1
  have r2 : (v : ℝ) ^ N < (2 : ℝ) ^ (a + 2) := by exact_mod_cast h2
  have hp : (0 : ℝ) < (v : ℝ) ^ N := pow_pos hv N
  have l1 := Real.logb_le_logb_of_le (b := 2) (by norm_num) (by positivity) r1
  have l2 := Real.logb_le_logb_of_le (b := 2) (by norm_num) hp r2.le
  rw [Real.logb_mul hp.ne' (by norm_num), Real.logb_pow, Real.logb_pow, Real.logb_self_eq_one (by norm_num)] at l1
  rw [Real.logb_pow, Real.logb_pow, Real.logb_self_eq_one (by norm_num)] at l2
  have hf : (0 : ℝ) < 2 ^ f := by positivity
  have hq : ((log2Entry v : ℚ) : ℝ) = (q : ℝ) / 2 ^ f := by rw [e]; push_cast; rfl
  rw [hq]
  have hNr : (N : ℝ) = 1048576 := by rw [← hN]; norm_num
  have q1 : (a : ℝ) / N ≤ (q : ℝ) / 2 ^ f := by
    rw [div_le_div_iff₀ (by rw [hNr]; norm_num) hf, hNr]
    have : a * 2 ^ f ≤ q * 1048576 := by
      have : 2 ^ f * a ≤ q * 2 ^ 20 := by omega
      calc a * 2 ^ f = 2 ^ f * a := Nat.mul_comm _ _
        _ ≤ _ := this
    exact_mod_cast this
  have q2 : (q : ℝ) / 2 ^ f ≤ ((a : ℝ) + 1) / N := by
    rw [div_le_div_iff₀ hf (by rw [hNr]; norm_num), hNr]
    have : q * 1048576 ≤ (a + 1) * 2 ^ f := by
      have : q * 2 ^ 20 ≤ 2 ^ f * a + 2 ^ f := by omega
      calc q * 1048576 = q * 2 ^ 20 := rfl
        _ ≤ 2 ^ f * a + 2 ^ f := this
        _ = (a + 1) * 2 ^ f := by ring
    exact_mod_cast this
  rw [hNr] at l1 l2 q1 q2
  push_cast at l1 l2
  generalize Real.logb 2 (v : ℝ) = l at *
  generalize (q : ℝ) / 2 ^ f = x at *
  rw [div_le_iff₀ (by norm_num)] at q1
  rw [le_div_iff₀ (by norm_num)] at q2
  rw [abs_le]
  constructor <;> linarith

/-- Larger numbers have larger entries. -/
def orderCheck (v : Nat) : Bool :=
  let n := kLog2Table.getD v 0
  let m := kLog2Table.getD (v + 1) 0
  decide (literalBits n * 2 ^ fracBits m < literalBits m * 2 ^ fracBits n)

theorem orders : ∀ v, v < 255 → 0 < v → orderCheck v = true := by decide +kernel

theorem log2Entry_succ {v : Nat} (h0 : 0 < v) (h : v < 255) : log2Entry v < log2Entry (v + 1) := by
  have hc := orders v h h0
  unfold orderCheck at hc
  unfold log2Entry
  generalize kLog2Table.getD v 0 = n at *
  generalize kLog2Table.getD (v + 1) 0 = m at *
  dsimp only at hc
  generalize literalBits n = q at *
  generalize literalBits m = q' at *
  rw [decide_eq_true_eq] at hc
  rw [div_lt_div_iff₀ (by positivity) (by positivity)]
  exact_mod_cast hc

theorem log2Entry_lt {v w : Nat} (h0 : 0 < v) (h : v < w) (hw : w < 256) : log2Entry v < log2Entry w := by
  induction w with
  | zero => omega
  | succ w ih =>
    rcases Nat.lt_or_ge v w with hlt | hge
    · exact (ih hlt (by omega)).trans (log2Entry_succ (by omega) (by omega))
    · have : v = w := by omega
      rw [this] at h0 ⊢
      exact log2Entry_succ h0 (by omega)

/-- The assumption of the theorems on the encoder is met. -/
theorem fastLog2_ok {libm : Nat → ℚ} (h : LibmOk libm) : LogOk (fastLog2 libm) where
  zero := by
    unfold fastLog2
    rw [if_pos (by rw [kLog2Table_length]; decide)]
    have : literalBits (kLog2Table.getD 0 0) = 0 := by decide +kernel
    rw [log2Entry, this, Nat.cast_zero, zero_div]
  pos v hv := by
    unfold fastLog2
    rw [kLog2Table_length]
    by_cases hs : v < 256
    · rw [if_pos hs]; exact log2Entry_range hv hs
    · rw [if_neg hs]; exact h.range v (by omega)
  exact := by
    unfold fastLog2
    rw [if_neg (by rw [kLog2Table_length]; decide), h.exact]

end Brunsli
