import Verif.BitProg
import Verif.Quant
/-!
# The quantisation section as it arrives

`DecodeQuantDataSection` (c/dec/brunsli_decode.cc:1635-1796) with its points of suspension.
-/

namespace Brunsli

open P

instance : Monad BP where
  pure := BP.ret
  bind := BP.bind

namespace BP

theorem run_ret {α : Type} (opt : Bool) (a : α) : run opt (Pure.pure a : BP α) = (Pure.pure a : P Bool α) := rfl

theorem run_seq {α β : Type} (opt : Bool) (p : BP α) (f : α → BP β) : run opt (p >>= f) = (run opt p >>= fun a => run opt (f a)) := run_bind opt p f

/-- A test for `n` bits and their reading. -/
def bits (n : Nat) : BP Nat := need n (prim (.bits n) ret)

/-- A test for a bit and its reading. -/
def bit : BP Bool := need 1 (prim (.bits 1) fun v => ret (decide (v = 1)))

/-- Reading bits that were tested for. -/
def read (n : Nat) : BP Nat := prim (.bits n) ret

/-- Reading a bit that was tested for. -/
def readb : BP Bool := prim (.bits 1) fun v => ret (decide (v = 1))

/-- Reject unless `c`. -/
def check (c : Prop) [Decidable c] : BP Unit := if c then ret () else fail

/-- A loop. -/
def rep {α : Type} : Nat → BP α → BP (List α)
  | 0, _ => Pure.pure []
  | n + 1, p => do
    let a ← p
    let as ← rep n p
    Pure.pure (a :: as)

theorem run_check (opt : Bool) (c : Prop) [Decidable c] : run opt (check c) = P.guard c := by
  funext bs
  rw [guard_apply, check]
  split <;> rfl

theorem run_read (opt : Bool) (n : Nat) : run opt (read n) = readBits n := by
  funext bs
  simp only [read, run, Prim.run]
  cases readBits n bs <;> rfl

theorem run_readb (opt : Bool) : run opt readb = readBit := by
  funext bs
  simp only [readb, run, Prim.run]
  cases bs with
  | nil => rfl
  | cons b bs => cases b <;> rfl

theorem run_bits (n : Nat) : run false (bits n) = readBits n := by
  funext bs
  simp only [bits, run, Prim.run]
  by_cases h : n ≤ bs.length
  · rw [if_pos (Or.inr h), readBits, if_pos h]
  · rw [if_neg (by simp [h]), readBits, if_neg h]

theorem run_bit : run false bit = readBit := by
  funext bs
  simp only [bit, run, Prim.run]
  cases bs with
  | nil => rfl
  | cons b bs => cases b <;> simp [readBits, readBit, ofBits]

theorem run_rep {α : Type} (opt : Bool) (p : BP α) : ∀ n, run opt (rep n p) = P.replicate n (run opt p)
  | 0 => rfl
  | n + 1 => by
    simp only [rep, run_seq, run_ret, run_rep opt p n]
    rfl

/-! ### Tests -/

theorem Within.seq {α β : Type} {p1 : α → Prop} {p2 : β → Prop} {f : α → BP β} {p : BP α} {b : Nat} (hp : Within p1 p b)
    (hf : ∀ a, p1 a → Within p2 (f a) 0) : Within p2 (p >>= f) b := Within.bind hf hp

theorem Within.ret {α : Type} {post : α → Prop} {a : α} {b : Nat} (h : post a) : Within post (Pure.pure a : BP α) b := h

theorem Within.bits {n : Nat} (h : n ≤ 4700) {b : Nat} : Within (fun v => v < 2 ^ n) (BP.bits n) b :=
  ⟨h, Takes.bits n, Nat.le_refl _, fun _ ha => ha⟩

theorem Within.bit {b : Nat} : Within (fun _ => True) BP.bit b :=
  ⟨by decide, Takes.bits 1, Nat.le_refl _, fun _ _ => trivial⟩

theorem Within.check {c : Prop} [Decidable c] {b : Nat} : Within (fun _ => c) (BP.check c) b := by
  unfold BP.check
  split
  · assumption
  · trivial

theorem Within.fail {α : Type} {post : α → Prop} {b : Nat} : Within post (BP.fail : BP α) b := trivial

theorem Within.imp {α : Type} {p q : α → Prop} (h : ∀ a, p a → q a) : ∀ {r : BP α} {b : Nat}, Within p r b → Within q r b
  | .ret a, _, hw => h a hw
  | .fail, _, _ => trivial
  | .need _ _, _, hw => ⟨hw.1, Within.imp h hw.2⟩
  | .prim _ _, _, hw => ⟨hw.1, hw.2.1, fun a ha => Within.imp h (hw.2.2 a ha)⟩

theorem Within.rep {α : Type} {post : α → Prop} {p : BP α} (h : Within post p 0) : ∀ (n : Nat) {b : Nat},
    Within (fun l => l.length = n ∧ ∀ a ∈ l, post a) (BP.rep n p) b
  | 0, _ => Within.ret ⟨rfl, by simp⟩
  | n + 1, _ => Within.seq (h.mono (Nat.zero_le _)) fun a ha => Within.seq (Within.rep h n) fun l hl =>
      Within.ret ⟨by simp [hl.1], by simpa using ⟨ha, hl.2⟩⟩

theorem Within.ite {α : Type} {post : α → Prop} {c : Prop} [Decidable c] {p q : BP α} {b : Nat} (h1 : c → Within post p b) (h2 : ¬c → Within post q b) :
    Within post (if c then p else q) b := by
  split
  · exact h1 (by assumption)
  · exact h2 (by assumption)

/-- Reading within what was tested for. -/
theorem Within.read {n b : Nat} {β : Type} {post : β → Prop} {f : Nat → BP β} (hn : n ≤ b) (h : ∀ v, v < 2 ^ n → Within post (f v) (b - n)) :
    Within post (BP.read n >>= f) b := ⟨Takes.bits n, hn, h⟩

theorem Within.readb {b : Nat} {β : Type} {post : β → Prop} {f : Bool → BP β} (hn : 1 ≤ b) (h : ∀ v, Within post (f v) (b - 1)) :
    Within post (BP.readb >>= f) b := ⟨Takes.bits 1, hn, fun _ _ => h _⟩

theorem Within.need {n b : Nat} {α : Type} {post : α → Prop} {p : BP α} (hn : n ≤ 4700) (h : Within post p n) : Within post (BP.need n p) b := ⟨hn, h⟩

end BP

/-- A reader that fails on less than `n` bits. -/
def Wants {α : Type} (n : Nat) (r : P Bool α) : Prop := ∀ bs : List Bool, bs.length < n → r bs = none

theorem BP.run_need {α : Type} {n : Nat} {k : BP α} (h : Wants n (k.run false)) : (BP.need n k).run false = k.run false := by
  funext bs
  simp only [BP.run]
  by_cases hl : n ≤ bs.length
  · rw [if_pos (Or.inr hl)]
  · rw [if_neg (by simp [hl]), h bs (by omega)]

namespace Wants

theorem zero {α : Type} (r : P Bool α) : Wants 0 r := fun _ h => absurd h (Nat.not_lt_zero _)

theorem mono {α : Type} {n m : Nat} {r : P Bool α} (h : Wants n r) (hm : m ≤ n) : Wants m r := fun bs hl => h bs (by omega)

theorem bits {α : Type} {n m : Nat} {f : Nat → P Bool α} (h : ∀ v, Wants m (f v)) : Wants (n + m) (readBits n >>= f) := by
  intro bs hl
  rw [bind_apply, readBits]
  by_cases hn : n ≤ bs.length
  · rw [if_pos hn]
    exact h _ _ (by rw [List.length_drop]; omega)
  · rw [if_neg hn]

theorem bit {α : Type} {m : Nat} {f : Bool → P Bool α} (h : ∀ v, Wants m (f v)) : Wants (1 + m) (readBit >>= f) := by
  intro bs hl
  rw [bind_apply]
  cases bs with
  | nil => rfl
  | cons b bs => exact h _ _ (by rw [List.length_cons] at hl; omega)

theorem ite {α : Type} {c : Prop} [Decidable c] {n : Nat} {r s : P Bool α} (h1 : c → Wants n r) (h2 : ¬c → Wants n s) : Wants n (if c then r else s) := by
  split
  · exact h1 (by assumption)
  · exact h2 (by assumption)

end Wants

/-! ## Varints -/

/-- The loop of `DecodeVarint` (c/dec/brunsli_decode.cc:99-137), suspended in front of every bit. -/
def varintBP : (left i value : Nat) → BP Nat
  | 0, _, value => Pure.pure value
  | l + 1, i, value => do
    let go ← (if l = 0 then Pure.pure true else BP.bit)
    if go then do
      let b ← BP.bit
      varintBP l (i + 1) (value ||| (b.toNat <<< i))
    else Pure.pure value

theorem varintBP_run : ∀ l i v, (varintBP l i v).run false = decodeVarintLoop l i v
  | 0, _, _ => rfl
  | l + 1, i, v => by
    rw [varintBP, decodeVarintLoop, BP.run_seq]
    congr 1
    · split
      · rfl
      · exact BP.run_bit
    · funext go
      split
      · rw [BP.run_seq, BP.run_bit]
        congr 1
        funext b
        exact varintBP_run l _ _
      · rfl

theorem varintBP_within : ∀ l i v {b : Nat}, (varintBP l i v).Within (fun _ => True) b
  | 0, _, _, _ => trivial
  | l + 1, i, v, _ => by
    rw [varintBP]
    refine BP.Within.seq (p1 := fun _ => True) (BP.Within.ite (fun _ => trivial) fun _ => BP.Within.bit) fun go _ => ?_
    refine BP.Within.ite (fun _ => ?_) fun _ => trivial
    exact BP.Within.seq BP.Within.bit fun b _ => varintBP_within l _ _

/-- The loop of `DecodeLimitedVarint` (c/dec/brunsli_decode.cc:139-174). -/
def limitedBP (nbits : Nat) : (left i value : Nat) → BP Nat
  | 0, _, value => Pure.pure value
  | l + 1, i, value => do
    let go ← BP.bit
    if go then do
      let b ← BP.bits nbits
      limitedBP nbits l (i + 1) (value ||| (b <<< (i * nbits)))
    else Pure.pure value

theorem limitedBP_run (nbits : Nat) : ∀ l i v, (limitedBP nbits l i v).run false = decodeLimitedVarintLoop nbits l i v
  | 0, _, _ => rfl
  | l + 1, i, v => by
    rw [limitedBP, decodeLimitedVarintLoop, BP.run_seq, BP.run_bit]
    congr 1
    funext go
    split
    · rw [BP.run_seq, BP.run_bits]
      congr 1
      funext b
      exact limitedBP_run nbits l _ _
    · rfl

theorem limitedBP_within {nbits : Nat} (hn : nbits ≤ 4700) : ∀ l i v {b : Nat}, (limitedBP nbits l i v).Within (fun _ => True) b
  | 0, _, _, _ => trivial
  | l + 1, i, v, _ => by
    rw [limitedBP]
    refine BP.Within.seq BP.Within.bit fun go _ => ?_
    refine BP.Within.ite (fun _ => ?_) fun _ => trivial
    exact BP.Within.seq (BP.Within.bits hn) fun b _ => limitedBP_within hn l _ _

/-! ## The section -/

/-- The stages READ_DIFF_IS_ZERO, READ_DIFF_SIGN and READ_DIFF (c/dec/brunsli_decode.cc:1705-1739). -/
def quantDiffBP : BP Int := do
  let b ← BP.bit
  if b then do
    let s ← BP.bit
    let d ← varintBP 16 0 0
    Pure.pure (if s then -((d : Int) + 1) else (d : Int) + 1)
  else Pure.pure 0

/-- The values of a table (c/dec/brunsli_decode.cc:1705-1757). -/
def quantDiffsBP (pred : List Nat) : List Nat → Int → List Nat → BP (List Nat)
  | [], _, t => Pure.pure t
  | j :: js, delta, t => do
    let d ← quantDiffBP
    let delta := delta + d
    let v := (pred.getD j 0 : Int) + delta
    BP.check (0 < v)
    BP.check (v < 65536)
    quantDiffsBP pred js delta (t.set j v.toNat)

/-- One table (c/dec/brunsli_decode.cc:1664-1771): four bits are tested for, of which a stock table takes all. -/
def quantTableBP (chroma : Bool) (precision : Nat) : BP (List Nat) := .need 4 do
  let b ← BP.readb
  if b then do
    let q ← BP.bits 6
    let t ← quantDiffsBP (fillQuantMatrix chroma q) naturalOrder 0 (List.replicate 64 0)
    BP.check ((if t.any (fun v => decide (256 ≤ v)) then 1 else 0) ≤ precision)
    Pure.pure t
  else do
    let j ← BP.read 3
    Pure.pure (stockQuant chroma j)

/-- All tables (c/dec/brunsli_decode.cc:1662-1777). -/
def quantTabsBP (i : Nat) : List Nat → BP (List (List Nat))
  | [] => Pure.pure []
  | p :: ps => do
    let t ← quantTableBP (decide (i > 0)) p
    let ts ← quantTabsBP (i + 1) ps
    Pure.pure (t :: ts)

/-- The `quant_idx` of a component (c/dec/brunsli_decode.cc:1779-1790). -/
def quantIdxBP (n : Nat) : BP Nat := do
  let i ← BP.bits 2
  BP.check (i < n)
  Pure.pure i

/-- `DecodeQuantDataSection` (c/dec/brunsli_decode.cc:1635-1796). -/
def quantBP (precisions : List Nat) (ncomp : Nat) : BP (List (List Nat) × List Nat) := do
  let n ← BP.bits 2
  BP.check (precisions.length = n + 1)
  let ts ← quantTabsBP 0 precisions
  let idx ← BP.rep ncomp (quantIdxBP precisions.length)
  Pure.pure (ts, idx)

theorem quantDiffBP_run : quantDiffBP.run false = readQuantDiff := by
  rw [quantDiffBP, readQuantDiff, BP.run_seq, BP.run_bit]
  congr 1
  funext b
  split
  · rw [BP.run_seq, BP.run_bit]
    congr 1
    funext s
    rw [BP.run_seq, varintBP_run]
    rfl
  · rfl

theorem quantDiffsBP_run (pred : List Nat) : ∀ js delta t, (quantDiffsBP pred js delta t).run false = readQuantDiffs pred js delta t
  | [], _, _ => rfl
  | j :: js, delta, t => by
    rw [quantDiffsBP, readQuantDiffs, BP.run_seq, quantDiffBP_run]
    congr 1
    funext d
    simp only
    rw [BP.run_seq, BP.run_check]
    congr 1
    funext _
    rw [BP.run_seq, BP.run_check]
    congr 1
    funext _
    exact quantDiffsBP_run pred js _ _

theorem quantTableBP_run (chroma : Bool) (precision : Nat) : (quantTableBP chroma precision).run false = readQuantTable chroma precision := by
  have e : (do
      let b ← BP.readb
      if b then do
        let q ← BP.bits 6
        let t ← quantDiffsBP (fillQuantMatrix chroma q) naturalOrder 0 (List.replicate 64 0)
        BP.check ((if t.any (fun v => decide (256 ≤ v)) then 1 else 0) ≤ precision)
        Pure.pure t
      else do
        let j ← BP.read 3
        Pure.pure (stockQuant chroma j) : BP (List Nat)).run false = readQuantTable chroma precision := by
    rw [readQuantTable, BP.run_seq, BP.run_readb]
    congr 1
    funext b
    split
    · rw [BP.run_seq, BP.run_bits]
      congr 1
      funext q
      rw [BP.run_seq, quantDiffsBP_run]
      congr 1
      funext t
      rw [BP.run_seq, BP.run_check]
      rfl
    · rw [BP.run_seq, BP.run_read]
      rfl
  rw [quantTableBP, BP.run_need, e]
  rw [e, readQuantTable]
  refine Wants.bit (m := 3) fun b => Wants.ite (fun _ => ?_) fun _ => ?_
  · exact Wants.mono (Wants.bits (n := 6) (m := 0) fun q => Wants.zero _) (by decide)
  · exact Wants.bits (m := 0) fun q => Wants.zero _

theorem quantTabsBP_run : ∀ i ps, (quantTabsBP i ps).run false = readQuantTabs i ps
  | _, [] => rfl
  | i, p :: ps => by
    rw [quantTabsBP, readQuantTabs, BP.run_seq, quantTableBP_run]
    congr 1
    funext t
    rw [BP.run_seq, quantTabsBP_run (i + 1) ps]
    rfl

/-- The program reads the quantisation section. -/
theorem quantBP_run (precisions : List Nat) (ncomp : Nat) : bitSection ((quantBP precisions ncomp).run false) = decodeQuantData precisions ncomp := by
  rw [decodeQuantData]
  congr 1
  rw [quantBP, BP.run_seq, BP.run_bits]
  congr 1
  funext n
  rw [BP.run_seq, BP.run_check]
  congr 1
  funext _
  rw [BP.run_seq, quantTabsBP_run]
  congr 1
  funext ts
  rw [BP.run_seq, BP.run_rep]
  have : (quantIdxBP precisions.length).run false = readQuantIdx precisions.length := by
    rw [quantIdxBP, readQuantIdx, BP.run_seq, BP.run_bits]
    congr 1
    funext i
    rw [BP.run_seq, BP.run_check]
    rfl
  rw [this]
  rfl

theorem quantDiffsBP_within (pred : List Nat) : ∀ js delta t, (quantDiffsBP pred js delta t).Within (fun _ => True) 0
  | [], _, _ => trivial
  | j :: js, delta, t => by
    rw [quantDiffsBP]
    refine BP.Within.seq (p1 := fun _ => True) ?_ fun d _ => ?_
    · rw [quantDiffBP]
      refine BP.Within.seq BP.Within.bit fun b _ => BP.Within.ite (fun _ => ?_) fun _ => trivial
      exact BP.Within.seq BP.Within.bit fun s _ => BP.Within.seq (varintBP_within _ _ _) fun _ _ => trivial
    · simp only
      exact BP.Within.seq BP.Within.check fun _ _ => BP.Within.seq BP.Within.check fun _ _ => quantDiffsBP_within pred js _ _

/-- The tests of the quantisation section are sufficient. -/
theorem quantBP_within (precisions : List Nat) (ncomp : Nat) : (quantBP precisions ncomp).Within (fun _ => True) 0 := by
  have tab : ∀ c p, (quantTableBP c p).Within (fun _ => True) 0 := by
    intro c p
    rw [quantTableBP]
    refine BP.Within.need (by decide) (BP.Within.readb (by decide) fun b => BP.Within.ite (fun _ => ?_) fun _ => ?_)
    · refine BP.Within.seq (BP.Within.bits (by decide)) fun q _ => BP.Within.seq (quantDiffsBP_within _ _ _ _) fun t _ => ?_
      exact BP.Within.seq BP.Within.check fun _ _ => trivial
    · exact BP.Within.read (by decide) fun _ _ => trivial
  have tabs : ∀ ps i, (quantTabsBP i ps).Within (fun _ => True) 0 := by
    intro ps
    induction ps with
    | nil => intro i; trivial
    | cons p ps ih => intro i; exact BP.Within.seq (tab _ _) fun _ _ => BP.Within.seq (ih _) fun _ _ => trivial
  refine BP.Within.seq (BP.Within.bits (by decide)) fun n _ => BP.Within.seq BP.Within.check fun _ _ => BP.Within.seq (tabs _ _) fun ts _ => ?_
  refine BP.Within.seq (p1 := fun _ => True) ((BP.Within.rep (post := fun _ => True) ?_ _).imp fun _ _ => trivial) fun _ _ => trivial
  exact BP.Within.seq (BP.Within.bits (by decide)) fun i _ => BP.Within.seq BP.Within.check fun _ _ => trivial

end Brunsli
