import Verif.OutInput
/-!
# Integers of the sections of parameters

`DecodeScanInfo` and `DecodeQuantDataSection` compute positions, numbers of zero runs and values of quantisation tables in the type `int`.  Here every result
is checked for the range of that type; leaving it is `.ub`.
-/

namespace Brunsli

open P

/-- A reader of bits whose outcome may be undefined. -/
def CP (α : Type) : Type := List Bool → Run (α × List Bool)

/-- Sequencing. -/
def CP.bind {α β : Type} (c : CP α) (f : α → CP β) : CP β := fun bs => (c bs).bind fun x => f x.1 x.2

/-- Readers that do no arithmetic. -/
def CP.of {α : Type} (p : P Bool α) : CP α := fun bs =>
  match p bs with
  | some x => .ok x
  | none => .fail

/-- The range of `int`. -/
def CP.int (v : Int) : CP Unit := fun bs => if -2 ^ 31 ≤ v ∧ v < 2 ^ 31 then .ok ((), bs) else .ub

instance : Monad CP where
  bind := CP.bind
  pure a := fun bs => .ok (a, bs)

/-- The reset points (c/dec/brunsli_decode.cc:479-509), with `last` the `last_block_idx`, -1 in the beginning. -/
def readResetsC : (fuel : Nat) → (last : Int) → CP (List Int)
  | 0, _ => CP.of P.fail
  | fuel + 1, last => do
    let b ← CP.of readBit
    if b then do
      let v ← CP.of (decodeVarint 28)
      CP.int v
      CP.int (last + v)
      CP.int (last + v + 1)
      CP.of (P.guard (last + v + 1 ≤ 2 ^ 30))
      let is ← readResetsC fuel (last + v + 1)
      pure ((last + v + 1) :: is)
    else pure []

/-- The extra zero runs (c/dec/brunsli_decode.cc:441-449, 510-536). -/
def readRunsC : (fuel : Nat) → (last num : Int) → CP (List (Int × Int))
  | 0, _, _ => CP.of P.fail
  | fuel + 1, last, num => do
    let b ← CP.of readBit
    if b then do
      let v ← CP.of (decodeVarint 28)
      CP.int v
      CP.int (last + v)
      let new := if last + v > last ∧ num > 0 then [(last, num)] else []
      let num := if last + v > last then 0 else num
      CP.int (num + 1)
      CP.of (P.guard (last + v ≤ 2 ^ 30))
      let rs ← readRunsC fuel (last + v) (num + 1)
      pure (new ++ rs)
    else pure (if num > 0 then [(last, num)] else [])

/-- A loop each round of which takes a bit. -/
def CP.while {α : Type} (f : Nat → CP α) : CP α := fun bs => f bs.length bs

/-- `DecodeScanInfo` (c/dec/brunsli_decode.cc:436-541), for one scan. -/
def readScanInfoC : CP ScanInfo := do
  let ss ← CP.of (readBits 6)
  let se ← CP.of (readBits 6)
  let ah ← CP.of (readBits 4)
  let al ← CP.of (readBits 4)
  let n ← CP.of (readBits 2)
  let comps ← CP.of (P.replicate (n + 1) readScanComp)
  let resets ← CP.while fun fuel => readResetsC fuel (-1)
  let runs ← CP.while fun fuel => readRunsC fuel 0 0
  pure ⟨ss, se, ah, al, comps, resets.map Int.toNat, runs.map fun r => (r.1.toNat, r.2.toNat)⟩

/-- As `P.replicate`. -/
def CP.replicate {α : Type} : Nat → CP α → CP (List α)
  | 0, _ => pure []
  | n + 1, c => do
    let a ← c
    let as ← CP.replicate n c
    pure (a :: as)

/-- The bits of the internals section (c/dec/brunsli_decode.cc:1408-1588). -/
def readInternalsBitsC (limit ncomp : Nat) : CP Internals := do
  let markers ← CP.of (whileBits readMarkers)
  let dri ← CP.of (if 0xdd ∈ markers then readBits 16 else Pure.pure 0)
  let huffman ← CP.of (readHuffCodes kMaxDHTMarkers)
  CP.of (P.guard (markers.count 0xc4 = huffman.countP (·.isLast)))
  let scans ← CP.replicate (markers.count 0xda) readScanInfoC
  let n ← CP.of (readBits 2)
  let quant ← CP.of (readQuantHeads (n + 1))
  let ids ← CP.of (readIds ncomp)
  let np ← CP.of (decodeLimitedVarint 8 4)
  CP.of (P.guard (np ≤ limit))
  let padding ← CP.of (P.replicate np readBit)
  pure ⟨markers, dri, huffman, scans, quant, ids, padding, []⟩

/-- The values of a table (c/dec/brunsli_decode.cc:1705-1757); `delta` is `qs.delta`. -/
def readQuantDiffsC (pred : List Nat) : List Nat → Int → List Nat → CP (List Nat)
  | [], _, t => pure t
  | j :: js, delta, t => do
    let b ← CP.of readBit
    let delta ← (if b then do
        let s ← CP.of readBit
        let d ← CP.of (decodeVarint 16)
        CP.int d
        CP.int (d + 1)
        let sign : Int := if s then -1 else 1
        CP.int (sign * (d + 1))
        CP.int (delta + sign * (d + 1))
        pure (delta + sign * (d + 1))
      else pure delta)
    CP.int (pred.getD j 0 + delta)
    CP.of (P.guard (0 < (pred.getD j 0 : Int) + delta))
    CP.of (P.guard ((pred.getD j 0 : Int) + delta < 65536))
    readQuantDiffsC pred js delta (t.set j ((pred.getD j 0 : Int) + delta).toNat)

/-- One table (c/dec/brunsli_decode.cc:1664-1771). -/
def readQuantTableC (chroma : Bool) (precision : Nat) : CP (List Nat) := do
  let b ← CP.of readBit
  if b then do
    let q ← CP.of (readBits 6)
    let t ← readQuantDiffsC (fillQuantMatrix chroma q) naturalOrder 0 (List.replicate 64 0)
    CP.of (P.guard ((if t.any (fun v => decide (256 ≤ v)) then 1 else 0) ≤ precision))
    pure t
  else do
    let j ← CP.of (readBits 3)
    pure (stockQuant chroma j)

/-- All tables (c/dec/brunsli_decode.cc:1662-1777). -/
def readQuantTabsC (i : Nat) : List Nat → CP (List (List Nat))
  | [] => pure []
  | p :: ps => do
    let t ← readQuantTableC (decide (i > 0)) p
    let ts ← readQuantTabsC (i + 1) ps
    pure (t :: ts)

/-- `DecodeQuantDataSection` (c/dec/brunsli_decode.cc:1635-1796). -/
def decodeQuantDataC (precisions : List Nat) (ncomp : Nat) : CP (List (List Nat) × List Nat) := do
  let n ← CP.of (readBits 2)
  CP.of (P.guard (precisions.length = n + 1))
  let ts ← readQuantTabsC 0 precisions
  let idx ← CP.of (P.replicate ncomp (readQuantIdx precisions.length))
  CP.of finishBits
  pure (ts, idx)

/-! ## Agreement -/

/-- The reader makes no bits. -/
def Shrinks {α : Type} (p : P Bool α) : Prop := ∀ bs a r, p bs = some (a, r) → r.length ≤ bs.length

/-- On fewer than `N` bits the checked reader does what the reader of the model does. -/
def Tame {α : Type} (N : Nat) (c : CP α) (p : P Bool α) : Prop := ∀ bs, bs.length < N → c bs = CP.of p bs

/-- On any bits. -/
def Free {α : Type} (c : CP α) (p : P Bool α) : Prop := ∀ bs, c bs = CP.of p bs

theorem CP.bind_apply {α β : Type} (c : CP α) (f : α → CP β) (bs : List Bool) : (c >>= f) bs = (c bs).bind fun x => f x.1 x.2 := rfl

theorem CP.of_some {α : Type} {p : P Bool α} {bs : List Bool} {x : α × List Bool} (h : p bs = some x) : CP.of p bs = .ok x := by
  unfold CP.of
  rw [h]

theorem CP.of_none {α : Type} {p : P Bool α} {bs : List Bool} (h : p bs = none) : CP.of p bs = .fail := by
  unfold CP.of
  rw [h]

theorem CP.int_ok {v : Int} (h : -2 ^ 31 ≤ v ∧ v < 2 ^ 31) (bs : List Bool) : CP.int v bs = .ok ((), bs) := if_pos h

theorem CP.bind_ok {α β : Type} {c : CP α} {f : α → CP β} {bs r : List Bool} {a : α} (h : c bs = .ok (a, r)) : (c >>= f) bs = f a r := by
  rw [CP.bind_apply, h]
  rfl

theorem CP.bind_fail {α β : Type} {c : CP α} {f : α → CP β} {bs : List Bool} (h : c bs = .fail) : (c >>= f) bs = .fail := by
  rw [CP.bind_apply, h]
  rfl

theorem CP.bind_ub {α β : Type} {c : CP α} {f : α → CP β} {bs : List Bool} (h : c bs = .ub) : (c >>= f) bs = .ub := by
  rw [CP.bind_apply, h]
  rfl

theorem P.bind_eq {α β : Type} {p : P Bool α} {f : α → P Bool β} {bs r : List Bool} {a : α} (h : p bs = some (a, r)) : (p >>= f) bs = f a r := by
  rw [P.bind_apply, h]

theorem P.bind_none {α β : Type} {p : P Bool α} {f : α → P Bool β} {bs : List Bool} (h : p bs = none) : (p >>= f) bs = none := by
  rw [P.bind_apply, h]

theorem CP.of_bind {α β : Type} {p : P Bool α} {f : α → P Bool β} {bs r : List Bool} {a : α} (h : p bs = some (a, r)) : CP.of (p >>= f) bs = CP.of (f a) r := by
  unfold CP.of
  rw [P.bind_eq h]

theorem CP.of_bind_none {α β : Type} {p : P Bool α} {f : α → P Bool β} {bs : List Bool} (h : p bs = none) : CP.of (p >>= f) bs = .fail := by
  unfold CP.of
  rw [P.bind_none h]

theorem Free.of {α : Type} (p : P Bool α) : Free (CP.of p) p := fun _ => rfl

theorem Free.pure {α : Type} (a : α) : Free (Pure.pure a : CP α) (Pure.pure a) := fun _ => rfl

theorem Free.tame {α : Type} {N : Nat} {c : CP α} {p : P Bool α} (h : Free c p) : Tame N c p := fun bs _ => h bs

theorem Free.bind {α β : Type} {c : CP α} {p : P Bool α} {f : α → CP β} {g : α → P Bool β} (h : Free c p) (k : ∀ a, Free (f a) (g a)) : Free (c >>= f) (p >>= g) := by
  intro bs
  have e := h bs
  cases hp : p bs with
  | none => rw [CP.bind_fail (by rw [e, CP.of_none hp]), CP.of_bind_none hp]
  | some x => rw [CP.bind_ok (a := x.1) (r := x.2) (by rw [e, CP.of_some hp]), CP.of_bind (a := x.1) (r := x.2) hp, k]

theorem Tame.bind {α β : Type} {N : Nat} {c : CP α} {p : P Bool α} {f : α → CP β} {g : α → P Bool β} (h : Tame N c p) (hs : Shrinks p) (k : ∀ a, Tame N (f a) (g a)) :
    Tame N (c >>= f) (p >>= g) := by
  intro bs hb
  have e := h bs hb
  cases hp : p bs with
  | none => rw [CP.bind_fail (by rw [e, CP.of_none hp]), CP.of_bind_none hp]
  | some x =>
    have hl := hs bs x.1 x.2 hp
    rw [CP.bind_ok (a := x.1) (r := x.2) (by rw [e, CP.of_some hp]), CP.of_bind (a := x.1) (r := x.2) hp, k _ _ (by omega)]

theorem decodeVarintLoop_some (l : Nat) : ∀ {i v : Nat} {bs r : List Bool} {n : Nat}, v < 2 ^ i → decodeVarintLoop l i v bs = some (n, r) →
    n < 2 ^ (i + l) ∧ r.length + (if l = 0 then 0 else 1) ≤ bs.length := by
  induction l with
  | zero =>
    intro i v bs r n hv h
    obtain ⟨rfl, rfl⟩ := P.pure_some h
    simpa using hv
  | succ l ih =>
    intro i v bs r n hv h
    rw [decodeVarintLoop] at h
    obtain ⟨go, s, e1, e2⟩ := P.bind_some h
    have hs : s.length + (if l = 0 then 0 else 1) ≤ bs.length := by
      by_cases hl : l = 0
      · rw [if_pos hl] at e1
        rw [(P.pure_some e1).2, if_pos hl]
        omega
      · rw [if_neg hl] at e1
        cases bs with
        | nil => cases e1
        | cons x xs => cases e1; rw [if_neg hl]; simp
    cases go with
    | false =>
      have e3 := P.pure_some e2
      obtain ⟨rfl, rfl⟩ := e3
      refine ⟨Nat.lt_of_lt_of_le hv (Nat.pow_le_pow_right (by decide) (by omega)), ?_⟩
      by_cases hl : l = 0
      · rw [if_pos hl] at e1
        exact absurd (P.pure_some e1).1 (by decide)
      · rw [if_neg hl] at hs
        rw [if_neg (by omega)]
        omega
    | true =>
      obtain ⟨b, s', e3, e4⟩ := P.bind_some e2
      have h3 : s'.length + 1 ≤ s.length := by
        cases s with
        | nil => cases e3
        | cons x xs => cases e3; simp
      have hv' : v ||| (b.toNat <<< i) < 2 ^ (i + 1) := by
        rw [or_shift hv]
        have : b.toNat ≤ 1 := by cases b <;> decide
        have h4 : b.toNat * 2 ^ i ≤ 1 * 2 ^ i := Nat.mul_le_mul_right _ this
        rw [Nat.pow_succ]
        omega
      obtain ⟨h5, h6⟩ := ih hv' e4
      rw [show i + 1 + l = i + (l + 1) by omega] at h5
      refine ⟨h5, ?_⟩
      rw [if_neg (by omega)]
      omega

theorem decodeVarint_some {m : Nat} {bs r : List Bool} {n : Nat} (h : decodeVarint (m + 1) bs = some (n, r)) : n < 2 ^ (m + 1) ∧ r.length + 1 ≤ bs.length := by
  have := decodeVarintLoop_some (m + 1) (i := 0) (v := 0) (by decide) h
  rw [Nat.zero_add, if_neg (by omega)] at this
  exact this

/-! ## Reset points -/

theorem readResetsC_eq (fuel : Nat) : ∀ {next : Nat}, next ≤ 2 ^ 30 + 1 →
    Free (readResetsC fuel ((next : Int) - 1)) (readResetsLoop fuel next >>= fun l => Pure.pure (l.map fun i : Nat => (i : Int))) := by
  induction fuel with
  | zero => intro next _ bs; rfl
  | succ fuel ih =>
    intro next hn bs
    cases bs with
    | nil => rfl
    | cons b bs =>
      cases b with
      | false => rfl
      | true =>
        rw [readResetsC, readResetsLoop, CP.bind_ok (a := true) (r := bs) rfl, if_pos rfl]
        have hb : CP.of ((do
            let b ← readBit
            if b = true then do
              let v ← decodeVarint 28
              P.guard (next + v ≤ 2 ^ 30)
              let is ← readResetsLoop fuel (next + v + 1)
              Pure.pure ((next + v) :: is)
            else Pure.pure []) >>= fun l => Pure.pure (l.map fun i : Nat => (i : Int))) (true :: bs) =
          CP.of ((do
              let v ← decodeVarint 28
              P.guard (next + v ≤ 2 ^ 30)
              let is ← readResetsLoop fuel (next + v + 1)
              Pure.pure ((next + v) :: is)) >>= fun l => Pure.pure (l.map fun i : Nat => (i : Int))) bs := rfl
        rw [hb]
        cases hv : decodeVarint 28 bs with
        | none =>
          rw [CP.bind_fail (CP.of_none hv)]
          unfold CP.of
          rw [P.bind_none (P.bind_none hv)]
        | some x =>
          obtain ⟨v, r⟩ := x
          obtain ⟨hlt, -⟩ := decodeVarint_some hv
          rw [CP.bind_ok (CP.of_some hv), CP.bind_ok (CP.int_ok (by omega) r), CP.bind_ok (CP.int_ok (by omega) r), CP.bind_ok (CP.int_ok (by omega) r)]
          have e2 : ∀ {β : Type} (g : Nat → P Bool (List Nat)) (k : List Nat → P Bool β), CP.of ((decodeVarint 28 >>= g) >>= k) bs = CP.of (g v >>= k) r := by
            intro β g k
            unfold CP.of
            simp only [P.bind_apply, hv]
          rw [e2]
          by_cases hg : next + v ≤ 2 ^ 30
          · rw [CP.bind_ok (a := ()) (r := r) (CP.of_some (by rw [P.guard_apply, if_pos (by omega)]))]
            have e3 := ih (next := next + v + 1) (by omega) r
            rw [show ((next + v + 1 : Nat) : Int) - 1 = (next : Int) - 1 + v + 1 by omega] at e3
            rw [CP.bind_apply, e3]
            unfold CP.of
            simp only [P.bind_apply, P.guard_apply, if_pos hg]
            cases readResetsLoop fuel (next + v + 1) r with
            | none => rfl
            | some y =>
              simp only [P.pure_apply, Run.bind, List.map_cons]
              rw [show (next : Int) - 1 + v + 1 = ((next + v : Nat) : Int) by omega]
              rfl
          · rw [CP.bind_fail (CP.of_none (by rw [P.guard_apply, if_neg (by omega)]))]
            unfold CP.of
            simp only [P.bind_apply, P.guard_apply, if_neg hg]

/-! ## Zero runs -/

/-- A run in the type of the code. -/
def runInts (r : Nat × Nat) : Int × Int := (r.1, r.2)

theorem readRunsC_eq (fuel : Nat) : ∀ {last num : Nat} (bs : List Bool), last ≤ 2 ^ 30 → bs.length + 2 * num < 2 ^ 32 →
    readRunsC fuel last num bs = CP.of (readRunsLoop fuel last num >>= fun l => Pure.pure (l.map runInts)) bs := by
  induction fuel with
  | zero => intro last num bs _ _; rfl
  | succ fuel ih =>
    intro last num bs hl hn
    have hpend : (if (num : Int) > 0 then [((last : Int), (num : Int))] else []) = (pendingRun last num).map runInts := by
      unfold pendingRun
      by_cases h0 : num > 0
      · rw [if_pos (by omega), if_pos h0]
        rfl
      · rw [if_neg (by omega), if_neg h0]
        rfl
    cases bs with
    | nil => rfl
    | cons b bs =>
      rw [List.length_cons] at hn
      cases b with
      | false =>
        rw [readRunsC, readRunsLoop, CP.bind_ok (a := false) (r := bs) rfl, if_neg (by decide), hpend]
        rfl
      | true =>
        rw [readRunsC, readRunsLoop, CP.bind_ok (a := true) (r := bs) rfl, if_pos rfl]
        have e1 : ∀ {β γ : Type} (g : Bool → P Bool γ) (k : γ → P Bool β), CP.of ((readBit >>= g) >>= k) (true :: bs) = CP.of (g true >>= k) bs := fun _ _ => rfl
        rw [e1, if_pos rfl]
        cases hv : decodeVarint 28 bs with
        | none =>
          rw [CP.bind_fail (CP.of_none hv)]
          unfold CP.of
          rw [P.bind_none (P.bind_none hv)]
        | some x =>
          obtain ⟨v, r⟩ := x
          obtain ⟨hlt, hr⟩ := decodeVarint_some hv
          rw [CP.bind_ok (CP.of_some hv), CP.bind_ok (CP.int_ok (by omega) r), CP.bind_ok (CP.int_ok (by omega) r)]
          have e2 : ∀ {β γ : Type} (g : Nat → P Bool γ) (k : γ → P Bool β), CP.of ((decodeVarint 28 >>= g) >>= k) bs = CP.of (g v >>= k) r := by
            intro β γ g k
            unfold CP.of
            simp only [P.bind_apply, hv]
          rw [e2]
          by_cases h0 : v > 0
          · rw [if_pos (show (last : Int) + v > last by omega), CP.bind_ok (CP.int_ok (by omega) r),
              show (if (last : Int) + v > last ∧ (num : Int) > 0 then [((last : Int), (num : Int))] else []) = (pendingRun last num).map runInts by
                rw [← hpend]
                by_cases hp : (num : Int) > 0
                · rw [if_pos hp, if_pos ⟨by omega, hp⟩]
                · rw [if_neg hp, if_neg (fun h => hp h.2)]]
            by_cases hg : last + v ≤ 2 ^ 30
            · rw [CP.bind_ok (a := ()) (r := r) (CP.of_some (by rw [P.guard_apply, if_pos (by omega)]))]
              have e3 := ih (last := last + v) (num := 1) r (by omega) (by omega)
              rw [CP.bind_apply, show (last : Int) + v = ((last + v : Nat) : Int) by omega, show (0 : Int) + 1 = ((1 : Nat) : Int) by omega, e3]
              unfold CP.of
              simp only [P.bind_apply, P.guard_apply, if_pos hg, if_pos h0]
              cases readRunsLoop fuel (last + v) 1 r with
              | none => rfl
              | some y =>
                simp only [P.pure_apply, Run.bind, List.map_append]
                rfl
            · rw [CP.bind_fail (CP.of_none (by rw [P.guard_apply, if_neg (by omega)]))]
              unfold CP.of
              simp only [P.bind_apply, P.guard_apply, if_neg hg]
          · rw [if_neg (show ¬(last : Int) + v > last by omega), if_neg (fun h => absurd h.1 (by omega)), CP.bind_ok (CP.int_ok (by omega) r)]
            by_cases hg : last + v ≤ 2 ^ 30
            · rw [CP.bind_ok (a := ()) (r := r) (CP.of_some (by rw [P.guard_apply, if_pos (by omega)]))]
              have e3 := ih (last := last + v) (num := num + 1) r (by omega) (by omega)
              rw [CP.bind_apply, show (last : Int) + v = ((last + v : Nat) : Int) by omega, show (num : Int) + 1 = ((num + 1 : Nat) : Int) by omega, e3]
              unfold CP.of
              simp only [P.bind_apply, P.guard_apply, if_pos hg, if_neg h0]
              cases readRunsLoop fuel (last + v) (num + 1) r with
              | none => rfl
              | some y => rfl
            · rw [CP.bind_fail (CP.of_none (by rw [P.guard_apply, if_neg (by omega)]))]
              unfold CP.of
              simp only [P.bind_apply, P.guard_apply, if_neg hg]

/-! ## Scans and the section -/

theorem Shrinks.bits (n : Nat) : Shrinks (readBits n) := by
  intro bs a r h
  have := readBits_length h
  omega

theorem readScanInfoC_tame : Tame (2 ^ 32) readScanInfoC readScanInfo := by
  have e : readScanInfo = (do
      let ss ← readBits 6
      let se ← readBits 6
      let ah ← readBits 4
      let al ← readBits 4
      let n ← readBits 2
      let comps ← P.replicate (n + 1) readScanComp
      let resets ← (whileBits fun fuel => readResetsLoop fuel 0 >>= fun l => Pure.pure (l.map fun i : Nat => (i : Int)))
      let runs ← (whileBits fun fuel => readRunsLoop fuel 0 0 >>= fun l => Pure.pure (l.map runInts))
      Pure.pure ⟨ss, se, ah, al, comps, resets.map Int.toNat, runs.map fun r => (r.1.toNat, r.2.toNat)⟩) := by
    unfold readScanInfo
    have e1 : ∀ (k : List (Nat × Nat) → P Bool ScanInfo), ((whileBits fun fuel => readRunsLoop fuel 0 0) >>= k) =
        ((whileBits fun fuel => readRunsLoop fuel 0 0 >>= fun l => Pure.pure (l.map runInts)) >>= fun l => k (l.map fun r => (r.1.toNat, r.2.toNat))) := by
      intro k
      funext bs
      simp only [P.bind_apply, whileBits]
      cases readRunsLoop bs.length 0 0 bs with
      | none => rfl
      | some x =>
        show k x.1 x.2 = k ((x.1.map runInts).map fun r => (r.1.toNat, r.2.toNat)) x.2
        rw [List.map_map, show ((fun r : Int × Int => (r.1.toNat, r.2.toNat)) ∘ runInts) = id from rfl, List.map_id]
    have e2 : ∀ (k : List Nat → P Bool ScanInfo), ((whileBits fun fuel => readResetsLoop fuel 0) >>= k) =
        ((whileBits fun fuel => readResetsLoop fuel 0 >>= fun l => Pure.pure (l.map fun i : Nat => (i : Int))) >>= fun l => k (l.map Int.toNat)) := by
      intro k
      funext bs
      simp only [P.bind_apply, whileBits]
      cases readResetsLoop bs.length 0 bs with
      | none => rfl
      | some x =>
        show k x.1 x.2 = k ((x.1.map fun i : Nat => (i : Int)).map Int.toNat) x.2
        rw [List.map_map, show (Int.toNat ∘ fun i : Nat => (i : Int)) = id from rfl, List.map_id]
    simp only [e1, e2]
  rw [e]
  unfold readScanInfoC
  refine Tame.bind (Free.of _).tame (Shrinks.bits 6) fun ss => Tame.bind (Free.of _).tame (Shrinks.bits 6) fun se => Tame.bind (Free.of _).tame (Shrinks.bits 4) fun ah =>
    Tame.bind (Free.of _).tame (Shrinks.bits 4) fun al => Tame.bind (Free.of _).tame (Shrinks.bits 2) fun n => Tame.bind (Free.of _).tame ?_ fun comps =>
    Tame.bind ?_ ?_ fun resets => Tame.bind ?_ ?_ fun runs => (Free.pure _).tame
  · intro bs a r h
    have := (replicate_length readScanComp_length h).2
    omega
  · exact Free.tame fun bs => readResetsC_eq bs.length (next := 0) (by decide) bs
  · intro bs a r h
    obtain ⟨l, s, h1, h2⟩ := P.bind_some (p := readResetsLoop bs.length 0) h
    have := readResetsLoop_length h1
    rw [(P.pure_some h2).2]
    exact this
  · intro bs hb
    exact readRunsC_eq bs.length (last := 0) (num := 0) bs (by decide) (by omega)
  · intro bs a r h
    obtain ⟨l, s, h1, h2⟩ := P.bind_some (p := readRunsLoop bs.length 0 0) h
    have := readRunsLoop_length h1
    rw [(P.pure_some h2).2]
    omega

theorem CP.replicate_tame {α : Type} {N : Nat} {c : CP α} {p : P Bool α} (h : Tame N c p) (hs : Shrinks p) : ∀ n, Tame N (CP.replicate n c) (P.replicate n p)
  | 0 => (Free.pure _).tame
  | n + 1 => Tame.bind h hs fun _ => Tame.bind (CP.replicate_tame h hs n) (fun bs a r e => by
      have := (replicate_length (k := 0) (p := p) (fun bs a r e => by have := hs bs a r e; omega) e).2
      omega) fun _ => (Free.pure _).tame

theorem readInternalsBitsC_tame (limit ncomp : Nat) : Tame (2 ^ 32) (readInternalsBitsC limit ncomp) (readInternalsBits limit ncomp) := by
  unfold readInternalsBitsC readInternalsBits
  refine Tame.bind (Free.of _).tame ?_ fun markers => Tame.bind (Free.of _).tame ?_ fun dri => Tame.bind (Free.of _).tame ?_ fun huffman =>
    Tame.bind (Free.of _).tame ?_ fun _ => Tame.bind (CP.replicate_tame readScanInfoC_tame ?_ _) ?_ fun scans => Free.tame ?_
  · intro bs a r h
    have := (readMarkers_counts h).1
    omega
  · intro bs a r h
    split at h
    · have := readBits_length h
      omega
    · rw [(P.pure_some h).2]
  · intro bs a r h
    have := readHuffCodes_length h
    omega
  · intro bs a r h
    rw [(P.guard_some h).2]
  · intro bs a r h
    have := (readScanInfo_length h).1
    omega
  · intro bs a r h
    have := (readScans_length h).1
    omega
  · exact Free.bind (Free.of _) fun _ => Free.bind (Free.of _) fun _ => Free.bind (Free.of _) fun _ => Free.bind (Free.of _) fun _ => Free.bind (Free.of _) fun _ =>
      Free.bind (Free.of _) fun _ => Free.pure _

/-! ## Quantisation tables -/

theorem readQuantDiffsC_eq {pred : List Nat} (hp : ∀ v ∈ pred, v ≤ 255) (js : List Nat) : ∀ {delta : Int} {t : List Nat}, -256 < delta → delta < 65536 →
    Free (readQuantDiffsC pred js delta t) (readQuantDiffs pred js delta t) := by
  induction js with
  | nil => intro delta t _ _; exact Free.pure _
  | cons j js ih =>
    intro delta t h1 h2
    have hj : pred.getD j 0 ≤ 255 := by
      rw [List.getD_eq_getElem?_getD]
      cases e : pred[j]? with
      | none => simp
      | some v => exact hp v (List.mem_of_getElem? e)
    -- what follows the difference
    have rest : ∀ (d : Int) (r : List Bool), -65536 ≤ d → d ≤ 65536 → (do
        CP.int (pred.getD j 0 + (delta + d))
        CP.of (P.guard (0 < (pred.getD j 0 : Int) + (delta + d)))
        CP.of (P.guard ((pred.getD j 0 : Int) + (delta + d) < 65536))
        readQuantDiffsC pred js (delta + d) (t.set j ((pred.getD j 0 : Int) + (delta + d)).toNat)) r = CP.of (do
        P.guard (0 < (pred.getD j 0 : Int) + (delta + d))
        P.guard ((pred.getD j 0 : Int) + (delta + d) < 65536)
        readQuantDiffs pred js (delta + d) (t.set j ((pred.getD j 0 : Int) + (delta + d)).toNat)) r := by
      intro d r hd1 hd2
      rw [CP.bind_ok (CP.int_ok (by omega) r)]
      by_cases g1 : 0 < (pred.getD j 0 : Int) + (delta + d)
      · have e1 : (P.guard (0 < (pred.getD j 0 : Int) + (delta + d)) : P Bool Unit) r = some ((), r) := by rw [P.guard_apply, if_pos g1]
        rw [CP.bind_ok (CP.of_some e1), CP.of_bind e1]
        by_cases g2 : (pred.getD j 0 : Int) + (delta + d) < 65536
        · have e2 : (P.guard ((pred.getD j 0 : Int) + (delta + d) < 65536) : P Bool Unit) r = some ((), r) := by rw [P.guard_apply, if_pos g2]
          rw [CP.bind_ok (CP.of_some e2), CP.of_bind e2]
          exact ih (by omega) (by omega) r
        · have e2 : (P.guard ((pred.getD j 0 : Int) + (delta + d) < 65536) : P Bool Unit) r = none := by rw [P.guard_apply, if_neg g2]
          rw [CP.bind_fail (CP.of_none e2), CP.of_bind_none e2]
      · have e1 : (P.guard (0 < (pred.getD j 0 : Int) + (delta + d)) : P Bool Unit) r = none := by rw [P.guard_apply, if_neg g1]
        rw [CP.bind_fail (CP.of_none e1), CP.of_bind_none e1]
    intro bs
    rw [readQuantDiffsC, readQuantDiffs]
    cases bs with
    | nil => rfl
    | cons b bs =>
      rw [CP.bind_ok (a := b) (r := bs) rfl]
      cases b with
      | false =>
        rw [if_neg (by decide), CP.bind_ok (a := delta) (r := bs) rfl]
        have e0 : readQuantDiff (false :: bs) = some (0, bs) := rfl
        rw [CP.of_bind e0]
        have := rest 0 bs (by omega) (by omega)
        rw [Int.add_zero] at this
        dsimp only
        rw [Int.add_zero]
        exact this
      | true =>
        rw [if_pos rfl]
        cases bs with
        | nil => rfl
        | cons s bs =>
          rw [CP.bind_apply, CP.bind_ok (a := s) (r := bs) rfl]
          cases hv : decodeVarint 16 bs with
          | none =>
            rw [CP.bind_fail (CP.of_none hv), CP.of_bind_none]
            · rfl
            · exact P.bind_none (f := fun d : Nat => Pure.pure (if s then -((d : Int) + 1) else (d : Int) + 1)) hv
          | some x =>
            obtain ⟨v, r⟩ := x
            obtain ⟨hlt, -⟩ := decodeVarint_some hv
            have hq : readQuantDiff (true :: s :: bs) = some (if s then -((v : Int) + 1) else (v : Int) + 1, r) := P.bind_eq (f := fun d : Nat => Pure.pure (if s then -((d : Int) + 1) else (d : Int) + 1)) hv
            have hsg : (if s = true then -1 else 1 : Int) * ((v : Int) + 1) = if s then -((v : Int) + 1) else (v : Int) + 1 := by
              cases s
              · simp
              · simp
            rw [CP.bind_ok (CP.of_some hv), CP.bind_ok (CP.int_ok (by omega) r), CP.bind_ok (CP.int_ok (by omega) r), CP.of_bind hq]
            dsimp only
            rw [hsg]
            have hd : -65536 ≤ (if s then -((v : Int) + 1) else (v : Int) + 1) ∧ (if s then -((v : Int) + 1) else (v : Int) + 1) ≤ 65536 := by
              cases s
              · simp; omega
              · simp; omega
            generalize (if s then -((v : Int) + 1) else (v : Int) + 1) = d at *
            rw [CP.bind_ok (CP.int_ok (by omega) r), CP.bind_ok (CP.int_ok (by omega) r)]
            exact rest d r hd.1 hd.2

theorem readQuantTableC_free (chroma : Bool) (precision : Nat) : Free (readQuantTableC chroma precision) (readQuantTable chroma precision) := by
  unfold readQuantTableC readQuantTable
  refine Free.bind (Free.of _) fun b => ?_
  cases b with
  | false => exact Free.bind (Free.of _) fun _ => Free.pure _
  | true =>
    refine Free.bind (Free.of _) fun q => Free.bind (readQuantDiffsC_eq (fun v hv => (fillQuantMatrix_range chroma q v hv).2) _ (by decide) (by decide)) fun t =>
      Free.bind (Free.of _) fun _ => Free.pure _

theorem readQuantTabsC_free : ∀ (ps : List Nat) (i : Nat), Free (readQuantTabsC i ps) (readQuantTabs i ps)
  | [], _ => Free.pure _
  | p :: ps, i => Free.bind (readQuantTableC_free _ p) fun _ => Free.bind (readQuantTabsC_free ps (i + 1)) fun _ => Free.pure _

theorem decodeQuantDataC_free (precisions : List Nat) (ncomp : Nat) : Free (decodeQuantDataC precisions ncomp) (decodeQuantData precisions ncomp) := by
  have e : decodeQuantData precisions ncomp = (do
      let n ← readBits 2
      P.guard (precisions.length = n + 1)
      let ts ← readQuantTabs 0 precisions
      let idx ← P.replicate ncomp (readQuantIdx precisions.length)
      finishBits
      Pure.pure (ts, idx)) := by
    unfold decodeQuantData bitSection
    funext bs
    simp only [P.bind_apply]
    cases readBits 2 bs with
    | none => rfl
    | some x =>
      dsimp only
      cases (P.guard (precisions.length = x.1 + 1) : P Bool Unit) x.2 with
      | none => rfl
      | some y =>
        dsimp only
        cases readQuantTabs 0 precisions y.2 with
        | none => rfl
        | some z =>
          dsimp only
          cases P.replicate ncomp (readQuantIdx precisions.length) z.2 with
          | none => rfl
          | some w => rfl
  rw [e]
  exact Free.bind (Free.of _) fun _ => Free.bind (Free.of _) fun _ => Free.bind (readQuantTabsC_free _ _) fun _ => Free.bind (Free.of _) fun _ => Free.bind (Free.of _) fun _ => Free.pure _

/-! ## Too many zero runs -/

/-- `n` zero runs at the same place. -/
def sameRuns : Nat → List Bool → List Bool
  | 0, r => r
  | n + 1, r => true :: false :: sameRuns n r

theorem sameRuns_length (n : Nat) (r : List Bool) : (sameRuns n r).length = 2 * n + r.length := by
  induction n with
  | zero => simp [sameRuns]
  | succ n ih => simp [sameRuns, ih]; omega

theorem readRunsC_ub (n : Nat) : ∀ {fuel : Nat} {num : Int} {r : List Bool}, 0 ≤ num → num < 2 ^ 31 → 2 ^ 31 ≤ num + n → n ≤ fuel → readRunsC fuel 0 num (sameRuns n r) = .ub := by
  induction n with
  | zero => intro fuel num r h0 h1 h2 _; omega
  | succ n ih =>
    intro fuel num r h0 h1 h2 hf
    cases fuel with
    | zero => omega
    | succ fuel =>
      rw [readRunsC, sameRuns, CP.bind_ok (a := true) (r := false :: sameRuns n r) rfl, if_pos rfl, CP.bind_ok (a := 0) (r := sameRuns n r) rfl,
        CP.bind_ok (CP.int_ok (by omega) _), CP.bind_ok (CP.int_ok (by omega) _)]
      rw [if_neg (show ¬((0 : Int) + ((0 : Nat) : Int) > 0) by omega), if_neg (fun h => absurd h.1 (by omega))]
      by_cases hn : num + 1 < 2 ^ 31
      · rw [CP.bind_ok (CP.int_ok (by omega) _), CP.bind_ok (a := ()) (r := sameRuns n r) (CP.of_some (by rw [P.guard_apply, if_pos (by omega)]))]
        refine CP.bind_ub ?_
        rw [show (0 : Int) + ((0 : Nat) : Int) = 0 by omega]
        exact ih (by omega) hn (by omega) (by omega)
      · exact CP.bind_ub (if_neg (by omega))

/-- Markers of codes, of a scan and of the end; a stock code; the parameters of a scan of one component with no reset points. -/
def runsHead : List Bool :=
  bitsOf 6 0x04 ++ (bitsOf 6 0x1a ++ (bitsOf 6 0x19 ++ ([true, false, false, false, true, false] ++ List.replicate 29 false)))

theorem runsHead_ub (limit ncomp : Nat) {T : List Bool} (h : readRunsC T.length 0 0 T = .ub) : readInternalsBitsC limit ncomp (runsHead ++ T) = .ub := by
  have hs : readScanInfoC (List.replicate 29 false ++ T) = .ub := by
    unfold readScanInfoC
    rw [CP.bind_ok (a := 0) (r := List.replicate 23 false ++ T) rfl, CP.bind_ok (a := 0) (r := List.replicate 17 false ++ T) rfl,
      CP.bind_ok (a := 0) (r := List.replicate 13 false ++ T) rfl, CP.bind_ok (a := 0) (r := List.replicate 9 false ++ T) rfl,
      CP.bind_ok (a := 0) (r := List.replicate 7 false ++ T) rfl, CP.bind_ok (a := [⟨0, 0, 0⟩]) (r := false :: T) rfl,
      CP.bind_ok (a := []) (r := T) rfl]
    exact CP.bind_ub h
  unfold readInternalsBitsC
  rw [CP.bind_ok (a := [0xc4, 0xda, 0xd9]) (r := [true, false, false, false, true, false] ++ (List.replicate 29 false ++ T)) rfl,
    CP.bind_ok (a := 0) (r := [true, false, false, false, true, false] ++ (List.replicate 29 false ++ T)) rfl,
    CP.bind_ok (a := [⟨0 :: stockHuffCounts true 0, stockHuffValues true 0 ++ List.replicate (257 - (stockHuffValues true 0).length) 0, 0, true⟩]) (r := List.replicate 29 false ++ T) rfl,
    CP.bind_ok (a := ()) (r := List.replicate 29 false ++ T) rfl]
  exact CP.bind_ub (CP.bind_ub hs)

end Brunsli
