import Verif.StockTables
import Verif.JpegData
import Verif.Varint
import Verif.CoeffOrder
import Verif.HistSection
/-!
# Quantisation tables

`EncodeQuantTables`, `GetQuantTableId` (c/enc/brunsli_encode.cc:201-293), `FillQuantMatrix`, `FindBestMatrix`
(c/common/quant_matrix.cc), `DecodeQuantDataSection` (c/dec/brunsli_decode.cc:1635-1796).
-/

namespace Brunsli

open P

/-- A section made of bits: what follows them must be less than a byte of zeros (`BrunsliBitReaderFinish`,
c/dec/bit_reader.cc, and the check of the section's end). -/
def bitSection {α : Type} (p : P Bool α) : P Bool α := do
  let a ← p
  finishBits
  Pure.pure a

/-- The first 64 entries of `kJPEGNaturalOrder`. -/
def naturalOrder : List Nat := kJPEGNaturalOrder.take 64

/-- `FillQuantMatrix` (c/common/quant_matrix.cc:16-25). -/
def fillQuantMatrix (chroma : Bool) (q : Nat) : List Nat :=
  (kDefaultQuantMatrix.getD chroma.toNat []).map fun v =>
    let v := (v * q + 32) / 64
    if v < 1 then 1 else if v > 255 then 255 else v

/-- The cost of one difference in `FindBestMatrix` (c/common/quant_matrix.cc:46-62); `none` when it cannot be coded. -/
def diffCost (diff : Int) : Option Nat :=
  if diff = 0 then some 0
  else
    let d := diff.natAbs - 1
    if d = 0 then some 2
    else if d > 65535 then none
    else
      let l := d.log2 + 1
      let l := if l = 16 then l - 1 else l
      some (2 * l + 2)

/-- The length of the differences (c/common/quant_matrix.cc:39-64); `kWorstLen` = 65 * 34 when one cannot be coded. -/
def diffsCost (src approx : List Nat) : List Nat → Int → Nat → Nat
  | [], _, len => len
  | j :: js, last, len =>
    let d := (src.getD j 0 : Int) - approx.getD j 0
    match diffCost (d - last) with
    | none => 65 * 34
    | some c => diffsCost src approx js d (len + c)

/-- `FindBestMatrix` (c/common/quant_matrix.cc:28-67): the first factor of least cost, 0 if none is below `kWorstLen`. -/
def findBestMatrix (src : List Nat) (chroma : Bool) : Nat :=
  ((List.range 64).foldl (fun (best : Nat × Nat) q =>
    let len := diffsCost src (fillQuantMatrix chroma q) naturalOrder 0 0
    if len < best.2 then (q, len) else best) (0, 65 * 34)).1

/-- The stock tables for luminance or chrominance. -/
def stockQuant (chroma : Bool) (j : Nat) : List Nat := kStockQuantizationTables.getD (chroma.toNat * 8 + j) []

/-- The first stock table equal to `values` (c/enc/brunsli_encode.cc:203-213). -/
def findStockQuant (values : List Nat) (chroma : Bool) : Option Nat :=
  (List.range 8).find? fun j => values == stockQuant chroma j

/-- One difference (c/enc/brunsli_encode.cc:275-286). -/
def encQuantDiff (diff : Int) : Option (List Bool) :=
  if diff = 0 then some [false]
  else
    let d := diff.natAbs - 1
    if d > 65535 then none else some (true :: decide (diff < 0) :: encodeVarint 16 d)

/-- The differences (c/enc/brunsli_encode.cc:270-287). -/
def encQuantDiffs (values approx : List Nat) : List Nat → Int → Option (List Bool)
  | [], _ => some []
  | j :: js, last =>
    let d := (values.getD j 0 : Int) - approx.getD j 0
    match encQuantDiff (d - last), encQuantDiffs values approx js d with
    | some a, some b => some (a ++ b)
    | _, _ => none

/-- One table (c/enc/brunsli_encode.cc:252-289). -/
def encQuantTable (values : List Nat) (chroma : Bool) : Option (List Bool) :=
  if values.any (· == 0) then none
  else
    match findStockQuant values chroma with
    | some j => some (false :: bitsOf 3 j)
    | none =>
      let q := findBestMatrix values chroma
      (encQuantDiffs values (fillQuantMatrix chroma q) naturalOrder 0).map fun d => true :: (bitsOf 6 q ++ d)

/-- All tables, `i` being the number of the first (c/enc/brunsli_encode.cc:251-290). -/
def encQuantTabs (i : Nat) : List (List Nat) → Option (List Bool)
  | [] => some []
  | v :: vs =>
    match encQuantTable v (decide (i > 0)), encQuantTabs (i + 1) vs with
    | some a, some b => some (a ++ b)
    | _, _ => none

/-- `EncodeQuantTables` (c/enc/brunsli_encode.cc:245-293), `idx` the `quant_idx` of the components; padded to bytes. -/
def encodeQuantTables (tabs : List (List Nat)) (idx : List Nat) : Option (List Bool) :=
  if tabs.isEmpty || decide (tabs.length > 4) then none
  else (encQuantTabs 0 tabs).map fun t => padByte (bitsOf 2 (tabs.length - 1) ++ (t ++ idx.flatMap (bitsOf 2)))

/-- One difference (c/dec/brunsli_decode.cc:1705-1739). -/
def readQuantDiff : P Bool Int := do
  let b ← readBit
  if b then do
    let s ← readBit
    let d ← decodeVarint 16
    Pure.pure (if s then -((d : Int) + 1) else (d : Int) + 1)
  else Pure.pure 0

/-- The values (c/dec/brunsli_decode.cc:1705-1757): the table, filled along the natural order. -/
def readQuantDiffs (pred : List Nat) : List Nat → Int → List Nat → P Bool (List Nat)
  | [], _, t => Pure.pure t
  | j :: js, delta, t => do
    let d ← readQuantDiff
    let delta := delta + d
    let v := (pred.getD j 0 : Int) + delta
    P.guard (0 < v)
    P.guard (v < 65536)
    readQuantDiffs pred js delta (t.set j v.toNat)

/-- One table (c/dec/brunsli_decode.cc:1664-1771); `precision` is that read in the internals section. -/
def readQuantTable (chroma : Bool) (precision : Nat) : P Bool (List Nat) := do
  let b ← readBit
  if b then do
    let q ← readBits 6
    let t ← readQuantDiffs (fillQuantMatrix chroma q) naturalOrder 0 (List.replicate 64 0)
    P.guard ((if t.any (fun v => decide (256 ≤ v)) then 1 else 0) ≤ precision)
    Pure.pure t
  else do
    let j ← readBits 3
    Pure.pure (stockQuant chroma j)

/-- All tables (c/dec/brunsli_decode.cc:1662-1777). -/
def readQuantTabs (i : Nat) : List Nat → P Bool (List (List Nat))
  | [] => Pure.pure []
  | p :: ps => do
    let t ← readQuantTable (decide (i > 0)) p
    let ts ← readQuantTabs (i + 1) ps
    Pure.pure (t :: ts)

/-- The `quant_idx` of a component (c/dec/brunsli_decode.cc:1779-1790). -/
def readQuantIdx (n : Nat) : P Bool Nat := do
  let i ← readBits 2
  P.guard (i < n)
  Pure.pure i

/-- `DecodeQuantDataSection` (c/dec/brunsli_decode.cc:1635-1796); `precisions` are those of the tables announced in
the internals section, `ncomp` the number of components. -/
def decodeQuantData (precisions : List Nat) (ncomp : Nat) : P Bool (List (List Nat) × List Nat) := bitSection do
  let n ← readBits 2
  P.guard (precisions.length = n + 1)
  let ts ← readQuantTabs 0 precisions
  let idx ← P.replicate ncomp (readQuantIdx precisions.length)
  Pure.pure (ts, idx)

/-! ## Tables -/

theorem naturalOrder_lt : ∀ j ∈ naturalOrder, j < 64 := by decide +kernel

theorem naturalOrder_mem {j : Nat} (h : j < 64) : j ∈ naturalOrder := by
  have : ∀ j < 64, j ∈ naturalOrder := by decide +kernel
  exact this j h

theorem naturalOrder_nodup : naturalOrder.Nodup := by decide +kernel

theorem fillQuantMatrix_length (chroma : Bool) (q : Nat) : (fillQuantMatrix chroma q).length = 64 := by
  unfold fillQuantMatrix
  rw [List.length_map]
  cases chroma <;> decide +kernel

theorem fillQuantMatrix_range (chroma : Bool) (q : Nat) : ∀ v ∈ fillQuantMatrix chroma q, 1 ≤ v ∧ v ≤ 255 := by
  intro v hv
  unfold fillQuantMatrix at hv
  obtain ⟨u, _, rfl⟩ := List.mem_map.mp hv
  simp only
  split
  · omega
  · split <;> omega

theorem stockQuant_ok : ∀ (chroma : Bool) (j : Nat), j < 8 → (stockQuant chroma j).length = 64 ∧ ∀ v ∈ stockQuant chroma j, 1 ≤ v ∧ v ≤ 255 := by
  have : ∀ (c : Bool) (j : Fin 8), (stockQuant c j).length = 64 ∧ ∀ v ∈ stockQuant c j, 1 ≤ v ∧ v ≤ 255 := by decide +kernel
  intro c j hj
  exact this c ⟨j, hj⟩

theorem findBestMatrix_lt (src : List Nat) (chroma : Bool) : findBestMatrix src chroma < 64 := by
  unfold findBestMatrix
  generalize 65 * 34 = w
  have key : ∀ (l : List Nat) (b : Nat × Nat), b.1 < 64 → (∀ q ∈ l, q < 64) → (l.foldl (fun (best : Nat × Nat) q =>
      let len := diffsCost src (fillQuantMatrix chroma q) naturalOrder 0 0
      if len < best.2 then (q, len) else best) b).1 < 64 := by
    intro l
    induction l with
    | nil => intro b hb _; exact hb
    | cons q l ih =>
      intro b hb hl
      rw [List.foldl_cons]
      refine ih _ ?_ fun x hx => hl x (List.mem_cons_of_mem _ hx)
      simp only
      split
      · exact hl q List.mem_cons_self
      · exact hb
  exact key _ _ (show 0 < 64 by decide) fun q hq => List.mem_range.mp hq

/-! ## Round trip -/

theorem quantDiff_reads {d : Int} {bs : List Bool} (h : encQuantDiff d = some bs) : Reads readQuantDiff bs d := by
  unfold encQuantDiff at h
  unfold readQuantDiff
  split at h
  · rename_i h0
    cases h
    exact Reads.bind' (readBit_reads false) (Reads.pure' h0.symm) rfl
  · rename_i h0
    simp only at h
    split at h
    · cases h
    · rename_i h1
      cases h
      refine Reads.bind' (e₁ := [true]) (readBit_reads true) ?_ rfl
      simp only [↓reduceIte]
      refine Reads.bind' (e₁ := [decide (d < 0)]) (readBit_reads _) ?_ rfl
      refine Reads.bind' (decodeVarint_reads (maxBits := 16) (by omega)) (Reads.pure' ?_) (List.append_nil _).symm
      by_cases hneg : d < 0
      · simp only [hneg, decide_true, ↓reduceIte]; omega
      · simp only [hneg, decide_false, Bool.false_eq_true, ↓reduceIte]; omega

theorem quantDiffs_reads {values approx : List Nat} (hr : ∀ v ∈ values, 1 ≤ v ∧ v < 65536) (hl : values.length = 64) (js : List Nat) :
    ∀ {last : Int} {bs : List Bool} {t : List Nat}, (∀ j ∈ js, j < 64) → t.length = 64 → encQuantDiffs values approx js last = some bs →
    ∃ t', Reads (readQuantDiffs approx js last t) bs t' ∧ t'.length = 64 ∧
      ∀ i < 64, (i ∈ js → t'[i]? = values[i]?) ∧ (i ∉ js → t'[i]? = t[i]?) := by
  induction js with
  | nil =>
    intro last bs t _ ht h
    cases h
    exact ⟨t, Reads.pure _, ht, fun i _ => ⟨fun h => absurd h (by simp), fun _ => rfl⟩⟩
  | cons j js ih =>
    intro last bs t hj ht h
    rw [encQuantDiffs] at h
    split at h
    · rename_i a b ha hb
      cases h
      have hj64 := hj j List.mem_cons_self
      have hv : values[j]? = some (values[j]'(by omega)) := List.getElem?_eq_getElem _
      have hrv := hr _ (List.mem_of_getElem? hv)
      have hgd : values.getD j 0 = values[j]'(by omega) := by rw [List.getD_eq_getElem?_getD, hv]; rfl
      obtain ⟨t', r1, r2, r3⟩ := ih (t := t.set j values[j]) (fun x hx => hj x (List.mem_cons_of_mem _ hx)) (by simpa using ht) hb
      refine ⟨t', ?_, r2, fun i hi => ⟨fun hm => ?_, fun hm => ?_⟩⟩
      · rw [readQuantDiffs]
        refine Reads.bind (quantDiff_reads ha) ?_
        simp only
        have e : last + ((values.getD j 0 : Int) - approx.getD j 0 - last) = (values.getD j 0 : Int) - approx.getD j 0 := by omega
        rw [e]
        have e2 : (approx.getD j 0 : Int) + ((values.getD j 0 : Int) - approx.getD j 0) = values[j]'(by omega) := by rw [← hgd]; omega
        rw [e2]
        refine Reads.seqGuard (by omega) (Reads.seqGuard (by omega) ?_)
        rw [Int.toNat_natCast]
        exact r1
      · by_cases hi' : i ∈ js
        · exact (r3 i hi).1 hi'
        · rcases List.mem_cons.mp hm with rfl | h'
          · rw [(r3 i hi).2 hi', List.getElem?_set_self (by omega), hv]
          · exact absurd h' hi'
      · rw [(r3 i hi).2 fun h => hm (List.mem_cons_of_mem _ h)]
        exact List.getElem?_set_ne fun e => hm (by rw [e]; exact List.mem_cons_self)
    · cases h

theorem quantTable_reads {values : List Nat} {chroma : Bool} {precision : Nat} {bs : List Bool} (hl : values.length = 64)
    (hr : ∀ v ∈ values, v < 65536) (hp : precision = 0 → ∀ v ∈ values, v < 256) (h : encQuantTable values chroma = some bs) :
    Reads (readQuantTable chroma precision) bs values := by
  unfold encQuantTable at h
  split at h
  · cases h
  · rename_i h0
    have hr' : ∀ v ∈ values, 1 ≤ v ∧ v < 65536 := fun v hv => ⟨by
      apply Nat.pos_of_ne_zero
      intro e
      exact h0 (List.any_eq_true.mpr ⟨v, hv, by simp [e]⟩), hr v hv⟩
    unfold readQuantTable
    split at h
    · rename_i j hj
      cases h
      unfold findStockQuant at hj
      have h1 := List.find?_some hj
      have h2 := List.mem_range.mp (List.mem_of_find?_eq_some hj)
      refine Reads.bind' (e₁ := [false]) (readBit_reads false) ?_ rfl
      simp only [Bool.false_eq_true, ↓reduceIte]
      refine Reads.bind' (readBits_reads (by omega)) (Reads.pure' ?_) (List.append_nil _).symm
      exact (by simpa using h1 : values = _).symm
    · simp only at h
      cases hd : encQuantDiffs values (fillQuantMatrix chroma (findBestMatrix values chroma)) naturalOrder 0 with
      | none => rw [hd] at h; cases h
      | some d =>
        rw [hd] at h
        cases h
        have hq := findBestMatrix_lt values chroma
        obtain ⟨t', r1, r2, r3⟩ := quantDiffs_reads hr' hl naturalOrder (t := List.replicate 64 0) naturalOrder_lt (by simp) hd
        have ht : t' = values := by
          apply List.ext_getElem?
          intro i
          by_cases hi : i < 64
          · exact (r3 i hi).1 (naturalOrder_mem hi)
          · rw [List.getElem?_eq_none (by omega), List.getElem?_eq_none (by omega)]
        rw [ht] at r1
        refine Reads.bind' (e₁ := [true]) (readBit_reads true) ?_ rfl
        simp only [↓reduceIte]
        refine Reads.bind' (readBits_reads (by omega)) ?_ rfl
        refine Reads.bind' r1 (Reads.seqGuard ?_ (Reads.pure _)) (List.append_nil _).symm
        split
        · rename_i ha
          obtain ⟨v, hv, hv2⟩ := List.any_eq_true.mp ha
          have : 256 ≤ v := by simpa using hv2
          rcases Nat.eq_zero_or_pos precision with hp0 | hp0
          · have := hp hp0 v hv; omega
          · exact hp0
        · exact Nat.zero_le _

theorem quantTabs_reads : ∀ (tabs : List (List Nat)) (ps : List Nat) (i : Nat) (bs : List Bool), tabs.length = ps.length →
    (∀ t ∈ tabs, t.length = 64 ∧ ∀ v ∈ t, v < 65536) → (∀ c (h : c < tabs.length) (h' : c < ps.length), ps[c] = 0 → ∀ v ∈ tabs[c], v < 256) →
    encQuantTabs i tabs = some bs → Reads (readQuantTabs i ps) bs tabs := by
  intro tabs
  induction tabs with
  | nil =>
    intro ps i bs hl _ _ h
    have : ps = [] := List.length_eq_zero_iff.mp hl.symm
    subst this
    cases h
    exact Reads.pure _
  | cons v vs ih =>
    intro ps i bs hl ht hp h
    cases ps with
    | nil => simp at hl
    | cons p ps =>
      rw [encQuantTabs] at h
      split at h
      · rename_i a b ha hb
        cases h
        rw [readQuantTabs]
        have hv := ht v List.mem_cons_self
        refine Reads.bind (quantTable_reads hv.1 hv.2 (fun h0 => hp 0 (by simp) (by simp) h0) ha) ?_
        refine Reads.bind' (ih ps (i + 1) b (by simpa using hl) (fun t h => ht t (List.mem_cons_of_mem _ h)) (fun c h h' h0 => ?_) hb)
          (Reads.pure _) (List.append_nil _).symm
        exact hp (c + 1) (by simpa using h) (by simpa using h') (by simpa using h0)
      · cases h

theorem bitSection_pad {α : Type} {p : P Bool α} {bs : List Bool} {a : α} (h : Reads p bs a) :
    bitSection p (padByte bs) = some (a, []) := by
  obtain ⟨pad, h1, h2, h3⟩ := padByte_reads h
  unfold bitSection
  rw [bind_apply, h2]
  simp only
  rw [bind_apply, h3]
  rfl

theorem bitSection_some {α : Type} {p : P Bool α} {bs rest : List Bool} {a : α} (h : bitSection p bs = some (a, rest)) :
    ∃ r, p bs = some (a, r) ∧ r.length < 8 ∧ rest = [] := by
  obtain ⟨a', r, h1, h2⟩ := bind_some h
  obtain ⟨u, r', h3, h4⟩ := bind_some h2
  obtain ⟨e1, e2⟩ := pure_some h4
  subst e1 e2
  unfold finishBits at h3
  split at h3
  · rename_i hc
    cases h3
    exact ⟨r, h1, hc.1, rfl⟩
  · cases h3

theorem quantData_roundtrip {tabs : List (List Nat)} {precisions idx : List Nat} {bs : List Bool} (hlen : precisions.length = tabs.length)
    (ht : ∀ t ∈ tabs, t.length = 64 ∧ ∀ v ∈ t, v < 65536)
    (hp : ∀ c (h : c < tabs.length) (h' : c < precisions.length), precisions[c] = 0 → ∀ v ∈ tabs[c], v < 256)
    (hi : ∀ i ∈ idx, i < tabs.length) (h : encodeQuantTables tabs idx = some bs) :
    decodeQuantData precisions idx.length bs = some ((tabs, idx), []) := by
  unfold encodeQuantTables at h
  split at h
  · cases h
  · rename_i h0
    have hn : 1 ≤ tabs.length ∧ tabs.length ≤ 4 := by
      cases tabs with
      | nil => simp at h0
      | cons a t => simp at h0 ⊢; omega
    cases hb : encQuantTabs 0 tabs with
    | none => rw [hb] at h; cases h
    | some b =>
      rw [hb] at h
      cases h
      refine bitSection_pad ?_
      refine Reads.bind (readBits_reads (by omega)) (Reads.seqGuard (by omega) ?_)
      refine Reads.bind (quantTabs_reads tabs precisions 0 b hlen.symm ht hp hb) ?_
      refine Reads.bind' (a := idx) (e₁ := idx.flatMap (bitsOf 2)) ?_ (Reads.pure _) (List.append_nil _).symm
      refine Reads.replicate _ _ fun i hi' => ?_
      have := hi i hi'
      exact Reads.bind' (readBits_reads (by omega)) (Reads.seqGuard (by omega) (Reads.pure _)) (List.append_nil _).symm

/-! ## Every table is encoded -/

theorem encQuantDiff_cost {diff : Int} {c : Nat} (h : diffCost diff = some c) : (encQuantDiff diff).isSome := by
  unfold diffCost at h
  unfold encQuantDiff
  split
  · rfl
  · rename_i h0
    rw [if_neg h0] at h
    dsimp only at h ⊢
    split at h
    · rw [if_neg (by omega)]; rfl
    · split at h
      · cases h
      · rename_i h2; rw [if_neg h2]; rfl

/-- What costs less than the worst can be coded. -/
theorem diffsCost_some {src approx : List Nat} (js : List Nat) : ∀ {last : Int} {len : Nat}, diffsCost src approx js last len < 65 * 34 →
    (encQuantDiffs src approx js last).isSome := by
  induction js with
  | nil => intro last len _; rfl
  | cons j js ih =>
    intro last len h
    rw [diffsCost] at h
    rw [encQuantDiffs]
    split at h
    · omega
    · rename_i c hc
      obtain ⟨x, hx⟩ := Option.isSome_iff_exists.mp (encQuantDiff_cost hc)
      obtain ⟨y, hy⟩ := Option.isSome_iff_exists.mp (ih h)
      rw [hx, hy]
      rfl

/-- Factor 0 stands for a matrix of ones, with which everything can be coded. -/
theorem encQuantDiffs_ones {values approx : List Nat} (hv : ∀ j, values.getD j 0 ≤ 65535) (js : List Nat) (ha : ∀ j ∈ js, approx.getD j 0 = 1) :
    ∀ last : Int, -1 ≤ last → last ≤ 65534 → (encQuantDiffs values approx js last).isSome := by
  induction js with
  | nil => intro last _ _; rfl
  | cons j js ih =>
    intro last h1 h2
    rw [encQuantDiffs]
    have hj := hv j
    have aj := ha j List.mem_cons_self
    have e1 : (encQuantDiff ((values.getD j 0 : Int) - approx.getD j 0 - last)).isSome := by
      unfold encQuantDiff
      split
      · rfl
      · simp only
        rw [if_neg (by omega)]; rfl
    obtain ⟨x, hx⟩ := Option.isSome_iff_exists.mp e1
    obtain ⟨y, hy⟩ := Option.isSome_iff_exists.mp (ih (fun j hj => ha j (List.mem_cons_of_mem _ hj)) ((values.getD j 0 : Int) - approx.getD j 0) (by omega) (by omega))
    rw [hx, hy]
    rfl

theorem fillQuantMatrix_zero : ∀ chroma : Bool, ∀ j ∈ naturalOrder, (fillQuantMatrix chroma 0).getD j 0 = 1 := by decide +kernel

/-- The best matrix is one with which the table can be coded. -/
theorem encQuantDiffs_best {values : List Nat} (hv : ∀ j, values.getD j 0 ≤ 65535) (chroma : Bool) :
    (encQuantDiffs values (fillQuantMatrix chroma (findBestMatrix values chroma)) naturalOrder 0).isSome := by
  have key : ∀ (qs : List Nat) (best : Nat × Nat), (best = (0, 65 * 34) ∨ (best.2 < 65 * 34 ∧ best.2 = diffsCost values (fillQuantMatrix chroma best.1) naturalOrder 0 0)) →
      (encQuantDiffs values (fillQuantMatrix chroma (qs.foldl (fun (best : Nat × Nat) q =>
        let len := diffsCost values (fillQuantMatrix chroma q) naturalOrder 0 0
        if len < best.2 then (q, len) else best) best).1) naturalOrder 0).isSome := by
    intro qs
    induction qs with
    | nil =>
      intro best h
      rw [List.foldl_nil]
      rcases h with rfl | ⟨h1, h2⟩
      · exact encQuantDiffs_ones hv _ (fillQuantMatrix_zero chroma) 0 (by omega) (by omega)
      · rw [h2] at h1
        exact diffsCost_some _ h1
    | cons q qs ih =>
      intro best h
      rw [List.foldl_cons]
      apply ih
      dsimp only
      split
      · rename_i hl
        refine .inr ⟨?_, rfl⟩
        dsimp only
        rcases h with rfl | ⟨h1, -⟩
        · exact hl
        · omega
      · exact h
  exact key _ _ (.inl rfl)

theorem getD_le {l : List Nat} {b : Nat} (h : ∀ v ∈ l, v ≤ b) (j : Nat) : l.getD j 0 ≤ b := by
  rw [List.getD_eq_getElem?_getD]
  cases hj : l[j]? with
  | none => exact Nat.zero_le _
  | some v => exact h v (List.mem_of_getElem? hj)

theorem encQuantTabs_some : ∀ (tabs : List (List Nat)) (i : Nat), (∀ t ∈ tabs, ∀ v ∈ t, 1 ≤ v ∧ v ≤ 65535) → (encQuantTabs i tabs).isSome := by
  intro tabs
  induction tabs with
  | nil => intro i _; rfl
  | cons t ts ih =>
    intro i h
    have ht := h t List.mem_cons_self
    obtain ⟨y, hy⟩ := Option.isSome_iff_exists.mp (ih (i + 1) fun t ht => h t (List.mem_cons_of_mem _ ht))
    have : (encQuantTable t (decide (i > 0))).isSome := by
      unfold encQuantTable
      rw [if_neg]
      · split
        · rfl
        · simp only
          rw [Option.isSome_map]
          exact encQuantDiffs_best (getD_le fun v hv => (ht v hv).2) _
      · intro ha
        obtain ⟨v, hv, hv2⟩ := List.any_eq_true.mp ha
        have := ht v hv
        have : v = 0 := by simpa using hv2
        omega
    obtain ⟨x, hx⟩ := Option.isSome_iff_exists.mp this
    rw [encQuantTabs, hx, hy]
    rfl

theorem encodeQuantTables_some {tabs : List (List Nat)} (idx : List Nat) (h1 : 1 ≤ tabs.length) (h4 : tabs.length ≤ 4)
    (h : ∀ t ∈ tabs, ∀ v ∈ t, 1 ≤ v ∧ v ≤ 65535) : (encodeQuantTables tabs idx).isSome := by
  unfold encodeQuantTables
  rw [if_neg, Option.isSome_map]
  · exact encQuantTabs_some tabs 0 h
  · cases tabs with
    | nil => simp at h1
    | cons a t => simp at h4 ⊢; omega

/-! ## Arbitrary input -/

theorem readQuantDiffs_safe {pred : List Nat} (js : List Nat) : ∀ {delta : Int} {t t' : List Nat} {bs rest : List Bool},
    readQuantDiffs pred js delta t bs = some (t', rest) → t'.length = t.length ∧
      ∀ i < t.length, (i ∈ js → ∃ v, t'[i]? = some v ∧ 1 ≤ v ∧ v < 65536) ∧ (i ∉ js → t'[i]? = t[i]?) := by
  induction js with
  | nil =>
    intro delta t t' bs rest h
    obtain ⟨e, _⟩ := pure_some h
    subst e
    exact ⟨rfl, fun i _ => ⟨fun h => absurd h (by simp), fun _ => rfl⟩⟩
  | cons j js ih =>
    intro delta t t' bs rest h
    obtain ⟨d, r, _, h2⟩ := bind_some h
    simp only at h2
    obtain ⟨_, r2, g1, h3⟩ := bind_some h2
    obtain ⟨_, r3, g2, h4⟩ := bind_some h3
    have g1 := (guard_some g1).1
    have g2 := (guard_some g2).1
    obtain ⟨l, hh⟩ := ih h4
    rw [List.length_set] at l hh
    refine ⟨l, fun i hi => ⟨fun hm => ?_, fun hm => ?_⟩⟩
    · by_cases hi' : i ∈ js
      · exact (hh i hi).1 hi'
      · rcases List.mem_cons.mp hm with rfl | h'
        · refine ⟨_, (by rw [(hh i hi).2 hi', List.getElem?_set_self hi]), by omega, by omega⟩
        · exact absurd h' hi'
    · rw [(hh i hi).2 fun h => hm (List.mem_cons_of_mem _ h)]
      exact List.getElem?_set_ne fun e => hm (by rw [e]; exact List.mem_cons_self)

theorem readQuantTable_safe {chroma : Bool} {precision : Nat} {t : List Nat} {bs rest : List Bool}
    (h : readQuantTable chroma precision bs = some (t, rest)) :
    t.length = 64 ∧ ∀ v ∈ t, 1 ≤ v ∧ v < 65536 ∧ (precision = 0 → v < 256) := by
  obtain ⟨b, r, _, h2⟩ := bind_some h
  split at h2
  · obtain ⟨q, r2, _, h3⟩ := bind_some h2
    obtain ⟨t', r3, h4, h5⟩ := bind_some h3
    obtain ⟨_, r4, g, h6⟩ := bind_some h5
    have g := (guard_some g).1
    obtain ⟨e, _⟩ := pure_some h6
    subst e
    obtain ⟨l, hh⟩ := readQuantDiffs_safe _ h4
    rw [List.length_replicate] at l hh
    refine ⟨l, fun v hv => ?_⟩
    obtain ⟨i, hi, e⟩ := List.mem_iff_getElem.mp hv
    obtain ⟨v', hv', r1, r2⟩ := (hh i (by omega)).1 (naturalOrder_mem (by omega))
    rw [List.getElem?_eq_getElem hi, e] at hv'
    cases hv'
    refine ⟨r1, r2, fun h0 => ?_⟩
    by_contra hc
    rw [if_pos (List.any_eq_true.mpr ⟨v, hv, by simpa using hc⟩)] at g
    omega
  · obtain ⟨j, r2, h3, h4⟩ := bind_some h2
    obtain ⟨e, _⟩ := pure_some h4
    subst e
    obtain ⟨l, hh⟩ := stockQuant_ok chroma j (readBits_lt h3)
    exact ⟨l, fun v hv => ⟨(hh v hv).1, by have := (hh v hv).2; omega, fun _ => by have := (hh v hv).2; omega⟩⟩

theorem readQuantTabs_safe : ∀ (ps : List Nat) {i : Nat} {ts : List (List Nat)} {bs rest : List Bool},
    readQuantTabs i ps bs = some (ts, rest) → ts.length = ps.length ∧ ∀ t ∈ ts, t.length = 64 ∧ ∀ v ∈ t, 1 ≤ v ∧ v < 65536 := by
  intro ps
  induction ps with
  | nil =>
    intro i ts bs rest h
    obtain ⟨e, _⟩ := pure_some h
    subst e
    exact ⟨rfl, by simp⟩
  | cons p ps ih =>
    intro i ts bs rest h
    obtain ⟨t, r, h1, h2⟩ := bind_some h
    obtain ⟨ts', r2, h3, h4⟩ := bind_some h2
    obtain ⟨e, _⟩ := pure_some h4
    subst e
    obtain ⟨l, hh⟩ := ih h3
    refine ⟨by simp [l], fun t' ht' => ?_⟩
    rcases List.mem_cons.mp ht' with rfl | ht'
    · obtain ⟨a, b⟩ := readQuantTable_safe h1
      exact ⟨a, fun v hv => ⟨(b v hv).1, (b v hv).2.1⟩⟩
    · exact hh t' ht'

theorem replicate_some {τ α : Type} {p : P τ α} {q : α → Prop} (hq : ∀ bs a rest, p bs = some (a, rest) → q a) :
    ∀ {n : Nat} {as : List α} {bs rest : List τ}, P.replicate n p bs = some (as, rest) → as.length = n ∧ ∀ a ∈ as, q a := by
  intro n
  induction n with
  | zero =>
    intro as bs rest h
    obtain ⟨e, _⟩ := pure_some h
    subst e
    exact ⟨rfl, by simp⟩
  | succ n ih =>
    intro as bs rest h
    rw [P.replicate] at h
    obtain ⟨a, r, h1, h2⟩ := bind_some h
    obtain ⟨as', r2, h3, h4⟩ := bind_some h2
    obtain ⟨e, _⟩ := pure_some h4
    subst e
    obtain ⟨l, hh⟩ := ih h3
    refine ⟨by simp [l], fun x hx => ?_⟩
    rcases List.mem_cons.mp hx with rfl | hx
    · exact hq _ _ _ h1
    · exact hh x hx

theorem decodeQuantData_safe {precisions : List Nat} {ncomp : Nat} {tabs : List (List Nat)} {idx : List Nat} {bs rest : List Bool}
    (h : decodeQuantData precisions ncomp bs = some ((tabs, idx), rest)) :
    tabs.length = precisions.length ∧ tabs.length ≤ 4 ∧ (∀ t ∈ tabs, t.length = 64 ∧ ∀ v ∈ t, 1 ≤ v ∧ v < 65536) ∧
      idx.length = ncomp ∧ ∀ i ∈ idx, i < tabs.length := by
  obtain ⟨r, h1, _, _⟩ := bitSection_some h
  obtain ⟨n, r2, h2, h3⟩ := bind_some h1
  obtain ⟨_, r3, g, h4⟩ := bind_some h3
  have g := (guard_some g).1
  obtain ⟨ts, r4, h5, h6⟩ := bind_some h4
  obtain ⟨is, r5, h7, h8⟩ := bind_some h6
  obtain ⟨e, _⟩ := pure_some h8
  cases e
  obtain ⟨a, b⟩ := readQuantTabs_safe _ h5
  have hn := readBits_lt h2
  obtain ⟨c, d⟩ := replicate_some (q := fun i => i < precisions.length) (fun bs a rest h => by
    obtain ⟨i, r, _, h2⟩ := bind_some h
    obtain ⟨_, r3, g, h4⟩ := bind_some h2
    obtain ⟨e, _⟩ := pure_some h4
    subst e
    exact (guard_some g).1) h7
  exact ⟨a, by omega, b, c, fun i hi => by rw [a]; exact d i hi⟩

end Brunsli
