import Verif.StreamQuant
import Verif.Internals
import Verif.Reader
/-!
# The section of internals as it arrives

`DecodeJPEGInternalsSection` (c/dec/brunsli_decode.cc:1408-1633) with its points of suspension: first bits, then bytes.
-/

namespace Brunsli

open P

/-! ## The bits -/

/-- READ_MARKERS (c/dec/brunsli_decode.cc:1424-1437). -/
def markersBP : (fuel : Nat) → BP (List Nat)
  | 0 => .fail
  | fuel + 1 => do
    let m ← BP.bits 6
    if 0xc0 + m = 0xd9 then Pure.pure [0xd9]
    else do
      let ms ← markersBP fuel
      Pure.pure ((0xc0 + m) :: ms)

/-- READ_HUFFMAN_COUNT (c/dec/brunsli_decode.cc:358-380). -/
def huffCountsBP (maxCount : Nat) : List Nat → (total space : Nat) → List Nat → BP (List Nat × Nat)
  | [], total, _, counts => Pure.pure (counts, total)
  | i :: is, total, space, counts =>
    let limit := min (maxCount - total) (space / 2 ^ (16 - i))
    if limit > 0 then do
      let count ← BP.bits (limit.log2 + 1)
      BP.check (count ≤ limit)
      huffCountsBP maxCount is (total + count) (space - count * 2 ^ (16 - i)) (counts.set i count)
    else huffCountsBP maxCount is total space counts

/-- READ_HUFFMAN_PERMUTATION (c/dec/brunsli_decode.cc:385-401). -/
def permBP : (avail : List Nat) → Nat → BP (List Nat)
  | _, 0 => Pure.pure []
  | avail, n + 1 => do
    let k ← limitedBP 2 ((permBits avail.length + 1) / 2) 0 0
    match avail[k]? with
    | none => .fail
    | some v => do
      let vs ← permBP (avail.eraseIdx k) n
      Pure.pure (v :: vs)

/-- READ_HUFFMAN_MAX_LEN and the following stages (c/dec/brunsli_decode.cc:345-405). -/
def customHuffBP (dc : Bool) : BP (List Nat × List Nat) := do
  let l ← BP.bits 4
  let ct ← huffCountsBP (huffMaxCount dc) (List.range' 1 (l + 1)) 0 (65536 - 2 ^ (16 - (l + 1))) (List.replicate 17 0)
  let vs ← permBP (defaultHuffValues dc) ct.2
  Pure.pure (ct.1.set (l + 1) (ct.1.getD (l + 1) 0 + 1), vs ++ 256 :: List.replicate (256 - ct.2) 0)

/-- The choice between stock and custom codes, whose bits were tested for (c/dec/brunsli_decode.cc:322-345). -/
def huffBodyBP (dc : Bool) : BP (List Nat × List Nat) := do
  let stock ← BP.readb
  if stock then do
    let i ← BP.read 1
    Pure.pure (0 :: stockHuffCounts dc i, stockHuffValues dc i ++ List.replicate (257 - (stockHuffValues dc i).length) 0)
  else customHuffBP dc

/-- READ_HUFFMAN_SIMPLE (c/dec/brunsli_decode.cc:311-405): five or six bits are tested for. -/
def huffCodeBP (knownLast : Bool) : BP HuffCode := .need (5 + (!knownLast).toNat) do
  let slot ← BP.read 2
  let ac ← BP.read 1
  let isLast ← (if knownLast then Pure.pure true else BP.readb)
  let cv ← huffBodyBP (decide (ac = 0))
  Pure.pure ⟨cv.1, cv.2, slot + 16 * ac, isLast⟩

/-- `DecodeHuffmanCode` (c/dec/brunsli_decode.cc:297-434). -/
def huffCodesBP : (fuel : Nat) → BP (List HuffCode)
  | 0 => .fail
  | fuel + 1 => do
    let last ← BP.bit
    let h ← huffCodeBP last
    if last then Pure.pure [h]
    else do
      let hs ← huffCodesBP fuel
      Pure.pure (h :: hs)

/-- READ_SCAN_COMPONENT (c/dec/brunsli_decode.cc:466-473). -/
def scanCompBP : BP ScanComp := .need 6 do
  let c ← BP.read 2
  let d ← BP.read 2
  let a ← BP.read 2
  Pure.pure ⟨c, d, a⟩

/-- The reset points (c/dec/brunsli_decode.cc:479-509). -/
def resetsBP : (fuel next : Nat) → BP (List Nat)
  | 0, _ => .fail
  | fuel + 1, next => do
    let b ← BP.bit
    if b then do
      let v ← varintBP 28 0 0
      BP.check (next + v ≤ 2 ^ 30)
      let is ← resetsBP fuel (next + v + 1)
      Pure.pure ((next + v) :: is)
    else Pure.pure []

/-- The extra zero runs (c/dec/brunsli_decode.cc:510-536). -/
def runsBP : (fuel last num : Nat) → BP (List (Nat × Nat))
  | 0, _, _ => .fail
  | fuel + 1, last, num => do
    let b ← BP.bit
    if b then do
      let v ← varintBP 28 0 0
      BP.check (last + v ≤ 2 ^ 30)
      if v > 0 then do
        let rs ← runsBP fuel (last + v) 1
        Pure.pure (pendingRun last num ++ rs)
      else runsBP fuel (last + v) (num + 1)
    else Pure.pure (pendingRun last num)

/-- `DecodeScanInfo` (c/dec/brunsli_decode.cc:436-541), for one scan. -/
def scanInfoBP (fuel : Nat) : BP ScanInfo := .need 22 do
  let ss ← BP.read 6
  let se ← BP.read 6
  let ah ← BP.read 4
  let al ← BP.read 4
  let n ← BP.read 2
  let comps ← BP.rep (n + 1) scanCompBP
  let resets ← resetsBP fuel 0
  let runs ← runsBP fuel 0 0
  Pure.pure ⟨ss, se, ah, al, comps, resets, runs⟩

/-- READ_QUANT (c/dec/brunsli_decode.cc:1493-1517) and what follows: seven bits are tested for, of which the last table
leaves one. -/
def quantHeadsBP {α : Type} (k : List (Nat × Bool × Nat) → BP α) : Nat → List (Nat × Bool × Nat) → BP α
  | 0, acc => k acc
  | n + 1, acc => .need 7 do
    let i ← BP.read 2
    let l ← (if n = 0 then Pure.pure true else BP.readb)
    let p ← BP.read 4
    BP.check (p ≤ 1)
    quantHeadsBP k n (acc ++ [(i, l, p)])

/-- READ_COMP_ID_SCHEME and READ_COMP_ID (c/dec/brunsli_decode.cc:1519-1564). -/
def idsBP (ncomp : Nat) : BP (List Nat) := do
  let k ← BP.bits 2
  if k = 3 then BP.rep ncomp (BP.bits 8)
  else do
    let ids := if k = 0 then [1, 2, 3] else if k = 1 then [1] else [82, 71, 66]
    BP.check (ids.length ≤ ncomp)
    Pure.pure (ids ++ List.replicate (ncomp - ids.length) 0)

/-- The bits of the section (c/dec/brunsli_decode.cc:1408-1588); `fuel` is the number of bits in the section, which
bounds the number of rounds of its loops. -/
def internalsBP (fuel limit ncomp : Nat) : BP Internals := do
  let markers ← markersBP fuel
  let dri ← (if 0xdd ∈ markers then BP.bits 16 else Pure.pure 0)
  let huffman ← huffCodesBP kMaxDHTMarkers
  BP.check (markers.count 0xc4 = huffman.countP (·.isLast))
  let scans ← BP.rep (markers.count 0xda) (scanInfoBP fuel)
  let n ← BP.bits 2
  quantHeadsBP (fun quant => do
    let ids ← idsBP ncomp
    let np ← limitedBP 8 4 0 0
    BP.check (np ≤ limit)
    let padding ← BP.rep np BP.bit
    Pure.pure ⟨markers, dri, huffman, scans, quant, ids, padding, []⟩) (n + 1) []

/-! ## The tests are sufficient -/

theorem markersBP_within : ∀ f {b : Nat}, (markersBP f).Within (fun _ => True) b
  | 0, _ => trivial
  | f + 1, _ => BP.Within.seq (BP.Within.bits (by decide)) fun _ _ => BP.Within.ite (fun _ => trivial) fun _ =>
      BP.Within.seq (markersBP_within f) fun _ _ => trivial

theorem huffCountsBP_within {mc : Nat} (hm : mc ≤ 256) : ∀ is total space counts, (huffCountsBP mc is total space counts).Within (fun _ => True) 0
  | [], _, _, _ => trivial
  | i :: is, total, space, counts => by
    rw [huffCountsBP]
    refine BP.Within.ite (fun hl => ?_) fun _ => huffCountsBP_within hm is _ _ _
    refine BP.Within.seq (BP.Within.bits ?_) fun c _ => BP.Within.seq BP.Within.check fun _ _ => huffCountsBP_within hm is _ _ _
    have : (min (mc - total) (space / 2 ^ (16 - i))).log2 ≤ min (mc - total) (space / 2 ^ (16 - i)) := Nat.log2_le_self _
    omega

theorem permBP_within : ∀ n avail, (permBP avail n).Within (fun _ => True) 0
  | 0, _ => trivial
  | n + 1, avail => by
    rw [permBP]
    refine BP.Within.seq (limitedBP_within (by decide) _ _ _) fun k _ => ?_
    split
    · trivial
    · exact BP.Within.seq (permBP_within n _) fun _ _ => trivial

theorem huffMaxCount_le (dc : Bool) : huffMaxCount dc ≤ 256 := by cases dc <;> decide

theorem customHuffBP_within (dc : Bool) : (customHuffBP dc).Within (fun _ => True) 0 :=
  BP.Within.seq (BP.Within.bits (by decide)) fun _ _ => BP.Within.seq (huffCountsBP_within (huffMaxCount_le dc) _ _ _ _) fun _ _ =>
    BP.Within.seq (permBP_within _ _) fun _ _ => trivial

theorem huffBodyBP_within (dc : Bool) : (huffBodyBP dc).Within (fun _ => True) 2 :=
  BP.Within.readb (by decide) fun _ => BP.Within.ite (fun _ => BP.Within.read (by decide) fun _ _ => trivial) fun _ =>
    (customHuffBP_within dc).mono (Nat.zero_le _)

theorem huffCodeBP_within (last : Bool) : (huffCodeBP last).Within (fun _ => True) 0 := by
  rw [huffCodeBP]
  refine BP.Within.need (by cases last <;> decide) ?_
  refine BP.Within.read (by omega) fun slot _ => BP.Within.read (by omega) fun ac _ => ?_
  cases last with
  | true =>
    exact BP.Within.seq (p := huffBodyBP (decide (ac = 0))) ((huffBodyBP_within _).mono (by decide)) fun _ _ => trivial
  | false =>
    exact BP.Within.readb (by decide) fun _ => BP.Within.seq ((huffBodyBP_within _).mono (by decide)) fun _ _ => trivial

theorem huffCodesBP_within : ∀ f, (huffCodesBP f).Within (fun _ => True) 0
  | 0 => trivial
  | f + 1 => BP.Within.seq BP.Within.bit fun last _ => BP.Within.seq (huffCodeBP_within last) fun _ _ => BP.Within.ite (fun _ => trivial) fun _ =>
      BP.Within.seq (huffCodesBP_within f) fun _ _ => trivial

theorem resetsBP_within : ∀ f next, (resetsBP f next).Within (fun _ => True) 0
  | 0, _ => trivial
  | f + 1, next => BP.Within.seq BP.Within.bit fun _ _ => BP.Within.ite (fun _ => BP.Within.seq (varintBP_within _ _ _) fun _ _ =>
      BP.Within.seq BP.Within.check fun _ _ => BP.Within.seq (resetsBP_within f _) fun _ _ => trivial) fun _ => trivial

theorem runsBP_within : ∀ f last num, (runsBP f last num).Within (fun _ => True) 0
  | 0, _, _ => trivial
  | f + 1, last, num => BP.Within.seq BP.Within.bit fun _ _ => BP.Within.ite (fun _ => BP.Within.seq (varintBP_within _ _ _) fun _ _ =>
      BP.Within.seq BP.Within.check fun _ _ => BP.Within.ite (fun _ => BP.Within.seq (runsBP_within f _ _) fun _ _ => trivial) fun _ =>
        runsBP_within f _ _) fun _ => trivial

theorem scanCompBP_within : scanCompBP.Within (fun _ => True) 0 :=
  BP.Within.need (by decide) (BP.Within.read (by decide) fun _ _ => BP.Within.read (by decide) fun _ _ => BP.Within.read (by decide) fun _ _ => trivial)

theorem scanInfoBP_within (f : Nat) : (scanInfoBP f).Within (fun _ => True) 0 := by
  refine BP.Within.need (by decide) (BP.Within.read (by decide) fun _ _ => BP.Within.read (by decide) fun _ _ => BP.Within.read (by decide) fun _ _ =>
    BP.Within.read (by decide) fun _ _ => BP.Within.read (by decide) fun n _ => ?_)
  exact BP.Within.seq (BP.Within.rep scanCompBP_within _) fun _ _ => BP.Within.seq (resetsBP_within f _) fun _ _ =>
    BP.Within.seq (runsBP_within f _ _) fun _ _ => trivial

theorem quantHeadsBP_within {α : Type} {post : α → Prop} {k : List (Nat × Bool × Nat) → BP α} (hk : ∀ l, (k l).Within post 0) :
    ∀ n acc, (quantHeadsBP k n acc).Within post 0
  | 0, acc => hk acc
  | n + 1, acc => by
    rw [quantHeadsBP]
    refine BP.Within.need (by decide) (BP.Within.read (by decide) fun i _ => ?_)
    have rest : ∀ l, BP.Within post (do
        let p ← BP.read 4
        BP.check (p ≤ 1)
        quantHeadsBP k n (acc ++ [(i, l, p)])) 4 := fun l =>
      BP.Within.read (by decide) fun p _ => BP.Within.seq BP.Within.check fun _ _ => quantHeadsBP_within hk n _
    by_cases hn : n = 0
    · rw [if_pos hn]
      exact (rest true).mono (by decide)
    · rw [if_neg hn]
      exact BP.Within.readb (by decide) fun l => (rest l).mono (by decide)

/-- The tests of the section of internals are sufficient. -/
theorem internalsBP_within (fuel limit ncomp : Nat) : (internalsBP fuel limit ncomp).Within (fun _ => True) 0 := by
  refine BP.Within.seq (markersBP_within _) fun markers _ => ?_
  refine BP.Within.seq (p1 := fun _ => True) (BP.Within.ite (fun _ => (BP.Within.bits (by decide)).imp fun _ _ => trivial) fun _ => trivial) fun dri _ => ?_
  refine BP.Within.seq (huffCodesBP_within _) fun huffman _ => BP.Within.seq BP.Within.check fun _ _ => ?_
  refine BP.Within.seq (BP.Within.rep (scanInfoBP_within _) _) fun scans _ => BP.Within.seq (BP.Within.bits (by decide)) fun n _ => ?_
  refine quantHeadsBP_within (fun quant => ?_) _ _
  refine BP.Within.seq (p1 := fun _ => True) ?_ fun ids _ => ?_
  · refine BP.Within.seq (BP.Within.bits (by decide)) fun k _ => BP.Within.ite (fun _ => ?_) fun _ => ?_
    · exact (BP.Within.rep (BP.Within.bits (by decide)) _).imp fun _ _ => trivial
    · exact BP.Within.seq BP.Within.check fun _ _ => trivial
  · exact BP.Within.seq (limitedBP_within (by decide) _ _ _) fun np _ => BP.Within.seq BP.Within.check fun _ _ =>
      BP.Within.seq (BP.Within.rep BP.Within.bit _) fun _ _ => trivial

/-! ## What the program reads -/

/-- A program and a reader that agree on inputs of at most `F` bits. -/
def SameRead {α : Type} (F : Nat) (p : BP α) (r : P Bool α) : Prop := ∀ bs : List Bool, bs.length ≤ F → p.run false bs = r bs

namespace SameRead

theorem of_eq {α : Type} {F : Nat} {p : BP α} {r : P Bool α} (h : p.run false = r) : SameRead F p r := fun _ _ => by rw [h]

theorem seq {α β : Type} {F : Nat} {p : BP α} {r : P Bool α} {f : α → BP β} {g : α → P Bool β} {post : α → Prop} {b : Nat} (hw : p.Within post b)
    (h : SameRead F p r) (hf : ∀ a, SameRead F (f a) (g a)) : SameRead F (p >>= f) (r >>= g) := by
  intro bs hl
  rw [BP.run_seq, bind_apply, bind_apply, h bs hl]
  cases hr : r bs with
  | none => rfl
  | some y =>
    obtain ⟨a, rest⟩ := y
    obtain ⟨v, e⟩ := BP.run_suffix (opt := false) p hw ((h bs hl).trans hr)
    have : bs.length = v.length + rest.length := by rw [e, List.length_append]
    exact hf a rest (by omega)

theorem rep {α : Type} {F : Nat} {p : BP α} {r : P Bool α} {post : α → Prop} (hw : p.Within post 0) (h : SameRead F p r) : ∀ n, SameRead F (BP.rep n p) (P.replicate n r)
  | 0 => of_eq rfl
  | n + 1 => seq hw h fun _ => seq (BP.Within.rep hw n (b := 0)) (rep hw h n) fun _ => of_eq rfl

end SameRead

theorem markersBP_run : ∀ f, (markersBP f).run false = readMarkers f
  | 0 => rfl
  | f + 1 => by
    rw [markersBP, readMarkers, BP.run_seq, BP.run_bits]
    congr 1
    funext m
    split
    · rfl
    · rw [BP.run_seq, markersBP_run f]
      rfl

theorem resetsBP_run : ∀ f next, (resetsBP f next).run false = readResetsLoop f next
  | 0, _ => rfl
  | f + 1, next => by
    rw [resetsBP, readResetsLoop, BP.run_seq, BP.run_bit]
    congr 1
    funext b
    split
    · rw [BP.run_seq, varintBP_run]
      congr 1
      funext v
      rw [BP.run_seq, BP.run_check]
      congr 1
      funext _
      rw [BP.run_seq, resetsBP_run f]
      rfl
    · rfl

theorem runsBP_run : ∀ f last num, (runsBP f last num).run false = readRunsLoop f last num
  | 0, _, _ => rfl
  | f + 1, last, num => by
    rw [runsBP, readRunsLoop, BP.run_seq, BP.run_bit]
    congr 1
    funext b
    split
    · rw [BP.run_seq, varintBP_run]
      congr 1
      funext v
      rw [BP.run_seq, BP.run_check]
      congr 1
      funext _
      split
      · rw [BP.run_seq, runsBP_run f]
        rfl
      · exact runsBP_run f _ _
    · rfl

theorem readBit_length {bs rest : List Bool} {b : Bool} (h : readBit bs = some (b, rest)) : bs.length = rest.length + 1 := by
  cases bs with
  | nil => cases h
  | cons c bs => cases h; rfl

theorem readBits_length {n v : Nat} {bs rest : List Bool} (h : readBits n bs = some (v, rest)) : bs.length = rest.length + n := by
  unfold readBits at h
  split at h
  · cases h; rw [List.length_drop]; omega
  · cases h

/-- The number of rounds allowed does not matter if it is at least the number of bits. -/
theorem readMarkers_fuel : ∀ (f g : Nat) (bs : List Bool), bs.length ≤ f → bs.length ≤ g → readMarkers f bs = readMarkers g bs
  | 0, 0, _, _, _ => rfl
  | 0, g + 1, bs, h, _ => by
    have : bs = [] := List.length_eq_zero_iff.mp (by omega)
    subst this; rfl
  | f + 1, 0, bs, _, h => by
    have : bs = [] := List.length_eq_zero_iff.mp (by omega)
    subst this; rfl
  | f + 1, g + 1, bs, h1, h2 => by
    rw [readMarkers, readMarkers, bind_apply, bind_apply]
    cases hr : readBits 6 bs with
    | none => rfl
    | some y =>
      obtain ⟨m, rest⟩ := y
      have := readBits_length hr
      simp only
      split
      · rfl
      · rw [bind_apply, bind_apply, readMarkers_fuel f g rest (by omega) (by omega)]

theorem varint_length {bs rest : List Bool} {v : Nat} (h : decodeVarint 28 bs = some (v, rest)) : rest.length ≤ bs.length := by
  have h' : (varintBP 28 0 0).run false bs = some (v, rest) := by rw [varintBP_run]; exact h
  obtain ⟨u, e⟩ := BP.run_suffix (b := 0) _ (varintBP_within _ _ _) h'
  rw [e, List.length_append]; omega

theorem readResetsLoop_fuel : ∀ (f g next : Nat) (bs : List Bool), bs.length ≤ f → bs.length ≤ g → readResetsLoop f next bs = readResetsLoop g next bs
  | 0, 0, _, _, _, _ => rfl
  | 0, g + 1, next, bs, h, _ => by
    have : bs = [] := List.length_eq_zero_iff.mp (by omega)
    subst this; rfl
  | f + 1, 0, next, bs, _, h => by
    have : bs = [] := List.length_eq_zero_iff.mp (by omega)
    subst this; rfl
  | f + 1, g + 1, next, bs, h1, h2 => by
    rw [readResetsLoop, readResetsLoop, bind_apply, bind_apply]
    cases hr : readBit bs with
    | none => rfl
    | some y =>
      obtain ⟨b, rest⟩ := y
      have := readBit_length hr
      simp only
      split
      · rw [bind_apply, bind_apply]
        cases hv : decodeVarint 28 rest with
        | none => rfl
        | some z =>
          obtain ⟨v, rest2⟩ := z
          have := varint_length hv
          simp only
          rw [bind_apply, bind_apply, guard_apply]
          by_cases hc : next + v ≤ 2 ^ 30
          · rw [if_pos hc]
            simp only
            rw [bind_apply, bind_apply, readResetsLoop_fuel f g _ rest2 (by omega) (by omega)]
          · rw [if_neg hc]
      · rfl

theorem readRunsLoop_fuel : ∀ (f g last num : Nat) (bs : List Bool), bs.length ≤ f → bs.length ≤ g → readRunsLoop f last num bs = readRunsLoop g last num bs
  | 0, 0, _, _, _, _, _ => rfl
  | 0, g + 1, last, num, bs, h, _ => by
    have : bs = [] := List.length_eq_zero_iff.mp (by omega)
    subst this; rfl
  | f + 1, 0, last, num, bs, _, h => by
    have : bs = [] := List.length_eq_zero_iff.mp (by omega)
    subst this; rfl
  | f + 1, g + 1, last, num, bs, h1, h2 => by
    rw [readRunsLoop, readRunsLoop, bind_apply, bind_apply]
    cases hr : readBit bs with
    | none => rfl
    | some y =>
      obtain ⟨b, rest⟩ := y
      have := readBit_length hr
      simp only
      split
      · rw [bind_apply, bind_apply]
        cases hv : decodeVarint 28 rest with
        | none => rfl
        | some z =>
          obtain ⟨v, rest2⟩ := z
          have := varint_length hv
          simp only
          rw [bind_apply, bind_apply, guard_apply]
          by_cases hc : last + v ≤ 2 ^ 30
          · rw [if_pos hc]
            simp only
            split
            · rw [bind_apply, bind_apply, readRunsLoop_fuel f g _ _ rest2 (by omega) (by omega)]
            · exact readRunsLoop_fuel f g _ _ rest2 (by omega) (by omega)
          · rw [if_neg hc]
      · rfl

theorem huffCountsBP_run (mc : Nat) : ∀ is total space counts, (huffCountsBP mc is total space counts).run false = readHuffCounts mc is total space counts
  | [], _, _, _ => rfl
  | i :: is, total, space, counts => by
    rw [huffCountsBP, readHuffCounts]
    split
    · rw [BP.run_seq, BP.run_bits]
      congr 1
      funext c
      rw [BP.run_seq, BP.run_check]
      congr 1
      funext _
      exact huffCountsBP_run mc is _ _ _
    · exact huffCountsBP_run mc is _ _ _

theorem permBP_run : ∀ n avail, (permBP avail n).run false = readPerm avail n
  | 0, _ => rfl
  | n + 1, avail => by
    rw [permBP, readPerm, BP.run_seq, limitedBP_run]
    unfold decodeLimitedVarint
    congr 1
    funext k
    cases avail[k]? with
    | none => rfl
    | some v =>
      simp only
      rw [BP.run_seq, permBP_run n]
      rfl

theorem customHuffBP_run (dc : Bool) : (customHuffBP dc).run false = readCustomHuff dc := by
  rw [customHuffBP, readCustomHuff, BP.run_seq, BP.run_bits]
  congr 1
  funext l
  rw [BP.run_seq, huffCountsBP_run]
  congr 1
  funext ct
  rw [BP.run_seq, permBP_run]
  rfl

theorem huffBodyBP_run (dc : Bool) : (huffBodyBP dc).run false = readHuffBody dc := by
  rw [huffBodyBP, readHuffBody, BP.run_seq, BP.run_readb]
  congr 1
  funext s
  split
  · rw [BP.run_seq, BP.run_read]
    rfl
  · exact customHuffBP_run dc

theorem readHuffBody_wants (dc : Bool) : Wants 2 (readHuffBody dc) := by
  unfold readHuffBody readCustomHuff
  refine Wants.bit (m := 1) fun s => Wants.ite (fun _ => ?_) fun _ => ?_
  · exact Wants.bits (m := 0) fun _ => Wants.zero _
  · exact Wants.mono (Wants.bits (m := 0) fun _ => Wants.zero _) (by decide)

theorem Wants.then {α β : Type} {n : Nat} {r : P Bool α} {f : α → P Bool β} (h : Wants n r) : Wants n (r >>= f) := by
  intro bs hl
  rw [bind_apply, h bs hl]

theorem huffCodeBP_run (last : Bool) : (huffCodeBP last).run false = readHuffCode last := by
  have e : (do
      let slot ← BP.read 2
      let ac ← BP.read 1
      let isLast ← (if last then Pure.pure true else BP.readb)
      let cv ← huffBodyBP (decide (ac = 0))
      Pure.pure ⟨cv.1, cv.2, slot + 16 * ac, isLast⟩ : BP HuffCode).run false = readHuffCode last := by
    rw [readHuffCode, BP.run_seq, BP.run_read]
    congr 1
    funext slot
    rw [BP.run_seq, BP.run_read]
    congr 1
    funext ac
    rw [BP.run_seq]
    congr 1
    · split
      · rfl
      · exact BP.run_readb _
    · funext l
      rw [BP.run_seq, huffBodyBP_run]
      rfl
  rw [huffCodeBP, BP.run_need, e]
  rw [e, readHuffCode]
  cases last with
  | true =>
    refine Wants.bits (n := 2) (m := 3) fun slot => Wants.bits (n := 1) (m := 2) fun ac => ?_
    exact (readHuffBody_wants (decide (ac = 0))).then
  | false =>
    refine Wants.bits (n := 2) (m := 4) fun slot => Wants.bits (n := 1) (m := 3) fun ac => ?_
    exact Wants.bit (m := 2) fun l => (readHuffBody_wants (decide (ac = 0))).then

theorem huffCodesBP_run : ∀ f, (huffCodesBP f).run false = readHuffCodes f
  | 0 => rfl
  | f + 1 => by
    rw [huffCodesBP, readHuffCodes, BP.run_seq, BP.run_bit]
    congr 1
    funext last
    rw [BP.run_seq, huffCodeBP_run]
    congr 1
    funext h
    split
    · rfl
    · rw [BP.run_seq, huffCodesBP_run f]
      rfl

theorem scanCompBP_run : scanCompBP.run false = readScanComp := by
  have e : (do
      let c ← BP.read 2
      let d ← BP.read 2
      let a ← BP.read 2
      Pure.pure ⟨c, d, a⟩ : BP ScanComp).run false = readScanComp := by
    simp only [BP.run_seq, BP.run_read]
    rfl
  rw [scanCompBP, BP.run_need, e]
  rw [e, readScanComp]
  exact Wants.bits (n := 2) (m := 4) fun _ => Wants.bits (n := 2) (m := 2) fun _ => Wants.bits (n := 2) (m := 0) fun _ => Wants.zero _

theorem readScanInfo_wants : Wants 22 readScanInfo := by
  unfold readScanInfo
  exact Wants.bits (n := 6) (m := 16) fun _ => Wants.bits (n := 6) (m := 10) fun _ => Wants.bits (n := 4) (m := 6) fun _ =>
    Wants.bits (n := 4) (m := 2) fun _ => Wants.bits (n := 2) (m := 0) fun _ => Wants.zero _

theorem scanInfoBP_agrees (F : Nat) : SameRead F (scanInfoBP F) readScanInfo := by
  have e : SameRead F (do
      let ss ← BP.read 6
      let se ← BP.read 6
      let ah ← BP.read 4
      let al ← BP.read 4
      let n ← BP.read 2
      let comps ← BP.rep (n + 1) scanCompBP
      let resets ← resetsBP F 0
      let runs ← runsBP F 0 0
      Pure.pure ⟨ss, se, ah, al, comps, resets, runs⟩ : BP ScanInfo) readScanInfo := by
    have w : ∀ n, (BP.read n).Within (fun _ => True) n := fun n => ⟨Takes.bits n, Nat.le_refl _, fun _ _ => trivial⟩
    unfold readScanInfo
    refine SameRead.seq (w 6) (SameRead.of_eq (BP.run_read _ _)) fun ss => SameRead.seq (w 6) (SameRead.of_eq (BP.run_read _ _)) fun se => ?_
    refine SameRead.seq (w 4) (SameRead.of_eq (BP.run_read _ _)) fun ah => SameRead.seq (w 4) (SameRead.of_eq (BP.run_read _ _)) fun al => ?_
    refine SameRead.seq (w 2) (SameRead.of_eq (BP.run_read _ _)) fun n => ?_
    refine SameRead.seq (BP.Within.rep scanCompBP_within _ (b := 0)) (SameRead.rep scanCompBP_within (SameRead.of_eq scanCompBP_run) _) fun comps => ?_
    refine SameRead.seq (resetsBP_within F 0) (fun bs hl => ?_) fun resets => SameRead.seq (runsBP_within F 0 0) (fun bs hl => ?_) fun runs => SameRead.of_eq rfl
    · rw [resetsBP_run]; exact readResetsLoop_fuel _ _ _ _ hl (Nat.le_refl _)
    · rw [runsBP_run]; exact readRunsLoop_fuel _ _ _ _ _ hl (Nat.le_refl _)
  intro bs hl
  rw [scanInfoBP]
  by_cases h22 : 22 ≤ bs.length
  · rw [BP.run, if_pos (Or.inr h22)]
    exact e bs hl
  · rw [BP.run, if_neg (by simp [h22]), readScanInfo_wants bs (by omega)]

theorem seq_assoc {α β γ : Type} (p : P Bool α) (f : α → P Bool β) (g : β → P Bool γ) :
    ((p >>= f) >>= g) = (p >>= fun a => f a >>= g) := by
  funext bs
  simp only [bind_apply]
  cases p bs <;> rfl

theorem readQuantHeads_acc {α : Type} (g : List (Nat × Bool × Nat) → P Bool α) (n : Nat) (acc : List (Nat × Bool × Nat)) :
    (readQuantHeads (n + 1) >>= fun q => g (acc ++ q)) = (do
      let i ← readBits 2
      let l ← (if n = 0 then Pure.pure true else readBit)
      let p ← readBits 4
      P.guard (p ≤ 1)
      readQuantHeads n >>= fun q => g (acc ++ [(i, l, p)] ++ q)) := by
  simp only [readQuantHeads, seq_assoc, List.append_assoc, List.cons_append, List.nil_append]
  rfl

theorem quantHeadsBP_run {α : Type} {k : List (Nat × Bool × Nat) → BP α} {g : List (Nat × Bool × Nat) → P Bool α} (hk : ∀ l, (k l).run false = g l)
    (hg : ∀ l, Wants 1 (g l)) : ∀ n acc, (quantHeadsBP k n acc).run false = (readQuantHeads n >>= fun q => g (acc ++ q))
  | 0, acc => by
    rw [quantHeadsBP, hk]
    show g acc = g (acc ++ [])
    rw [List.append_nil]
  | n + 1, acc => by
    have e : (do
        let i ← BP.read 2
        let l ← (if n = 0 then Pure.pure true else BP.readb)
        let p ← BP.read 4
        BP.check (p ≤ 1)
        quantHeadsBP k n (acc ++ [(i, l, p)])).run false = (readQuantHeads (n + 1) >>= fun q => g (acc ++ q)) := by
      rw [readQuantHeads_acc, BP.run_seq, BP.run_read]
      congr 1
      funext i
      rw [BP.run_seq]
      congr 1
      · split
        · rfl
        · exact BP.run_readb _
      · funext l
        rw [BP.run_seq, BP.run_read]
        congr 1
        funext p
        rw [BP.run_seq, BP.run_check]
        congr 1
        funext _
        exact quantHeadsBP_run hk hg n _
    have wg : ∀ (c : Prop) [Decidable c] (m : Nat) (r : P Bool α), Wants m r → Wants m (P.guard c >>= fun _ => r) := by
      intro c _ m r h bs hl
      rw [bind_apply, guard_apply]
      by_cases hc : c
      · rw [if_pos hc]
        exact h bs hl
      · rw [if_neg hc]
    rw [quantHeadsBP, BP.run_need, e]
    rw [e, readQuantHeads_acc]
    by_cases hn : n = 0
    · subst hn
      refine Wants.bits (n := 2) (m := 5) fun i => ?_
      show Wants 5 (readBits 4 >>= _)
      refine Wants.bits (n := 4) (m := 1) fun p => wg _ _ _ ?_
      exact hg _
    · refine Wants.bits (n := 2) (m := 5) fun i => ?_
      rw [if_neg hn]
      exact Wants.bit (m := 4) fun l => Wants.bits (n := 4) (m := 0) fun p => Wants.zero _

theorem idsBP_run (ncomp : Nat) : (idsBP ncomp).run false = readIds ncomp := by
  rw [idsBP, readIds, BP.run_seq, BP.run_bits]
  congr 1
  funext k
  split
  · rw [BP.run_rep, BP.run_bits]
  · simp only
    rw [BP.run_seq, BP.run_check]
    rfl

/-- The program reads the bits of the section of internals. -/
theorem internalsBP_agrees (F limit ncomp : Nat) : SameRead F (internalsBP F limit ncomp) (readInternalsBits limit ncomp) := by
  unfold readInternalsBits internalsBP
  refine SameRead.seq (markersBP_within _ (b := 0)) (fun bs hl => ?_) fun markers => ?_
  · rw [markersBP_run]; exact readMarkers_fuel _ _ _ hl (Nat.le_refl _)
  refine SameRead.seq (b := 0) (post := fun _ => True)
    (BP.Within.ite (fun _ => (BP.Within.bits (by decide)).imp fun _ _ => trivial) fun _ => trivial) (SameRead.of_eq ?_) fun dri => ?_
  · split
    · exact BP.run_bits 16
    · rfl
  refine SameRead.seq (huffCodesBP_within _) (SameRead.of_eq (huffCodesBP_run _)) fun huffman => ?_
  refine SameRead.seq (b := 0) BP.Within.check (SameRead.of_eq (BP.run_check _ _)) fun _ => ?_
  refine SameRead.seq (BP.Within.rep (scanInfoBP_within _) _ (b := 0)) (SameRead.rep (scanInfoBP_within _) (scanInfoBP_agrees F) _) fun scans => ?_
  refine SameRead.seq (b := 0) (BP.Within.bits (by decide)) (SameRead.of_eq (BP.run_bits 2)) fun n => ?_
  refine SameRead.of_eq ?_
  refine quantHeadsBP_run (g := fun quant => (do
    let ids ← readIds ncomp
    let np ← decodeLimitedVarint 8 4
    P.guard (np ≤ limit)
    let padding ← P.replicate np readBit
    Pure.pure ⟨markers, dri, huffman, scans, quant, ids, padding, []⟩ : P Bool Internals)) (fun quant => ?_) (fun l => ?_) (n + 1) []
  · rw [BP.run_seq, idsBP_run]
    congr 1
    funext ids
    rw [BP.run_seq, limitedBP_run]
    congr 1
    funext np
    rw [BP.run_seq, BP.run_check]
    congr 1
    funext _
    rw [BP.run_seq, BP.run_rep, BP.run_bit]
    rfl
  · refine Wants.then ?_
    unfold readIds
    exact Wants.mono (Wants.bits (n := 2) (m := 0) fun _ => Wants.zero _) (by decide)

end Brunsli
