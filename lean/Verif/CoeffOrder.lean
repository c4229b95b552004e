import Verif.ProgReads
/-!
# Lehmer codes and the coefficient order

`ComputeLehmerCode`, `DecodeLehmerCode` (c/common/lehmer_code.cc:13-38), `PermutationCoder`
(c/common/lehmer_code.h:36-82), `EncodeCoeffOrder` (c/enc/brunsli_encode.cc:745-780),
`DecodeCoeffOrder` (c/dec/brunsli_decode.cc:543-576), `ComputeCoeffOrder`
(c/enc/brunsli_encode.cc:538-553).
-/

namespace Brunsli

/-- `kJPEGNaturalOrder` (c/include/brunsli/jpeg_data.h:50-62), the 64 meaningful entries and the 16
padding entries, copied by a script. -/
def kJPEGNaturalOrder : List Nat :=
  [0, 1, 8, 16, 9, 2, 3, 10, 17, 24, 32, 25, 18, 11, 4, 5, 12, 19, 26, 33, 40, 48, 41, 34, 27,
   20, 13, 6, 7, 14, 21, 28, 35, 42, 49, 56, 57, 50, 43, 36, 29, 22, 15, 23, 30, 37, 44, 51, 58,
   59, 52, 45, 38, 31, 39, 46, 53, 60, 61, 54, 47, 55, 62, 63, 63, 63, 63, 63, 63, 63, 63, 63,
   63, 63, 63, 63, 63, 63, 63, 63]

/-- `kJPEGZigZagOrder` (c/include/brunsli/jpeg_data.h:64-73), copied by a script. -/
def kJPEGZigZagOrder : List Nat :=
  [0, 1, 5, 6, 14, 15, 27, 28, 2, 4, 7, 13, 16, 26, 29, 42, 3, 8, 12, 17, 25, 30, 41, 43, 9, 11,
   18, 24, 31, 40, 44, 53, 10, 19, 23, 32, 39, 45, 52, 54, 20, 22, 33, 38, 46, 51, 55, 60, 21,
   34, 37, 47, 50, 56, 59, 61, 35, 36, 48, 49, 57, 58, 62, 63]

/-- The loop of `ComputeLehmerCode` (c/common/lehmer_code.cc:17-24).  `none`: the value is not among the
remaining items (DCHECK, then undefined behaviour). -/
def lehmerGo (items : List Nat) : List Nat → Option (List Nat)
  | [] => some []
  | s :: sigma =>
    if s ∈ items then
      match lehmerGo (items.eraseIdx (items.idxOf s)) sigma with
      | none => none
      | some c => some (items.idxOf s :: c)
    else none

/-- `ComputeLehmerCode` (c/common/lehmer_code.cc:13-25). -/
def computeLehmer (sigma : List Nat) : Option (List Nat) := lehmerGo (List.range sigma.length) sigma

/-- The loop of `DecodeLehmerCode` (c/common/lehmer_code.cc:30-36). -/
def unlehmerGo (items : List Nat) : List Nat → Option (List Nat)
  | [] => some []
  | i :: code =>
    match items[i]? with
    | none => none
    | some v =>
      match unlehmerGo (items.eraseIdx i) code with
      | none => none
      | some s => some (v :: s)

/-- `DecodeLehmerCode` (c/common/lehmer_code.cc:27-38). -/
def decodeLehmer (code : List Nat) : Option (List Nat) := unlehmerGo (List.range code.length) code

theorem getElem?_idxOf {s : Nat} {items : List Nat} (h : s ∈ items) : items[items.idxOf s]? = some s := by
  induction items with
  | nil => cases h
  | cons x items ih =>
    rw [List.idxOf_cons]
    by_cases hx : x = s
    · subst hx; simp
    · have hb : (x == s) = false := by simpa using hx
      rw [hb, cond_false, List.getElem?_cons_succ]
      apply ih
      rcases List.mem_cons.1 h with h | h
      · exact absurd h.symm hx
      · exact h

theorem unlehmer_lehmer (sigma : List Nat) : ∀ items code, lehmerGo items sigma = some code →
    unlehmerGo items code = some sigma := by
  induction sigma with
  | nil => intro items code h; cases h; rfl
  | cons s sigma ih =>
    intro items code h
    simp only [lehmerGo] at h
    split at h
    · rename_i hm
      split at h
      · cases h
      · rename_i c hc
        cases h
        simp only [unlehmerGo, getElem?_idxOf hm, ih _ _ hc]
    · cases h

/-- The digits of the code are bounded by the number of remaining items. -/
theorem lehmer_bound (sigma : List Nat) : ∀ items code, lehmerGo items sigma = some code →
    code.length = sigma.length ∧ ∀ i v, code[i]? = some v → v + i < items.length := by
  induction sigma with
  | nil => intro items code h; cases h; exact ⟨rfl, by simp⟩
  | cons s sigma ih =>
    intro items code h
    simp only [lehmerGo] at h
    split at h
    · rename_i hm
      split at h
      · cases h
      · rename_i c hc
        cases h
        obtain ⟨h1, h2⟩ := ih _ _ hc
        have hlt : items.idxOf s < items.length := List.idxOf_lt_length_iff.2 hm
        refine ⟨by simp [h1], ?_⟩
        intro i v hv
        cases i with
        | zero => simp at hv; omega
        | succ i =>
          simp only [List.getElem?_cons_succ] at hv
          have := h2 i v hv
          rw [List.length_eraseIdx, if_pos hlt] at this
          omega
    · cases h

/-- The code exists for every duplicate-free selection of the items. -/
theorem lehmer_exists (sigma : List Nat) : ∀ items : List Nat, items.Nodup → sigma.Nodup →
    (∀ s ∈ sigma, s ∈ items) → ∃ code, lehmerGo items sigma = some code := by
  induction sigma with
  | nil => intro items _ _ _; exact ⟨[], rfl⟩
  | cons s sigma ih =>
    intro items hi hs hsub
    have hm := hsub s (by simp)
    obtain ⟨hs1, hs2⟩ := List.nodup_cons.1 hs
    have he : items.eraseIdx (items.idxOf s) = items.erase s := by
      rw [List.erase_eq_eraseIdx_of_idxOf rfl]
    obtain ⟨c, hc⟩ := ih (items.eraseIdx (items.idxOf s)) (by rw [he]; exact hi.erase _) hs2 (by
      intro x hx
      rw [he]
      rw [List.mem_erase_of_ne]
      · exact hsub x (by simp [hx])
      · rintro rfl; exact hs1 hx)
    exact ⟨items.idxOf s :: c, by simp only [lehmerGo, if_pos hm, hc]⟩

/-! ## Coefficient order -/

/-- The loop `while (tail >= 1 && lehmer[tail] == 0) --tail` (c/enc/brunsli_encode.cc:752-755,
c/dec/brunsli_decode.cc:563-566). -/
def lehmerTail (l : List Nat) : Nat → Nat
  | 0 => 0
  | k + 1 => if l.getD (k + 1) 0 = 0 then lehmerTail l k else k + 1

/-- `for i in 1..tail: ++lehmer[i]` (c/enc/brunsli_encode.cc:756-758). -/
def incTail (l : List Nat) (tail : Nat) : List Nat :=
  l.mapIdx fun i v => if 1 ≤ i ∧ i ≤ tail then v + 1 else v

/-- The digits of one entry (c/enc/brunsli_encode.cc:773-777). -/
def digitOps (v : Nat) : List Op :=
  if v ≥ 7 then .bits 3 7 :: digitOps (v - 7) else [.bits 3 v]
termination_by v

/-- One span (c/enc/brunsli_encode.cc:760-779): entries `start .. start+n`. -/
def spanOps (l : List Nat) (start n : Nat) : List Op :=
  let s := (l.drop start).take n
  if s.all (· = 0) then [.bits 1 0] else .bits 1 1 :: s.flatMap digitOps

/-- `EncodeCoeffOrder` (c/enc/brunsli_encode.cc:745-780).  `none`: an entry is not a position, or the
order repeats a position. -/
def encodeCoeffOrder (order : List Nat) : Option (List Op) := do
  let zz ← order.mapM fun o => kJPEGZigZagOrder[o]?
  let l ← computeLehmer zz
  let l := incTail l (lehmerTail l 63)
  some (spanOps l 1 15 ++ spanOps l 16 16 ++ spanOps l 32 16 ++ spanOps l 48 16)

/-- One entry in the decoder (c/dec/brunsli_decode.cc:553-559): `v` accumulates. -/
def decDigits (v : Nat) : Prog Nat :=
  if _hv : v ≤ 64 then
    .bits 3 fun b =>
      if _hb : b < 7 then (if v + b > 64 then .fail else .ret (v + b)) else decDigits (v + b)
  else .fail
termination_by 65 - v

/-- `n` entries. -/
def decEntries : Nat → Prog (List Nat)
  | 0 => .ret []
  | n + 1 => do
    let v ← decDigits 0
    let vs ← decEntries n
    return v :: vs

/-- One span in the decoder (c/dec/brunsli_decode.cc:548-561). -/
def decSpan (n : Nat) : Prog (List Nat) := do
  let f ← Prog.readBits 1
  if f = 0 then return List.replicate n 0 else decEntries n

/-- The check and decrement loop (c/dec/brunsli_decode.cc:567-571). -/
def decTail (l : List Nat) (tail : Nat) : Option (List Nat) :=
  if l.getD tail 0 = 1 then none
  else if ∀ i < tail, l.getD (i + 1) 0 ≠ 0 then
    some (l.mapIdx fun i v => if 1 ≤ i ∧ i ≤ tail then v - 1 else v)
  else none

/-- What follows the bit reading in `DecodeCoeffOrder` (c/dec/brunsli_decode.cc:562-575). -/
def finishOrder (l : List Nat) : Option (List Nat) := do
  let l ← decTail l (lehmerTail l 63)
  let s ← decodeLehmer l
  s.mapM fun k => kJPEGNaturalOrder[k]?

/-- `DecodeCoeffOrder` (c/dec/brunsli_decode.cc:543-576); the entry 0 is never read and stays 0. -/
def decodeCoeffOrder : Prog (List Nat) := do
  let a ← decSpan 15
  let b ← decSpan 16
  let c ← decSpan 16
  let d ← decSpan 16
  match finishOrder (0 :: (a ++ b ++ c ++ d)) with
  | none => .fail
  | some o => return o

theorem digits_eats (v : Nat) : ∀ w, w + v ≤ 64 → Prog.Eats (decDigits w) (digitOps v) (w + v) := by
  induction v using digitOps.induct with
  | case1 v hv ih =>
    intro w hw
    rw [digitOps, if_pos hv, decDigits, dif_pos (by omega)]
    refine Prog.Eats.bits ?_
    rw [dif_neg (by omega)]
    have := ih (w + 7) (by omega)
    rwa [show w + 7 + (v - 7) = w + v by omega] at this
  | case2 v hv =>
    intro w hw
    rw [digitOps, if_neg hv, decDigits, dif_pos (by omega)]
    refine Prog.Eats.bits ?_
    rw [dif_pos (by omega), if_neg (by omega)]
    exact Prog.Eats.ret _

theorem entries_eats (s : List Nat) (h : ∀ v ∈ s, v ≤ 64) :
    Prog.Eats (decEntries s.length) (s.flatMap digitOps) s := by
  induction s with
  | nil => exact Prog.Eats.ret _
  | cons v s ih =>
    have h1 := digits_eats v 0 (by have := h v (by simp); omega)
    rw [Nat.zero_add] at h1
    refine Prog.Eats.bind' h1 ?_ (List.flatMap_cons)
    refine Prog.Eats.bind' (ih fun x hx => h x (by simp [hx])) (Prog.Eats.pure _) (by simp)

theorem span_eats (l : List Nat) (start n : Nat) (h : ∀ v ∈ l, v ≤ 64) (hn : start + n ≤ l.length) :
    Prog.Eats (decSpan n) (spanOps l start n) ((l.drop start).take n) := by
  have hl : ((l.drop start).take n).length = n := by simp; omega
  have hm : ∀ v ∈ (l.drop start).take n, v ≤ 64 := fun v hv =>
    h v (List.mem_of_mem_drop (List.mem_of_mem_take hv))
  unfold spanOps decSpan
  generalize (l.drop start).take n = s at *
  simp only
  split
  · rename_i hz
    refine Prog.Eats.bind' (Prog.readBits_eats 1 0) ?_ (by simp; rfl)
    simp only [if_true]
    refine Prog.Eats.pure' ?_
    symm
    rw [List.eq_replicate_iff]
    refine ⟨hl, fun b hb => ?_⟩
    have := List.all_eq_true.1 hz b hb
    simpa using this
  · refine Prog.Eats.bind' (Prog.readBits_eats 1 1) ?_ rfl
    simp only [Nat.one_ne_zero, if_false]
    have := entries_eats s hm
    rwa [hl] at this

theorem lehmerTail_spec (l : List Nat) (n : Nat) :
    lehmerTail l n ≤ n ∧ (lehmerTail l n = 0 ∨ l.getD (lehmerTail l n) 0 ≠ 0) ∧
      ∀ i, lehmerTail l n < i → i ≤ n → l.getD i 0 = 0 := by
  induction n with
  | zero => exact ⟨Nat.le_refl _, Or.inl rfl, fun i h1 h2 => by omega⟩
  | succ n ih =>
    obtain ⟨h1, h2, h3⟩ := ih
    unfold lehmerTail
    split
    · rename_i h0
      refine ⟨by omega, h2, fun i a b => ?_⟩
      rcases Nat.lt_or_ge n i with hh | hh
      · have : i = n + 1 := by omega
        subst this; exact h0
      · exact h3 i a hh
    · rename_i h0
      exact ⟨Nat.le_refl _, Or.inr h0, fun i a b => by omega⟩

theorem lehmerTail_unique (l : List Nat) (n t : Nat) (h1 : t ≤ n) (h2 : t = 0 ∨ l.getD t 0 ≠ 0)
    (h3 : ∀ i, t < i → i ≤ n → l.getD i 0 = 0) : lehmerTail l n = t := by
  obtain ⟨g1, g2, g3⟩ := lehmerTail_spec l n
  rcases Nat.lt_trichotomy (lehmerTail l n) t with h | h | h
  · rcases h2 with h2 | h2
    · omega
    · exact absurd (g3 t h h1) h2
  · exact h
  · rcases g2 with g2 | g2
    · omega
    · exact absurd (h3 _ h g1) g2

theorem incTail_getD (l : List Nat) (t i : Nat) (hi : i < l.length) :
    (incTail l t).getD i 0 = if 1 ≤ i ∧ i ≤ t then l.getD i 0 + 1 else l.getD i 0 := by
  unfold incTail
  simp [List.getD_eq_getElem?_getD, List.getElem?_mapIdx, List.getElem?_eq_getElem hi]

theorem incTail_length (l : List Nat) (t : Nat) : (incTail l t).length = l.length := by
  simp [incTail]

/-- Incrementing up to the tail, then finding the tail and decrementing, is the identity. -/
theorem decTail_incTail (l : List Nat) (hl : l.length = 64) (hfirst : l.getD 0 0 = 0) :
    decTail (incTail l (lehmerTail l 63)) (lehmerTail (incTail l (lehmerTail l 63)) 63) = some l := by
  obtain ⟨h1, h2, h3⟩ := lehmerTail_spec l 63
  generalize ht : lehmerTail l 63 = t at *
  have htail : lehmerTail (incTail l t) 63 = t := by
    apply lehmerTail_unique _ _ _ h1
    · rcases Nat.eq_zero_or_pos t with h0 | h0
      · exact Or.inl h0
      · right
        rw [incTail_getD _ _ _ (by omega), if_pos ⟨h0, Nat.le_refl _⟩]
        omega
    · intro i a b
      rw [incTail_getD _ _ _ (by omega), if_neg (by omega)]
      exact h3 i a b
  rw [htail]
  unfold decTail
  rw [if_neg, if_pos]
  · congr 1
    apply List.ext_getElem?
    intro i
    unfold incTail
    simp only [List.getElem?_mapIdx, Option.map_map]
    cases l[i]? with
    | none => rfl
    | some v =>
      simp only [Option.map_some, Function.comp]
      by_cases hc : 1 ≤ i ∧ i ≤ t
      · simp [hc]
      · simp [hc]
  · intro i hi
    rw [incTail_getD _ _ _ (by omega), if_pos (by omega)]
    omega
  · rcases Nat.eq_zero_or_pos t with h0 | h0
    · subst h0
      rw [incTail_getD _ _ _ (by omega), if_neg (by omega)]
      omega
    · rw [incTail_getD _ _ _ (by omega), if_pos ⟨h0, Nat.le_refl _⟩]
      rcases h2 with h2 | h2
      · omega
      · omega

theorem zigzag_natural : ∀ x < 64, ∃ z < 64, kJPEGZigZagOrder[x]? = some z ∧ kJPEGNaturalOrder[z]? = some x := by
  decide +kernel

theorem mapM_some {f : Nat → Option Nat} {g : Nat → Nat} (l : List Nat) (h : ∀ x ∈ l, f x = some (g x)) :
    l.mapM f = some (l.map g) := by
  induction l with
  | nil => rfl
  | cons x l ih =>
    simp [List.mapM_cons, h x (by simp), ih (fun y hy => h y (by simp [hy]))]

/-- Positions to zig-zag indices. -/
def zz (x : Nat) : Nat := kJPEGZigZagOrder.getD x 0

theorem zz_spec {x : Nat} (h : x < 64) : kJPEGZigZagOrder[x]? = some (zz x) ∧ zz x < 64 ∧
    kJPEGNaturalOrder[zz x]? = some x := by
  obtain ⟨z, h1, h2, h3⟩ := zigzag_natural x h
  have : zz x = z := by simp [zz, List.getD_eq_getElem?_getD, h2]
  rw [this]
  exact ⟨h2, h1, h3⟩

/-- An order: each of the 64 positions once, position 0 first. -/
def CoeffOrder (order : List Nat) : Prop := order.Perm (List.range 64) ∧ order.head? = some 0

instance (order : List Nat) : Decidable (CoeffOrder order) := inferInstanceAs (Decidable (_ ∧ _))

theorem coeffOrder_roundtrip (order : List Nat) (h : CoeffOrder order) :
    ∃ ops, encodeCoeffOrder order = some ops ∧ Prog.Eats decodeCoeffOrder ops order ∧
      ∀ op ∈ ops, ∃ n v, op = .bits n v ∧ n ≤ 16 ∧ v < 2 ^ n := by
  obtain ⟨hp, hh⟩ := h
  have hlen : order.length = 64 := by simpa using hp.length_eq
  have hlt : ∀ x ∈ order, x < 64 := fun x hx => by simpa using hp.mem_iff.1 hx
  have hnd : order.Nodup := hp.nodup_iff.2 List.nodup_range
  have e1 : order.mapM (fun o => kJPEGZigZagOrder[o]?) = some (order.map zz) :=
    mapM_some _ fun x hx => (zz_spec (hlt x hx)).1
  have hnd' : (order.map zz).Nodup := by
    apply List.Pairwise.map _ _ (List.pairwise_iff_forall_sublist.2 (fun {a b} hs => ?_) : List.Pairwise (fun a b => a < 64 ∧ b < 64 ∧ a ≠ b) order)
    · rintro a b ⟨ha, hb, hne⟩ he
      have h1 := (zz_spec ha).2.2
      have h2 := (zz_spec hb).2.2
      rw [he, h2] at h1
      exact hne (by simpa using h1.symm)
    · exact ⟨hlt a (hs.subset (by simp)), hlt b (hs.subset (by simp)),
        List.pairwise_iff_forall_sublist.1 hnd hs⟩
  obtain ⟨l, hl⟩ := lehmer_exists (order.map zz) (List.range (order.map zz).length) List.nodup_range hnd' (by
    intro s hs
    obtain ⟨x, hx, rfl⟩ := List.mem_map.1 hs
    rw [List.length_map, hlen, List.mem_range]
    exact (zz_spec (hlt x hx)).2.1)
  obtain ⟨hb1, hb2⟩ := lehmer_bound _ _ _ hl
  rw [List.length_map, hlen] at hb1
  simp only [List.length_range, List.length_map, hlen] at hb2
  have hfirst : l.getD 0 0 = 0 := by
    cases order with
    | nil => simp at hlen
    | cons x order =>
      simp only [List.head?_cons, Option.some.injEq] at hh
      subst hh
      simp only [List.map_cons, lehmerGo] at hl
      have hz : zz 0 = 0 := by decide +kernel
      rw [hz] at hl
      split at hl
      · split at hl
        · cases hl
        · cases hl
          simp [List.range_succ_eq_map]
      · cases hl
  generalize ht : lehmerTail l 63 = t
  have hval : ∀ v ∈ incTail l t, v ≤ 64 := by
    intro v hv
    unfold incTail at hv
    obtain ⟨i, hi, rfl⟩ := List.mem_mapIdx.1 hv
    have h1 := hb2 i l[i] (List.getElem?_eq_getElem hi)
    split <;> omega
  have hinc : (incTail l t).length = 64 := by rw [incTail_length, hb1]
  have hsplit : 0 :: ((((incTail l t).drop 1).take 15 ++ ((incTail l t).drop 16).take 16) ++
      ((incTail l t).drop 32).take 16 ++ ((incTail l t).drop 48).take 16) = incTail l t := by
    have h0 : (incTail l t).take 1 = [0] := by
      have h1 : (incTail l t).getD 0 0 = 0 := by
        rw [incTail_getD _ _ _ (by omega), if_neg (by omega), hfirst]
      generalize incTail l t = m at *
      cases m with
      | nil => simp at hinc
      | cons x m => simpa using h1
    generalize incTail l t = m at *
    have hd : ∀ a b, (m.drop a).take b ++ m.drop (a + b) = m.drop a := by
      intro a b
      rw [← List.drop_drop, List.take_append_drop]
    have h48 : (m.drop 48).take 16 = m.drop 48 := List.take_of_length_le (by simp; omega)
    rw [List.append_assoc, List.append_assoc, h48, hd 32 16, hd 16 16, hd 1 15]
    have := List.take_append_drop 1 m
    rw [h0] at this
    exact this
  refine ⟨spanOps (incTail l t) 1 15 ++ spanOps (incTail l t) 16 16 ++ spanOps (incTail l t) 32 16 ++
      spanOps (incTail l t) 48 16, ?_, ?_, ?_⟩
  · unfold encodeCoeffOrder
    simp only [e1, Option.bind_eq_bind, Option.bind_some, computeLehmer, hl, ht]
  · unfold decodeCoeffOrder
    refine Prog.Eats.bind' (span_eats _ 1 15 hval (by omega)) ?_ (by simp only [List.append_assoc]; rfl)
    refine Prog.Eats.bind' (span_eats _ 16 16 hval (by omega)) ?_ rfl
    refine Prog.Eats.bind' (span_eats _ 32 16 hval (by omega)) ?_ rfl
    refine Prog.Eats.bind' (span_eats _ 48 16 hval (by omega)) ?_ (by rw [List.append_nil])
    rw [hsplit]
    have hfin : finishOrder (incTail l t) = some order := by
      unfold finishOrder
      have hdt := decTail_incTail l hb1 hfirst
      rw [ht] at hdt
      have hdl : decodeLehmer l = some (order.map zz) := by
        unfold decodeLehmer
        have := unlehmer_lehmer _ _ _ hl
        rwa [List.length_map, hlen, ← hb1] at this
      rw [hdt]
      simp only [Option.bind_eq_bind, Option.bind_some, hdl]
      have hm : ∀ (o : List Nat), (∀ x ∈ o, x < 64) →
          (o.map zz).mapM (fun k => kJPEGNaturalOrder[k]?) = some o := by
        intro o
        induction o with
        | nil => intro _; rfl
        | cons x o ih =>
          intro hx
          simp [List.mapM_cons, (zz_spec (hx x (by simp))).2.2, ih (fun y hy => hx y (by simp [hy]))]
      exact hm order hlt
    rw [hfin]
    exact Prog.Eats.pure _
  · have hdig : ∀ v, ∀ op ∈ digitOps v, ∃ n v, op = .bits n v ∧ n ≤ 16 ∧ v < 2 ^ n := by
      intro v
      induction v using digitOps.induct with
      | case1 v hv ih =>
        intro op hop
        rw [digitOps, if_pos hv] at hop
        rcases List.mem_cons.1 hop with h | h
        · exact ⟨3, 7, h, by omega, by omega⟩
        · exact ih op h
      | case2 v hv =>
        intro op hop
        rw [digitOps, if_neg hv] at hop
        rcases List.mem_cons.1 hop with h | h
        · exact ⟨3, v, h, by omega, by omega⟩
        · cases h
    have hspan : ∀ m a b, ∀ op ∈ spanOps m a b, ∃ n v, op = .bits n v ∧ n ≤ 16 ∧ v < 2 ^ n := by
      intro m a b op hop
      unfold spanOps at hop
      simp only at hop
      split at hop
      · simp only [List.mem_singleton] at hop
        exact ⟨1, 0, hop, by omega, by omega⟩
      · rcases List.mem_cons.1 hop with h | h
        · exact ⟨1, 1, h, by omega, by omega⟩
        · obtain ⟨v, _, hv⟩ := List.mem_flatMap.1 h
          exact hdig v op hv
    intro op hop
    simp only [List.mem_append] at hop
    rcases hop with ((h | h) | h) | h <;> exact hspan _ _ _ _ h

/-- `ComputeCoeffOrder` (c/enc/brunsli_encode.cc:538-553): positions in zig-zag order, stably sorted by
the number of zeros (`std::stable_sort` is modelled by Lean's stable merge sort). -/
def computeCoeffOrder (numZeros : Nat → Nat) : List Nat :=
  let pv := (List.range 64).map fun i => (i, numZeros (kJPEGNaturalOrder.getD i 0))
  (pv.mergeSort fun a b => decide (a.2 ≤ b.2)).map fun p => kJPEGNaturalOrder.getD p.1 0

/-- The order chosen by the encoder is an order with DC first, whatever the statistics. -/
theorem computeCoeffOrder_ok (numZeros : Nat → Nat) (h0 : numZeros 0 = 0) :
    CoeffOrder (computeCoeffOrder numZeros) := by
  constructor
  · have hnat : ((List.range 64).map fun i => kJPEGNaturalOrder.getD i 0).Perm (List.range 64) := by
      decide +kernel
    refine List.Perm.trans ?_ hnat
    unfold computeCoeffOrder
    simp only
    refine ((List.mergeSort_perm _ _).map _).trans ?_
    rw [List.map_map]
    exact List.Perm.refl _
  · unfold computeCoeffOrder
    simp only
    rw [show (List.range 64) = 0 :: (List.range 63).map (· + 1) from List.range_succ_eq_map]
    rw [List.map_cons]
    obtain ⟨l₁, l₂, e1, _, e3⟩ := List.mergeSort_cons (le := fun a b : Nat × Nat => decide (a.2 ≤ b.2))
      (by intro a b c h1 h2; simp only [decide_eq_true_eq] at *; omega)
      (by intro a b; simp only [Bool.or_eq_true, decide_eq_true_eq]; omega)
      ((0, numZeros (kJPEGNaturalOrder.getD 0 0)) : Nat × Nat)
      (((List.range 63).map (· + 1)).map fun i => (i, numZeros (kJPEGNaturalOrder.getD i 0)))
    have hn0 : kJPEGNaturalOrder.getD 0 0 = 0 := by decide +kernel
    have hl1 : l₁ = [] := by
      cases l₁ with
      | nil => rfl
      | cons b l₁ =>
        have := e3 b (by simp)
        rw [hn0, h0] at this
        simp at this
    rw [e1, hl1]
    rw [List.nil_append, List.map_cons, List.head?_cons, hn0]

/-! ## Arbitrary input -/

theorem cons_eraseIdx_perm (l : List Nat) : ∀ i (h : i < l.length), (l[i] :: l.eraseIdx i).Perm l := by
  induction l with
  | nil => intro i h; simp at h
  | cons a l ih =>
    intro i h
    cases i with
    | zero => simp
    | succ i =>
      simp only [List.getElem_cons_succ, List.eraseIdx_cons_succ]
      exact (List.Perm.swap _ _ _).trans ((ih i (by simpa using h)).cons a)

theorem unlehmer_perm (code : List Nat) : ∀ items s, code.length = items.length →
    unlehmerGo items code = some s → s.Perm items := by
  induction code with
  | nil =>
    intro items s hl h
    simp only [unlehmerGo, Option.some.injEq] at h
    have : items = [] := List.eq_nil_of_length_eq_zero (by simpa using hl.symm)
    subst this; rw [← h]
  | cons i code ih =>
    intro items s hl h
    simp only [unlehmerGo] at h
    cases hi : items[i]? with
    | none => simp [hi] at h
    | some v =>
      simp only [hi] at h
      cases hu : unlehmerGo (items.eraseIdx i) code with
      | none => simp [hu] at h
      | some s' =>
        simp only [hu, Option.some.injEq] at h
        obtain ⟨hlt, hv⟩ := List.getElem?_eq_some_iff.mp hi
        have := ih (items.eraseIdx i) s' (by rw [List.length_eraseIdx_of_lt hlt]; simp at hl; omega) hu
        rw [← h, ← hv]
        exact (this.cons _).trans (cons_eraseIdx_perm items i hlt)

theorem unlehmer_head (code items s : List Nat) (h : unlehmerGo items (0 :: code) = some s) :
    s.head? = items.head? := by
  simp only [unlehmerGo] at h
  cases items with
  | nil => simp at h
  | cons a items =>
    simp only [List.getElem?_cons_zero, List.eraseIdx_cons_zero] at h
    cases hu : unlehmerGo items code with
    | none => simp [hu] at h
    | some s' => simp only [hu, Option.some.injEq] at h; rw [← h]; rfl

theorem natural_perm : ((List.range 64).map fun i => kJPEGNaturalOrder.getD i 0).Perm (List.range 64) := by
  decide +kernel

theorem finishOrder_ok (l o : List Nat) (hl : l.length = 64) (h0 : l.head? = some 0)
    (h : finishOrder l = some o) : CoeffOrder o := by
  unfold finishOrder at h
  simp only [Option.bind_eq_bind] at h
  cases h1 : decTail l (lehmerTail l 63) with
  | none => simp [h1] at h
  | some l' =>
    simp only [h1, Option.bind_some] at h
    have hl' : l'.length = 64 ∧ l'.head? = some 0 := by
      unfold decTail at h1
      split at h1
      · simp at h1
      · split at h1
        · simp only [Option.some.injEq] at h1
          rw [← h1]
          refine ⟨by simpa using hl, ?_⟩
          cases l with
          | nil => simp at h0
          | cons a l => simp at h0; subst h0; simp
        · simp at h1
    cases h2 : decodeLehmer l' with
    | none => simp [h2] at h
    | some s =>
      simp only [h2, Option.bind_some] at h
      unfold decodeLehmer at h2
      rw [hl'.1] at h2
      have hp := unlehmer_perm l' _ s (by simpa using hl'.1) h2
      have hh : s.head? = some 0 := by
        cases l' with
        | nil => simp at hl'
        | cons a l' =>
          have : a = 0 := by simpa using hl'.2
          subst this
          rw [unlehmer_head l' _ s h2]; decide
      have hm : s.mapM (fun k => kJPEGNaturalOrder[k]?) = some (s.map fun i => kJPEGNaturalOrder.getD i 0) := by
        apply mapM_some
        intro x hx
        have : x < 64 := by simpa using hp.mem_iff.mp hx
        have hlen : kJPEGNaturalOrder.length = 80 := by decide
        rw [List.getD_eq_getElem?_getD, List.getElem?_eq_getElem (by omega)]; rfl
      rw [hm, Option.some.injEq] at h
      rw [← h]
      refine ⟨(hp.map _).trans natural_perm, ?_⟩
      rw [List.head?_map, hh]; rfl

theorem decDigits_all (v : Nat) : (decDigits v).All fun _ => True := by
  induction v using decDigits.induct with
  | case1 v hv ih =>
    rw [decDigits, dif_pos hv]
    intro b _
    by_cases hb : b < 7
    · simp only [hb, ↓reduceDIte]
      split <;> trivial
    · simp only [hb, ↓reduceDIte]; exact ih b hb
  | case2 v hv => rw [decDigits, dif_neg hv]; trivial

theorem decEntries_all (n : Nat) : (decEntries n).All fun l => l.length = n := by
  induction n with
  | zero => rfl
  | succ n ih =>
    refine Prog.All.bind (decDigits_all 0) fun v _ => ?_
    refine Prog.All.bind ih fun vs hvs => ?_
    exact Prog.All.pure (by simp [hvs])

theorem decSpan_all (n : Nat) : (decSpan n).All fun l => l.length = n := by
  refine Prog.All.bind (q := fun _ => True) (fun _ _ => trivial) fun f _ => ?_
  by_cases hf : f = 0
  · simp only [hf, ↓reduceIte]; exact Prog.All.pure (by simp)
  · simp only [hf, ↓reduceIte]; exact decEntries_all n

theorem decodeCoeffOrder_all : decodeCoeffOrder.All CoeffOrder := by
  refine Prog.All.bind (decSpan_all 15) fun a ha => ?_
  refine Prog.All.bind (decSpan_all 16) fun b hb => ?_
  refine Prog.All.bind (decSpan_all 16) fun c hc => ?_
  refine Prog.All.bind (decSpan_all 16) fun d hd => ?_
  cases h : finishOrder (0 :: (a ++ b ++ c ++ d)) with
  | none => trivial
  | some o => exact Prog.All.pure (finishOrder_ok _ _ (by simp [ha, hb, hc, hd]) rfl h)

end Brunsli
