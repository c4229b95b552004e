import Verif.HuffSafe
/-!
# Context map

c/enc/context_map_encode.cc and c/dec/context_map_decode.cc, with the stages READ_NUM_HISTOGRAMS to
READ_CONTEXT_MAP of `DecodeHistogramDataSection` (c/dec/brunsli_decode.cc).
-/

namespace Brunsli

open P

/-! ## Encoder -/

/-- Move the element at `i` to the front (c/enc/context_map_encode.cc:45-51, c/dec/context_map_decode.cc:20-25). -/
def moveToFront (l : List Nat) (i : Nat) : List Nat := l.getD i 0 :: l.eraseIdx i

/-- The loop of `MoveToFrontTransform` (c/enc/context_map_encode.cc:59-65).  `none`: a value is not in the list
(the index is used out of bounds). -/
def mtfLoop : List Nat → List Nat → Option (List Nat)
  | _, [] => some []
  | mtf, v :: vs =>
    let i := mtf.idxOf v
    if i < mtf.length then (mtfLoop (moveToFront mtf i) vs).map (i :: ·) else none

/-- The largest element; 0 for the empty list. -/
def listMax (l : List Nat) : Nat := l.foldl max 0

/-- `MoveToFrontTransform` (c/enc/context_map_encode.cc:53-67). -/
def mtfTransform (v : List Nat) : Option (List Nat) :=
  if v = [] then some [] else mtfLoop (List.range (listMax v + 1)) v

/-- The longest run of zeros (c/enc/context_map_encode.cc:79-85); `cur` is the length of the current run. -/
def maxZeroRun : List Nat → Nat → Nat → Nat
  | [], cur, best => max cur best
  | v :: vs, cur, best => if v = 0 then maxZeroRun vs (cur + 1) best else maxZeroRun vs 0 (max cur best)

/-- `max_run_length_prefix` as computed (c/enc/context_map_encode.cc:86-89), starting from 6. -/
def runPrefix (v : List Nat) : Nat :=
  let r := maxZeroRun v 0 0
  min (if r > 0 then Nat.log2 r else 0) 6

/-- The symbols for a run of zeros (c/enc/context_map_encode.cc:101-112). -/
def rleRun (p reps : Nat) : List (Nat × Nat) :=
  if _h0 : reps = 0 then []
  else if reps < 2 * 2 ^ p then [(Nat.log2 reps, reps - 2 ^ Nat.log2 reps)]
  else (p, 2 ^ p - 1) :: rleRun p (reps - (2 * 2 ^ p - 1))
termination_by reps
decreasing_by have := Nat.two_pow_pos p; omega

/-- `RunLengthCodeZeros` (c/enc/context_map_encode.cc:90-114): symbols with their extra bits. -/
def rleZeros (p : Nat) (v : List Nat) : List (Nat × Nat) :=
  match v with
  | [] => []
  | v :: vs =>
    if v ≠ 0 then (v + p, 0) :: rleZeros p vs
    else rleRun p (1 + runLen 0 vs) ++ rleZeros p (vs.drop (runLen 0 vs))
termination_by v.length
decreasing_by
  · simp
  · simp; omega

/-- Occurrences of each symbol below `n` (c/enc/context_map_encode.cc:131-135); the C++ array has 272 entries,
of which the first `n` are passed on. -/
def histogramOf (n : Nat) (syms : List Nat) : List Nat := (List.range n).map fun i => syms.countP (· = i)

/-- One symbol and its extra bits (c/enc/context_map_encode.cc:149-154). -/
def cmWord (depth : List Nat) (p : Nat) (t : Nat × Nat) : List Bool :=
  huffWord depth t.1 ++ if 0 < t.1 ∧ t.1 ≤ p then bitsOf t.1 t.2 else []

/-- `EncodeContextMap` (c/enc/context_map_encode.cc:119-156).  `none`: an array is used out of bounds. -/
def encodeContextMap (cm : List Nat) (numClusters : Nat) : Option (List Bool) :=
  if numClusters = 1 then some (storeVarLenUint8 (numClusters - 1))
  else
    match mtfTransform cm with
    | none => none
    | some v =>
      let p := runPrefix v
      let toks := rleZeros p v
      if ∀ t ∈ toks, t.1 < 272 then
        match buildAndStore (histogramOf (numClusters + p) (toks.map (·.1))) with
        | none => none
        | some (depth, code) =>
          some (storeVarLenUint8 (numClusters - 1) ++
            ((if p > 0 then bitsOf 1 1 ++ bitsOf 4 (p - 1) else bitsOf 1 0) ++
              (code ++ (toks.flatMap (cmWord depth p) ++ bitsOf 1 1))))
      else none

/-! ## Decoder -/

/-- The loop of `DecodeContextMap` (c/dec/context_map_decode.cc:49-71) over a map of `n` entries, `acc` being
those already written. -/
def readMap (m : Mem) (p n : Nat) (acc : List Nat) (bs : List Bool) : Option (List Nat × List Bool) :=
  if _h : acc.length < n then
    match readHuff m 8 bs with
    | none => none
    | some (code, bs) =>
      if code = 0 then readMap m p n (acc ++ [0]) bs
      else if code ≤ p then
        match readBits code bs with
        | none => none
        | some (b, bs) =>
          if _hn : acc.length + (2 ^ code + b) > n then none else readMap m p n (acc ++ List.replicate (2 ^ code + b) 0) bs
      else readMap m p n (acc ++ [(code - p) % 256]) bs
  else some (acc, bs)
termination_by n - acc.length
decreasing_by
  · simp; omega
  · have := Nat.two_pow_pos code; simp; omega
  · simp; omega

/-- The loop of `InverseMoveToFrontTransform` (c/dec/context_map_decode.cc:32-36). -/
def imtfLoop : List Nat → List Nat → List Nat
  | _, [] => []
  | mtf, i :: is => mtf.getD i 0 :: imtfLoop (if i ≠ 0 then moveToFront mtf i else mtf) is

/-- `DecodeContextMap` (c/dec/context_map_decode.cc:41-75). -/
def decodeMapBody (m : Mem) (p n : Nat) : P Bool (List Nat) := do
  let v ← fun bs => readMap m p n [] bs
  let imtf ← readBits 1
  if imtf = 1 then Pure.pure (imtfLoop (List.range 256) v) else Pure.pure v

/-- `max_run_length_prefix` (c/dec/brunsli_decode.cc:1878-1882). -/
def readPrefix : P Bool Nat := do
  let rle ← readBits 1
  if rle = 1 then (do let x ← readBits 4; Pure.pure (x + 1)) else Pure.pure 0

/-- The stages READ_NUM_HISTOGRAMS, READ_CONTEXT_MAP_CODE and READ_CONTEXT_MAP of `DecodeHistogramDataSection`
(c/dec/brunsli_decode.cc:1841-1901, all data available) for a map of `n` entries: the number of histograms and the
map.  The inner `none` means that a prefix code table was written out of bounds. -/
def decodeContextMap (n : Nat) : P Bool (Option (Nat × List Nat)) := do
  let x ← decodeVarLenUint8
  if x + 1 > 1 then do
    let p ← readPrefix
    let t ← readCode (x + 1 + p)
    match t with
    | none => Pure.pure none
    | some m => do
      let v ← decodeMapBody m p n
      Pure.pure (some (x + 1, v))
  else Pure.pure (some (x + 1, List.replicate n 0))

/-! ## Move-to-front -/

theorem listMax_le {l : List Nat} {b : Nat} : listMax l ≤ b ↔ ∀ x ∈ l, x ≤ b := by
  have : ∀ (l : List Nat) a, l.foldl max a ≤ b ↔ a ≤ b ∧ ∀ x ∈ l, x ≤ b := by
    intro l
    induction l with
    | nil => simp
    | cons y l ih =>
      intro a
      rw [List.foldl_cons, ih, Nat.max_le]
      simp only [List.mem_cons, forall_eq_or_imp, and_assoc]
  rw [listMax, this]; simp

theorem range_split {a n : Nat} (h : a ≤ n) : List.range n = List.range a ++ List.range' a (n - a) := by
  have e := @List.range'_append_1 0 a (n - a)
  rw [Nat.zero_add, Nat.add_sub_cancel' h] at e
  rw [List.range_eq_range', List.range_eq_range', e]

theorem moveToFront_append {M R : List Nat} {i : Nat} (h : i < M.length) : moveToFront (M ++ R) i = moveToFront M i ++ R := by
  unfold moveToFront
  rw [List.getD_eq_getElem?_getD, List.getElem?_append_left h, List.eraseIdx_append_of_lt_length h]
  simp

theorem moveToFront_length {M : List Nat} {i : Nat} (h : i < M.length) : (moveToFront M i).length = M.length := by
  unfold moveToFront
  rw [List.length_cons, List.length_eraseIdx_of_lt h]; omega

theorem moveToFront_perm {M : List Nat} {i : Nat} (h : i < M.length) : (moveToFront M i).Perm M := by
  unfold moveToFront
  rw [List.getD_eq_getElem?_getD, List.getElem?_eq_getElem h]
  exact List.getElem_cons_eraseIdx_perm h

theorem moveToFront_zero {M : List Nat} (h : M ≠ []) : moveToFront M 0 = M := by
  cases M with
  | nil => simp at h
  | cons a M => simp [moveToFront]

/-- The inverse transform undoes the transform, also when its list is longer. -/
theorem mtf_inverse (vs : List Nat) : ∀ (M R : List Nat), (∀ v ∈ vs, v ∈ M) →
    ∃ is, mtfLoop M vs = some is ∧ imtfLoop (M ++ R) is = vs ∧ is.length = vs.length ∧ ∀ i ∈ is, i < M.length := by
  induction vs with
  | nil => intro M R _; exact ⟨[], rfl, rfl, rfl, by simp⟩
  | cons v vs ih =>
    intro M R h
    have hv : M.idxOf v < M.length := List.idxOf_lt_length_of_mem (h v List.mem_cons_self)
    have hne : M ≠ [] := by intro e; rw [e] at hv; simp at hv
    obtain ⟨is, h1, h2, h3, h4⟩ := ih (moveToFront M (M.idxOf v)) R (by
      intro x hx
      exact (moveToFront_perm hv).mem_iff.mpr (h x (List.mem_cons_of_mem _ hx)))
    refine ⟨M.idxOf v :: is, ?_, ?_, by simp [h3], ?_⟩
    · simp only [mtfLoop]
      rw [if_pos hv, h1]; rfl
    · simp only [imtfLoop]
      have hg : (M ++ R).getD (M.idxOf v) 0 = v := by
        rw [List.getD_eq_getElem?_getD, List.getElem?_append_left hv, List.getElem?_eq_getElem hv]
        simp
      rw [hg]
      congr 1
      rw [← moveToFront_append hv] at h2
      by_cases h0 : M.idxOf v = 0
      · rw [if_neg (by simpa using h0)]
        rw [h0, moveToFront_zero (by simp [hne])] at h2
        exact h2
      · rw [if_pos h0]; exact h2
    · intro i hi
      rcases List.mem_cons.mp hi with rfl | hi
      · exact hv
      · rw [← moveToFront_length hv]; exact h4 i hi

/-- Indices below `nh` only move the first `nh` elements. -/
theorem imtf_bound {nh : Nat} (is : List Nat) : ∀ (A B : List Nat), A.length = nh → (∀ a ∈ A, a < nh) → (∀ i ∈ is, i < nh) →
    ∀ x ∈ imtfLoop (A ++ B) is, x < nh := by
  induction is with
  | nil => intro A B _ _ _ x hx; simp [imtfLoop] at hx
  | cons i is ih =>
    intro A B hl hA hi x hx
    have hi0 : i < A.length := by rw [hl]; exact hi i List.mem_cons_self
    simp only [imtfLoop] at hx
    rcases List.mem_cons.mp hx with rfl | hx
    · rw [List.getD_eq_getElem?_getD, List.getElem?_append_left hi0, List.getElem?_eq_getElem hi0]
      exact hA _ (List.getElem_mem hi0)
    · have hi' : ∀ j ∈ is, j < nh := fun j hj => hi j (List.mem_cons_of_mem _ hj)
      split at hx
      · rw [moveToFront_append hi0] at hx
        exact ih _ _ (by rw [moveToFront_length hi0, hl]) (fun a ha => hA a ((moveToFront_perm hi0).mem_iff.mp ha)) hi' x hx
      · exact ih _ _ hl hA hi' x hx

theorem imtf_length (is : List Nat) : ∀ M, (imtfLoop M is).length = is.length := by
  induction is with
  | nil => intro M; rfl
  | cons i is ih => intro M; simp [imtfLoop, ih]

/-! ## Run lengths -/

/-- The entries that a symbol with extra bits stands for. -/
def tokVal (p : Nat) (t : Nat × Nat) : List Nat :=
  if t.1 = 0 then [0] else if t.1 ≤ p then List.replicate (2 ^ t.1 + t.2) 0 else [t.1 - p]

/-- Symbols whose extra bits fit. -/
def TokFits (p : Nat) (t : Nat × Nat) : Prop := (0 < t.1 ∧ t.1 ≤ p → t.2 < 2 ^ t.1)

theorem rleRun_spec (p reps : Nat) : (rleRun p reps).flatMap (tokVal p) = List.replicate reps 0 ∧
    ∀ t ∈ rleRun p reps, TokFits p t ∧ t.1 ≤ p := by
  induction reps using Nat.strongRecOn with
  | _ reps ih =>
    have hp := Nat.two_pow_pos p
    rw [rleRun]
    by_cases h0 : reps = 0
    · simp [h0]
    · rw [dif_neg h0]
      by_cases h1 : reps < 2 * 2 ^ p
      · rw [if_pos h1]
        obtain ⟨b1, b2⟩ := log2_bounds h0
        have hle : Nat.log2 reps ≤ p := by
          rw [← Nat.lt_succ_iff, Nat.log2_lt h0, Nat.pow_succ]; omega
        rw [Nat.pow_succ] at b2
        constructor
        · simp only [List.flatMap_singleton, tokVal]
          by_cases hz : Nat.log2 reps = 0
          · rw [if_pos hz]
            rw [hz] at b1 b2
            have : reps = 1 := by omega
            rw [this]; rfl
          · rw [if_neg hz, if_pos hle, Nat.add_sub_cancel' b1]
        · intro t ht
          rw [List.mem_singleton] at ht
          subst ht
          refine ⟨?_, hle⟩
          intro _
          simp only
          omega
      · rw [if_neg h1]
        obtain ⟨i1, i2⟩ := ih (reps - (2 * 2 ^ p - 1)) (by omega)
        constructor
        · rw [List.flatMap_cons, i1]
          unfold tokVal
          simp only
          by_cases hz : p = 0
          · subst hz
            simp only [↓reduceIte, Nat.pow_zero] at h1 ⊢
            have : reps = (reps - 1) + 1 := by omega
            conv_rhs => rw [this]
            rw [List.replicate_succ]; rfl
          · rw [if_neg hz, if_pos (Nat.le_refl _), List.replicate_append_replicate]
            congr 1; omega
        · intro t ht
          rcases List.mem_cons.mp ht with rfl | ht
          · refine ⟨?_, Nat.le_refl _⟩
            intro _; simp only; omega
          · exact i2 t ht

theorem rleZeros_spec (p nc : Nat) (hnc : 1 ≤ nc) (v : List Nat) (hv : ∀ x ∈ v, x < nc) : (rleZeros p v).flatMap (tokVal p) = v ∧
    ∀ t ∈ rleZeros p v, TokFits p t ∧ t.1 < nc + p := by
  fun_induction rleZeros p v with
  | case1 => simp
  | case2 v vs hv0 ih =>
    obtain ⟨i1, i2⟩ := ih fun x hx => hv x (List.mem_cons_of_mem _ hx)
    have hlt := hv v List.mem_cons_self
    constructor
    · rw [List.flatMap_cons, i1]
      unfold tokVal
      simp only
      rw [if_neg (by omega), if_neg (by omega), Nat.add_sub_cancel]; rfl
    · intro t ht
      rcases List.mem_cons.mp ht with rfl | ht
      · refine ⟨?_, by simp only; omega⟩
        intro h; simp only at h; omega
      · exact i2 t ht
  | case3 v vs hv0 ih =>
    have hv0 : v = 0 := by simpa using hv0
    subst hv0
    obtain ⟨h1, _⟩ := runLen_spec 0 vs
    obtain ⟨i1, i2⟩ := ih fun x hx => hv x (List.mem_cons_of_mem _ (List.mem_of_mem_drop hx))
    obtain ⟨r1, r2⟩ := rleRun_spec p (1 + runLen 0 vs)
    constructor
    · rw [List.flatMap_append, i1, r1, Nat.add_comm 1, List.replicate_succ]
      conv_rhs => rw [h1]
      rfl
    · intro t ht
      rcases List.mem_append.mp ht with ht | ht
      · obtain ⟨a, b⟩ := r2 t ht
        exact ⟨a, by omega⟩
      · exact i2 t ht

theorem runPrefix_le (v : List Nat) : runPrefix v ≤ 6 := by
  unfold runPrefix; simp only; omega

theorem histogramOf_getD {n : Nat} {syms : List Nat} {i : Nat} (h : i < n) : (histogramOf n syms).getD i 0 = syms.countP (· = i) := by
  rw [histogramOf, List.getD_eq_getElem?_getD, List.getElem?_map, List.getElem?_range h]; rfl

theorem tokVal_pos (p : Nat) (t : Nat × Nat) : 0 < (tokVal p t).length := by
  unfold tokVal
  split
  · simp
  · split
    · have := Nat.two_pow_pos t.1; simp; omega
    · simp

/-- The decoder's loop on the encoder's symbols. -/
theorem readMap_toks {m : Mem} {p n : Nat} {depth : List Nat} : ∀ (toks : List (Nat × Nat)) (acc : List Nat),
    (∀ t ∈ toks, Reads (readHuff m 8) (huffWord depth t.1) t.1) → (∀ t ∈ toks, TokFits p t ∧ t.1 - p < 256) →
    acc.length + (toks.flatMap (tokVal p)).length = n →
    Reads (fun bs => readMap m p n acc bs) (toks.flatMap (cmWord depth p)) (acc ++ toks.flatMap (tokVal p)) := by
  intro toks
  induction toks with
  | nil =>
    intro acc _ _ hn rest
    simp only [List.flatMap_nil, List.nil_append, List.append_nil]
    rw [readMap, dif_neg (by simp at hn; omega)]
  | cons t toks ih =>
    intro acc hr hf hn rest
    have hpos := tokVal_pos p t
    rw [List.flatMap_cons, List.length_append] at hn
    have h1 := hr t List.mem_cons_self
    obtain ⟨hfit, h256⟩ := hf t List.mem_cons_self
    have ih' := ih (acc ++ tokVal p t) (fun t ht => hr t (List.mem_cons_of_mem _ ht)) (fun t ht => hf t (List.mem_cons_of_mem _ ht))
      (by rw [List.length_append]; omega) rest
    simp only at ih'
    simp only [List.flatMap_cons]
    rw [readMap, dif_pos (by omega)]
    unfold cmWord
    rw [List.append_assoc, List.append_assoc, h1]
    simp only
    by_cases h0 : t.1 = 0
    · rw [if_pos h0, if_neg (by omega), List.nil_append]
      unfold tokVal at ih'
      rw [if_pos h0] at ih'
      rw [tokVal, if_pos h0, ← List.append_assoc acc]
      exact ih'
    · rw [if_neg h0]
      by_cases hp : t.1 ≤ p
      · rw [if_pos hp, if_pos ⟨by omega, hp⟩]
        rw [readBits_reads (hfit ⟨by omega, hp⟩)]
        simp only
        have e : tokVal p t = List.replicate (2 ^ t.1 + t.2) 0 := by rw [tokVal, if_neg h0, if_pos hp]
        rw [e, List.length_replicate] at hn
        rw [e] at ih'
        rw [dif_neg (by omega), e, ← List.append_assoc acc]
        exact ih'
      · have e : tokVal p t = [t.1 - p] := by rw [tokVal, if_neg h0, if_neg hp]
        rw [e] at ih'
        rw [if_neg hp, if_neg (by omega), List.nil_append, e, ← List.append_assoc acc, Nat.mod_eq_of_lt h256]
        exact ih'

theorem readPrefix_reads {p : Nat} (h : p ≤ 16) : Reads readPrefix (if p > 0 then bitsOf 1 1 ++ bitsOf 4 (p - 1) else bitsOf 1 0) p := by
  unfold readPrefix
  by_cases h0 : p > 0
  · rw [if_pos h0]
    refine Reads.bind (readBits_reads (by decide)) ?_
    rw [if_pos rfl]
    exact Reads.bind' (readBits_reads (by omega)) (Reads.pure' (by omega)) (List.append_nil _).symm
  · rw [if_neg h0]
    refine Reads.bind' (readBits_reads (by decide)) ?_ (List.append_nil _).symm
    rw [if_neg (by decide)]
    exact Reads.pure' (by omega)

/-- **The context map is read back.** -/
theorem contextMap_reads {cm : List Nat} {nc : Nat} (h1 : 1 ≤ nc) (h256 : nc ≤ 256) (hcm : ∀ x ∈ cm, x < nc) (hlen : cm.length < 2 ^ 31) :
    ∃ bits, encodeContextMap cm nc = some bits ∧ Reads (decodeContextMap cm.length) bits (some (nc, cm)) := by
  unfold encodeContextMap decodeContextMap
  by_cases hone : nc = 1
  · subst hone
    refine ⟨storeVarLenUint8 0, by simp, ?_⟩
    refine Reads.bind' (decodeVarLenUint8_reads (by decide)) ?_ (List.append_nil _).symm
    rw [if_neg (by decide)]
    apply Reads.pure'
    have : List.replicate cm.length 0 = cm := by
      symm; rw [List.eq_replicate_iff]
      exact ⟨rfl, fun x hx => by have := hcm x hx; omega⟩
    rw [this]
  · rw [if_neg hone]
    -- the transform
    have hmtf : ∃ v, mtfTransform cm = some v ∧ imtfLoop (List.range 256) v = cm ∧ v.length = cm.length ∧ ∀ x ∈ v, x < nc := by
      unfold mtfTransform
      by_cases he : cm = []
      · exact ⟨[], by simp [he], by simp [he, imtfLoop], by simp [he], by simp⟩
      · rw [if_neg he]
        have hmax : listMax cm ≤ nc - 1 := listMax_le.mpr fun x hx => by have := hcm x hx; omega
        obtain ⟨is, a, b, c, d⟩ := mtf_inverse cm (List.range (listMax cm + 1)) (List.range' (listMax cm + 1) (255 - listMax cm)) (by
          intro x hx
          have := listMax_le.mp (Nat.le_refl (listMax cm)) x hx
          simp; omega)
        refine ⟨is, a, ?_, c, ?_⟩
        · rw [range_split (n := 256) (a := listMax cm + 1) (by omega), show 256 - (listMax cm + 1) = 255 - listMax cm by omega]
          exact b
        · intro x hx
          have := d x hx
          rw [List.length_range] at this; omega
    obtain ⟨v, m1, m2, m3, m4⟩ := hmtf
    rw [m1]
    simp only
    have hp6 := runPrefix_le v
    generalize hp : runPrefix v = p at *
    obtain ⟨t1, t2⟩ := rleZeros_spec p nc h1 v m4
    rw [if_pos fun t ht => by have := (t2 t ht).2; omega]
    have htl : (rleZeros p v).length ≤ v.length := by
      have : ∀ l : List (Nat × Nat), l.length ≤ (l.flatMap (tokVal p)).length := by
        intro l
        induction l with
        | nil => simp
        | cons t l ih => have := tokVal_pos p t; simp only [List.flatMap_cons, List.length_append, List.length_cons]; omega
      have := this (rleZeros p v)
      rwa [t1] at this
    have hhl : (histogramOf (nc + p) ((rleZeros p v).map (·.1))).length = nc + p := by simp [histogramOf]
    obtain ⟨depth, bits, m, b1, b2, _, b4⟩ := buildAndStore_reads (histo := histogramOf (nc + p) ((rleZeros p v).map (·.1))) (by omega)
      (by rw [hhl]; omega) (by
        intro d hd
        unfold histogramOf at hd
        rw [List.mem_map] at hd
        obtain ⟨i, _, rfl⟩ := hd
        have := List.countP_le_length (p := fun x => decide (x = i)) (l := (rleZeros p v).map (·.1))
        rw [List.length_map] at this
        omega)
    rw [hhl] at b2 b4
    rw [b1]
    simp only
    refine ⟨_, rfl, ?_⟩
    refine Reads.bind (decodeVarLenUint8_reads (by omega)) ?_
    rw [if_pos (by omega), Nat.sub_add_cancel h1]
    refine Reads.bind (readPrefix_reads (by omega)) ?_
    refine Reads.bind b2 ?_
    simp only
    refine Reads.bind' (a := cm) ?_ (Reads.pure _) (List.append_nil _).symm
    unfold decodeMapBody
    have hmap := readMap_toks (m := m) (p := p) (n := cm.length) (depth := depth) (rleZeros p v) [] (by
      intro t ht
      refine b4 t.1 (t2 t ht).2 ?_
      rw [histogramOf_getD (t2 t ht).2]
      have : 0 < ((rleZeros p v).map (·.1)).countP (· = t.1) := by
        rw [List.countP_pos_iff]
        exact ⟨t.1, List.mem_map_of_mem ht, by simp⟩
      omega) (by
      intro t ht
      have := t2 t ht
      exact ⟨this.1, by omega⟩) (by rw [t1]; simpa using m3)
    rw [List.nil_append, t1] at hmap
    refine Reads.bind hmap ?_
    refine Reads.bind' (readBits_reads (by decide)) ?_ (List.append_nil _).symm
    rw [if_pos rfl]
    exact Reads.pure' m2

/-! ## Arbitrary input -/

theorem readHuff_lt {m : Mem} {n : Nat} (h : Total m 8 n) {bs rest : List Bool} {s : Nat} (hr : readHuff m 8 bs = some (s, rest)) : s < n := by
  unfold readHuff at hr
  obtain ⟨l, x, e, _, hx⟩ := h (ofBits (bs.take 15))
  rw [e] at hr
  simp only at hr
  split at hr
  · simp only [Option.some.injEq, Prod.mk.injEq] at hr; omega
  · cases hr

theorem readMap_safe {m : Mem} {p n nh : Nat} (hm : Total m 8 (nh + p)) (hnh : 1 ≤ nh) (acc : List Nat) (bs : List Bool) {v : List Nat}
    {rest : List Bool} (hacc : acc.length ≤ n) (ha : ∀ x ∈ acc, x < nh) (h : readMap m p n acc bs = some (v, rest)) :
    v.length = n ∧ ∀ x ∈ v, x < nh := by
  fun_induction readMap m p n acc bs with
  | case1 => cases h
  | case2 acc bs hl bs' hr ih =>
    refine ih (by simp; omega) ?_ h
    intro x hx
    rcases List.mem_append.mp hx with hx | hx
    · exact ha x hx
    · have := List.mem_singleton.mp hx; omega
  | case3 => cases h
  | case4 => cases h
  | case5 acc bs hl code bs' hr h0 hc b bs'' hb hn ih =>
    refine ih (by simp; omega) ?_ h
    intro x hx
    rcases List.mem_append.mp hx with hx | hx
    · exact ha x hx
    · have := (List.mem_replicate.mp hx).2; omega
  | case6 acc bs hl code bs' hr h0 hc ih =>
    refine ih (by simp; omega) ?_ h
    intro x hx
    rcases List.mem_append.mp hx with hx | hx
    · exact ha x hx
    · have := List.mem_singleton.mp hx
      have hlt := readHuff_lt hm hr
      have := Nat.mod_le (code - p) 256
      omega
  | case7 acc bs hl =>
    simp only [Option.some.injEq, Prod.mk.injEq] at h
    rw [← h.1]
    exact ⟨by omega, ha⟩

theorem readPrefix_le {bs rest : List Bool} {p : Nat} (h : readPrefix bs = some (p, rest)) : p ≤ 16 := by
  unfold readPrefix at h
  obtain ⟨r, bs1, _, h⟩ := bind_some h
  split at h
  · obtain ⟨x, bs2, hx, h⟩ := bind_some h
    have := readBits_lt hx
    have := (pure_some h).1
    omega
  · have := (pure_some h).1; omega

theorem decodeVarLenUint8_lt {bs rest : List Bool} {n : Nat} (h : decodeVarLenUint8 bs = some (n, rest)) : n < 256 := by
  unfold decodeVarLenUint8 at h
  obtain ⟨b, bs1, _, h⟩ := bind_some h
  split at h
  · obtain ⟨k, bs2, hk, h⟩ := bind_some h
    have hk8 := readBits_lt hk
    split at h
    · have := (pure_some h).1; omega
    · obtain ⟨x, bs3, hx, h⟩ := bind_some h
      have h1 := readBits_lt hx
      have := (pure_some h).1
      have h2 : 2 ^ k ≤ 2 ^ 7 := Nat.pow_le_pow_right (by decide) (by omega)
      omega
  · have := (pure_some h).1; omega

/-- **Every accepted map refers to existing histograms only**, and no table overflows. -/
theorem contextMap_safe {n : Nat} {bs rest : List Bool} {r : Option (Nat × List Nat)} (h : decodeContextMap n bs = some (r, rest)) :
    ∃ nh map, r = some (nh, map) ∧ 1 ≤ nh ∧ nh ≤ 256 ∧ map.length = n ∧ ∀ x ∈ map, x < nh := by
  unfold decodeContextMap at h
  obtain ⟨x, bs1, hx, h⟩ := bind_some h
  have hx256 := decodeVarLenUint8_lt hx
  split at h
  · obtain ⟨p, bs2, hp, h⟩ := bind_some h
    obtain ⟨t, bs3, ht, h⟩ := bind_some h
    obtain ⟨m, rfl, hm⟩ := readCode_safe ht
    simp only at h
    obtain ⟨v, bs4, hv, h⟩ := bind_some h
    obtain ⟨e, _⟩ := pure_some h
    refine ⟨x + 1, v, e.symm, by omega, by omega, ?_⟩
    unfold decodeMapBody at hv
    obtain ⟨w, bs5, hw, hv⟩ := bind_some hv
    obtain ⟨b, bs6, _, hv⟩ := bind_some hv
    obtain ⟨w1, w2⟩ := readMap_safe hm (by omega) [] _ (by simp) (by simp) hw
    split at hv
    · obtain ⟨e, _⟩ := pure_some hv
      rw [← e]
      refine ⟨by rw [imtf_length, w1], ?_⟩
      rw [range_split (n := 256) (a := x + 1) (by omega)]
      exact imtf_bound w _ _ (by simp) (by simp) w2
    · obtain ⟨e, _⟩ := pure_some hv
      rw [← e]; exact ⟨w1, w2⟩
  · obtain ⟨e, _⟩ := pure_some h
    refine ⟨x + 1, _, e.symm, by omega, by omega, by simp, ?_⟩
    intro y hy
    have := (List.mem_replicate.mp hy).2; omega

end Brunsli
