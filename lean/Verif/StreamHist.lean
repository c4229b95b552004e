import Verif.StreamCode
import Verif.StreamInter
import Verif.HistSection
/-!
# The histogram section as it arrives

`DecodeHistogramDataSection` (c/dec/brunsli_decode.cc:1798-1925) with its points of suspension.
-/

namespace Brunsli

open P

/-- READ_SCHEME (c/dec/brunsli_decode.cc:1826-1834); the bits of all schemes were tested for. -/
def schemesBP : Nat → BP (List Nat)
  | 0 => Pure.pure []
  | n + 1 => do
    let s ← BP.read 3
    BP.check (s < 7)
    let r ← schemesBP n
    Pure.pure (s :: r)

/-- `DecodeVarLenUint8` (c/dec/brunsli_decode.cc); the bits were tested for. -/
def varLenBP : BP Nat := do
  let f ← BP.read 1
  if f ≠ 0 then do
    let nbits ← BP.read 3
    if nbits = 0 then Pure.pure 1
    else do
      let x ← BP.read nbits
      Pure.pure (x + 2 ^ nbits)
  else Pure.pure 0

/-- `DecodeContextMap` (c/dec/context_map_decode.cc:41-75) for a map of `n` entries. -/
def mapBP (m : Mem) (p n : Nat) : (fuel : Nat) → List Nat → BP (List Nat)
  | fuel, acc =>
    if acc.length < n then
      match fuel with
      | 0 => .fail
      | fuel + 1 => .need (15 + p + 1) (.prim (.sym m) fun code =>
          if code = 0 then mapBP m p n fuel (acc ++ [0])
          else if code ≤ p then do
            let b ← BP.read code
            BP.check (¬acc.length + (2 ^ code + b) > n)
            mapBP m p n fuel (acc ++ List.replicate (2 ^ code + b) 0)
          else mapBP m p n fuel (acc ++ [(code - p) % 256]))
    else do
      let imtf ← BP.read 1
      Pure.pure (if imtf = 1 then imtfLoop (List.range 256) acc else acc)

/-- The description of a code for `k` symbols (c/dec/brunsli_decode.cc:1877-1882) and the map. -/
def codeMapBP (k p n : Nat) : BP (List Nat) := .prim (.code k) fun t =>
  match t with
  | none => .fail
  | some m => mapBP m p n n []

/-- READ_CONTEXT_MAP_CODE and READ_CONTEXT_MAP (c/dec/brunsli_decode.cc:1868-1893) for `nh` histograms. -/
def contextMapBP (nh n : Nat) : BP (List Nat) := .need (207 + 8 * nh) do
  let rle ← BP.read 1
  if rle = 1 then do
    let x ← BP.read 4
    codeMapBP (nh + (x + 1)) (x + 1) n
  else codeMapBP (nh + 0) 0 n

/-- READ_HISTOGRAMS (c/dec/brunsli_decode.cc:1905-1917). -/
def histogramsBP : Nat → BP (List (List Nat))
  | 0 => Pure.pure []
  | n + 1 => .need (9 + 18 * 11) (.prim .hist fun h =>
      match h with
      | none => .fail
      | some h => do
        BP.check ((ansMap h).isSome)
        let r ← histogramsBP n
        Pure.pure (h :: r))

/-- The whole section (c/dec/brunsli_decode.cc:1824-1917). -/
def histBP (ncomp : Nat) : BP HistogramData := .need (3 * ncomp) do
  let schemes ← schemesBP ncomp
  let x ← BP.need 11 varLenBP
  let map ← (if x + 1 > 1 then contextMapBP (x + 1) (numContexts schemes * kNumAvrgContexts)
    else Pure.pure (List.replicate (numContexts schemes * kNumAvrgContexts) 0))
  let hs ← histogramsBP (x + 1)
  Pure.pure ⟨schemes, map, hs⟩

/-! ## The tests are sufficient -/

theorem BP.Within.checkThen {β : Type} {post : β → Prop} {c : Prop} [Decidable c] {f : Unit → BP β} {b : Nat} (h : c → BP.Within post (f ()) b) :
    BP.Within post (BP.check c >>= f) b := by
  unfold BP.check
  split
  · exact h (by assumption)
  · trivial

theorem schemesBP_within : ∀ n, (schemesBP n).Within (fun l => l.length = n ∧ ∀ s ∈ l, s < 7) (3 * n)
  | 0 => ⟨rfl, by simp⟩
  | n + 1 => by
    rw [schemesBP]
    refine BP.Within.read (by omega) fun s _ => BP.Within.checkThen fun h7 => ?_
    exact BP.Within.seq (p := schemesBP n) ((schemesBP_within n).mono (by omega)) fun l hl => BP.Within.ret ⟨by simp [hl.1], by simpa using ⟨h7, hl.2⟩⟩

theorem varLenBP_within : varLenBP.Within (fun x => x < 256) 11 := by
  refine BP.Within.read (by decide) fun f _ => BP.Within.ite (fun _ => ?_) fun _ => BP.Within.ret (by decide)
  refine BP.Within.read (by decide) fun nbits hn => BP.Within.ite (fun _ => BP.Within.ret (by decide)) fun _ => ?_
  refine BP.Within.read (by omega) fun x hx => BP.Within.ret ?_
  have : 2 ^ nbits ≤ 2 ^ 7 := Nat.pow_le_pow_right (by decide) (by omega)
  omega

theorem mapBP_within {m : Mem} {p n nh : Nat} (hm : Total m 8 (nh + p)) (hp : p ≤ 16) (h1 : 1 ≤ nh) (h256 : nh ≤ 256) : ∀ fuel acc, acc.length ≤ n → (∀ x ∈ acc, x < nh) →
    (mapBP m p n fuel acc).Within (fun v => v.length = n ∧ ∀ x ∈ v, x < nh) 1 ∧
    (acc.length < n → (mapBP m p n fuel acc).Within (fun v => v.length = n ∧ ∀ x ∈ v, x < nh) 0) := by
  have fin : ∀ acc : List Nat, acc.length ≤ n → (∀ x ∈ acc, x < nh) → ¬acc.length < n → ∀ imtf : Nat,
      (fun v : List Nat => v.length = n ∧ ∀ x ∈ v, x < nh) (if imtf = 1 then imtfLoop (List.range 256) acc else acc) := by
    intro acc hl ha hn imtf
    split
    · refine ⟨by rw [imtf_length]; omega, ?_⟩
      rw [range_split (n := 256) (a := nh) h256]
      exact imtf_bound acc _ _ (by simp) (by simp) ha
    · exact ⟨by omega, ha⟩
  intro fuel
  induction fuel with
  | zero =>
    intro acc hl ha
    rw [mapBP]
    by_cases h : acc.length < n
    · rw [if_pos h]; exact ⟨trivial, fun _ => trivial⟩
    · rw [if_neg h]
      exact ⟨BP.Within.read (by decide) fun i _ => fin acc hl ha h i, fun h' => absurd h' h⟩
  | succ fuel ih =>
    intro acc hl ha
    rw [mapBP]
    by_cases h : acc.length < n
    · rw [if_pos h]
      have key : ∀ b, BP.Within (fun v => v.length = n ∧ ∀ x ∈ v, x < nh) (BP.need (15 + p + 1) (.prim (.sym m) fun code =>
          if code = 0 then mapBP m p n fuel (acc ++ [0])
          else if code ≤ p then do
            let b ← BP.read code
            BP.check (¬acc.length + (2 ^ code + b) > n)
            mapBP m p n fuel (acc ++ List.replicate (2 ^ code + b) 0)
          else mapBP m p n fuel (acc ++ [(code - p) % 256]))) b := by
        intro b
        have more : ∀ l : List Nat, acc.length + l.length ≤ n → (∀ x ∈ l, x < nh) → (acc ++ l).length ≤ n ∧ ∀ x ∈ acc ++ l, x < nh := fun l h2 h3 =>
          ⟨by rw [List.length_append]; exact h2, fun x hx => (List.mem_append.mp hx).elim (ha x) (h3 x)⟩
        have step : ∀ code : Nat, code < nh + p → BP.Within (fun v => v.length = n ∧ ∀ x ∈ v, x < nh) (if code = 0 then mapBP m p n fuel (acc ++ [0])
            else if code ≤ p then do
              let b ← BP.read code
              BP.check (¬acc.length + (2 ^ code + b) > n)
              mapBP m p n fuel (acc ++ List.replicate (2 ^ code + b) 0)
            else mapBP m p n fuel (acc ++ [(code - p) % 256])) (p + 1) := by
          intro code hcode
          refine BP.Within.ite (fun _ => ?_) fun _ => BP.Within.ite (fun hc => ?_) fun hc => ?_
          · obtain ⟨m1, m2⟩ := more [0] h (fun x hx => by rw [List.mem_singleton.mp hx]; exact h1)
            exact (ih _ m1 m2).1.mono (by omega)
          · refine BP.Within.read (by omega) fun b _ => BP.Within.checkThen fun hb => ?_
            obtain ⟨m1, m2⟩ := more (List.replicate (2 ^ code + b) 0) (by rw [List.length_replicate]; omega) (fun x hx => by rw [(List.mem_replicate.mp hx).2]; exact h1)
            exact (ih _ m1 m2).1.mono (by omega)
          · obtain ⟨m1, m2⟩ := more [(code - p) % 256] h (fun x hx => by rw [List.mem_singleton.mp hx]; have := Nat.mod_le (code - p) 256; omega)
            exact (ih _ m1 m2).1.mono (by omega)
        refine BP.Within.need (by omega) ⟨readHuff_takes_any hm, by simp only [Prim.cost]; omega, fun code hc => ?_⟩
        exact (step code (hc _ hm)).mono (by simp only [Prim.cost]; omega)
      exact ⟨key 1, fun _ => key 0⟩
    · rw [if_neg h]
      exact ⟨BP.Within.read (by decide) fun i _ => fin acc hl ha h i, fun h' => absurd h' h⟩

theorem contextMapBP_within {nh n : Nat} (h1 : 1 ≤ nh) (hnh : nh ≤ 256) (hn : 0 < n) : (contextMapBP nh n).Within (fun v => v.length = n ∧ ∀ x ∈ v, x < nh) 0 := by
  have code : ∀ p b, p ≤ 16 → 74 + 8 * (nh + p) ≤ b → (codeMapBP (nh + p) p n).Within (fun v => v.length = n ∧ ∀ x ∈ v, x < nh) b := by
    intro p b hp hb
    refine ⟨readCode_takes _, hb, fun t ht => ?_⟩
    obtain ⟨m, rfl, hm⟩ := ht
    exact ((mapBP_within hm hp h1 hnh n [] (Nat.zero_le _) (by simp)).2 hn).mono (Nat.zero_le _)
  refine BP.Within.need (by omega) (BP.Within.read (by omega) fun rle _ => BP.Within.ite (fun _ => ?_) fun _ => ?_)
  · exact BP.Within.read (by omega) fun x hx => code (x + 1) _ (by omega) (by omega)
  · exact code _ _ (by decide) (by omega)

theorem histogramsBP_within : ∀ n, (histogramsBP n).Within (fun l => l.length = n ∧ ∀ h ∈ l, h.length = 18 ∧ h.sum = 1024) 0
  | 0 => BP.Within.ret (by simp)
  | n + 1 => by
    rw [histogramsBP]
    refine BP.Within.need (by decide) ⟨readHistogram_takes, Nat.le_refl _, fun h hh => ?_⟩
    obtain ⟨h, rfl, h18⟩ := hh
    refine BP.Within.checkThen fun _ => BP.Within.seq (p := histogramsBP n) ((histogramsBP_within n).mono (Nat.zero_le _)) fun l hl => BP.Within.ret ?_
    refine ⟨by simp [hl.1], ?_⟩
    simpa using ⟨h18, hl.2⟩

/-- What is known of the histograms read from any input. -/
structure HistogramData.Sane (ncomp : Nat) (d : HistogramData) : Prop where
  count : d.schemes.length = ncomp
  schemes : ∀ s ∈ d.schemes, s < 7
  contexts : d.contextMap.length = numContexts d.schemes * kNumAvrgContexts
  map : ∀ x ∈ d.contextMap, x < d.histograms.length
  histograms : ∀ h ∈ d.histograms, h.length = 18 ∧ h.sum = 1024

/-- The tests of the histogram section are sufficient. -/
theorem histBP_sane {ncomp : Nat} (h1 : 1 ≤ ncomp) (h4 : ncomp ≤ 4) : (histBP ncomp).Within (HistogramData.Sane ncomp) 0 := by
  refine BP.Within.need (by omega) (BP.Within.seq (schemesBP_within ncomp) fun schemes hs => ?_)
  refine BP.Within.seq (p1 := fun x => x < 256) (BP.Within.need (by decide) varLenBP_within) fun x hx => ?_
  have hlen : 0 < numContexts schemes * kNumAvrgContexts := by
    have := hs.1
    unfold numContexts kNumAvrgContexts; omega
  refine BP.Within.seq (p1 := fun v => v.length = numContexts schemes * kNumAvrgContexts ∧ ∀ y ∈ v, y < x + 1)
    (BP.Within.ite (fun _ => contextMapBP_within (by omega) (by omega) hlen) fun _ => BP.Within.ret ?_) fun map hmap => ?_
  · exact ⟨by simp, fun y hy => by rw [(List.mem_replicate.mp hy).2]; omega⟩
  · exact BP.Within.seq (histogramsBP_within _) fun l hl => BP.Within.ret ⟨hs.1, hs.2, hmap.1, fun y hy => by have := hmap.2 y hy; rw [hl.1]; exact this, hl.2⟩

theorem histBP_within {ncomp : Nat} (h1 : 1 ≤ ncomp) (h4 : ncomp ≤ 4) : (histBP ncomp).Within (fun d => ∀ h ∈ d.histograms, h.length = 18) 0 :=
  (histBP_sane h1 h4).imp fun _ hd h hh => (hd.histograms h hh).1

/-! ## What the program reads -/

theorem schemesBP_run (opt : Bool) : ∀ n, (schemesBP n).run opt = P.replicate n readScheme
  | 0 => rfl
  | n + 1 => by
    rw [schemesBP, P.replicate, readScheme]
    simp only [BP.run_seq, BP.run_read, BP.run_check, schemesBP_run opt n, BP.run_ret, seq_assoc]
    rfl

theorem varLenBP_run (opt : Bool) : varLenBP.run opt = decodeVarLenUint8 := by
  rw [varLenBP, decodeVarLenUint8, BP.run_seq, BP.run_read]
  congr 1
  funext f
  split
  · rw [BP.run_seq, BP.run_read]
    congr 1
    funext nbits
    split
    · rfl
    · rw [BP.run_seq, BP.run_read]; rfl
  · rfl

theorem run_need_opt {α : Type} (n : Nat) (k : BP α) : (BP.need n k).run true = k.run true := by
  funext bs
  simp [BP.run]

/-- `readMap` and the bit that follows. -/
def mapP (m : Mem) (p n : Nat) (acc : List Nat) : P Bool (List Nat) := fun bs =>
  match readMap m p n acc bs with
  | none => none
  | some (v, bs) =>
    match readBits 1 bs with
    | none => none
    | some (imtf, bs) => some (if imtf = 1 then imtfLoop (List.range 256) v else v, bs)

theorem mapP_start (m : Mem) (p n : Nat) : mapP m p n [] = decodeMapBody m p n := by
  funext bs
  have e : decodeMapBody m p n bs = match readMap m p n [] bs with
      | none => none
      | some (v, bs) => (readBits 1 >>= fun imtf => if imtf = 1 then Pure.pure (imtfLoop (List.range 256) v) else Pure.pure v : P Bool (List Nat)) bs := by
    have gen : ∀ q : P Bool (List Nat), (q >>= fun v => readBits 1 >>= fun imtf =>
        if imtf = 1 then Pure.pure (imtfLoop (List.range 256) v) else Pure.pure v : P Bool (List Nat)) bs = match q bs with
      | none => none
      | some (v, bs) => (readBits 1 >>= fun imtf => if imtf = 1 then Pure.pure (imtfLoop (List.range 256) v) else Pure.pure v : P Bool (List Nat)) bs := by
      intro q
      rw [bind_apply]
      cases q bs <;> rfl
    exact gen fun bs => readMap m p n [] bs
  rw [e, mapP]
  cases readMap m p n [] bs with
  | none => rfl
  | some y =>
    obtain ⟨v, bs1⟩ := y
    simp only
    rw [bind_apply]
    cases readBits 1 bs1 with
    | none => rfl
    | some z =>
      obtain ⟨i, bs2⟩ := z
      simp only
      by_cases hi : i = 1
      · rw [if_pos hi, if_pos hi]; rfl
      · rw [if_neg hi, if_neg hi]; rfl

theorem mapBP_run (m : Mem) (p n : Nat) : ∀ fuel acc, n - acc.length ≤ fuel → ∀ bs, (mapBP m p n fuel acc).run true bs = mapP m p n acc bs := by
  intro fuel
  induction fuel with
  | zero =>
    intro acc hf bs
    rw [mapBP, if_neg (by omega), BP.run_seq, BP.run_read, bind_apply, mapP, readMap, dif_neg (by omega)]
    simp only
    cases readBits 1 bs <;> rfl
  | succ fuel ih =>
    intro acc hf bs
    rw [mapBP]
    by_cases h : acc.length < n
    · rw [if_pos h, run_need_opt, mapP, readMap, dif_pos h]
      simp only [BP.run, Prim.run]
      cases readHuff m 8 bs with
      | none => rfl
      | some y =>
        obtain ⟨code, bs1⟩ := y
        simp only
        by_cases h0 : code = 0
        · rw [if_pos h0, if_pos h0, ih _ (by simp; omega)]; rfl
        · rw [if_neg h0, if_neg h0]
          by_cases hp : code ≤ p
          · rw [if_pos hp, if_pos hp, BP.run_seq, BP.run_read, bind_apply]
            cases readBits code bs1 with
            | none => rfl
            | some z =>
              obtain ⟨b, bs2⟩ := z
              simp only
              rw [BP.run_seq, BP.run_check, bind_apply, guard_apply]
              by_cases hn : acc.length + (2 ^ code + b) > n
              · rw [if_neg (by simpa using hn), dif_pos hn]
              · rw [if_pos hn, dif_neg hn]
                have := Nat.two_pow_pos code
                exact ih _ (by simp; omega) bs2
          · rw [if_neg hp, if_neg hp, ih _ (by simp; omega)]; rfl
    · rw [if_neg h, BP.run_seq, BP.run_read, bind_apply, mapP, readMap, dif_neg h]
      simp only
      cases readBits 1 bs <;> rfl

theorem codeMap_run (k p n : Nat) (bs : List Bool) :
    (codeMapBP k p n).run true bs =
    match readCode k bs with
    | some (some m, bs) => decodeMapBody m p n bs
    | _ => none := by
  simp only [codeMapBP, BP.run, Prim.run]
  cases readCode k bs with
  | none => rfl
  | some y =>
    obtain ⟨t, bs1⟩ := y
    cases t with
    | none => rfl
    | some m =>
      simp only
      rw [mapBP_run m p n n [] (by simp), mapP_start]

/-- The map, as the one-shot decoder reads it; `none` where that meets an overflow. -/
theorem contextMapBP_run (nh n : Nat) (bs : List Bool) : (contextMapBP nh n).run true bs =
    match readPrefix bs with
    | none => none
    | some (p, bs) =>
      match readCode (nh + p) bs with
      | some (some m, bs) => decodeMapBody m p n bs
      | _ => none := by
  rw [contextMapBP, run_need_opt, BP.run_seq, BP.run_read, bind_apply]
  unfold readPrefix
  rw [bind_apply]
  cases readBits 1 bs with
  | none => rfl
  | some y =>
    obtain ⟨rle, bs1⟩ := y
    simp only
    by_cases h : rle = 1
    · rw [if_pos h, if_pos h, BP.run_seq, BP.run_read, bind_apply, bind_apply]
      cases readBits 4 bs1 with
      | none => rfl
      | some z => exact codeMap_run (nh + (z.1 + 1)) (z.1 + 1) n z.2
    · rw [if_neg h, if_neg h]
      exact codeMap_run (nh + 0) 0 n bs1

theorem histogramsBP_run : ∀ n bs, (histogramsBP n).run true bs =
    match readHistograms n bs with
    | some (some l, bs) => some (l, bs)
    | _ => none
  | 0, bs => rfl
  | n + 1, bs => by
    rw [histogramsBP, run_need_opt, readHistograms, bind_apply]
    simp only [BP.run, Prim.run]
    cases readHistogram bs with
    | none => rfl
    | some y =>
      obtain ⟨h, bs1⟩ := y
      cases h with
      | none => rfl
      | some h =>
        simp only
        rw [BP.run_seq, BP.run_check, bind_apply, bind_apply, guard_apply]
        by_cases hc : (ansMap h).isSome = true
        · rw [if_pos hc]
          simp only
          rw [BP.run_seq, bind_apply, bind_apply, histogramsBP_run n bs1]
          cases readHistograms n bs1 with
          | none => rfl
          | some z =>
            obtain ⟨r, bs2⟩ := z
            cases r <;> rfl
        · rw [if_neg hc]

/-- What is read from a section, if it is read to its end. -/
def whole {α : Type} : Option (α × List Bool) → Option α
  | some (r, []) => some r
  | _ => none

/-- The same, an overflow counting as a failure. -/
def wholeOpt {α : Type} : Option (Option α × List Bool) → Option α
  | some (some r, []) => some r
  | _ => none

/-- The section as the one-shot decoder reads it. -/
theorem histBP_run (ncomp : Nat) (bs : List Bool) :
    wholeOpt (decodeHistogramData ncomp bs) = whole (bitSection ((histBP ncomp).run true) bs) := by
  rw [bitSection, histBP, run_need_opt, decodeHistogramData]
  simp only [BP.run_seq, seq_assoc]
  rw [schemesBP_run, bind_apply, bind_apply]
  cases P.replicate ncomp readScheme bs with
  | none => rfl
  | some y =>
    obtain ⟨schemes, bs1⟩ := y
    simp only
    rw [run_need_opt, varLenBP_run, decodeContextMap]
    simp only [seq_assoc]
    rw [bind_apply, bind_apply]
    cases decodeVarLenUint8 bs1 with
    | none => rfl
    | some z =>
      obtain ⟨x, bs2⟩ := z
      simp only
      have tail : ∀ (map : List Nat) (bs : List Bool),
          wholeOpt ((readHistograms (x + 1) >>= fun hs =>
              match hs with
              | none => Pure.pure none
              | some hs => do
                finishBits
                Pure.pure (some (⟨schemes, map, hs⟩ : HistogramData)) : P Bool (Option HistogramData)) bs) =
          whole (((histogramsBP (x + 1)).run true >>= fun hs => BP.run true (Pure.pure (⟨schemes, map, hs⟩ : HistogramData)) >>= fun a => do
              finishBits
              Pure.pure a : P Bool HistogramData) bs) := by
        intro map bs
        rw [bind_apply, bind_apply, histogramsBP_run]
        cases readHistograms (x + 1) bs with
        | none => rfl
        | some w =>
          obtain ⟨hs, bs3⟩ := w
          cases hs with
          | none => rfl
          | some hs =>
            simp only [BP.run_ret]
            rw [bind_apply, bind_apply]
            simp only [pure_apply]
            rw [bind_apply]
            cases finishBits bs3 with
            | none => rfl
            | some v =>
              obtain ⟨_, bs4⟩ := v
              cases bs4 <;> rfl
      by_cases hx : x + 1 > 1
      · rw [if_pos hx, if_pos hx]
        simp only [seq_assoc]
        rw [bind_apply, bind_apply, contextMapBP_run]
        cases readPrefix bs2 with
        | none => rfl
        | some w =>
          obtain ⟨p, bs3⟩ := w
          simp only
          rw [bind_apply]
          cases hcode : readCode (x + 1 + p) bs3 with
          | none => rfl
          | some v =>
            obtain ⟨t, bs4⟩ := v
            obtain ⟨m, rfl, _⟩ := readCode_safe hcode
            simp only [seq_assoc]
            rw [bind_apply]
            cases decodeMapBody m p (numContexts schemes * kNumAvrgContexts) bs4 with
            | none => rfl
            | some u => exact tail _ _
      · rw [if_neg hx, if_neg hx]
        exact tail _ _

/-! ## Sections made of bits, to their end -/

/-- Reading a section made of bits to its end. -/
theorem bitSem_atEnd {α : Type} {post : α → Prop} {opt : Bool} {p : BP α} (hp : p.Within post 0) (payload : List Nat) :
    atEnd (bitSem opt ([], p) payload) =
    whole (bitSection (p.run opt) (bytesBits payload)) := by
  unfold bitSection
  simp only [bitSem, List.nil_append, bind_apply]
  cases h : p.run opt (bytesBits payload) with
  | none => rfl
  | some y =>
    obtain ⟨a, r⟩ := y
    obtain ⟨v, e⟩ := BP.run_suffix p hp h
    have hl : 8 * payload.length = v.length + r.length := by rw [← bytesBits_length, e, List.length_append]
    simp only [finishSem, finishBits]
    by_cases h8 : r.length < 8
    · have ht : r.take (r.length % 8) = r := by rw [Nat.mod_eq_of_lt h8, List.take_length]
      rw [ht, show r.length / 8 = 0 by omega, Nat.sub_zero, List.drop_length]
      by_cases hz : r.any id = true
      · rw [if_pos hz, if_neg]
        · rfl
        · rintro ⟨_, hall⟩
          obtain ⟨b, hb, hid⟩ := List.any_eq_true.mp hz
          rw [hall b hb] at hid
          cases hid
      · rw [if_neg hz, if_pos]
        · rfl
        · refine ⟨h8, fun b hb => ?_⟩
          cases b with
          | false => rfl
          | true => exact absurd (List.any_eq_true.mpr ⟨true, hb, rfl⟩) hz
    · have h8' : ¬(r.length < 8 ∧ ∀ b ∈ r, b = false) := fun hc => h8 hc.1
      rw [if_neg h8']
      split
      · rfl
      · have : payload.drop (payload.length - r.length / 8) ≠ [] := by
          intro hnil
          have := congrArg List.length hnil
          rw [List.length_drop, List.length_nil] at this
          omega
        cases hd : payload.drop (payload.length - r.length / 8) with
        | nil => exact absurd hd this
        | cons b l => rfl

/-- The histogram section is read as in one piece. -/
theorem hist_sem {ncomp : Nat} (h1 : 1 ≤ ncomp) (h4 : ncomp ≤ 4) (payload : List Nat) :
    atEnd (bitSem true ([], histBP ncomp) payload) =
    wholeOpt (decodeHistogramData ncomp (bytesBits payload)) := by
  rw [bitSem_atEnd (histBP_within h1 h4), histBP_run]

/-- The section of quantisation tables is read as in one piece. -/
theorem quant_sem (precs : List Nat) (ncomp : Nat) (payload : List Nat) :
    atEnd (bitSem false ([], quantBP precs ncomp) payload) =
    whole (decodeQuantData precs ncomp (bytesBits payload)) := by
  rw [bitSem_atEnd (quantBP_within precs ncomp), quantBP_run]

end Brunsli
