import Verif.Container
/-!
# The container on a platform with another word size

The decoder keeps numbers, positions and ends of sections in `size_t`, which has 64 bits in the other files of this model, and
32 bits in WebAssembly and on small devices.  Here the container is read with words of `W` bits: `DecodeBase128` rejects numbers
that do not fit, and `EnterSection` computes the end of a section modulo `2 ^ W` (c/dec/brunsli_decode.cc:1016-1095).

The whole file is given in one call, so that positions count from its start; `total` is its length.
-/

namespace Brunsli

/-- `state->pos` when `bs` is what is left of a file of `total` bytes. -/
def posOf (total : Nat) (bs : List Nat) : Nat := total - bs.length

/-- `DecodeBase128` (c/dec/brunsli_decode.cc:1016-1032): `fit` compares the number with what is left of it in a `size_t`. -/
def decodeBase128W (W : Nat) : Rd Nat := Rd.andThen decodeBase128 fun v => if v % 2 ^ W = v then Rd.ret v else Rd.fail

/-- `EnterSection` (c/dec/brunsli_decode.cc:1068-1077): the size and the projected end. -/
def enterSection (W total : Nat) : Rd (Nat × Nat) := fun bs =>
  match decodeBase128W W bs with
  | .ok v rest => .ok (v, (posOf total rest + v) % 2 ^ W) rest
  | .needMore => .needMore
  | .invalid => .invalid

/-- `RemainingSectionLength` (c/dec/brunsli_decode.cc:1083-1091). -/
def remainingLength (fin pos : Nat) : Nat := if fin < pos then 0 else fin - pos

/-- One item of the header (c/dec/brunsli_decode.cc:1138-1178). -/
def headerItemW (W : Nat) (met : List Nat) : Rd (Nat × List Nat × Option Nat) :=
  Rd.andThen (readTag met) fun t =>
    Rd.andThen (decodeBase128W W) fun v =>
      if t.2.1 then Rd.andThen (Rd.bytes v) fun _ => Rd.ret (t.1, t.2.2, none) else Rd.ret (t.1, t.2.2, some v)

/-- The items of the header up to the position `fin` (c/dec/brunsli_decode.cc:1138-1178, `IsAtSectionBoundary` 1093-1095). -/
def headerItemsW (W total fin : Nat) : (fuel : Nat) → (met vals : List Nat) → Rd (List Nat × List Nat)
  | 0, _, _ => Rd.fail
  | fuel + 1, met, vals => fun bs =>
    if posOf total bs = fin then .ok (met, vals) bs
    else Rd.andThen (headerItemW W met) (fun t =>
      headerItemsW W total fin fuel t.2.1 (match t.2.2 with | some v => vals.set t.1 v | none => vals)) bs

/-- `DecodeHeader` (c/dec/brunsli_decode.cc:1116-1272). -/
def readHeaderW (W total : Nat) (met : List Nat) : Rd (Header × List Nat) :=
  Rd.andThen (readTag met) fun t =>
    if t.1 = 2 ∧ t.2.1 then
      Rd.andThen (enterSection W total) fun e =>
        Rd.andThen (Rd.andThen (headerItemsW W total e.2 16 [] (List.replicate 16 0)) fun t => Rd.ofOption (headerFinale t.1 t.2))
          fun h => Rd.ret (h, t.2.2)
    else Rd.fail

/-- `DecodeOriginalJpg` (c/dec/brunsli_decode.cc:1978-2044), which goes by the size of the section (line 1997). -/
def readOriginalW (W total : Nat) (met : List Nat) : Rd (List Nat) :=
  Rd.andThen (readTag met) fun t =>
    if t.1 = 9 ∧ t.2.1 then Rd.andThen (enterSection W total) fun e => Rd.bytes e.1 else Rd.fail

/-- A section that is skipped (c/dec/brunsli_decode.cc:2105-2116). -/
def skipTo (total fin : Nat) : Rd (List Nat) := fun bs => Rd.bytes (remainingLength fin (posOf total bs)) bs

/-- The bytes of a section that is decoded.  Behind its end the decoder is never at the boundary, which is the last thing it
asks for (c/dec/brunsli_decode.cc:2186-2189), and the section fails (with one error or another). -/
def sectionPayload (total fin : Nat) : Rd (List Nat) := fun bs =>
  if fin < posOf total bs then .invalid else Rd.bytes (fin - posOf total bs) bs

/-- `ParseSection`, `ProcessSection` (c/dec/brunsli_decode.cc:2046-2196). -/
def readSectionsW {σ : Type} (W total : Nat) (body : σ → Nat → List Nat → Option σ) : (fuel : Nat) → (met : List Nat) → σ → Rd σ
  | 0, _, _ => Rd.fail
  | fuel + 1, met, s =>
    Rd.andThen (readTag met) fun t =>
      if t.2.1 then
        Rd.andThen (enterSection W total) fun e =>
          if 9 < t.1 then Rd.andThen (skipTo total e.2) fun _ => readSectionsW W total body fuel t.2.2 s
          else if (requires t.1).any (fun r => r ∉ met) then Rd.fail
          else fun bs =>
            if wordSection t.1 ∧ remainingLength e.2 (posOf total bs) % 2 ≠ 0 then .invalid
            else Rd.andThen (sectionPayload total e.2) (fun payload =>
              Rd.andThen (Rd.ofOption (body s t.1 payload)) fun s =>
                if t.1 = 8 then Rd.ret s else readSectionsW W total body fuel t.2.2 s) bs
      else if t.1 ≤ 9 then Rd.fail
      else Rd.andThen (decodeBase128W W) fun _ => readSectionsW W total body fuel t.2.2 s

/-- The stages of `DoProcessJpeg` (c/dec/brunsli_decode.cc:2269-2292). -/
def readFileW {σ : Type} (W total : Nat) (init : Header → Option σ) (body : σ → Nat → List Nat → Option σ) : Rd (Content σ) :=
  Rd.andThen readSignature fun _ =>
    Rd.andThen (readHeaderW W total [1]) fun t =>
      if t.1.version = 1 then Rd.andThen (readOriginalW W total t.2) fun d => Rd.ret (.original d)
      else Rd.andThen (Rd.ofOption (init t.1)) fun s =>
        Rd.andThen (readSectionsW W total body 16 (9 :: t.2) s) fun s => Rd.ret (.image s)

/-- `DoProcessJpeg` on a whole file, with words of `W` bits (c/dec/brunsli_decode.cc:2294-2301). -/
def decodeFileW {σ : Type} (W : Nat) (init : Header → Option σ) (body : σ → Nat → List Nat → Option σ) (bs : List Nat) : Res (Content σ) :=
  match readFileW W bs.length init body bs with
  | .ok c rest => if rest = [] then .ok c [] else .invalid
  | .needMore => .needMore
  | .invalid => .invalid

open Rd

/-! ## Words wide enough -/

theorem decodeBase128_lt63 {bs rest : List Nat} {v : Nat} (h : decodeBase128 bs = .ok v rest) : v < 2 ^ 63 := by
  have := decodeLoop_lt 9 0 0 bs rest v (by simp) h
  simpa using this

theorem base128W_ok {W : Nat} {bs rest : List Nat} {v : Nat} (h : decodeBase128 bs = .ok v rest) (hv : v < 2 ^ W) :
    decodeBase128W W bs = .ok v rest := by
  unfold decodeBase128W
  rw [andThen_eq h, if_pos (Nat.mod_eq_of_lt hv)]
  rfl

theorem base128W_inv {W : Nat} {bs rest : List Nat} {v : Nat} (h : decodeBase128W W bs = .ok v rest) :
    decodeBase128 bs = .ok v rest ∧ v < 2 ^ W := by
  obtain ⟨a, mid, h1, h2⟩ := andThen_ok h
  by_cases hv : a % 2 ^ W = a
  · rw [if_pos hv] at h2
    cases h2
    exact ⟨h1, by rw [← hv]; exact Nat.mod_lt _ (Nat.two_pow_pos W)⟩
  · rw [if_neg hv] at h2; cases h2

theorem enterSection_ok {W total : Nat} {bs rest : List Nat} {v : Nat} (h : decodeBase128 bs = .ok v rest) (hv : posOf total rest + v < 2 ^ W) :
    enterSection W total bs = .ok (v, posOf total rest + v) rest := by
  unfold enterSection
  rw [base128W_ok h (by omega)]
  simp only
  rw [Nat.mod_eq_of_lt hv]

theorem enterSection_inv {W total : Nat} {bs rest : List Nat} {e : Nat × Nat} (h : enterSection W total bs = .ok e rest) :
    decodeBase128 bs = .ok e.1 rest ∧ e.1 < 2 ^ W ∧ e.2 = (posOf total rest + e.1) % 2 ^ W := by
  unfold enterSection at h
  cases hx : decodeBase128W W bs with
  | ok v r =>
    rw [hx] at h
    cases h
    exact ⟨(base128W_inv hx).1, (base128W_inv hx).2, rfl⟩
  | needMore => rw [hx] at h; cases h
  | invalid => rw [hx] at h; cases h

/-- The words hold every number that `DecodeBase128` can give, and every end of a section. -/
def Roomy (W total : Nat) : Prop := 2 ^ 63 + total ≤ 2 ^ W

theorem base128W_roomy {W total : Nat} (hw : Roomy W total) : decodeBase128W W = decodeBase128 := by
  funext bs
  cases h : decodeBase128 bs with
  | ok v rest => exact base128W_ok h (by have := decodeBase128_lt63 h; unfold Roomy at hw; omega)
  | needMore => unfold decodeBase128W Rd.andThen; rw [h]
  | invalid => unfold decodeBase128W Rd.andThen; rw [h]

theorem enter_roomy {α : Type} {W total : Nat} (hw : Roomy W total) {f : Nat × Nat → Rd α} {g : Nat → Rd α} {bs : List Nat}
    (h : ∀ v rest, decodeBase128 bs = .ok v rest → f (v, posOf total rest + v) rest = g v rest) :
    Rd.andThen (enterSection W total) f bs = Rd.andThen decodeBase128 g bs := by
  cases hx : decodeBase128 bs with
  | ok v rest =>
    rw [andThen_eq hx, andThen_eq (enterSection_ok hx (by have := decodeBase128_lt63 hx; unfold Roomy at hw; unfold posOf; omega))]
    exact h v rest hx
  | needMore => unfold Rd.andThen enterSection; rw [base128W_roomy hw, hx]
  | invalid => unfold Rd.andThen enterSection; rw [base128W_roomy hw, hx]

theorem remaining_add (p v : Nat) : remainingLength (p + v) p = v := by
  unfold remainingLength
  rw [if_neg (by omega)]
  omega

theorem skipTo_add (total v : Nat) (bs : List Nat) : skipTo total (posOf total bs + v) bs = Rd.bytes v bs := by
  unfold skipTo
  rw [remaining_add]

theorem payload_add (total v : Nat) (bs : List Nat) : sectionPayload total (posOf total bs + v) bs = Rd.bytes v bs := by
  unfold sectionPayload
  rw [if_neg (by omega), Nat.add_sub_cancel_left]

theorem andThen_congr {α β : Type} {p q : Rd α} {f : α → Rd β} {bs : List Nat} (h : p bs = q bs) : Rd.andThen p f bs = Rd.andThen q f bs := by
  unfold Rd.andThen
  rw [h]

theorem andThen_next {α β : Type} {p : Rd α} {f g : α → Rd β} {bs : List Nat} (h : ∀ a rest, p bs = .ok a rest → f a rest = g a rest) :
    Rd.andThen p f bs = Rd.andThen p g bs := by
  unfold Rd.andThen
  cases e : p bs with
  | ok a rest => exact h a rest e
  | needMore => rfl
  | invalid => rfl

theorem readSectionsW_roomy {σ : Type} {W total : Nat} (hw : Roomy W total) (body : σ → Nat → List Nat → Option σ) (fuel : Nat) :
    ∀ (met : List Nat) (s : σ) (bs : List Nat), readSectionsW W total body fuel met s bs = readSections body fuel met s bs := by
  induction fuel with
  | zero => intro _ _ _; rfl
  | succ fuel ih =>
    intro met s bs
    rw [readSectionsW, readSections]
    refine andThen_next fun t r1 _ => ?_
    by_cases hs : t.2.1 = true
    · rw [if_pos hs, if_pos hs]
      refine enter_roomy hw fun v r2 _ => ?_
      by_cases h9 : 9 < t.1
      · rw [if_pos h9, if_pos h9]
        simp only
        rw [andThen_congr (skipTo_add total v r2)]
        exact andThen_next fun _ r3 _ => ih _ _ _
      · rw [if_neg h9, if_neg h9]
        by_cases hr : ((requires t.1).any fun r => r ∉ met) = true
        · rw [if_pos hr, if_pos hr]
        · rw [if_neg hr, if_neg hr]
          simp only
          rw [remaining_add]
          by_cases hp : wordSection t.1 = true ∧ v % 2 ≠ 0
          · rw [if_pos hp, if_pos hp]; rfl
          · rw [if_neg hp, if_neg hp, andThen_congr (payload_add total v r2)]
            refine andThen_next fun p r3 _ => andThen_next fun s1 r4 _ => ?_
            by_cases h8 : t.1 = 8
            · rw [if_pos h8, if_pos h8]
            · rw [if_neg h8, if_neg h8]; exact ih _ _ _
    · rw [if_neg hs, if_neg hs]
      by_cases h9 : t.1 ≤ 9
      · rw [if_pos h9, if_pos h9]
      · rw [if_neg h9, if_neg h9, base128W_roomy hw]
        exact andThen_next fun _ _ _ => ih _ _ _

theorem headerItemW_roomy {W total : Nat} (hw : Roomy W total) (met : List Nat) : headerItemW W met = headerItem met := by
  unfold headerItemW headerItem
  rw [base128W_roomy hw]

/-- The items of the header by positions in the file and by positions in the section. -/
theorem headerItemsW_roomy {W total size base : Nat} (hw : Roomy W total) (fuel : Nat) :
    ∀ (pos : Nat) (met vals bs : List Nat), bs.length ≤ total → posOf total bs = base + pos →
      headerItemsW W total (base + size) fuel met vals bs = headerItems size fuel pos met vals bs := by
  induction fuel with
  | zero => intro _ _ _ _ _ _; rfl
  | succ fuel ih =>
    intro pos met vals bs hb hp
    rw [headerItemsW, headerItems]
    show (if posOf total bs = base + size then _ else _) = _
    by_cases h : pos = size
    · rw [if_pos (by omega), if_pos h]; rfl
    · rw [if_neg (by omega), if_neg h, headerItemW_roomy hw]
      unfold Rd.andThen Rd.counted
      cases e : headerItem met bs with
      | needMore => rfl
      | invalid => rfl
      | ok t rest =>
        obtain ⟨u, rfl⟩ := (headerItem_mono met).suffix e
        rw [List.length_append] at hb
        simp only
        refine ih _ _ _ _ (by omega) ?_
        unfold posOf at hp ⊢
        rw [List.length_append] at hp ⊢
        omega

theorem readHeaderW_roomy {W total : Nat} (hw : Roomy W total) (met bs : List Nat) (hb : bs.length ≤ total) :
    readHeaderW W total met bs = readHeader met bs := by
  unfold readHeaderW readHeader
  refine andThen_next fun t r1 e1 => ?_
  obtain ⟨u, rfl⟩ := (Mono.readTag met).suffix e1
  by_cases h : t.1 = 2 ∧ t.2.1 = true
  · rw [if_pos h, if_pos h]
    refine enter_roomy hw fun v r2 e2 => ?_
    obtain ⟨u2, rfl⟩ := Mono.decodeBase128.suffix e2
    simp only [List.length_append] at hb
    refine andThen_congr ?_
    unfold readHeaderBody
    refine andThen_congr ?_
    exact headerItemsW_roomy hw 16 0 [] _ r2 (by omega) rfl
  · rw [if_neg h, if_neg h]

theorem readOriginalW_roomy {W total : Nat} (hw : Roomy W total) (met bs : List Nat) : readOriginalW W total met bs = readOriginal met bs := by
  unfold readOriginalW readOriginal
  refine andThen_next fun t r1 e1 => ?_
  by_cases h : t.1 = 9 ∧ t.2.1 = true
  · rw [if_pos h, if_pos h]
    exact enter_roomy hw fun v r2 e2 => rfl
  · rw [if_neg h, if_neg h]

theorem readFileW_roomy {σ : Type} {W total : Nat} (hw : Roomy W total) (init : Header → Option σ) (body : σ → Nat → List Nat → Option σ)
    (bs : List Nat) (hb : bs.length ≤ total) : readFileW W total init body bs = readFile init body bs := by
  unfold readFileW readFile
  refine andThen_next fun _ r1 e1 => ?_
  obtain ⟨u, rfl⟩ := readSignature_mono.suffix e1
  rw [List.length_append] at hb
  rw [andThen_congr (readHeaderW_roomy hw [1] r1 (by omega))]
  refine andThen_next fun t r2 e2 => ?_
  by_cases h : t.1.version = 1
  · rw [if_pos h, if_pos h, andThen_congr (readOriginalW_roomy hw t.2 r2)]
  · rw [if_neg h, if_neg h]
    refine andThen_next fun s r3 e3 => ?_
    rw [andThen_congr (readSectionsW_roomy hw body 16 _ s r3)]

theorem decodeFileW_roomy {σ : Type} {W : Nat} (init : Header → Option σ) (body : σ → Nat → List Nat → Option σ) (bs : List Nat)
    (hw : Roomy W bs.length) : decodeFileW W init body bs = decodeFile init body bs := by
  unfold decodeFileW decodeFile
  rw [readFileW_roomy hw init body bs (Nat.le_refl _)]
  cases readFile init body bs <;> rfl

end Brunsli
