import Verif.Container
/-!
# Properties C21 - C24: bypass, header, container
-/

namespace Brunsli

open Rd

/-! ## C21: bypass -/

/-- What decoding and writing a bypassed file gives (`DecodeBrunsli`, c/dec/decode.cc:26-48, on such a file). -/
def restoreOriginal (bs : List Nat) : Option (List Nat) :=
  match decodeFile (σ := Unit) (fun _ => none) (fun _ _ _ => none) bs with
  | .ok (.original d) _ => writeOriginal d
  | _ => none

/-- **C21 (all but the empty string).** Any byte string of 1 to 2^63 - 1 bytes, whether or not a JPEG header (dimensions of 16 bits,
1 to 4 components with factors 1 to 15) was found in it, is encoded in bypass mode into a buffer of the advertised size, which is not
exceeded, and decoding gives it back.  Missing: the empty string, for which the claim is false (`C21_empty_false`). -/
theorem C21_bypass_roundtrip_partial (data : List Nat) (hne : data ≠ []) (hl : data.length < 2 ^ 63) (found : Option Header)
    (hr : ∀ h ∈ found, h.width ≤ 65535 ∧ h.height ≤ 65535 ∧ 1 ≤ h.comps.length ∧ h.comps.length ≤ 4 ∧
      ∀ c ∈ h.comps, 1 ≤ c.1 ∧ c.1 ≤ 15 ∧ 1 ≤ c.2 ∧ c.2 ≤ 15) :
    ∃ out, encodeBypass (data.length + 36) found data = some out ∧ out.length ≤ data.length + 36 ∧ restoreOriginal out = some data := by
  obtain ⟨out, h1, h2, h3⟩ := bypass_roundtrip (σ := Unit) (fun _ => none) (fun _ _ _ => none) found hr hl
  refine ⟨out, h1, h2, ?_⟩
  unfold restoreOriginal
  rw [h3]
  simp only [writeOriginal]
  rw [if_neg hne]

/-- C21, whatever the length: the container itself is decoded to the original bytes, also when there are none. -/
theorem C21_bypass_container (data : List Nat) (hl : data.length < 2 ^ 63) (found : Option Header)
    (hr : ∀ h ∈ found, h.width ≤ 65535 ∧ h.height ≤ 65535 ∧ 1 ≤ h.comps.length ∧ h.comps.length ≤ 4 ∧
      ∀ c ∈ h.comps, 1 ≤ c.1 ∧ c.1 ≤ 15 ∧ 1 ≤ c.2 ∧ c.2 ≤ 15)
    {σ : Type} (init : Header → Option σ) (body : σ → Nat → List Nat → Option σ) :
    ∃ out, encodeBypass (data.length + 36) found data = some out ∧ out.length ≤ data.length + 36 ∧
      decodeFile init body out = .ok (.original data) [] := bypass_roundtrip init body found hr hl

/-- **C21 is false of the code for the empty string**: it is encoded, and what was written cannot be decoded. -/
theorem C21_empty_false : ∃ out, encodeBypass 36 none [] = some out ∧ restoreOriginal out = none := by
  obtain ⟨out, h1, _, h3⟩ := bypass_roundtrip (σ := Unit) (fun _ => none) (fun _ _ _ => none) none (by simp) (data := []) (by simp)
  refine ⟨out, h1, ?_⟩
  unfold restoreOriginal
  rw [h3]
  rfl

/-- **C21, the buffer.** Into a buffer of at least 36 bytes nothing is written beyond its end: either the encoder refuses or what it wrote fits. -/
theorem C21_fits_partial (cap : Nat) (hcap : 36 ≤ cap ∧ cap < 2 ^ 64) (data : List Nat) (hl : data.length < 2 ^ 63) (found : Option Header)
    (hr : ∀ h ∈ found, h.width ≤ 65535 ∧ h.height ≤ 65535 ∧ 1 ≤ h.comps.length ∧ h.comps.length ≤ 4 ∧
      ∀ c ∈ h.comps, 1 ≤ c.1 ∧ c.1 ≤ 15 ∧ 1 ≤ c.2 ∧ c.2 ≤ 15) {out : List Nat} (h : encodeBypass cap found data = some out) :
    out.length ≤ cap := bypass_fits hcap hr hl h

/-- **C21 is false of the code for a smaller buffer**: the room left for the data wraps around, and 9 bytes of buffer are overrun. -/
theorem C21_small_buffer_false : ∃ out, encodeBypass 9 none [1, 2, 3] = some out ∧ out.length = 21 := by
  have hb : base128Size [1, 2, 3].length = 1 := by
    rw [base128Size]
    simp
  refine ⟨kBrunsliSignature ++ ([0x12, 8, 8, 0, 0x10, 0, 0x18, 4, 0x20, 0] ++ [0x4A, 3, 1, 2, 3]), ?_, rfl⟩
  have hs : encodeHeaderSection ⟨1, 0, 0, [(1, 1)]⟩ = some [0x12, 8, 8, 0, 0x10, 0, 0x18, 4, 0x20, 0] := by
    have e (v : Nat) (h : v < 128) : encodeBase128 v = [v] := by
      rw [encodeBase128]
      simp [h]
    simp [encodeHeaderSection, encodeHeader, encodeValue, e, packSampling, encodeSection, valueMarker, sectionMarker, encodeBase128Fix]
  unfold encodeBypass
  simp only [hs, hb]
  decide +kernel

/-- Non-vacuity: three bytes that are no JPEG, and what is written for them. -/
example : restoreOriginal (kBrunsliSignature ++ [0x12, 8, 8, 0, 0x10, 0, 0x18, 4, 0x20, 0, 0x4A, 3, 1, 2, 3]) = some [1, 2, 3] := by decide +kernel

/-! ## C22: header -/

/-- **C22 (1).** The header section of every image with dimensions 1 to 65535, 1 to 4 components with factors 1 to 15, an even version below 8 and
at most 2^21 blocks in each component is written, and read back whatever follows it. -/
theorem C22_header_roundtrip (h : Header) (rest : List Nat)
    (hv : h.version < 8 ∧ h.version % 2 = 0) (hw : 1 ≤ h.width ∧ h.width ≤ 65535) (hh : 1 ≤ h.height ∧ h.height ≤ 65535)
    (hn : 1 ≤ h.comps.length ∧ h.comps.length ≤ 4) (hf : ∀ c ∈ h.comps, 1 ≤ c.1 ∧ c.1 ≤ 15 ∧ 1 ≤ c.2 ∧ c.2 ≤ 15)
    (hb : ∀ b ∈ h.blocks, b.1 * b.2 ≤ 2 ^ 21) :
    ∃ s, encodeHeaderSection h = some s ∧ readHeader [1] (s ++ rest) = .ok (h, [2, 1]) rest := by
  have hok : h.Ok := ⟨hv, hw, hh, hn, hf, hb⟩
  obtain ⟨p, hp⟩ := encodeHeader_some hok
  have hlen : p.length < 128 := by
    have := hp
    unfold encodeHeader at this
    (repeat' split at this) <;> cases this
    have h1 := packSampling_lt h.comps fun c hc => by have := hf c hc; omega
    have h2 : 256 ^ h.comps.length ≤ 256 ^ 4 := Nat.pow_le_pow_right (by omega) hn.2
    simp only [List.length_append, encodeValue, List.length_cons, encodeBase128_length]
    have l1 := base128Size_le 2 h.width (by omega)
    have l2 := base128Size_le 2 h.height (by omega)
    have l3 := base128Size_le 2 (h.comps.length - 1 + h.version * 4) (by omega)
    have l4 := base128Size_le 4 (packSampling h.comps) (by omega)
    omega
  obtain ⟨s, hs⟩ : ∃ s, encodeHeaderSection h = some s := by
    unfold encodeHeaderSection
    rw [hp]
    cases he : encodeSection 2 1 (some p) with
    | none => exact absurd (encodeSection_none.mp he) (by omega)
    | some s => exact ⟨s, rfl⟩
  exact ⟨s, hs, readHeader_encoded hok (by simp) hs⟩

/-- Non-vacuity: a 4:2:0 image. -/
example : (∃ s, encodeHeaderSection ⟨2, 1000, 700, [(2, 2), (1, 1), (1, 1)]⟩ = some s ∧
    readHeader [1] (s ++ [7]) = .ok (⟨2, 1000, 700, [(2, 2), (1, 1), (1, 1)]⟩, [2, 1]) [7]) :=
  C22_header_roundtrip _ _ (by decide) (by decide) (by decide) (by decide) (by decide) (by decide +kernel)

theorem unpackSampling_range (n : Nat) : ∀ code, (unpackSampling n code).length = n ∧ ∀ c ∈ unpackSampling n code, 1 ≤ c.1 ∧ 1 ≤ c.2 := by
  induction n with
  | zero => intro code; exact ⟨rfl, by simp [unpackSampling]⟩
  | succ n ih =>
    intro code
    rw [unpackSampling]
    refine ⟨by rw [List.length_cons, (ih _).1], fun c hc => ?_⟩
    rcases List.mem_cons.mp hc with rfl | hc
    · simp
    · exact (ih _).2 c hc

theorem headerFinale_ok {met vals : List Nat} {h : Header} (hf : headerFinale met vals = some h) :
    h = ⟨1, 0, 0, []⟩ ∨ (h.Ok ∧ h.width = vals.getD 1 0 ∧ h.height = vals.getD 2 0) := by
  unfold headerFinale at hf
  by_cases c0 : 3 ∉ met
  · rw [if_pos c0] at hf; cases hf
  rw [if_neg c0] at hf
  dsimp only at hf
  by_cases c1 : vals.getD 3 0 / 4 = 1
  · rw [if_pos c1] at hf; cases hf; exact Or.inl rfl
  rw [if_neg c1] at hf
  by_cases c2 : vals.getD 3 0 / 4 % 2 ≠ 0
  · rw [if_pos c2] at hf; cases hf
  rw [if_neg c2] at hf
  by_cases c3 : 8 ≤ vals.getD 3 0 / 4
  · rw [if_pos c3] at hf; cases hf
  rw [if_neg c3] at hf
  by_cases c4 : 1 ∉ met
  · rw [if_pos c4] at hf; cases hf
  rw [if_neg c4] at hf
  by_cases c5 : 2 ∉ met
  · rw [if_pos c5] at hf; cases hf
  rw [if_neg c5] at hf
  by_cases c6 : vals.getD 1 0 = 0 ∨ vals.getD 2 0 = 0
  · rw [if_pos c6] at hf; cases hf
  rw [if_neg c6] at hf
  by_cases c7 : vals.getD 1 0 > 65535 ∨ vals.getD 2 0 > 65535
  · rw [if_pos c7] at hf; cases hf
  rw [if_neg c7] at hf
  by_cases c8 : 4 ∉ met
  · rw [if_pos c8] at hf; cases hf
  rw [if_neg c8] at hf
  by_cases c9 : (unpackSampling (vals.getD 3 0 % 4 + 1) (vals.getD 4 0)).any (fun c => c.1 > 15 ∨ c.2 > 15) = true
  · rw [if_pos c9] at hf; cases hf
  rw [if_neg c9] at hf
  by_cases c10 : (⟨vals.getD 3 0 / 4, vals.getD 1 0, vals.getD 2 0, unpackSampling (vals.getD 3 0 % 4 + 1) (vals.getD 4 0)⟩ : Header).blocksOk = true
  · rw [if_pos c10] at hf
    cases hf
    obtain ⟨u1, u2⟩ := unpackSampling_range (vals.getD 3 0 % 4 + 1) (vals.getD 4 0)
    refine Or.inr ⟨⟨by simp only; omega, by simp only; omega, by simp only; omega, by simp only [u1]; omega, fun c hc => ?_, fun b hb => ?_⟩, rfl, rfl⟩
    · have := u2 c hc
      have h2 : ¬ (c.1 > 15 ∨ c.2 > 15) := fun hx => c9 (List.any_eq_true.mpr ⟨c, hc, by simpa using hx⟩)
      omega
    · have := List.all_eq_true.mp c10 b hb
      simpa using this
  · rw [if_neg c10] at hf; cases hf

/-- **C22 (2).** Whatever bytes are accepted as a header, it is the header of a bypassed file, or dimensions are 1 to 65535, there are 1 to 4
components with factors 1 to 15, and every component has at most 2^21 blocks, no more than 8205 in each direction. -/
theorem C22_accepted_header (met bs rest met' : List Nat) (h : Header) (hr : readHeader met bs = .ok (h, met') rest) :
    h.version = 1 ∨ ((1 ≤ h.width ∧ h.width ≤ 65535) ∧ (1 ≤ h.height ∧ h.height ≤ 65535) ∧ (1 ≤ h.comps.length ∧ h.comps.length ≤ 4) ∧
      (∀ c ∈ h.comps, 1 ≤ c.1 ∧ c.1 ≤ 15 ∧ 1 ≤ c.2 ∧ c.2 ≤ 15) ∧
      ∀ b ∈ h.blocks, b.1 * b.2 ≤ 2 ^ 21 ∧ b.1 ≤ 8205 ∧ b.2 ≤ 8205) := by
  obtain ⟨t, m1, h1, h2⟩ := andThen_ok hr
  by_cases hc : t.1 = 2 ∧ t.2.1 = true
  · rw [if_pos hc] at h2
    obtain ⟨size, m2, h3, h4⟩ := andThen_ok h2
    obtain ⟨h', m3, h5, h6⟩ := andThen_ok h4
    cases h6
    obtain ⟨u, m4, h7, h8⟩ := andThen_ok h5
    rcases headerFinale_ok (ofOption_ok h8).1 with rfl | ⟨hok, _⟩
    · exact Or.inl rfl
    · refine Or.inr ⟨hok.width, hok.height, hok.ncomp, hok.factors, fun b hb => ⟨hok.blocks b hb, ?_⟩⟩
      have hmax : ∀ (l : List Nat) (a : Nat), (∀ x ∈ l, x ≤ 15) → a ≤ 15 → a ≤ l.foldl max a ∧ l.foldl max a ≤ 15 ∧ ∀ x ∈ l, x ≤ l.foldl max a := by
        intro l
        induction l with
        | nil => intro a _ ha; exact ⟨Nat.le_refl _, ha, by simp⟩
        | cons y l ih =>
          intro a hl ha
          have hy := hl y List.mem_cons_self
          obtain ⟨i1, i2, i3⟩ := ih (max a y) (fun x hx => hl x (List.mem_cons_of_mem _ hx)) (by omega)
          rw [List.foldl_cons]
          refine ⟨by omega, i2, fun x hx => ?_⟩
          rcases List.mem_cons.mp hx with rfl | hx
          · omega
          · exact i3 x hx
      have key : ∀ w M c, w ≤ 65535 → 1 ≤ M → M ≤ 15 → c ≤ M → divCeil w (M * 8) * c ≤ 8205 := by
        intro w M c hw h1 h15 hcM
        have hm : divCeil w (M * 8) * M ≤ 8205 := by
          unfold divCeil
          have : M = 1 ∨ M = 2 ∨ M = 3 ∨ M = 4 ∨ M = 5 ∨ M = 6 ∨ M = 7 ∨ M = 8 ∨ M = 9 ∨ M = 10 ∨ M = 11 ∨ M = 12 ∨ M = 13 ∨ M = 14 ∨ M = 15 := by omega
          rcases this with rfl | rfl | rfl | rfl | rfl | rfl | rfl | rfl | rfl | rfl | rfl | rfl | rfl | rfl | rfl <;> omega
        exact Nat.le_trans (Nat.mul_le_mul_left _ hcM) hm
      unfold Header.blocks at hb
      obtain ⟨c, hc1, rfl⟩ := List.mem_map.mp hb
      have hfac := hok.factors
      obtain ⟨a1, a2, a3⟩ := hmax (h.comps.map Prod.fst) 1 (by
        intro x hx
        obtain ⟨y, hy, rfl⟩ := List.mem_map.mp hx
        have := hfac y hy; omega) (by omega)
      obtain ⟨b1, b2, b3⟩ := hmax (h.comps.map Prod.snd) 1 (by
        intro x hx
        obtain ⟨y, hy, rfl⟩ := List.mem_map.mp hx
        have := hfac y hy; omega) (by omega)
      exact ⟨key _ _ _ hok.width.2 a1 a2 (a3 _ (List.mem_map.mpr ⟨c, hc1, rfl⟩)), key _ _ _ hok.height.2 b1 b2 (b3 _ (List.mem_map.mpr ⟨c, hc1, rfl⟩))⟩
  · rw [if_neg hc] at h2; cases h2

/-! ## C23: mis-typed values -/

/-- **C23 is false of the code.** A file whose header gives the width as a section (tag 1, marker 0x0A, length 0) is decoded. -/
theorem C23_mistyped_accepted :
    restoreOriginal (kBrunsliSignature ++ [0x12, 4, 0x18, 4, 0x0A, 0, 0x4A, 1, 0x55]) = some [0x55] := by decide +kernel

/-- **C23 is false of the code** for regular images as well: subsampling given as a section (marker 0x22) is taken for 1x1 in all components, and a
version given as a section (marker 0x1A) for version 0 with one component. -/
theorem C23_mistyped_header_accepted :
    readHeader [1] [0x12, 8, 0x08, 9, 0x10, 7, 0x18, 2, 0x22, 0] = .ok (⟨0, 9, 7, [(1, 1), (1, 1), (1, 1)]⟩, [2, 1]) [] ∧
    readHeader [1] [0x12, 8, 0x08, 9, 0x10, 7, 0x1A, 0, 0x20, 0x11] = .ok (⟨0, 9, 7, [(2, 2)]⟩, [2, 1]) [] := by decide +kernel

/-- The items of a header: tag, number or section. -/
theorem headerItems_vals (size fuel : Nat) : ∀ {pos : Nat} {met vals bs rest met' vals' : List Nat},
    headerItems size fuel pos met vals bs = .ok (met', vals') rest → ∀ tag, vals'.getD tag 0 ≠ vals.getD tag 0 →
      ∃ pre post v, bs = pre ++ valueMarker tag :: post ∧ ∃ r, decodeBase128 post = .ok v r := by
  induction fuel with
  | zero => intro _ _ _ _ _ _ _ h; cases h
  | succ fuel ih =>
    intro pos met vals bs rest met' vals' h tag hne
    rw [headerItems] at h
    by_cases hp : pos = size
    · rw [if_pos hp] at h; cases h; exact absurd rfl hne
    · rw [if_neg hp] at h
      obtain ⟨t, mid, h1, h2⟩ := andThen_ok h
      obtain ⟨u, hu⟩ := (Mono.counted (headerItem_mono met)).suffix h1
      have hstep : ∀ vs : List Nat, headerItems size fuel (pos + t.2) t.1.2.1 vs mid = .ok (met', vals') rest →
          vals'.getD tag 0 ≠ vs.getD tag 0 → ∃ pre post v, bs = pre ++ valueMarker tag :: post ∧ ∃ r, decodeBase128 post = .ok v r := by
        intro vs hx hy
        obtain ⟨pre, post, v, e, r⟩ := ih hx tag hy
        exact ⟨u ++ pre, post, v, by rw [hu, e]; simp, r⟩
      have hitem : ∃ x, headerItem met bs = .ok x mid ∧ t.1 = x := by
        unfold Rd.counted at h1
        cases hx : headerItem met bs with
        | ok x m => rw [hx] at h1; cases h1; exact ⟨x, rfl, rfl⟩
        | needMore => rw [hx] at h1; cases h1
        | invalid => rw [hx] at h1; cases h1
      obtain ⟨x, hx, htx⟩ := hitem
      obtain ⟨tg, m1, k1, k2⟩ := andThen_ok hx
      obtain ⟨v, m2, k3, k4⟩ := andThen_ok k2
      obtain ⟨e1, _⟩ := readTag_ok k1
      by_cases hsec : tg.2.1 = true
      · rw [if_pos hsec] at k4
        obtain ⟨_, m3, _, k6⟩ := andThen_ok k4
        have : x.2.2 = none := by cases k6; rfl
        rw [htx, this] at h2
        exact hstep _ (by rw [htx]; exact h2) hne
      · rw [if_neg hsec] at k4
        have hx2 : x = (tg.1, tg.2.2, some v) := by cases k4; rfl
        by_cases htag : tag = tg.1
        · refine ⟨[], m1, v, ?_, m2, k3⟩
          rw [e1, if_neg hsec, htag]; rfl
        · rw [htx, hx2] at h2
          refine hstep _ (by rw [htx, hx2]; exact h2) ?_
          simp only [List.getD_eq_getElem?_getD] at hne ⊢
          rw [List.getElem?_set_ne (fun e => htag e.symm)]
          exact hne

/-- **C23 (width and height of regular images).** If a header that is not one of a bypassed file is accepted, width and height are there as numbers
(markers 0x08 and 0x10).  Missing: the same for version and subsampling and for bypassed files, which is false (`C23_mistyped_accepted`,
`C23_mistyped_header_accepted`). -/
theorem C23_width_height_numbers_partial (met bs rest met' : List Nat) (h : Header) (hr : readHeader met bs = .ok (h, met') rest)
    (hv : h.version ≠ 1) : (∃ pre post r, bs = pre ++ 0x08 :: post ∧ ∃ v, decodeBase128 post = .ok v r) ∧
      ∃ pre post r, bs = pre ++ 0x10 :: post ∧ ∃ v, decodeBase128 post = .ok v r := by
  obtain ⟨t, m1, h1, h2⟩ := andThen_ok hr
  by_cases hc : t.1 = 2 ∧ t.2.1 = true
  · rw [if_pos hc] at h2
    obtain ⟨size, m2, h3, h4⟩ := andThen_ok h2
    obtain ⟨h', m3, h5, h6⟩ := andThen_ok h4
    cases h6
    obtain ⟨u, m4, h7, h8⟩ := andThen_ok h5
    obtain ⟨p1, rfl⟩ := (Mono.readTag met).suffix h1
    obtain ⟨p2, rfl⟩ := Mono.decodeBase128.suffix h3
    rcases headerFinale_ok (ofOption_ok h8).1 with rfl | ⟨hok, e1, e2⟩
    · exact absurd rfl hv
    · have hw := hok.width
      have hh := hok.height
      obtain ⟨pre, post, v, e, r, k⟩ := headerItems_vals size 16 h7 1 (by rw [← e1]; simp; omega)
      obtain ⟨pre', post', v', e', r', k'⟩ := headerItems_vals size 16 h7 2 (by rw [← e2]; simp; omega)
      exact ⟨⟨p1 ++ (p2 ++ pre), post, r, by rw [e]; simp [valueMarker], v, k⟩, ⟨p1 ++ (p2 ++ pre'), post', r', by rw [e']; simp [valueMarker], v', k'⟩⟩
  · rw [if_neg hc] at h2; cases h2

/-! ## C24: structure of accepted files -/

theorem okOrder_spec {met : List Nat} {items : List Item} (h : okOrder met items) :
    (items.map Item.tag).Nodup ∧ (∀ i ∈ items, i.tag ∉ met ∧ i.Wf) ∧
    (∀ pre i post, items = pre ++ i :: post → (∀ r ∈ requires i.tag, r ∈ met ∨ r ∈ pre.map Item.tag) ∧ (i.tag = 8 → post = []) ∧
      (wordSection i.tag → i.payload.length % 2 = 0)) ∧
    ∃ i, items.getLast? = some i ∧ i.tag = 8 := by
  induction items generalizing met with
  | nil => exact h.elim
  | cons i l ih =>
    obtain ⟨h1, h2, h3, h4⟩ := h
    have hreq : ∀ r ∈ requires i.tag, r ∈ met := by
      intro r hr
      by_cases h9 : i.tag ≤ 9
      · exact (h3 h9).1 r hr
      · unfold requires at hr
        rw [if_neg (by omega), if_neg (by omega), if_neg (by omega)] at hr
        simp at hr
    have hword : wordSection i.tag → i.payload.length % 2 = 0 := by
      intro hw
      refine (h3 ?_).2 hw
      unfold wordSection at hw
      simp only [Bool.decide_or, Bool.or_eq_true, decide_eq_true_eq] at hw
      omega
    by_cases h8 : i.tag = 8
    · rw [if_pos h8] at h4
      subst h4
      refine ⟨by simp, ?_, ?_, i, rfl, h8⟩
      · intro j hj; simp only [List.mem_cons, List.not_mem_nil, or_false] at hj; subst hj; exact ⟨h1, h2⟩
      · intro pre j post he
        cases pre with
        | nil =>
          simp only [List.nil_append, List.cons.injEq] at he
          obtain ⟨rfl, rfl⟩ := he
          exact ⟨fun r hr => Or.inl (hreq r hr), fun _ => rfl, hword⟩
        | cons a pre => have := congrArg List.length he; simp at this
    · rw [if_neg h8] at h4
      obtain ⟨g1, g2, g3, j, g4, g5⟩ := ih h4
      refine ⟨?_, ?_, ?_, j, ?_, g5⟩
      · rw [List.map_cons, List.nodup_cons]
        refine ⟨fun hm => ?_, g1⟩
        obtain ⟨x, hx, hxt⟩ := List.mem_map.mp hm
        exact (g2 x hx).1 (by rw [hxt]; exact List.mem_cons_self)
      · intro x hx
        rcases List.mem_cons.mp hx with rfl | hx
        · exact ⟨h1, h2⟩
        · exact ⟨fun hm => (g2 x hx).1 (List.mem_cons_of_mem _ hm), (g2 x hx).2⟩
      · intro pre x post he
        cases pre with
        | nil =>
          simp only [List.nil_append, List.cons.injEq] at he
          obtain ⟨rfl, rfl⟩ := he
          exact ⟨fun r hr => Or.inl (hreq r hr), fun e => absurd e h8, hword⟩
        | cons a pre =>
          simp only [List.cons_append, List.cons.injEq] at he
          obtain ⟨rfl, he⟩ := he
          obtain ⟨k1, k2, k3⟩ := g3 pre x post he
          refine ⟨fun r hr => ?_, k2, k3⟩
          rcases k1 r hr with hm | hm
          · rcases List.mem_cons.mp hm with rfl | hm
            · exact Or.inr (by simp)
            · exact Or.inl hm
          · exact Or.inr (by simp only [List.map_cons, List.mem_cons]; exact Or.inr hm)
      · cases l with
        | nil => simp at g4
        | cons a l => rw [List.getLast?_cons_cons]; exact g4

theorem headerItems_size (size fuel : Nat) : ∀ {pos : Nat} {met vals bs rest : List Nat} {r : List Nat × List Nat},
    headerItems size fuel pos met vals bs = .ok r rest → ∃ used, bs = used ++ rest ∧ pos + used.length = size := by
  induction fuel with
  | zero => intro _ _ _ _ _ _ h; cases h
  | succ fuel ih =>
    intro pos met vals bs rest r h
    rw [headerItems] at h
    by_cases hp : pos = size
    · rw [if_pos hp] at h; cases h; exact ⟨[], rfl, by simpa using hp⟩
    · rw [if_neg hp] at h
      obtain ⟨t, mid, h1, h2⟩ := andThen_ok h
      obtain ⟨u, hu⟩ := (Mono.counted (headerItem_mono met)).suffix h1
      have hlen : t.2 = u.length := by
        unfold Rd.counted at h1
        cases hx : headerItem met bs with
        | ok x m => rw [hx] at h1; cases h1; simp [hu]
        | needMore => rw [hx] at h1; cases h1
        | invalid => rw [hx] at h1; cases h1
      obtain ⟨w, hw, hsz⟩ := ih h2
      exact ⟨u ++ w, by rw [hu, hw]; simp, by rw [List.length_append]; omega⟩

/-- **C24 (1).** Whatever file is decoded as an image: it is the signature, a header section and a sequence of items — each a tag from 1 to 15 with a
number, or with a length and as many bytes — such that no tag occurs twice (nor those of signature, header and bypass at all); quantisation tables and
histograms come after the internals, DC data after both, AC data after DC data; and the AC data ends the file.  The image is what the sections give, one
after the other. -/
theorem C24_structure {σ : Type} (init : Header → Option σ) (body : σ → Nat → List Nat → Option σ) (bs : List Nat) (s : σ)
    (h : decodeFile init body bs = .ok (.image s) []) :
    ∃ (len hdr : List Nat) (items : List Item) (h : Header) (s0 : σ),
      bs = kBrunsliSignature ++ (0x12 :: (len ++ (hdr ++ items.flatMap Item.bytes))) ∧
      decodeBase128 len = .ok hdr.length [] ∧ readHeader [1] (0x12 :: (len ++ hdr)) = .ok (h, [2, 1]) [] ∧
      (items.map Item.tag).Nodup ∧
      (∀ i ∈ items, 3 ≤ i.tag ∧ i.tag ≤ 15 ∧ i.tag ≠ 9 ∧ ∃ v, decodeBase128 i.len = .ok v [] ∧
        if i.isSec then i.payload.length = v else i.payload = [] ∧ 9 < i.tag) ∧
      (∀ pre i post, items = pre ++ i :: post →
        (i.tag = 5 ∨ i.tag = 6 → 4 ∈ pre.map Item.tag) ∧ (i.tag = 7 → 5 ∈ pre.map Item.tag ∧ 6 ∈ pre.map Item.tag) ∧
        (i.tag = 8 → 7 ∈ pre.map Item.tag ∧ post = [])) ∧
      (∃ i, items.getLast? = some i ∧ i.tag = 8) ∧
      init h = some s0 ∧ items.foldlM (fun s i => if i.isSec ∧ i.tag ≤ 9 then body s i.tag i.payload else some s) s0 = some s := by
  have hr : readFile init body bs = .ok (.image s) [] := by
    unfold decodeFile at h
    cases hx : readFile init body bs with
    | ok c rest =>
      rw [hx] at h
      simp only at h
      split at h
      · rename_i e; subst e; cases h; rfl
      · cases h
    | needMore => rw [hx] at h; cases h
    | invalid => rw [hx] at h; cases h
  clear h
  obtain ⟨_, m1, h1, hr⟩ := andThen_ok hr
  have hsig : bs = kBrunsliSignature ++ m1 := by
    obtain ⟨sg, m, k1, k2⟩ := andThen_ok h1
    by_cases hs : sg = kBrunsliSignature
    · rw [if_pos hs] at k2; cases k2; rw [← hs]; exact (bytes_ok k1).1
    · rw [if_neg hs] at k2; cases k2
  obtain ⟨t, m2, h2, hr⟩ := andThen_ok hr
  by_cases hv : t.1.version = 1
  · rw [if_pos hv] at hr
    obtain ⟨d, m3, _, hr⟩ := andThen_ok hr
    cases hr
  rw [if_neg hv] at hr
  obtain ⟨s0, m3, h3, hr⟩ := andThen_ok hr
  obtain ⟨hinit, rfl⟩ := ofOption_ok h3
  obtain ⟨s1, m4, h4, hr⟩ := andThen_ok hr
  cases hr
  -- the header
  have h2' := h2
  have hx := andThen_ok h2; clear h2
  obtain ⟨tg, k1, hk1, h2⟩ := hx
  obtain ⟨e1, _, _, hmet, e2⟩ := readTag_ok hk1
  by_cases hc : tg.1 = 2 ∧ tg.2.1 = true
  rotate_left
  · rw [if_neg hc] at h2; cases h2
  rw [if_pos hc] at h2
  have hx := andThen_ok h2; clear h2
  obtain ⟨size, k2, hk2, h2⟩ := hx
  obtain ⟨len, rfl, hlen⟩ := base128_split hk2
  have hx := andThen_ok h2; clear h2
  obtain ⟨hh, k3, hk3, h2⟩ := hx
  cases h2
  obtain ⟨r, k4, hk4, hk5⟩ := andThen_ok hk3
  obtain ⟨_, rfl⟩ := ofOption_ok hk5
  obtain ⟨hdr, rfl, hsz⟩ := headerItems_size size 16 hk4
  rw [Nat.zero_add] at hsz
  subst hsz
  rw [hc.1, if_pos hc.2] at e1
  have e2 : tg.2.2 = [2, 1] := by rw [e2, hc.1]
  simp only [e2] at h2' h4
  obtain ⟨items, g1, g2, g3⟩ := readSections_ok 16 h4
  rw [List.append_nil] at g1
  subst g1
  obtain ⟨o1, o2, o3, o4⟩ := okOrder_spec g2
  refine ⟨len, hdr, items, hh, s0, by rw [hsig, e1], hlen, ?_, o1, ?_, ?_, o4, hinit, g3⟩
  · rw [e1] at h2'
    have e3 : (2 * 8 + 2) :: (len ++ (hdr ++ items.flatMap Item.bytes)) = (0x12 :: (len ++ hdr)) ++ items.flatMap Item.bytes := by simp
    rw [e3] at h2'
    cases hx : readHeader [1] (0x12 :: (len ++ hdr)) with
    | ok x rest =>
      have := (readHeader_mono [1]).ok hx (items.flatMap Item.bytes)
      rw [h2'] at this
      have e4 := congrArg List.length (Res.ok.inj this).2
      rw [List.length_append] at e4
      have e5 : rest = [] := List.length_eq_zero_iff.mp (by omega)
      rw [e5, (Res.ok.inj this).1]
    | invalid => rw [(readHeader_mono [1]).invalid hx] at h2'; cases h2'
    | needMore =>
      exfalso
      have h5 : headerItems hdr.length 16 0 [] (List.replicate 16 0) hdr = .ok r [] := by
        have key : ∀ (size fuel : Nat) {pos : Nat} {met vals used rest : List Nat} {r : List Nat × List Nat},
            headerItems size fuel pos met vals (used ++ rest) = .ok r rest → headerItems size fuel pos met vals used = .ok r [] := by
          intro size fuel
          induction fuel with
          | zero => intro _ _ _ _ _ _ h; cases h
          | succ fuel ih =>
            intro pos met vals used rest r h
            rw [headerItems] at h ⊢
            by_cases hp : pos = size
            · rw [if_pos hp] at h ⊢
              have e := (Res.ok.inj h).2
              have := congrArg List.length e
              rw [List.length_append] at this
              have e6 : used = [] := List.length_eq_zero_iff.mp (by omega)
              have e7 := (Res.ok.inj h).1
              rw [e6, ← e7]; rfl
            · rw [if_neg hp] at h ⊢
              obtain ⟨t, mid, q1, q2⟩ := andThen_ok h
              obtain ⟨w, hw, hws⟩ := headerItems_size size fuel q2
              subst hw
              obtain ⟨u, hu⟩ := (Mono.counted (headerItem_mono met)).suffix q1
              rw [← List.append_assoc] at hu
              have hu := List.append_cancel_right hu
              subst hu
              have q3 : Rd.counted (headerItem met) (u ++ w) = .ok t w := by
                have hi : ∀ {x : Nat × List Nat × Option Nat} {u rest : List Nat}, headerItem met (u ++ rest) = .ok x rest → headerItem met u = .ok x [] := by
                  intro x u rest hx
                  obtain ⟨tt, n1, j1, j2⟩ := andThen_ok hx
                  obtain ⟨ee, a1, a2, a3, a4⟩ := readTag_ok j1
                  obtain ⟨v, n2, j3, j4⟩ := andThen_ok j2
                  obtain ⟨l, rfl, hl⟩ := base128_split j3
                  by_cases hsec : tt.2.1 = true
                  · rw [if_pos hsec] at j4
                    obtain ⟨p, n3, j5, j6⟩ := andThen_ok j4
                    obtain ⟨rfl, hp⟩ := bytes_ok j5
                    cases j6
                    have hu2 : u = (tt.1 * 8 + if tt.2.1 = true then 2 else 0) :: (l ++ p) := by
                      have : u ++ rest = ((tt.1 * 8 + if tt.2.1 = true then 2 else 0) :: (l ++ p)) ++ rest := by rw [ee]; simp
                      exact List.append_cancel_right this
                    subst hu2
                    rw [if_pos hsec]
                    unfold headerItem
                    have e8 : readTag met ((tt.1 * 8 + 2) :: (l ++ p)) = .ok (tt.1, true, tt.1 :: met) (l ++ p) := readTag_section a1 a2 a3
                    rw [andThen_eq e8, andThen_eq (base128_append hl)]
                    simp only [↓reduceIte]
                    have := bytes_append (p := p) (rest := [])
                    rw [List.append_nil, hp] at this
                    rw [andThen_eq this, a4]
                    rfl
                  · rw [if_neg hsec] at j4
                    cases j4
                    have hu2 : u = (tt.1 * 8 + if tt.2.1 = true then 2 else 0) :: l := by
                      have : u ++ rest = ((tt.1 * 8 + if tt.2.1 = true then 2 else 0) :: l) ++ rest := by rw [ee]; simp
                      exact List.append_cancel_right this
                    subst hu2
                    rw [if_neg hsec]
                    unfold headerItem
                    have e8 : readTag met ((tt.1 * 8 + 0) :: l) = .ok (tt.1, false, tt.1 :: met) l := readTag_value a1 a2 a3
                    rw [andThen_eq e8, andThen_eq hl, a4]
                    rfl
                unfold Rd.counted at q1 ⊢
                cases hx : headerItem met (u ++ (w ++ rest)) with
                | ok x m =>
                  rw [List.append_assoc, hx] at q1
                  have e9 := Res.ok.inj q1
                  have hm : m = w ++ rest := e9.2
                  subst hm
                  have := (headerItem_mono met).ok (hi hx) w
                  rw [this]
                  rw [← e9.1]
                  simp
                | needMore => rw [List.append_assoc, hx] at q1; cases q1
                | invalid => rw [List.append_assoc, hx] at q1; cases q1
              rw [andThen_eq q3]
              exact ih q2
        exact key _ _ hk4
      unfold readHeader at hx
      have e8 : readTag [1] (0x12 :: (len ++ hdr)) = .ok (2, true, [2, 1]) (len ++ hdr) := readTag_section (tag := 2) (by omega) (by omega) (by simp)
      rw [andThen_eq e8] at hx
      simp only [and_self, ↓reduceIte] at hx
      rw [andThen_eq (base128_append hlen)] at hx
      have e9 : readHeaderBody hdr.length hdr = .ok hh [] := by
        unfold readHeaderBody
        rw [andThen_eq h5]
        rw [(ofOption_ok hk5).1]; rfl
      rw [andThen_eq e9] at hx
      cases hx
  · intro i hi
    obtain ⟨a, b, c, d⟩ := o2 i hi
    simp only [List.mem_cons, List.not_mem_nil, or_false, not_or] at a
    exact ⟨by omega, c, a.1, d⟩
  · intro pre i post he
    obtain ⟨a, b, _⟩ := o3 pre i post he
    have hr : ∀ r, r ∈ requires i.tag → r ≠ 9 → r ≠ 2 → r ≠ 1 → r ∈ pre.map Item.tag := by
      intro r hr h9 h2 h1
      rcases a r hr with hm | hm
      · simp only [List.mem_cons, List.not_mem_nil, or_false] at hm; omega
      · exact hm
    refine ⟨fun h => hr 4 ?_ (by omega) (by omega) (by omega), fun h => ⟨hr 5 ?_ (by omega) (by omega) (by omega), hr 6 ?_ (by omega) (by omega) (by omega)⟩,
      fun h => ⟨hr 7 ?_ (by omega) (by omega) (by omega), b h⟩⟩
    · unfold requires; rw [if_pos h]; simp
    · rw [h]; decide
    · rw [h]; decide
    · rw [h]; decide

/-- **C24 (2).** Every file that is decoded starts with the signature. -/
theorem C24_signature {σ : Type} (init : Header → Option σ) (body : σ → Nat → List Nat → Option σ) (bs : List Nat) (c : Content σ)
    (h : decodeFile init body bs = .ok c []) : ∃ rest, bs = [0x0A, 0x04, 0x42, 0xD2, 0xD5, 0x4E] ++ rest := by
  unfold decodeFile at h
  cases hx : readFile init body bs with
  | needMore => rw [hx] at h; cases h
  | invalid => rw [hx] at h; cases h
  | ok c' rest =>
    obtain ⟨_, m1, h1, _⟩ := andThen_ok hx
    obtain ⟨sg, m, k1, k2⟩ := andThen_ok h1
    by_cases hs : sg = kBrunsliSignature
    · exact ⟨m, by rw [(bytes_ok k1).1, hs]; rfl⟩
    · rw [if_neg hs] at k2; cases k2

/-- **C24 (3).** A file that is decoded and then cut at any point is reported as incomplete. -/
theorem C24_prefix_incomplete {σ : Type} (init : Header → Option σ) (body : σ → Nat → List Nat → Option σ) (p ext : List Nat) (c : Content σ)
    (h : decodeFile init body (p ++ ext) = .ok c []) (hext : ext ≠ []) : decodeFile init body p = .needMore := decodeFile_prefix h hext

/-- **C24 (4).** A file that is decoded is invalid when anything follows it. -/
theorem C24_trailing_rejected {σ : Type} (init : Header → Option σ) (body : σ → Nat → List Nat → Option σ) (bs ext : List Nat) (c : Content σ)
    (h : decodeFile init body bs = .ok c []) (hext : ext ≠ []) : decodeFile init body (bs ++ ext) = .invalid := by
  unfold decodeFile at h ⊢
  cases hx : readFile init body bs with
  | needMore => rw [hx] at h; cases h
  | invalid => rw [hx] at h; cases h
  | ok c' rest =>
    rw [hx] at h
    simp only at h
    split at h
    · rename_i hr
      subst hr
      rw [(readFile_mono init body).ok hx ext]
      simp [hext]
    · cases h

/-- A toy image: the payloads of its sections. -/
def toyBody (s : List (Nat × List Nat)) (tag : Nat) (p : List Nat) : Option (List (Nat × List Nat)) := some (s ++ [(tag, p)])

/-- Non-vacuity: a file with internals, metadata, tables, histograms, an unknown section, DC and AC data. -/
example : decodeFile (fun _ => some []) toyBody (kBrunsliSignature ++ [0x12, 8, 8, 9, 16, 7, 24, 0, 32, 0,
    0x22, 1, 77, 0x1A, 0, 0x2A, 2, 1, 2, 0x7A, 1, 0, 0x32, 1, 5, 0x3A, 2, 3, 4, 0x42, 2, 8, 9]) =
    .ok (.image [(4, [77]), (3, []), (5, [1, 2]), (6, [5]), (7, [3, 4]), (8, [8, 9])]) [] := by decide +kernel

end Brunsli
