import Verif.WidthSub
/-!
# Files whose numbers fit

A file that is accepted with wide words is accepted with narrow ones, with the same result, unless a number in it does not fit;
files made by the encoder have no such number.
-/

namespace Brunsli

open Rd

/-- Somewhere in `bs` stands a number item, in the header or at top level, that does not fit in `W` bits. -/
def BigNumber (W : Nat) (bs : List Nat) : Prop :=
  ∃ (pre : List Nat) (tag : Nat) (len post : List Nat) (v : Nat), bs = pre ++ (tag * 8) :: (len ++ post) ∧ 1 ≤ tag ∧ tag ≤ 15 ∧
    decodeBase128 len = .ok v [] ∧ 2 ^ W ≤ v

theorem BigNumber.append {W : Nat} {u bs : List Nat} (h : BigNumber W bs) : BigNumber W (u ++ bs) := by
  obtain ⟨pre, tag, len, post, v, rfl, h⟩ := h
  exact ⟨u ++ pre, tag, len, post, v, by simp, h⟩

theorem BigNumber.cons {W x : Nat} {bs : List Nat} (h : BigNumber W bs) : BigNumber W (x :: bs) := BigNumber.append (u := [x]) h

/-- The end of a section that is there. -/
theorem enter_fits {W total : Nat} (ht : total < 2 ^ W) {bs rest : List Nat} {v : Nat} (h : decodeBase128 bs = .ok v rest) (hb : rest.length ≤ total)
    (hv : v ≤ rest.length) : enterSection W total bs = .ok (v, posOf total rest + v) rest :=
  enterSection_ok h (by unfold posOf; omega)

theorem readSectionsW_fits {σ : Type} {W total : Nat} (ht : total < 2 ^ W) {body : σ → Nat → List Nat → Option σ} (fuel : Nat) :
    ∀ {met : List Nat} {s s' : σ} {bs rest : List Nat}, readSections body fuel met s bs = .ok s' rest → bs.length ≤ total →
      BigNumber W bs ∨ readSectionsW W total body fuel met s bs = .ok s' rest := by
  induction fuel with
  | zero => intro _ _ _ _ _ h; cases h
  | succ fuel ih =>
    intro met s s' bs rest h hb
    rw [readSections] at h
    rw [readSectionsW]
    have hx := andThen_ok h
    clear h
    obtain ⟨t, r1, e1, h⟩ := hx
    rw [andThen_eq e1]
    obtain ⟨e0, a1, a2, a3, a4⟩ := readTag_ok e1
    subst e0
    rw [List.length_cons] at hb
    by_cases hs : t.2.1 = true
    · rw [if_pos hs] at h
      rw [if_pos hs, if_pos hs]
      have hx := andThen_ok h
      clear h
      obtain ⟨v, r2, e2, h⟩ := hx
      obtain ⟨len, rfl, hl⟩ := base128_split e2
      rw [List.length_append] at hb
      by_cases h9 : 9 < t.1
      · rw [if_pos h9] at h
        have hx := andThen_ok h
        clear h
        obtain ⟨p, r3, e3, h⟩ := hx
        have e3' := e3
        obtain ⟨rfl, hp⟩ := bytes_ok e3
        rw [List.length_append] at hb
        rw [andThen_eq (enter_fits ht e2 (by rw [List.length_append]; omega) (by rw [List.length_append]; omega)), if_pos h9]
        rw [andThen_eq ((skipTo_add total v _).trans e3')]
        rcases ih h (by omega) with g | g
        · exact .inl (BigNumber.cons (BigNumber.append (BigNumber.append g)))
        · exact .inr g
      · rw [if_neg h9] at h
        by_cases hr : ((requires t.1).any fun r => r ∉ met) = true
        · rw [if_pos hr] at h; cases h
        · rw [if_neg hr] at h
          by_cases hw : wordSection t.1 = true ∧ v % 2 ≠ 0
          · rw [if_pos hw] at h; cases h
          · rw [if_neg hw] at h
            have hx := andThen_ok h
            clear h
            obtain ⟨p, r3, e3, h⟩ := hx
            have e3' := e3
            obtain ⟨rfl, hp⟩ := bytes_ok e3
            rw [List.length_append] at hb
            rw [andThen_eq (enter_fits ht e2 (by rw [List.length_append]; omega) (by rw [List.length_append]; omega)), if_neg h9, if_neg hr]
            have hw' : ¬ (wordSection t.1 = true ∧ remainingLength (posOf total (p ++ r3) + v) (posOf total (p ++ r3)) % 2 ≠ 0) := by
              rw [remaining_add]; exact hw
            have hx := andThen_ok h
            clear h
            obtain ⟨s1, r4, e4, h⟩ := hx
            obtain ⟨e4', rfl⟩ := ofOption_ok e4
            have front : ∀ X : Rd σ, (if wordSection t.1 = true ∧ remainingLength (posOf total (p ++ r3) + v) (posOf total (p ++ r3)) % 2 ≠ 0 then Res.invalid
                else Rd.andThen (sectionPayload total (posOf total (p ++ r3) + v)) (fun payload =>
                  Rd.andThen (Rd.ofOption (body s t.1 payload)) fun s =>
                    if t.1 = 8 then Rd.ret s else readSectionsW W total body fuel t.2.2 s) (p ++ r3)) =
                (if t.1 = 8 then Rd.ret s1 else readSectionsW W total body fuel t.2.2 s1) r3 := by
              intro _
              rw [if_neg hw', andThen_eq ((payload_add total v _).trans e3'), andThen_eq e4]
            refine (?_ : _ ∨ (if wordSection t.1 = true ∧ remainingLength (posOf total (p ++ r3) + v) (posOf total (p ++ r3)) % 2 ≠ 0 then Res.invalid
                else Rd.andThen (sectionPayload total (posOf total (p ++ r3) + v)) (fun payload =>
                  Rd.andThen (Rd.ofOption (body s t.1 payload)) fun s =>
                    if t.1 = 8 then Rd.ret s else readSectionsW W total body fuel t.2.2 s) (p ++ r3)) = _)
            rw [front Rd.fail]
            by_cases h8 : t.1 = 8
            · rw [if_pos h8] at h ⊢
              exact .inr h
            · rw [if_neg h8] at h ⊢
              rcases ih h (by omega) with g | g
              · exact .inl (BigNumber.cons (BigNumber.append (BigNumber.append g)))
              · exact .inr g
    · rw [if_neg hs] at h
      rw [if_neg hs, if_neg hs]
      by_cases h9 : t.1 ≤ 9
      · rw [if_pos h9] at h; cases h
      · rw [if_neg h9] at h ⊢
        have hx := andThen_ok h
        clear h
        obtain ⟨v, r2, e2, h⟩ := hx
        obtain ⟨len, rfl, hl⟩ := base128_split e2
        rw [List.length_append] at hb
        by_cases hv : v < 2 ^ W
        · rw [andThen_eq (base128W_ok e2 hv)]
          rcases ih h (by omega) with g | g
          · exact .inl (BigNumber.cons (BigNumber.append g))
          · exact .inr g
        · exact .inl ⟨[], t.1, len, r2, v, by simp, a1, a2, hl, by omega⟩

theorem headerItemsW_fits {W total base size : Nat} (ht : total < 2 ^ W) (fuel : Nat) : ∀ {pos : Nat} {met vals bs rest : List Nat} {r : List Nat × List Nat},
    bs.length ≤ total → posOf total bs = base + pos → headerItems size fuel pos met vals bs = .ok r rest →
    BigNumber W bs ∨ headerItemsW W total (base + size) fuel met vals bs = .ok r rest := by
  induction fuel with
  | zero => intro _ _ _ _ _ _ _ _ h; cases h
  | succ fuel ih =>
    intro pos met vals bs rest r hb hp h
    rw [headerItems] at h
    rw [headerItemsW]
    refine (?_ : _ ∨ (if posOf total bs = base + size then _ else _) = _)
    by_cases hc : pos = size
    · rw [if_pos hc] at h
      rw [if_pos (by omega)]
      exact .inr h
    · rw [if_neg hc] at h
      rw [if_neg (by omega)]
      have hx := andThen_ok h
      clear h
      obtain ⟨t, r1, e1, h⟩ := hx
      unfold Rd.counted at e1
      cases e2 : headerItem met bs with
      | needMore => rw [e2] at e1; cases e1
      | invalid => rw [e2] at e1; cases e1
      | ok t' r1' =>
        rw [e2] at e1
        cases e1
        have e2' := e2
        obtain ⟨u, rfl⟩ := (headerItem_mono met).suffix e2
        have hl : (u ++ r1).length - r1.length = u.length := by rw [List.length_append]; omega
        rw [hl] at h
        rcases ih (by rw [List.length_append] at hb; omega) (by rw [posOf_append hb, hp]; omega) h with g | g
        · exact .inl (BigNumber.append g)
        · by_cases hbig : BigNumber W (u ++ r1)
          · exact .inl hbig
          · refine .inr ?_
            have e3 : headerItemW W met (u ++ r1) = .ok t' r1 := by
              unfold headerItem at e2'
              unfold headerItemW
              have hx := andThen_ok e2'
              clear e2'
              obtain ⟨a, m1, k1, k⟩ := hx
              rw [andThen_eq k1]
              have hx := andThen_ok k
              clear k
              obtain ⟨v, m2, k2, k⟩ := hx
              obtain ⟨k0, a1, a2, _, _⟩ := readTag_ok k1
              obtain ⟨len, rfl, hl⟩ := base128_split k2
              have hv : v < 2 ^ W := by
                by_cases hs : a.2.1 = true
                · rw [if_pos hs] at k
                  obtain ⟨p, m3, k3, _⟩ := andThen_ok k
                  obtain ⟨rfl, hpl⟩ := bytes_ok k3
                  rw [k0] at hb
                  simp only [List.length_cons, List.length_append] at hb
                  omega
                · rw [if_neg hs] at k0
                  by_cases hv : v < 2 ^ W
                  · exact hv
                  · exact absurd ⟨[], a.1, len, m2, v, by rw [k0]; rfl, a1, a2, hl, by omega⟩ hbig
              rw [andThen_eq (base128W_ok k2 hv)]
              exact k
            rw [andThen_eq e3]
            exact g

theorem headerItems_reaches {size : Nat} (fuel : Nat) : ∀ {pos : Nat} {met vals bs rest : List Nat} {r : List Nat × List Nat},
    headerItems size fuel pos met vals bs = .ok r rest → pos + bs.length = size + rest.length := by
  induction fuel with
  | zero => intro _ _ _ _ _ _ h; cases h
  | succ fuel ih =>
    intro pos met vals bs rest r h
    rw [headerItems] at h
    by_cases hc : pos = size
    · rw [if_pos hc] at h
      cases h
      omega
    · rw [if_neg hc] at h
      have hx := andThen_ok h
      clear h
      obtain ⟨t, r1, e1, h⟩ := hx
      unfold Rd.counted at e1
      cases e2 : headerItem met bs with
      | needMore => rw [e2] at e1; cases e1
      | invalid => rw [e2] at e1; cases e1
      | ok t' r1' =>
        rw [e2] at e1
        cases e1
        obtain ⟨u, rfl⟩ := (headerItem_mono met).suffix e2
        have := ih h
        simp only [List.length_append] at this ⊢
        omega

theorem readHeaderW_fits {W total : Nat} (ht : total < 2 ^ W) {met bs rest : List Nat} {r : Header × List Nat} (hb : bs.length ≤ total)
    (h : readHeader met bs = .ok r rest) : BigNumber W bs ∨ readHeaderW W total met bs = .ok r rest := by
  unfold readHeader at h
  unfold readHeaderW
  have hx := andThen_ok h
  clear h
  obtain ⟨t, r1, e1, h⟩ := hx
  obtain ⟨u1, rfl⟩ := (Mono.readTag met).suffix e1
  rw [andThen_eq e1]
  by_cases hc : t.1 = 2 ∧ t.2.1 = true
  · rw [if_pos hc] at h ⊢
    have hx := andThen_ok h
    clear h
    obtain ⟨v, r2, e2, h⟩ := hx
    have e2' := e2
    obtain ⟨u2, rfl⟩ := Mono.decodeBase128.suffix e2
    have hb2 : r2.length ≤ total := by simp only [List.length_append] at hb; omega
    have hx := andThen_ok h
    clear h
    obtain ⟨hd, r3, e3, h⟩ := hx
    unfold readHeaderBody at e3
    have hx := andThen_ok e3
    clear e3
    obtain ⟨mv, r4, e4, e5⟩ := hx
    have hv := headerItems_reaches 16 e4
    rw [andThen_eq (enter_fits ht e2' hb2 (by omega))]
    rcases headerItemsW_fits (base := posOf total r2) ht 16 hb2 rfl e4 with g | g
    · exact .inl (BigNumber.append (BigNumber.append g))
    · refine .inr ?_
      have e6 : (Rd.andThen (headerItemsW W total (posOf total r2 + v) 16 [] (List.replicate 16 0)) fun t => Rd.ofOption (headerFinale t.1 t.2)) r2 =
          .ok hd r3 := by
        rw [andThen_eq g]
        exact e5
      rw [andThen_eq e6]
      exact h
  · rw [if_neg hc] at h; cases h

theorem readOriginalW_fits {W total : Nat} (ht : total < 2 ^ W) {met bs rest d : List Nat} (hb : bs.length ≤ total)
    (h : readOriginal met bs = .ok d rest) : readOriginalW W total met bs = .ok d rest := by
  unfold readOriginal at h
  unfold readOriginalW
  have hx := andThen_ok h
  clear h
  obtain ⟨t, r1, e1, h⟩ := hx
  obtain ⟨u1, rfl⟩ := (Mono.readTag met).suffix e1
  rw [andThen_eq e1]
  by_cases hc : t.1 = 9 ∧ t.2.1 = true
  · rw [if_pos hc] at h ⊢
    have hx := andThen_ok h
    clear h
    obtain ⟨v, r2, e2, h⟩ := hx
    have e2' := e2
    have h' := h
    obtain ⟨u2, rfl⟩ := Mono.decodeBase128.suffix e2
    obtain ⟨rfl, hl⟩ := bytes_ok h
    simp only [List.length_append] at hb
    rw [andThen_eq (enter_fits ht e2' (by rw [List.length_append]; omega) (by rw [List.length_append]; omega))]
    exact h'
  · rw [if_neg hc] at h; cases h

theorem read_of_decodeFile {σ : Type} {init : Header → Option σ} {body : σ → Nat → List Nat → Option σ} {bs rest : List Nat} {c : Content σ}
    (h : decodeFile init body bs = .ok c rest) : readFile init body bs = .ok c [] ∧ rest = [] := by
  unfold decodeFile at h
  cases hx : readFile init body bs with
  | ok c' r =>
    rw [hx] at h
    change (if r = [] then _ else _) = _ at h
    by_cases hr : r = []
    · rw [if_pos hr] at h
      subst hr
      cases h
      exact ⟨rfl, rfl⟩
    · rw [if_neg hr] at h; cases h
  | needMore => rw [hx] at h; cases h
  | invalid => rw [hx] at h; cases h

theorem decodeFileW_of_read {σ : Type} {W : Nat} {init : Header → Option σ} {body : σ → Nat → List Nat → Option σ} {bs : List Nat} {c : Content σ}
    (h : readFileW W bs.length init body bs = .ok c []) : decodeFileW W init body bs = .ok c [] := by
  unfold decodeFileW
  rw [h]
  rfl

/-- What is accepted is accepted with narrow words, if its numbers fit. -/
theorem decodeFileW_fits {σ : Type} {W : Nat} {init : Header → Option σ} {body : σ → Nat → List Nat → Option σ} {bs : List Nat} {c : Content σ}
    (ht : bs.length < 2 ^ W) (h : decodeFile init body bs = .ok c []) : BigNumber W bs ∨ decodeFileW W init body bs = .ok c [] := by
  replace h := (read_of_decodeFile h).1
  by_cases hn : BigNumber W bs
  · exact .inl hn
  refine .inr (decodeFileW_of_read ?_)
  generalize hT : bs.length = total at ht ⊢
  have hb : bs.length ≤ total := by omega
  clear hT
  unfold readFile at h
  unfold readFileW
  have hx := andThen_ok h
  clear h
  obtain ⟨_, r1, e1, h⟩ := hx
  rw [andThen_eq e1]
  obtain ⟨u1, rfl⟩ := readSignature_mono.suffix e1
  have hb1 : r1.length ≤ total := by rw [List.length_append] at hb; omega
  have hx := andThen_ok h
  clear h
  obtain ⟨t, r2, e2, h⟩ := hx
  have e2' := (readHeaderW_fits ht hb1 e2).resolve_left fun g => hn (BigNumber.append g)
  rw [andThen_eq e2']
  obtain ⟨u2, rfl⟩ := (readHeader_mono [1]).suffix e2
  have hb2 : r2.length ≤ total := by rw [List.length_append] at hb1; omega
  by_cases hc : t.1.version = 1
  · rw [if_pos hc] at h ⊢
    have hx := andThen_ok h
    clear h
    obtain ⟨d, r3, e3, h⟩ := hx
    rw [andThen_eq (readOriginalW_fits ht hb2 e3)]
    exact h
  · rw [if_neg hc] at h ⊢
    have hx := andThen_ok h
    clear h
    obtain ⟨s0, r3, e3, h⟩ := hx
    rw [andThen_eq e3]
    obtain ⟨e3', rfl⟩ := ofOption_ok e3
    have hx := andThen_ok h
    clear h
    obtain ⟨s, r4, e4, h⟩ := hx
    rw [andThen_eq ((readSectionsW_fits ht 16 e4 hb2).resolve_left fun g => hn (BigNumber.append (BigNumber.append g)))]
    exact h

/-! ## Files made by the encoder -/

theorem readSectionsW_items {σ : Type} {W total : Nat} (ht : total < 2 ^ W) {body : σ → Nat → List Nat → Option σ} (fuel : Nat) :
    ∀ {met : List Nat} {s s' : σ} {items : List Item} {rest : List Nat}, items.length ≤ fuel → okOrder met items → (∀ i ∈ items, i.isSec = true) →
      (items.flatMap Item.bytes ++ rest).length ≤ total → items.foldlM (Item.run body) s = some s' →
      readSectionsW W total body fuel met s (items.flatMap Item.bytes ++ rest) = .ok s' rest := by
  induction fuel with
  | zero =>
    intro met s s' items rest hf ho _ _ _
    have : items = [] := List.length_eq_zero_iff.mp (by omega)
    subst this; exact ho.elim
  | succ fuel ih =>
    intro met s s' items rest hf ho hsec hb hr
    cases items with
    | nil => exact ho.elim
    | cons i l =>
      obtain ⟨tag, isSec, len, payload⟩ := i
      have his : isSec = true := hsec _ List.mem_cons_self
      subst his
      have hsec' : ∀ i ∈ l, i.isSec = true := fun i hi => hsec i (List.mem_cons_of_mem _ hi)
      obtain ⟨h1, ⟨h2, h3, v, h4, h5⟩, h6, h7⟩ := ho
      simp only [↓reduceIte] at h1 h2 h3 h4 h5 h6 h7
      rw [List.length_cons] at hf
      rw [List.foldlM_cons] at hr
      rw [List.flatMap_cons, List.append_assoc] at hb ⊢
      generalize htl : l.flatMap Item.bytes ++ rest = tl at hb ⊢
      have eb : Item.bytes ⟨tag, true, len, payload⟩ ++ tl = (tag * 8 + 2) :: (len ++ (payload ++ tl)) := by simp [Item.bytes]
      rw [eb] at hb ⊢
      simp only [List.length_cons, List.length_append] at hb
      have e1 : readTag met ((tag * 8 + 2) :: (len ++ (payload ++ tl))) = .ok (tag, true, tag :: met) (len ++ (payload ++ tl)) := by
        simpa [sectionMarker] using readTag_section (bs := len ++ (payload ++ tl)) h2 h3 h1
      have e2 := enter_fits (total := total) (W := W) ht (base128_append (rest := payload ++ tl) h4) (by rw [List.length_append]; omega)
        (by rw [List.length_append]; omega)
      have e3 : Rd.bytes v (payload ++ tl) = .ok payload tl := by rw [← h5]; exact bytes_append
      rw [readSectionsW, andThen_eq e1]
      simp only [↓reduceIte]
      rw [andThen_eq e2]
      by_cases h9 : 9 < tag
      · rw [if_pos h9, andThen_eq ((skipTo_add total v _).trans e3)]
        have hrun : Item.run body s ⟨tag, true, len, payload⟩ = some s := by unfold Item.run; rw [if_neg (by simp only; omega)]
        rw [hrun] at hr
        rw [if_neg (by omega)] at h7
        subst htl
        exact ih (by omega) h7 hsec' (by omega) hr
      · obtain ⟨k1, k2⟩ := h6 (by omega)
        have hreq : ¬ ((requires tag).any fun r => r ∉ met) = true := by
          intro ha
          obtain ⟨r, hr1, hr2⟩ := List.any_eq_true.mp ha
          exact absurd (k1 r hr1) (by simpa using hr2)
        have hw : ¬ (wordSection tag = true ∧ remainingLength (posOf total (payload ++ tl) + v) (posOf total (payload ++ tl)) % 2 ≠ 0) := by
          rw [remaining_add]
          rintro ⟨a, b⟩
          exact b (by rw [← h5]; exact k2 a)
        rw [if_neg h9, if_neg hreq]
        refine (if_neg hw).trans ?_
        rw [andThen_eq ((payload_add total v _).trans e3)]
        have hrun : Item.run body s ⟨tag, true, len, payload⟩ = body s tag payload := by
          unfold Item.run; rw [if_pos ⟨rfl, by simp only; omega⟩]
        rw [hrun] at hr
        cases hbd : body s tag payload with
        | none => rw [hbd] at hr; cases hr
        | some s1 =>
          rw [hbd] at hr
          rw [andThen_eq (p := Rd.ofOption (some s1)) (a := s1) (mid := tl) rfl]
          by_cases h8 : tag = 8
          · rw [if_pos h8] at h7 ⊢
            subst h7
            cases hr
            subst htl
            rfl
          · rw [if_neg h8] at h7 ⊢
            subst htl
            exact ih (by omega) h7 hsec' (by omega) hr

theorem headerItemW_value {W : Nat} {met : List Nat} {tag v : Nat} {rest : List Nat} (h1 : 0 < tag) (h2 : tag ≤ 15) (h3 : tag ∉ met)
    (hv : v < 2 ^ W) (hv' : v < 2 ^ 63) : headerItemW W met (encodeValue tag v ++ rest) = .ok (tag, tag :: met, some v) rest := by
  unfold headerItemW
  have e1 : readTag met (encodeValue tag v ++ rest) = .ok (tag, false, tag :: met) (encodeBase128 v ++ rest) := readTag_value h1 h2 h3
  rw [andThen_eq e1]
  have e2 : decodeBase128 (encodeBase128 v ++ rest) = .ok v rest := by
    have := decodeLoop_encode 9 v 0 0 rest (by simp) hv' (by omega)
    simpa [decodeBase128] using this
  rw [andThen_eq (base128W_ok e2 hv)]
  rfl

theorem posOf_skip {total : Nat} {u r : List Nat} (h : (u ++ r).length ≤ total) (hu : 0 < u.length) : posOf total (u ++ r) < posOf total r := by
  rw [posOf_append h]
  omega

theorem encodeValue_pos (t v : Nat) : 0 < (encodeValue t v).length := by simp [encodeValue]

theorem headerItemsW_step {W total fin fuel : Nat} {met vals : List Nat} {tag v : Nat} {rest : List Nat} (h1 : 0 < tag) (h2 : tag ≤ 15) (h3 : tag ∉ met)
    (hv : v < 2 ^ W) (hv' : v < 2 ^ 63) (hp : posOf total (encodeValue tag v ++ rest) < fin) :
    headerItemsW W total fin (fuel + 1) met vals (encodeValue tag v ++ rest) = headerItemsW W total fin fuel (tag :: met) (vals.set tag v) rest := by
  rw [headerItemsW]
  refine (if_neg (by omega)).trans ?_
  rw [andThen_eq (headerItemW_value h1 h2 h3 hv hv')]

theorem headerItemsW_encoded {W total : Nat} (hW : 32 ≤ W) {h : Header} (hok : h.Ok) {p rest : List Nat} (hp : encodeHeader h = some p)
    (hb : (p ++ rest).length ≤ total) :
    headerItemsW W total (posOf total (p ++ rest) + p.length) 16 [] (List.replicate 16 0) (p ++ rest) =
      .ok ([4, 3, 2, 1], [0, h.width, h.height, h.comps.length - 1 + h.version * 4, packSampling h.comps, 0, 0, 0, 0, 0, 0, 0, 0, 0, 0, 0]) rest := by
  have hv := hok.version
  have hw := hok.width
  have hh := hok.height
  have hn := hok.ncomp
  have hW' : 2 ^ 32 ≤ 2 ^ W := Nat.pow_le_pow_right (by omega) hW
  have hs : packSampling h.comps < 2 ^ 32 := by
    have h1 := packSampling_lt h.comps (fun c hc => by have := hok.factors c hc; omega)
    have h2 : 256 ^ h.comps.length ≤ 256 ^ 4 := Nat.pow_le_pow_right (by omega) hn.2
    have h3 : (256 : Nat) ^ 4 = 2 ^ 32 := by decide
    omega
  unfold encodeHeader at hp
  split at hp
  · cases hp
  split at hp
  · cases hp
  split at hp
  · cases hp
  have hp := (Option.some.inj hp).symm
  rw [← posOf_append hb]
  have q1 := encodeValue_pos 1 h.width
  have q2 := encodeValue_pos 2 h.height
  have q3 := encodeValue_pos 3 (h.comps.length - 1 + h.version * 4)
  have q4 := encodeValue_pos 4 (packSampling h.comps)
  have hlen := hb
  rw [hp] at hb ⊢
  simp only [List.append_assoc] at hb ⊢
  have b1 : (encodeValue 2 h.height ++ (encodeValue 3 (h.comps.length - 1 + h.version * 4) ++ (encodeValue 4 (packSampling h.comps) ++ rest))).length ≤ total := by
    rw [List.length_append] at hb; omega
  have b2 : (encodeValue 3 (h.comps.length - 1 + h.version * 4) ++ (encodeValue 4 (packSampling h.comps) ++ rest)).length ≤ total := by
    rw [List.length_append] at b1; omega
  have b3 : (encodeValue 4 (packSampling h.comps) ++ rest).length ≤ total := by
    rw [List.length_append] at b2; omega
  have p1 := posOf_skip hb q1
  have p2 := posOf_skip b1 q2
  have p3 := posOf_skip b2 q3
  have p4 := posOf_skip b3 q4
  rw [headerItemsW_step (by omega) (by omega) (by simp) (by omega) (by omega) (by omega),
    headerItemsW_step (by omega) (by omega) (by simp) (by omega) (by omega) (by omega),
    headerItemsW_step (by omega) (by omega) (by simp) (by omega) (by omega) (by omega),
    headerItemsW_step (by omega) (by omega) (by simp) (by omega) (by omega) (by omega), headerItemsW]
  exact if_pos rfl

theorem readHeaderW_encoded {W total : Nat} (hW : 32 ≤ W) (ht : total < 2 ^ W) {h : Header} {s rest met : List Nat} (hok : h.Ok) (hmet : 2 ∉ met)
    (hs : encodeHeaderSection h = some s) (hb : (s ++ rest).length ≤ total) : readHeaderW W total met (s ++ rest) = .ok (h, 2 :: met) rest := by
  unfold encodeHeaderSection at hs
  obtain ⟨p, hp⟩ := encodeHeader_some hok
  rw [hp] at hs
  obtain ⟨a, b, c, d⟩ := encodeSection_frame (rest := rest) (met := met) (by omega) (by omega) (by omega) (by omega) hmet hs
  unfold readHeaderW
  rw [andThen_eq a]
  simp only [and_self, ↓reduceIte]
  obtain ⟨u1, hu1⟩ := (Mono.readTag met).suffix a
  obtain ⟨u2, hu2⟩ := Mono.decodeBase128.suffix b
  have hb1 : (p ++ rest).length ≤ total := by
    rw [hu1, List.length_append, hu2, List.length_append] at hb
    omega
  rw [andThen_eq (enter_fits ht b hb1 (by rw [List.length_append]; omega))]
  rw [andThen_eq (a := h) (mid := rest)]
  · rfl
  · rw [andThen_eq (headerItemsW_encoded hW hok hp hb1)]
    simp only
    rw [headerFinale_encoded hok]
    rfl

theorem decodeFileW_encoded {σ : Type} {W : Nat} (hW : 32 ≤ W) {init : Header → Option σ} {body : σ → Nat → List Nat → Option σ} {h : Header}
    {sections : List (Nat × Nat × List Nat)} {bs : List Nat} {s0 s : σ} (hok : h.Ok) (henc : encodeFile h sections = some bs)
    (hn : sections.length ≤ 15) (ht : bs.length < 2 ^ W)
    (hord : (∀ x ∈ sections, x.2.2.length < 2 ^ (7 * x.2.1)) → okOrder [9, 2, 1] (sections.map sectionItem))
    (hinit : init h = some s0) (hbody : (sections.map sectionItem).foldlM (Item.run body) s0 = some s) :
    decodeFileW W init body bs = .ok (.image s) [] := by
  unfold encodeFile at henc
  cases hs : encodeHeaderSection h with
  | none => rw [hs] at henc; cases henc
  | some hb =>
    rw [hs] at henc
    simp only [Option.map_eq_some_iff] at henc
    obtain ⟨t, h2, rfl⟩ := henc
    obtain ⟨rfl, hl⟩ := encodeSections_items h2
    have hv := hok.version
    apply decodeFileW_of_read
    generalize hT : (kBrunsliSignature ++ (hb ++ (sections.map sectionItem).flatMap Item.bytes)).length = total at ht ⊢
    have b1 : (hb ++ (sections.map sectionItem).flatMap Item.bytes).length ≤ total := by rw [List.length_append] at hT; omega
    have b2 : ((sections.map sectionItem).flatMap Item.bytes ++ []).length ≤ total := by rw [List.append_nil]; rw [List.length_append] at b1; omega
    unfold readFileW
    rw [andThen_eq readSignature_append, andThen_eq (readHeaderW_encoded hW ht hok (by simp) hs b1), if_neg (by simp only; omega)]
    simp only
    rw [hinit, andThen_eq (p := Rd.ofOption (some s0)) rfl]
    have := readSectionsW_items (W := W) ht (body := body) 16 (rest := []) (by rw [List.length_map]; omega) (hord hl)
      (fun i hi => by obtain ⟨x, _, rfl⟩ := List.mem_map.mp hi; rfl) b2 hbody
    rw [List.append_nil] at this
    rw [andThen_eq this]
    rfl

end Brunsli
