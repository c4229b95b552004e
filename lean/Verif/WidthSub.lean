import Verif.Width
/-!
# What a decoder with narrow words accepts

Only the length of a section that is skipped can wrap around without the file being rejected; without such sections the file is
accepted with words of any width.
-/

namespace Brunsli

open Rd

/-- In `bs`, which begins at position `k` of the file, there is an unknown section that ends at `2 ^ W` or behind. -/
def WrapsAt (W k : Nat) (bs : List Nat) : Prop :=
  ∃ (pre : List Nat) (tag : Nat) (len post : List Nat) (v : Nat), bs = pre ++ (tag * 8 + 2) :: (len ++ post) ∧ 9 < tag ∧ tag ≤ 15 ∧
    decodeBase128 len = .ok v [] ∧ 2 ^ W ≤ k + pre.length + 1 + len.length + v

theorem WrapsAt.append {W k : Nat} {u bs : List Nat} (h : WrapsAt W (k + u.length) bs) : WrapsAt W k (u ++ bs) := by
  obtain ⟨pre, tag, len, post, v, rfl, h1, h2, h3, h4⟩ := h
  exact ⟨u ++ pre, tag, len, post, v, by simp, h1, h2, h3, by rw [List.length_append]; omega⟩

theorem posOf_append {total : Nat} {u bs : List Nat} (h : (u ++ bs).length ≤ total) : posOf total bs = posOf total (u ++ bs) + u.length := by
  unfold posOf
  rw [List.length_append] at *
  omega

theorem readTag_again {met met' bs rest rest' : List Nat} {t : Nat × Bool × List Nat} (h : readTag met bs = .ok t rest) (hm : ∀ x ∈ met', x ∈ met) :
    readTag met' ((t.1 * 8 + if t.2.1 then 2 else 0) :: rest') = .ok (t.1, t.2.1, t.1 :: met') rest' := by
  obtain ⟨_, h2, h3, h4, _⟩ := readTag_ok h
  cases hs : t.2.1 with
  | true => simpa [sectionMarker] using readTag_section (bs := rest') h2 h3 (fun hc => h4 (hm _ hc))
  | false => simpa [valueMarker] using readTag_value (bs := rest') h2 h3 (fun hc => h4 (hm _ hc))

theorem readSections_more {σ : Type} {body : σ → Nat → List Nat → Option σ} (fuel : Nat) :
    ∀ {met : List Nat} {s s' : σ} {bs rest : List Nat}, readSections body fuel met s bs = .ok s' rest →
      readSections body (fuel + 1) met s bs = .ok s' rest := by
  induction fuel with
  | zero => intro _ _ _ _ _ h; cases h
  | succ fuel ih =>
    intro met s s' bs rest h
    rw [readSections] at h ⊢
    have hx := andThen_ok h
    clear h
    obtain ⟨t, r1, e1, h⟩ := hx
    rw [andThen_eq e1]
    by_cases hs : t.2.1 = true
    · rw [if_pos hs] at h ⊢
      have hx := andThen_ok h
      clear h
      obtain ⟨v, r2, e2, h⟩ := hx
      rw [andThen_eq e2]
      by_cases h9 : 9 < t.1
      · rw [if_pos h9] at h ⊢
        have hx := andThen_ok h
        clear h
        obtain ⟨p, r3, e3, h⟩ := hx
        rw [andThen_eq e3]
        exact ih h
      · rw [if_neg h9] at h ⊢
        by_cases hr : ((requires t.1).any fun r => r ∉ met) = true
        · rw [if_pos hr] at h; cases h
        · rw [if_neg hr] at h ⊢
          by_cases hp : wordSection t.1 = true ∧ v % 2 ≠ 0
          · rw [if_pos hp] at h; cases h
          · rw [if_neg hp] at h ⊢
            have hx := andThen_ok h
            clear h
            obtain ⟨p, r3, e3, h⟩ := hx
            rw [andThen_eq e3]
            have hx := andThen_ok h
            clear h
            obtain ⟨s1, r4, e4, h⟩ := hx
            rw [andThen_eq e4]
            by_cases h8 : t.1 = 8
            · rw [if_pos h8] at h ⊢; exact h
            · rw [if_neg h8] at h ⊢; exact ih h
    · rw [if_neg hs] at h ⊢
      by_cases h9 : t.1 ≤ 9
      · rw [if_pos h9] at h; cases h
      · rw [if_neg h9] at h ⊢
        have hx := andThen_ok h
        clear h
        obtain ⟨v, r2, e2, h⟩ := hx
        rw [andThen_eq e2]
        exact ih h

/-- The end of a section either is where it should be or has wrapped around. -/
theorem enter_cases {W total : Nat} {rest : List Nat} {e : Nat × Nat} (hv : e.1 < 2 ^ W) (ht : total < 2 ^ W)
    (he : e.2 = (posOf total rest + e.1) % 2 ^ W) :
    (posOf total rest + e.1 < 2 ^ W ∧ e.2 = posOf total rest + e.1) ∨ (2 ^ W ≤ posOf total rest + e.1 ∧ e.2 < posOf total rest) := by
  have hp : posOf total rest ≤ total := Nat.sub_le _ _
  by_cases h : posOf total rest + e.1 < 2 ^ W
  · exact .inl ⟨h, by rw [he, Nat.mod_eq_of_lt h]⟩
  · refine .inr ⟨by omega, ?_⟩
    rw [he, Nat.mod_eq_sub_mod (by omega), Nat.mod_eq_of_lt (by omega)]
    omega

theorem readSectionsW_sub {σ : Type} {W total : Nat} (ht : total < 2 ^ W) {body : σ → Nat → List Nat → Option σ} (fuel : Nat) :
    ∀ {met met' : List Nat} {s s' : σ} {bs rest : List Nat}, readSectionsW W total body fuel met s bs = .ok s' rest → bs.length ≤ total →
      (∀ x ∈ met', x ∈ met) → (∀ x ∈ met, x ≤ 9 → x ∈ met') →
      ∃ bs', readSections body fuel met' s bs' = .ok s' rest ∧ bs'.Sublist bs ∧ (bs' = bs ∨ WrapsAt W (posOf total bs) bs) := by
  induction fuel with
  | zero => intro _ _ _ _ _ _ h; cases h
  | succ fuel ih =>
    intro met met' s s' bs rest h hb hm hm'
    rw [readSectionsW] at h
    have hx := andThen_ok h
    clear h
    obtain ⟨t, r1, e1, h⟩ := hx
    have htag := readTag_ok e1
    obtain ⟨e0, a1, a2, a3, a4⟩ := htag
    have hmm : ∀ x ∈ t.1 :: met', x ∈ t.2.2 := by
      rw [a4]
      intro x hx
      rcases List.mem_cons.mp hx with rfl | hx
      · exact List.mem_cons_self
      · exact List.mem_cons_of_mem _ (hm x hx)
    have hmm' : ∀ x ∈ t.2.2, x ≤ 9 → x ∈ t.1 :: met' := by
      rw [a4]
      intro x hx h9
      rcases List.mem_cons.mp hx with rfl | hx
      · exact List.mem_cons_self
      · exact List.mem_cons_of_mem _ (hm' x hx h9)
    by_cases hs : t.2.1 = true
    · rw [if_pos hs] at h e0
      have hx := andThen_ok h
      clear h
      obtain ⟨e, r2, e2, h⟩ := hx
      obtain ⟨b1, b2, b3⟩ := enterSection_inv e2
      obtain ⟨len, rfl, hl⟩ := base128_split b1
      subst e0
      have hb2 : r2.length ≤ total := by rw [List.length_cons, List.length_append] at hb; omega
      have hpos : posOf total r2 = posOf total ((t.1 * 8 + 2) :: (len ++ r2)) + (len.length + 1) := by
        have := posOf_append (total := total) (u := (t.1 * 8 + 2) :: len) (bs := r2) (by simpa using hb)
        simpa using this
      have tagAgain : ∀ rest', readTag met' ((t.1 * 8 + 2) :: rest') = .ok (t.1, t.2.1, t.1 :: met') rest' := by
        intro rest'
        have := readTag_again (rest' := rest') e1 hm
        rwa [if_pos hs] at this
      rcases enter_cases b2 ht b3 with ⟨-, c2⟩ | ⟨c1, c2⟩
      · -- the end is where it should be
        rw [c2] at h
        by_cases h9 : 9 < t.1
        · rw [if_pos h9] at h
          have hx := andThen_ok h
          clear h
          obtain ⟨p, r3, e3, h⟩ := hx
          rw [skipTo_add] at e3
          obtain ⟨rfl, hp⟩ := bytes_ok e3
          obtain ⟨bs', g1, g2, g3⟩ := ih h (by rw [List.length_append] at hb2; omega) hmm hmm'
          refine ⟨(t.1 * 8 + 2) :: (len ++ (p ++ bs')), ?_, ?_, ?_⟩
          · rw [readSections, andThen_eq (tagAgain _)]
            simp only
            rw [if_pos hs, andThen_eq (base128_append hl), if_pos h9, ← hp, andThen_eq bytes_append]
            exact g1
          · exact (List.Sublist.append_left (List.Sublist.append_left g2 p) len).cons_cons _
          · rcases g3 with rfl | g3
            · exact .inl rfl
            · refine .inr ?_
              rw [posOf_append hb2, hpos] at g3
              have := WrapsAt.append (u := (t.1 * 8 + 2) :: (len ++ p)) (k := posOf total ((t.1 * 8 + 2) :: (len ++ (p ++ r3)))) (bs := r3)
                (by rw [List.length_cons, List.length_append]; rwa [show ∀ a b c : Nat, a + (b + 1) + c = a + (b + c + 1) from fun _ _ _ => by omega] at g3)
              simpa using this
        · rw [if_neg h9] at h
          by_cases hr : ((requires t.1).any fun r => r ∉ met) = true
          · rw [if_pos hr] at h; cases h
          · rw [if_neg hr] at h
            change (if wordSection t.1 = true ∧ remainingLength (posOf total r2 + e.1) (posOf total r2) % 2 ≠ 0 then _ else _) = _ at h
            rw [remaining_add] at h
            by_cases hp : wordSection t.1 = true ∧ e.1 % 2 ≠ 0
            · rw [if_pos hp] at h; cases h
            · rw [if_neg hp] at h
              have hx := andThen_ok h
              clear h
              obtain ⟨p, r3, e3, h⟩ := hx
              rw [payload_add] at e3
              obtain ⟨rfl, hpl⟩ := bytes_ok e3
              have hx := andThen_ok h
              clear h
              obtain ⟨s1, r4, e4, h⟩ := hx
              obtain ⟨hbody, rfl⟩ := ofOption_ok e4
              have hr' : ¬ ((requires t.1).any fun r => r ∉ met') = true := by
                intro hc
                obtain ⟨r, h1, h2⟩ := List.any_eq_true.mp hc
                apply hr
                refine List.any_eq_true.mpr ⟨r, h1, ?_⟩
                have hle : r ≤ 9 := by
                  unfold requires at h1
                  split at h1
                  · simp at h1; omega
                  · split at h1
                    · simp at h1; omega
                    · split at h1
                      · simp at h1; omega
                      · cases h1
                simp only [decide_eq_true_eq] at h2 ⊢
                exact fun hc => h2 (hm' r hc hle)
              have front : ∀ bs', readSections body (fuel + 1) met' s ((t.1 * 8 + 2) :: (len ++ (p ++ bs'))) =
                  (if t.1 = 8 then Rd.ret s1 else readSections body fuel (t.1 :: met') s1) bs' := by
                intro bs'
                rw [readSections, andThen_eq (tagAgain _)]
                simp only
                rw [if_pos hs, andThen_eq (base128_append hl), if_neg h9, if_neg hr', if_neg hp, ← hpl, andThen_eq bytes_append, hbody]
                rfl
              by_cases h8 : t.1 = 8
              · rw [if_pos h8] at h
                cases h
                refine ⟨(t.1 * 8 + 2) :: (len ++ (p ++ rest)), ?_, List.Sublist.refl _, .inl rfl⟩
                rw [front, if_pos h8]
                rfl
              · rw [if_neg h8] at h
                obtain ⟨bs', g1, g2, g3⟩ := ih h (by rw [List.length_append] at hb2; omega) hmm hmm'
                refine ⟨(t.1 * 8 + 2) :: (len ++ (p ++ bs')), ?_, ?_, ?_⟩
                · rw [front, if_neg h8]
                  exact g1
                · exact (List.Sublist.append_left (List.Sublist.append_left g2 p) len).cons_cons _
                · rcases g3 with rfl | g3
                  · exact .inl rfl
                  · refine .inr ?_
                    rw [posOf_append hb2, hpos] at g3
                    have := WrapsAt.append (u := (t.1 * 8 + 2) :: (len ++ p)) (k := posOf total ((t.1 * 8 + 2) :: (len ++ (p ++ r3)))) (bs := r3)
                      (by rw [List.length_cons, List.length_append]; rwa [show ∀ a b c : Nat, a + (b + 1) + c = a + (b + c + 1) from fun _ _ _ => by omega] at g3)
                    simpa using this
      · -- the end has wrapped around
        by_cases h9 : 9 < t.1
        · rw [if_pos h9] at h
          have hx := andThen_ok h
          clear h
          obtain ⟨p, r3, e3, h⟩ := hx
          have hz : remainingLength e.2 (posOf total r2) = 0 := by unfold remainingLength; rw [if_pos c2]
          unfold skipTo at e3
          rw [hz] at e3
          obtain ⟨rfl, hp⟩ := bytes_ok e3
          have hp0 : p = [] := List.length_eq_zero_iff.mp hp
          subst hp0
          rw [List.nil_append] at *
          obtain ⟨bs', g1, g2, -⟩ := ih (met' := met') h hb2 (fun x hx => by rw [a4]; exact List.mem_cons_of_mem _ (hm x hx)) (fun x hx hx9 => by
            rw [a4] at hx
            rcases List.mem_cons.mp hx with rfl | hx
            · omega
            · exact hm' x hx hx9)
          refine ⟨bs', readSections_more fuel g1, ?_, .inr ?_⟩
          · exact List.Sublist.trans g2 ((List.sublist_append_right len r3).cons _)
          · exact ⟨[], t.1, len, r3, e.1, rfl, h9, a2, hl, by rw [hpos] at c1; simp only [List.length_nil]; omega⟩
        · rw [if_neg h9] at h
          by_cases hr : ((requires t.1).any fun r => r ∉ met) = true
          · rw [if_pos hr] at h; cases h
          · rw [if_neg hr] at h
            change (if wordSection t.1 = true ∧ remainingLength e.2 (posOf total r2) % 2 ≠ 0 then _ else _) = _ at h
            split at h
            · cases h
            · have hx := andThen_ok h
              clear h
              obtain ⟨p, r3, e3, h⟩ := hx
              unfold sectionPayload at e3
              rw [if_pos c2] at e3
              cases e3
    · have hs' : t.2.1 = false := by simpa using hs
      rw [if_neg hs] at h e0
      by_cases h9 : t.1 ≤ 9
      · rw [if_pos h9] at h; cases h
      · rw [if_neg h9] at h
        have hx := andThen_ok h
        clear h
        obtain ⟨v, r2, e2, h⟩ := hx
        obtain ⟨len, rfl, hl⟩ := base128_split (base128W_inv e2).1
        subst e0
        have hb2 : r2.length ≤ total := by rw [List.length_cons, List.length_append] at hb; omega
        obtain ⟨bs', g1, g2, g3⟩ := ih h hb2 hmm hmm'
        refine ⟨(t.1 * 8 + 0) :: (len ++ bs'), ?_, (List.Sublist.append_left g2 len).cons_cons _, ?_⟩
        · have := readTag_again (rest' := len ++ bs') e1 hm
          rw [if_neg hs] at this
          rw [readSections, andThen_eq this]
          simp only
          rw [if_neg hs, if_neg h9, andThen_eq (base128_append hl)]
          exact g1
        · rcases g3 with rfl | g3
          · exact .inl rfl
          · refine .inr ?_
            have hpos := posOf_append (total := total) (u := (t.1 * 8 + 0) :: len) (bs := r2) (by simpa using hb)
            rw [hpos] at g3
            have := WrapsAt.append g3
            simpa using this

/-! ## Readers that use just what they take -/

/-- Only the bytes taken matter. -/
def TakesOnly {α : Type} (p : Rd α) : Prop := ∀ (u r : List Nat) (a : α), p (u ++ r) = .ok a r → ∀ r', p (u ++ r') = .ok a r'

theorem append_self_right {u r : List Nat} (h : u ++ r = r) : u = [] := by
  have := congrArg List.length h
  rw [List.length_append] at this
  exact List.length_eq_zero_iff.mp (by omega)

theorem TakesOnly.ret {α : Type} (a : α) : TakesOnly (Rd.ret a) := by
  intro u r b h r'
  have := (Res.ok.inj h).2
  rw [append_self_right this, List.nil_append, ← (Res.ok.inj h).1]
  rfl

theorem TakesOnly.fail {α : Type} : TakesOnly (Rd.fail : Rd α) := fun _ _ _ h => by cases h

theorem TakesOnly.ofOption {α : Type} (o : Option α) : TakesOnly (Rd.ofOption o) := by
  cases o with
  | none => exact TakesOnly.fail
  | some a => exact TakesOnly.ret a

theorem TakesOnly.bytes (n : Nat) : TakesOnly (Rd.bytes n) := by
  intro u r a h r'
  obtain ⟨h1, h2⟩ := bytes_ok h
  have : u = a := List.append_cancel_right h1
  subst this
  rw [← h2]
  exact bytes_append

theorem TakesOnly.decodeBase128 : TakesOnly decodeBase128 := by
  intro u r a h r'
  obtain ⟨l, h1, h2⟩ := base128_split h
  have : u = l := List.append_cancel_right h1
  subst this
  exact base128_append h2

theorem TakesOnly.readTag (met : List Nat) : TakesOnly (readTag met) := by
  intro u r t h r'
  obtain ⟨h1, _, _, _, h5⟩ := readTag_ok h
  have : u = [t.1 * 8 + if t.2.1 then 2 else 0] := List.append_cancel_right (h1.trans (List.singleton_append).symm)
  rw [this]
  have h2 := readTag_again (met' := met) (rest' := r') h (fun _ h => h)
  rw [← h5] at h2
  exact h2

theorem TakesOnly.andThen {α β : Type} {p : Rd α} {f : α → Rd β} (hp : TakesOnly p) (mp : Mono p) (hf : ∀ a, TakesOnly (f a)) (mf : ∀ a, Mono (f a)) :
    TakesOnly (Rd.andThen p f) := by
  intro u r b h r'
  obtain ⟨a, mid, h1, h2⟩ := andThen_ok h
  obtain ⟨v, rfl⟩ := (mf a).suffix h2
  obtain ⟨w, h3⟩ := mp.suffix h1
  have : u = w ++ v := List.append_cancel_right (h3.trans (List.append_assoc _ _ _).symm)
  subst this
  rw [List.append_assoc] at h1 ⊢
  rw [andThen_eq (hp _ _ _ h1 (v ++ r'))]
  exact hf a _ _ _ h2 r'

theorem TakesOnly.counted {α : Type} {p : Rd α} (hp : TakesOnly p) : TakesOnly (Rd.counted p) := by
  intro u r a h r'
  unfold Rd.counted at h ⊢
  cases h1 : p (u ++ r) with
  | ok b rest =>
    rw [h1] at h
    cases h
    rw [hp _ _ _ h1 r']
    simp
  | needMore => rw [h1] at h; cases h
  | invalid => rw [h1] at h; cases h

theorem TakesOnly.ite {α : Type} {c : Prop} [Decidable c] {p q : Rd α} (hp : TakesOnly p) (hq : TakesOnly q) : TakesOnly (if c then p else q) := by
  by_cases h : c
  · rw [if_pos h]; exact hp
  · rw [if_neg h]; exact hq

theorem readSignature_takes : TakesOnly readSignature :=
  (TakesOnly.bytes 6).andThen (Mono.bytes 6) (fun _ => TakesOnly.ite (TakesOnly.ret _) TakesOnly.fail) (fun _ => Mono.ite (Mono.ret _) Mono.fail)

theorem headerItem_takes (met : List Nat) : TakesOnly (headerItem met) :=
  (TakesOnly.readTag met).andThen (Mono.readTag met)
    (fun _ => TakesOnly.decodeBase128.andThen Mono.decodeBase128
      (fun _ => TakesOnly.ite ((TakesOnly.bytes _).andThen (Mono.bytes _) (fun _ => TakesOnly.ret _) (fun _ => Mono.ret _)) (TakesOnly.ret _))
      (fun _ => Mono.ite ((Mono.bytes _).andThen fun _ => Mono.ret _) (Mono.ret _)))
    (fun _ => Mono.decodeBase128.andThen fun _ => Mono.ite ((Mono.bytes _).andThen fun _ => Mono.ret _) (Mono.ret _))

theorem headerItems_takes (size fuel : Nat) : ∀ pos met vals, TakesOnly (headerItems size fuel pos met vals) := by
  induction fuel with
  | zero => intro _ _ _; exact TakesOnly.fail
  | succ fuel ih =>
    intro pos met vals
    exact TakesOnly.ite (TakesOnly.ret _) ((headerItem_takes met).counted.andThen (Mono.counted (headerItem_mono met)) (fun _ => ih _ _ _)
      (fun _ => headerItems_mono _ _ _ _ _))

theorem readHeaderBody_takes (size : Nat) : TakesOnly (readHeaderBody size) :=
  (headerItems_takes _ _ _ _ _).andThen (headerItems_mono _ _ _ _ _) (fun _ => TakesOnly.ofOption _) (fun _ => Mono.ofOption _)

theorem readHeader_takes (met : List Nat) : TakesOnly (readHeader met) :=
  (TakesOnly.readTag met).andThen (Mono.readTag met)
    (fun _ => TakesOnly.ite
      (TakesOnly.decodeBase128.andThen Mono.decodeBase128
        (fun _ => (readHeaderBody_takes _).andThen (readHeaderBody_mono _) (fun _ => TakesOnly.ret _) (fun _ => Mono.ret _))
        (fun _ => (readHeaderBody_mono _).andThen fun _ => Mono.ret _)) TakesOnly.fail)
    (fun _ => Mono.ite (Mono.decodeBase128.andThen fun _ => (readHeaderBody_mono _).andThen fun _ => Mono.ret _) Mono.fail)

/-! ## Header and file -/

theorem headerItemW_inv {W : Nat} {met bs rest : List Nat} {t : Nat × List Nat × Option Nat} (h : headerItemW W met bs = .ok t rest) :
    headerItem met bs = .ok t rest := by
  unfold headerItemW at h
  unfold headerItem
  have hx := andThen_ok h
  clear h
  obtain ⟨a, r1, e1, h⟩ := hx
  have hx := andThen_ok h
  clear h
  obtain ⟨v, r2, e2, h⟩ := hx
  rw [andThen_eq e1, andThen_eq (base128W_inv e2).1]
  exact h

theorem headerItemsW_wrapped {W total fin : Nat} (fuel : Nat) : ∀ {met vals bs rest : List Nat} {r : List Nat × List Nat}, bs.length ≤ total →
    fin < posOf total bs → headerItemsW W total fin fuel met vals bs ≠ .ok r rest := by
  induction fuel with
  | zero => intro _ _ _ _ _ _ _ h; cases h
  | succ fuel ih =>
    intro met vals bs rest r hb hf h
    rw [headerItemsW] at h
    change (if posOf total bs = fin then _ else _) = _ at h
    rw [if_neg (by omega)] at h
    have hx := andThen_ok h
    clear h
    obtain ⟨t, r1, e1, h⟩ := hx
    obtain ⟨u, rfl⟩ := (headerItem_mono met).suffix (headerItemW_inv e1)
    exact ih (by rw [List.length_append] at hb; omega) (by rw [posOf_append hb]; omega) h

theorem headerItemsW_inv {W total base size : Nat} (fuel : Nat) : ∀ {pos : Nat} {met vals bs rest : List Nat} {r : List Nat × List Nat},
    bs.length ≤ total → posOf total bs = base + pos → headerItemsW W total (base + size) fuel met vals bs = .ok r rest →
    headerItems size fuel pos met vals bs = .ok r rest := by
  induction fuel with
  | zero => intro _ _ _ _ _ _ _ _ h; cases h
  | succ fuel ih =>
    intro pos met vals bs rest r hb hp h
    rw [headerItemsW] at h
    rw [headerItems]
    change (if posOf total bs = base + size then _ else _) = _ at h
    by_cases hc : pos = size
    · rw [if_pos (by omega)] at h
      rw [if_pos hc]
      exact h
    · rw [if_neg (by omega)] at h
      rw [if_neg hc]
      have hx := andThen_ok h
      clear h
      obtain ⟨t, r1, e1, h⟩ := hx
      have e2 := headerItemW_inv e1
      obtain ⟨u, rfl⟩ := (headerItem_mono met).suffix e2
      have e3 : Rd.counted (headerItem met) (u ++ r1) = .ok (t, u.length) r1 := by
        unfold Rd.counted
        rw [e2]
        simp
      rw [andThen_eq e3]
      exact ih (by rw [List.length_append] at hb; omega) (by rw [posOf_append hb]; omega) h

theorem readHeaderW_inv {W total : Nat} (ht : total < 2 ^ W) {met bs rest : List Nat} {r : Header × List Nat} (hb : bs.length ≤ total)
    (h : readHeaderW W total met bs = .ok r rest) : readHeader met bs = .ok r rest := by
  unfold readHeaderW at h
  unfold readHeader
  have hx := andThen_ok h
  clear h
  obtain ⟨t, r1, e1, h⟩ := hx
  obtain ⟨u1, rfl⟩ := (Mono.readTag met).suffix e1
  rw [andThen_eq e1]
  by_cases hc : t.1 = 2 ∧ t.2.1 = true
  · rw [if_pos hc] at h ⊢
    have hx := andThen_ok h
    clear h
    obtain ⟨e, r2, e2, h⟩ := hx
    obtain ⟨b1, b2, b3⟩ := enterSection_inv e2
    obtain ⟨u2, rfl⟩ := Mono.decodeBase128.suffix b1
    have hb2 : r2.length ≤ total := by simp only [List.length_append] at hb; omega
    rw [andThen_eq b1]
    have hx := andThen_ok h
    clear h
    obtain ⟨hd, r3, e3, h⟩ := hx
    have hx := andThen_ok e3
    clear e3
    obtain ⟨mv, r4, e4, e5⟩ := hx
    rcases enter_cases b2 ht b3 with ⟨-, c2⟩ | ⟨-, c2⟩
    · rw [c2] at e4
      have e6 : readHeaderBody e.1 r2 = .ok hd r3 := by
        unfold readHeaderBody
        rw [andThen_eq (headerItemsW_inv 16 (pos := 0) hb2 rfl e4)]
        exact e5
      rw [andThen_eq e6]
      exact h
    · exact absurd e4 (headerItemsW_wrapped 16 hb2 c2)
  · rw [if_neg hc] at h; cases h

theorem readOriginalW_inv {W total : Nat} {met bs rest d : List Nat} (h : readOriginalW W total met bs = .ok d rest) :
    readOriginal met bs = .ok d rest := by
  unfold readOriginalW at h
  unfold readOriginal
  have hx := andThen_ok h
  clear h
  obtain ⟨t, r1, e1, h⟩ := hx
  rw [andThen_eq e1]
  by_cases hc : t.1 = 9 ∧ t.2.1 = true
  · rw [if_pos hc] at h ⊢
    have hx := andThen_ok h
    clear h
    obtain ⟨e, r2, e2, h⟩ := hx
    rw [andThen_eq (enterSection_inv e2).1]
    exact h
  · rw [if_neg hc] at h; cases h

theorem decodeFile_of_read {σ : Type} {init : Header → Option σ} {body : σ → Nat → List Nat → Option σ} {bs : List Nat} {c : Content σ}
    (h : readFile init body bs = .ok c []) : decodeFile init body bs = .ok c [] := by
  unfold decodeFile
  rw [h]
  rfl

theorem readW_of_decodeFile {σ : Type} {W : Nat} {init : Header → Option σ} {body : σ → Nat → List Nat → Option σ} {bs rest : List Nat} {c : Content σ}
    (h : decodeFileW W init body bs = .ok c rest) : readFileW W bs.length init body bs = .ok c [] ∧ rest = [] := by
  unfold decodeFileW at h
  cases hx : readFileW W bs.length init body bs with
  | ok c' r =>
    rw [hx] at h
    change (if r = [] then _ else _) = _ at h
    by_cases hr : r = []
    · rw [if_pos hr] at h
      subst hr
      cases h
      exact ⟨rfl, rfl⟩
    · rw [if_neg hr] at h; cases h
  | needMore => rw [hx] at h; cases h
  | invalid => rw [hx] at h; cases h

/-- What is accepted with narrow words is, but for skipped sections whose end wraps around, accepted with all. -/
theorem decodeFileW_sub {σ : Type} {W : Nat} {init : Header → Option σ} {body : σ → Nat → List Nat → Option σ} {bs : List Nat} {c : Content σ}
    (ht : bs.length < 2 ^ W) (h : decodeFileW W init body bs = .ok c []) :
    ∃ bs', decodeFile init body bs' = .ok c [] ∧ bs'.Sublist bs ∧ (bs' = bs ∨ WrapsAt W 0 bs) := by
  replace h := (readW_of_decodeFile h).1
  generalize hT : bs.length = total at h ht
  have hb : bs.length ≤ total := by omega
  have hz : posOf total bs = 0 := by unfold posOf; omega
  clear hT
  unfold readFileW at h
  have hx := andThen_ok h
  clear h
  obtain ⟨_, r1, e1, h⟩ := hx
  obtain ⟨u1, rfl⟩ := readSignature_mono.suffix e1
  have hb1 : r1.length ≤ total := by rw [List.length_append] at hb; omega
  have hx := andThen_ok h
  clear h
  obtain ⟨t, r2, e2, h⟩ := hx
  have e2 := readHeaderW_inv ht hb1 e2
  obtain ⟨u2, rfl⟩ := (readHeader_mono [1]).suffix e2
  have hb2 : r2.length ≤ total := by rw [List.length_append] at hb1; omega
  by_cases hc : t.1.version = 1
  · rw [if_pos hc] at h
    have hx := andThen_ok h
    clear h
    obtain ⟨d, r3, e3, h⟩ := hx
    refine ⟨u1 ++ (u2 ++ r2), decodeFile_of_read ?_, List.Sublist.refl _, .inl rfl⟩
    unfold readFile
    rw [andThen_eq e1, andThen_eq e2, if_pos hc, andThen_eq (readOriginalW_inv e3)]
    exact h
  · rw [if_neg hc] at h
    have hx := andThen_ok h
    clear h
    obtain ⟨s0, r3, e3, h⟩ := hx
    obtain ⟨e3', rfl⟩ := ofOption_ok e3
    have hx := andThen_ok h
    clear h
    obtain ⟨s, r4, e4, h⟩ := hx
    cases h
    obtain ⟨bs', g1, g2, g3⟩ := readSectionsW_sub ht 16 (met' := 9 :: t.2) e4 hb2 (fun _ h => h) (fun _ h _ => h)
    refine ⟨u1 ++ (u2 ++ bs'), decodeFile_of_read ?_, List.Sublist.append_left (List.Sublist.append_left g2 u2) u1, ?_⟩
    · have hu1 : readSignature (u1 ++ (u2 ++ bs')) = .ok () (u2 ++ bs') := readSignature_takes _ _ _ e1 _
      have hu2 : readHeader [1] (u2 ++ bs') = .ok t bs' := readHeader_takes [1] _ _ _ e2 _
      unfold readFile
      rw [andThen_eq hu1, andThen_eq hu2, if_neg hc, e3', andThen_eq (p := Rd.ofOption (some s0)) rfl, andThen_eq g1]
      rfl
    · rcases g3 with rfl | g3
      · exact .inl rfl
      · refine .inr ?_
        rw [posOf_append hb1, posOf_append hb, hz] at g3
        have := WrapsAt.append (u := u1) (k := 0) (WrapsAt.append (u := u2) (bs := r2) g3)
        exact this

end Brunsli
