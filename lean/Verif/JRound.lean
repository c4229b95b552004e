import Verif.JFileSpec
/-!
# JPEG files are written back as read
-/

namespace Brunsli

open JM

theorem fixupIndexes_spec {quant : List QuantTable} (cs : List Component) : ∀ {xs : List Component}, fixupIndexes quant cs = some xs →
    List.Forall₂ (fun c x => ∃ j q, quant[j]? = some q ∧ q.index = c.quantIdx ∧ x = { c with quantIdx := j }) cs xs := by
  induction cs with
  | nil => intro xs h; rw [fixupIndexes] at h; cases h; exact .nil
  | cons c cs ih =>
    intro xs h
    rw [fixupIndexes] at h
    obtain ⟨c', h1, h2⟩ := Option.bind_eq_some_iff.mp h
    obtain ⟨xs', h3, rfl⟩ := Option.map_eq_some_iff.mp h2
    refine .cons ?_ (ih h3)
    unfold fixupIndex at h1
    dsimp only at h1
    split at h1
    · rename_i hlt
      cases h1
      have := List.findIdx_getElem (w := hlt)
      exact ⟨_, _, List.getElem?_eq_getElem hlt, by simpa using this, rfl⟩
    · exact absurd h1 nofun

theorem zigzagOf_natural : ∀ k < 64, zigzagOf (naturalOrder.getD k 0) = k ∧ naturalOrder.getD k 0 < 64 := by decide +kernel

theorem natural_zigzagOf : ∀ i < 64, naturalOrder.getD (zigzagOf i) 0 = i ∧ zigzagOf i < 64 := by decide +kernel

theorem coefList_length (C : Nat → Blk) (n : Nat) : (coefList C n).length = 64 * n := by simp [coefList]

theorem coefList_get (C : Nat → Blk) {n b k : Nat} (hb : b < n) (hk : k < 64) : (coefList C n).getD (64 * b + naturalOrder.getD k 0) 0 = C b k := by
  obtain ⟨h1, h2⟩ := zigzagOf_natural k hk
  generalize naturalOrder.getD k 0 = i at h1 h2 ⊢
  have hlt : 64 * b + i < 64 * n := by omega
  rw [List.getD_eq_getElem?_getD, List.getElem?_eq_getElem (by rw [coefList_length]; exact hlt)]
  simp only [coefList, List.getElem_map, List.getElem_range, Option.getD_some]
  rw [show (64 * b + i) / 64 = b by omega, show (64 * b + i) % 64 = i by omega, h1]

theorem fillCoefs_get (C : Coefs) (cs : List Component) (i : Nat) :
    (fillCoefs C cs)[i]? = (cs[i]?).map fun c => { c with coeffs := coefList (C i) (c.width * c.height) } := by
  unfold fillCoefs
  rw [List.getElem?_map, List.getElem?_zipIdx]
  cases cs[i]? <;> simp

theorem forall₂_get {α β : Type} {R : α → β → Prop} {xs : List α} {ys : List β} (hl : xs.length = ys.length)
    (h : ∀ (i : Nat) x y, xs[i]? = some x → ys[i]? = some y → R x y) : List.Forall₂ R xs ys := by
  induction xs generalizing ys with
  | nil => cases ys with
    | nil => exact .nil
    | cons => exact absurd hl nofun
  | cons x xs ih =>
    cases ys with
    | nil => exact absurd hl nofun
    | cons y ys =>
      exact .cons (h 0 x y rfl rfl) (ih (by simpa using hl) fun i x y h1 h2 => h (i + 1) x y (by simpa using h1) (by simpa using h2))

/-- What `ReadJpeg` returns is what becomes of its last state. -/
theorem fin_result {st : RJ} (hi : RInv st) {comps : List Component} (hc : fixupIndexes st.quant st.comps = some comps) (tail : List Nat) : Fin st (st.result comps tail) := by
  have hf := fixupIndexes_spec _ hc
  refine ⟨List.prefix_refl _, List.prefix_refl _, List.prefix_refl _, List.prefix_refl _, List.prefix_refl _, List.prefix_refl _, fun _ => ⟨rfl, rfl⟩, fun _ => ?_, fun _ => rfl,
    ⟨st.masks, st.coefs, Later.refl _ _, hi.good, fun c b hb k hk => ?_⟩, st.pads, List.prefix_refl _, rfl, rfl⟩
  · show List.Forall₂ (SameComp st.quant) st.comps (fillCoefs st.coefs comps)
    refine forall₂_get ?_ fun i x y hx hy => ?_
    · rw [hf.length_eq]; simp [fillCoefs]
    · rw [fillCoefs_get] at hy
      obtain ⟨z, hz, rfl⟩ := Option.map_eq_some_iff.mp hy
      obtain ⟨h1, e1⟩ := List.getElem?_eq_some_iff.mp hx
      obtain ⟨h2, e2⟩ := List.getElem?_eq_some_iff.mp hz
      have := (List.forall₂_iff_get.mp hf).2 i h1 h2
      simp only [List.get_eq_getElem] at this
      rw [e1, e2] at this
      obtain ⟨j, q, q1, q2, rfl⟩ := this
      exact ⟨rfl, rfl, rfl, rfl, rfl, coefList_length _ _, q, q1, q2⟩
  · unfold JpegData.coefs
    rw [show (st.result comps tail).components = fillCoefs st.coefs comps from rfl] at hb ⊢
    unfold blocksOf at hb
    rw [fillCoefs_get] at hb ⊢
    cases hx : comps[c]? with
    | none => rw [hx] at hb; exact absurd hb (Nat.not_lt_zero _)
    | some x =>
      rw [hx] at hb
      dsimp only [Option.map]
      rw [if_pos hk]
      exact coefList_get _ hb hk

/-- The state of `ReadJpeg` after the loop, and what it returns. -/
theorem readJpeg_ok {d : List Nat} {jpg : JpegData} (h : readJpeg d = .ok jpg) : ∃ st p comps, byteOf d 0 = 255 ∧ byteOf d 1 = 0xd8 ∧ 2 ≤ d.length ∧
    readLoop (d.length + 1) RJ.init d 2 = .ok (st, p) ∧ st.sof = true ∧ fixupIndexes st.quant st.comps = some comps ∧ st.huffman ≠ [] ∧ st.huffman.length < kMaxDHTMarkers ∧
    jpg = st.result comps (slice d p d.length) := by
  unfold readJpeg expectMarker at h
  split at h
  · exact absurd h nofun
  rename_i h0
  push Not at h0
  dsimp only [Run.bind] at h
  split at h
  · exact absurd h nofun
  rename_i h1
  cases hl : readLoop (d.length + 1) RJ.init d (0 + 2) with
  | fail => rw [hl] at h; exact absurd h nofun
  | ub => rw [hl] at h; exact absurd h nofun
  | ok r =>
    rw [hl] at h
    obtain ⟨st, p⟩ := r
    dsimp only at h
    split at h
    · exact absurd h nofun
    rename_i h2
    split at h
    · exact absurd h nofun
    rename_i comps h3
    split at h
    · exact absurd h nofun
    rename_i h4
    split at h
    · exact absurd h nofun
    rename_i h5
    cases h
    exact ⟨st, p, comps, h0.2, by simpa using h1, by omega, rfl, by simpa using h2, h3, h4, by omega, rfl⟩

/-- The reader does nothing undefined. -/
theorem readJpeg_safe {d : List Nat} (hd : Bytes d) : readJpeg d ≠ .ub := by
  intro h
  unfold readJpeg expectMarker at h
  split at h
  · exact absurd h nofun
  rename_i h0
  push Not at h0
  dsimp only [Run.bind] at h
  split at h
  · exact absurd h nofun
  have hw := readLoop_wp hd (d.length + 1) RInv.init (p := 0 + 2) (by omega) (by omega)
  unfold Wp at hw
  cases hl : readLoop (d.length + 1) RJ.init d (0 + 2) with
  | fail => rw [hl] at h; exact absurd h nofun
  | ub => rw [hl] at hw; exact hw
  | ok r =>
    rw [hl] at h
    obtain ⟨st, p⟩ := r
    dsimp only at h
    split at h
    · exact absurd h nofun
    split at h
    · exact absurd h nofun
    split at h
    · exact absurd h nofun
    split at h
    · exact absurd h nofun
    · exact absurd h nofun

/-- What `ReadJpeg` accepts is written back byte for byte. -/
theorem readJpeg_writeJpeg {d : List Nat} (hd : Bytes d) {jpg : JpegData} (h : readJpeg d = .ok jpg) (T : HSlot → CodeTable) :
    ∃ cs, writeJpeg T jpg = .ok cs ∧ cs.flatten = d := by
  obtain ⟨st, p, comps, h0, h1, h2, h3, h4, h5, h6, h7, rfl⟩ := readJpeg_ok h
  have hw := readLoop_wp hd (d.length + 1) RInv.init (p := 2) (by omega) (by omega)
  unfold Wp at hw
  rw [h3] at hw
  obtain ⟨a1, a2, a3, a4, ms, b1, b2, b3⟩ := hw
  obtain ⟨-, b4⟩ := b3 _ (fin_result a3 h5 (slice d p d.length))
  have b5 : st.order = ms := by rw [b2]; rfl
  generalize hJ : st.result comps (slice d p d.length) = J at b4 ⊢
  obtain ⟨cs, c1, c2⟩ := b4 ((WJ.init T).prepared J) ⟨rfl, rfl, rfl, rfl, rfl, rfl, fun s => slotMatch_init _, rfl, rfl, rfl⟩
  refine ⟨[0xFF, 0xD8] :: cs, ?_, ?_⟩
  · unfold writeJpeg
    rw [show J.version = 2 by rw [← hJ]; rfl, show J.markerOrder = ms by rw [← hJ]; exact b5, if_neg (by decide), if_neg b1, c1]
    rfl
  · rw [List.flatten_cons, c2, show J.tailData = slice d p d.length by rw [← hJ]; rfl, ← slice_append (by omega) a2]
    have e : slice d 0 d.length = d := by rw [slice_eq (Nat.le_refl _)]; simp
    rw [slice_append (b := 2) (by omega) h2, slice_two, h0] at e
    simp only [Nat.zero_add] at e
    rw [h1] at e
    exact e

/-- The serializer as a state machine produces the same chunks. -/
theorem jpegApi_sections (J : JpegData) (ms : List Nat) : ∀ {ws : WJ} {cs : List (List Nat)}, writeMarkers J ms ws = .ok cs →
    (prodSections jpegApi J ms ws).1 = .done ∧ (prodSections jpegApi J ms ws).2.2 = cs := by
  induction ms with
  | nil => intro ws cs h; rw [writeMarkers] at h; cases h; exact ⟨rfl, rfl⟩
  | cons m ms ih =>
    intro ws cs h
    rw [writeMarkers] at h
    cases h1 : writeMarker J ws m with
    | fail => rw [h1] at h; exact absurd h nofun
    | ub => rw [h1] at h; exact absurd h nofun
    | ok r =>
      obtain ⟨c1, ws1⟩ := r
      rw [h1] at h
      dsimp only [Run.bind] at h
      cases h2 : writeMarkers J ms ws1 with
      | fail => rw [h2] at h; exact absurd h nofun
      | ub => rw [h2] at h; exact absurd h nofun
      | ok r2 =>
        rw [h2] at h
        cases h
        obtain ⟨i1, i2⟩ := ih h2
        have hm : jpegApi.marker J ws m = (ws1, c1, .done) := by simp only [jpegApi, h1]
        rw [prodSections, hm]
        exact ⟨i1, by dsimp only; rw [i2]⟩

theorem jpegApi_prod {J : JpegData} {T : HSlot → CodeTable} {cs : List (List Nat)} (h : writeJpeg T J = .ok cs) :
    (prod jpegApi J .init (WJ.init T)).1 = .done ∧ (prod jpegApi J .init (WJ.init T)).2.2 = cs := by
  unfold writeJpeg at h
  split at h
  · exact absurd h nofun
  rename_i h1
  split at h
  · exact absurd h nofun
  rename_i h2
  cases h3 : writeMarkers J J.markerOrder ((WJ.init T).prepared J) with
  | fail => rw [h3] at h; exact absurd h nofun
  | ub => rw [h3] at h; exact absurd h nofun
  | ok r =>
    rw [h3] at h
    cases h
    obtain ⟨i1, i2⟩ := jpegApi_sections J _ h3
    unfold prod
    dsimp only
    rw [if_neg (show ¬ ¬ jpegApi.canStart J = true by simp [jpegApi]), if_neg (show ¬ jpegApi.version J = 1 by intro e; exact h1 (by rw [show J.version = 1 from e])), if_neg (show ¬ jpegApi.version J % 2 = 1 from h1),
      if_neg (show ¬ (jpegApi.markers J).isEmpty = true by show ¬ J.markerOrder.isEmpty = true; simpa using h2)]
    exact ⟨i1, by show [0xFF, 0xD8] :: _ = _; rw [show (prodSections jpegApi J (jpegApi.markers J) (jpegApi.prepared J (WJ.init T))).2.2 = r from i2]⟩

end Brunsli
