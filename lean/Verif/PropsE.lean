import Verif.PropsD
import Verif.AcImage
import Verif.HistSection
/-!
# Properties C19 and C20: AC coefficients, and the safety of coefficient decoding
-/

namespace Brunsli

/-- The layout of the contexts both sides use (c/enc/brunsli_encode.cc:1445-1452, c/dec/brunsli_decode.cc:1806,
1829-1836): the first contexts are those of the DC coefficients, then each component has as many as its
`context_bits` asks for. -/
def ContextLayout (ms : List Meta) : Prop :=
  ∀ c (h : c < ms.length), ms[c].ctxBits < 7 ∧
    ms[c].ctxOffset = ms.length + ((ms.take c).map fun m => kNumNonzeroContextSkip.getD m.ctxBits 0).sum

/-- The number of contexts of the layout: `num_contexts * kNumAvrgContexts`. -/
def contextCount (ms : List Meta) : Nat := numContexts (ms.map Meta.ctxBits) * kNumAvrgContexts

theorem sum_take_le (f : Meta → Nat) : ∀ (ms : List Meta) (c : Nat) (m : Meta), ms[c]? = some m → ((ms.take c).map f).sum + f m ≤ (ms.map f).sum := by
  intro ms
  induction ms with
  | nil => intro c m h; simp at h
  | cons a ms ih =>
    intro c m h
    cases c with
    | zero =>
      simp only [List.getElem?_cons_zero, Option.some.injEq] at h
      subst h
      simp
    | succ c =>
      have := ih c m (by simpa using h)
      simp only [List.take_succ_cons, List.map_cons, List.sum_cons]
      omega

theorem ContextLayout.metaOk {ms : List Meta} (h : ContextLayout ms) : ∀ m ∈ ms, MetaOk (contextCount ms) m := by
  intro m hm
  obtain ⟨c, hc, rfl⟩ := List.getElem_of_mem hm
  obtain ⟨h1, h2⟩ := h c hc
  refine ⟨h1, ?_⟩
  have := sum_take_le (fun m => kNumNonzeroContextSkip.getD m.ctxBits 0) ms c ms[c] (List.getElem?_eq_getElem hc)
  unfold contextCount numContexts
  rw [List.map_map, List.length_map, h2]
  refine Nat.mul_le_mul (Nat.le_trans ?_ (Nat.add_le_add_left this _)) (by decide)
  omega

theorem contextCount_dc (ms : List Meta) : ms.length * 9 ≤ contextCount ms := by
  unfold contextCount numContexts
  rw [List.length_map]
  exact Nat.mul_le_mul (Nat.le_add_right _ _) (by decide)

/-- **C19.** The coefficients `imgs` of all components (64 per block, in raster order of blocks) are coded as a DC
and an AC section; the DC residuals and the AC coefficients are at most 2054 in absolute value.  Whatever the
coefficient orders (permutations of 0..63 fixing 0), the quantisation tables (nonzero values of 16 bits), the context model and
the resolutions of the contexts, the encoder stays within its tables, and from the bytes of the two sections, written
with any suitable histograms, the decoder recovers every coefficient. -/
theorem C19_ac_roundtrip (legacy : Bool) (rows : Nat) (ms : List Meta) (orders quants : List (List Nat)) (imgs : List (List Int))
    (hlayout : ContextLayout ms) (hlo : orders.length = ms.length) (hlq : quants.length = ms.length) (hli : imgs.length = ms.length)
    (hsize : ∀ c (h : c < ms.length), (imgs[c]'(hli ▸ h)).length = ms[c].w * (rows * ms[c].vs) * 64)
    (hrange : ∀ img ∈ imgs, ∀ v ∈ img, -32768 ≤ v ∧ v < 32768)
    (hdc : ∀ c (h : c < ms.length), predictDCCoeffs (imgs[c]'(hli ▸ h)) ms[c].w (rows * ms[c].vs) = true)
    (hac : ∀ img ∈ imgs, ∀ i (h : i < img.length), i % 64 ≠ 0 → img[i].natAbs ≤ 2054)
    (ho : ∀ o ∈ orders, o.Perm (List.range 64) ∧ o.head? = some 0) (hq : ∀ q ∈ quants, q.length = 64 ∧ ∀ v ∈ q, 1 ≤ v ∧ v ≤ 65535) :
    ∃ flags dcOps acOps, encodeDC rows ms imgs = some (flags, dcOps) ∧
      encodeAC (contextCount ms) legacy rows ms orders quants imgs flags = some ((), acOps) ∧
      ∀ tabs, Suits tabs dcOps → Suits tabs acOps → ∃ dcWords acWords dc,
        encodeWords tabs dcOps = some dcWords ∧ encodeWords tabs acOps = some acWords ∧
        decodeWords (fun c => ansMap (tabs c)) (decodeDC (contextCount ms) rows ms) (bytesWords (wordBytes dcWords)) = some dc ∧
        decodeWords (fun c => ansMap (tabs c)) (decodeAC (contextCount ms) legacy rows ms quants (dc.map Prod.fst) (dc.map Prod.snd))
          (bytesWords (wordBytes acWords)) = some imgs := by
  have hp : ∀ (c : Nat) (m : Meta) (img : List Int), ms[c]? = some m → imgs[c]? = some img → PlaneOk rows m img := by
    intro c m img hm hi
    obtain ⟨h1, rfl⟩ := List.getElem?_eq_some_iff.mp hm
    obtain ⟨h2, rfl⟩ := List.getElem?_eq_some_iff.mp hi
    exact ⟨hsize c h1, hrange _ (List.getElem_mem _), hdc c h1⟩
  obtain ⟨fl, dcOps, res, e1, hr, _, hdcr⟩ := (dc_sim (contextCount_dc ms) hli hp).roundtrip
  obtain ⟨r1, r2, r3, r4⟩ := hr
  obtain ⟨_, acOps, res', e2, rfl, _, hacr⟩ := (ac_sim (rows := rows) (N := contextCount ms) (Nd := contextCount ms) (legacy := legacy) (orders := orders)
    (quants := quants) (flags := fl) (Nat.le_refl _) hlayout.metaOk hlo hlq hli r1 ho hq (fun c m img f hm hi hf => by
      obtain ⟨f1, f2⟩ := r4 c m img f hm hi hf
      refine ⟨(hp c m img hm hi).size, (hp c m img hm hi).range, fun i v hv h0 => ?_, f1, f2⟩
      obtain ⟨k1, rfl⟩ := List.getElem?_eq_some_iff.mp hv
      exact hac img (List.mem_of_getElem? hi) i k1 h0)).roundtrip
  refine ⟨fl, dcOps, acOps, e1, e2, fun tabs hs1 hs2 => ?_⟩
  obtain ⟨ws1, w1, w2⟩ := hdcr tabs hs1
  obtain ⟨ws2, w3, w4⟩ := hacr tabs hs2
  refine ⟨ws1, ws2, res, w1, w3, w2, ?_⟩
  rw [r2, r3]
  exact w4

/-- The histogram of a context: the context map leads to one of the decoded histograms, whose decoding map is built
with `ansMap`. -/
def histMaps (contextMap : List Nat) (histograms : List (List Nat)) (c : Nat) : Option (List SymInfo) :=
  (contextMap[c]?).bind fun i => (histograms[i]?).bind ansMap

theorem histMaps_ok {contextMap : List Nat} {histograms : List (List Nat)} (hh : ∀ h ∈ histograms, h.length ≤ 18) :
    Prog.MapsOk (histMaps contextMap histograms) := by
  intro c m hm
  unfold histMaps at hm
  cases h1 : contextMap[c]? with
  | none => rw [h1] at hm; cases hm
  | some i =>
    rw [h1] at hm
    simp only [Option.bind_some] at hm
    cases h2 : histograms[i]? with
    | none => rw [h2] at hm; cases hm
    | some h =>
      rw [h2] at hm
      exact ⟨h, hh h (List.mem_of_getElem? h2), hm⟩

/-- **C20.** Whatever the words of the two coefficient sections are, decoding them never leaves a table: no index
of a context, a probability, a lookup table, a neighbouring value or a coefficient is out of range.  The sizes of the
components, the context resolutions (0..6), the quantisation tables (nonzero), the context map and the histograms (of
at most 18 symbols) are arbitrary. -/
theorem C20_no_out_of_range (legacy : Bool) (rows : Nat) (ms : List Meta) (quants : List (List Nat)) (contextMap : List Nat)
    (histograms : List (List Nat)) (dcWords acWords : List Nat) (hlayout : ContextLayout ms) (hlq : quants.length = ms.length)
    (hq : ∀ q ∈ quants, q.length = 64 ∧ ∀ v ∈ q, 1 ≤ v ∧ v ≤ 65535) (hh : ∀ h ∈ histograms, h.length ≤ 18) :
    decodeHitsUb (histMaps contextMap histograms) (decodeDC (contextCount ms) rows ms) dcWords = false ∧
    ∀ dc, decodeWords (histMaps contextMap histograms) (decodeDC (contextCount ms) rows ms) dcWords = some dc →
      decodeHitsUb (histMaps contextMap histograms)
        (decodeAC (contextCount ms) legacy rows ms quants (dc.map Prod.fst) (dc.map Prod.snd)) acWords = false := by
  have hm := histMaps_ok (contextMap := contextMap) hh
  refine ⟨decodeHitsUb_false hm (decodeDC_all (contextCount_dc ms)) _, fun dc hdc => ?_⟩
  obtain ⟨d1, d2⟩ := decodeWords_all hm (decodeDC_all (contextCount_dc ms)) hdc
  refine decodeHitsUb_false hm (decodeAC_all hlayout.metaOk hlq hq (by rw [List.length_map]; exact d1) (fun c m co hm hco => ?_) fun c m hm => ?_) _
  · rw [List.getElem?_map] at hco
    cases h : dc[c]? with
    | none => rw [h] at hco; cases hco
    | some p =>
      rw [h] at hco
      simp only [Option.map_some, Option.some.injEq] at hco
      subst hco
      exact (d2 c m p hm h).1
  · have hc : c < ms.length := by
      apply Decidable.byContradiction; intro h; rw [List.getElem?_eq_none (by omega)] at hm; cases hm
    have h : dc[c]? = some (dc[c]'(by omega)) := List.getElem?_eq_getElem _
    exact ⟨dc[c].2, by rw [List.getElem?_map, h]; rfl, (d2 c m _ hm h).2⟩

/-- **C20 (results).** What is decoded from arbitrary words has, for each component, 64 coefficients per block, all
of them 16-bit values. -/
theorem C20_decoded_planes (legacy : Bool) (rows : Nat) (ms : List Meta) (quants : List (List Nat)) (contextMap : List Nat)
    (histograms : List (List Nat)) (dcWords acWords : List Nat) (hlayout : ContextLayout ms) (hlq : quants.length = ms.length)
    (hq : ∀ q ∈ quants, q.length = 64 ∧ ∀ v ∈ q, 1 ≤ v ∧ v ≤ 65535) (hh : ∀ h ∈ histograms, h.length ≤ 18) (dc : List (List Int × List Bool)) (imgs : List (List Int))
    (hdc : decodeWords (histMaps contextMap histograms) (decodeDC (contextCount ms) rows ms) dcWords = some dc)
    (hac : decodeWords (histMaps contextMap histograms)
      (decodeAC (contextCount ms) legacy rows ms quants (dc.map Prod.fst) (dc.map Prod.snd)) acWords = some imgs) :
    imgs.length = ms.length ∧ ∀ (c : Nat) (m : Meta) (img : List Int), ms[c]? = some m → imgs[c]? = some img →
      img.length = m.w * (rows * m.vs) * 64 ∧ ∀ v ∈ img, -32768 ≤ v ∧ v < 32768 := by
  have hm := histMaps_ok (contextMap := contextMap) hh
  obtain ⟨d1, d2⟩ := decodeWords_all hm (decodeDC_all (contextCount_dc ms)) hdc
  have := decodeWords_all hm (decodeAC_all hlayout.metaOk hlq hq (by rw [List.length_map]; exact d1) (fun c m co hm hco => ?_) fun c m hm => ?_) hac
  · exact this
  · rw [List.getElem?_map] at hco
    cases h : dc[c]? with
    | none => rw [h] at hco; cases hco
    | some p =>
      rw [h] at hco
      simp only [Option.map_some, Option.some.injEq] at hco
      subst hco
      exact (d2 c m p hm h).1
  · have hc : c < ms.length := by
      apply Decidable.byContradiction; intro h; rw [List.getElem?_eq_none (by omega)] at hm; cases hm
    have h : dc[c]? = some (dc[c]'(by omega)) := List.getElem?_eq_getElem _
    exact ⟨dc[c].2, by rw [List.getElem?_map, h]; rfl, (d2 c m _ hm h).2⟩

/-! ## Non-vacuity: the planes of `PropsD`, with nonzero AC coefficients and an empty block -/

example : ContextLayout sampleMeta := by
  have : ∀ c (h : c < 2), sampleMeta[c].ctxBits < 7 ∧
      sampleMeta[c].ctxOffset = 2 + ((sampleMeta.take c).map fun m => kNumNonzeroContextSkip.getD m.ctxBits 0).sum := by decide
  exact this
/-- A quantisation table. -/
def sampleQuant : List Nat := (List.range 64).map fun i => i + 1
/-- An order other than the identity. -/
def sampleOrder : List Nat := 0 :: (List.range' 1 63).reverse

example : ∀ img ∈ samplePlanes, ∀ i (h : i < img.length), i % 64 ≠ 0 → img[i].natAbs ≤ 2054 := by decide +kernel
example : (sampleOrder.Perm (List.range 64) ∧ sampleOrder.head? = some 0) ∧ sampleQuant.length = 64 ∧ ∀ v ∈ sampleQuant, 1 ≤ v ∧ v ≤ 65535 := by decide +kernel

/-- The hypotheses of C19 hold together, and a component of two blocks comes back through the bytes of its AC
section. -/
example : let ms : List Meta := [⟨2, 1, 1, 3⟩]
    let imgs : List (List Int) := [-7 :: 5 :: 0 :: -2054 :: List.replicate 60 0 ++ (1 :: List.replicate 63 0)]
    (Option.bind (α := List (List Bool) × List Op) (encodeDC 1 ms imgs) fun d =>
    Option.bind (α := Unit × List Op) (encodeAC (contextCount ms) true 1 ms [sampleOrder] [sampleQuant] imgs d.1) fun a =>
      (encodeWords (fun _ => flatHistogram) a.2).bind fun ws =>
        (decodeWords (fun _ => ansMap flatHistogram) (decodeAC (contextCount ms) true 1 ms [sampleQuant] (imgs.map dcOnly) d.1)
            (bytesWords (wordBytes ws))).map fun r => decide (r = imgs)) = some true := by decide +kernel

end Brunsli
