import Verif.PropsA
import Verif.DcImage
/-!
# Property C18: DC coefficients
-/

namespace Brunsli

/-- The histograms suit the symbols that were coded: each is normalised to 1024 and gives every symbol coded with it a
positive count. -/
def Suits (tabs : Nat → List Nat) (ops : List Op) : Prop :=
  ∀ c s, Op.code c s ∈ ops → (tabs c).sum = 1024 ∧ 0 < (tabs c).getD s 0

theorem Suits.legal {tabs : Nat → List Nat} {ops : List Op} {n : Nat} (h : Suits tabs ops) (hf : ∀ op ∈ ops, op.Fits n) :
    ∀ op ∈ ops, op.Legal tabs := by
  intro op hop
  cases op with
  | code c s => exact h c s hop
  | bits n v => exact hf _ hop
  | bit p b => exact hf _ hop

/-- From a simulation to the round trip through the bytes of a section. -/
theorem Sim.roundtrip {α β : Type} {n : Nat} {Q : α → β → Prop} {e : E α} {p : Prog β} (h : Sim n Q e p) :
    ∃ a ops b, e = some (a, ops) ∧ Q a b ∧ (∀ op ∈ ops, op.Fits n) ∧ ∀ tabs, Suits tabs ops → ∃ ws, encodeWords tabs ops = some ws ∧
      decodeWords (fun c => ansMap (tabs c)) p (bytesWords (wordBytes ws)) = some b := by
  obtain ⟨a, ops, b, h1, h2, h3, h4⟩ := h
  exact ⟨a, ops, b, h1, h4, h2, fun tabs hs => C01_adaptive_decoder tabs ops p b (hs.legal h2) h3.feed⟩

/-- **C18 (round trip).** `imgs` holds the coefficients of each component (64 per block, in raster order of blocks),
`ms` their widths in blocks and sampling factors, `rows` the number of MCU rows.  If the encoder accepts the
components (all DC residuals are at most 2054 in absolute value), it runs without leaving its tables, and from the
bytes written with any suitable histograms the decoder recovers every DC coefficient of every component, all other
coefficients being zero at this stage. -/
theorem C18_dc_roundtrip (rows : Nat) (ms : List Meta) (imgs : List (List Int)) (contexts : Nat) (hctx : ms.length * 9 ≤ contexts)
    (hlen : imgs.length = ms.length)
    (hsize : ∀ c (h : c < ms.length), (imgs[c]'(hlen ▸ h)).length = ms[c].w * (rows * ms[c].vs) * 64)
    (hrange : ∀ img ∈ imgs, ∀ v ∈ img, -32768 ≤ v ∧ v < 32768)
    (hdc : ∀ c (h : c < ms.length), predictDCCoeffs (imgs[c]'(hlen ▸ h)) ms[c].w (rows * ms[c].vs) = true) :
    ∃ flags ops, encodeDC rows ms imgs = some (flags, ops) ∧ ∀ tabs, Suits tabs ops →
      ∃ ws res, encodeWords tabs ops = some ws ∧
        decodeWords (fun c => ansMap (tabs c)) (decodeDC contexts rows ms) (bytesWords (wordBytes ws)) = some res ∧
        res.map Prod.snd = flags ∧
        res.map Prod.fst = imgs.map (fun img => img.mapIdx fun i v => if i % 64 = 0 then v else 0) := by
  have hp : ∀ (c : Nat) (m : Meta) (img : List Int), ms[c]? = some m → imgs[c]? = some img → PlaneOk rows m img := by
    intro c m img hm hi
    obtain ⟨h1, rfl⟩ := List.getElem?_eq_some_iff.mp hm
    obtain ⟨h2, rfl⟩ := List.getElem?_eq_some_iff.mp hi
    exact ⟨hsize c h1, hrange _ (List.getElem_mem _), hdc c h1⟩
  obtain ⟨fl, ops, res, e, hq, _, hr⟩ := (dc_sim hctx hlen hp).roundtrip
  refine ⟨fl, ops, e, fun tabs hs => ?_⟩
  obtain ⟨ws, e1, e2⟩ := hr tabs hs
  refine ⟨ws, res, e1, e2, hq.2.2.1, ?_⟩
  rw [hq.2.1]
  apply List.map_congr_left
  intro img _
  unfold dcOnly keep
  simp only [decide_eq_true_eq]

/-- **C18 (rejection).** The encoder's test accepts a component exactly when each DC coefficient differs from its
prediction by at most 2054. -/
theorem C18_dc_accepted (img : List Int) (w h : Nat) (hs : img.length = w * h * 64) :
    predictDCCoeffs img w h = true ↔ ∀ y < h, ∀ x < w, ∃ v p, img[(y * w + x) * 64]? = some v ∧ predictDC img w y x = some p ∧
      (v - p).natAbs ≤ 2054 := by
  constructor
  · intro hp y hy x hx
    obtain ⟨e, h1, h2⟩ := predictDCCoeffs_err hp hx hy
    have hpos := pos_lt hx hy
    have hv : img[(y * w + x) * 64]? = some (img[(y * w + x) * 64]'(by omega)) := List.getElem?_eq_getElem _
    unfold dcErr at h1
    rw [hv] at h1
    cases hpp : predictDC img w y x with
    | none => rw [hpp] at h1; exact nomatch h1
    | some p =>
      rw [hpp] at h1
      exact ⟨_, p, hv, rfl, by rw [← int32_eq h1]; exact h2⟩
  · intro hall
    unfold predictDCCoeffs
    rw [List.all_eq_true]
    intro y hy
    rw [List.all_eq_true]
    intro x hx
    obtain ⟨v, p, h1, h2, h3⟩ := hall y (List.mem_range.mp hy) x (List.mem_range.mp hx)
    unfold dcErr
    rw [h1, h2]
    show (int32 (v - p)).any _ = true
    rw [int32_some (by omega) (by omega)]
    exact decide_eq_true h3

/-- Non-vacuity: a component of 2 by 2 blocks and one of a single block. -/
def sampleMeta : List Meta := [⟨2, 2, 2, 0⟩, ⟨1, 1, 10, 1⟩]
/-- Their coefficients. -/
def samplePlanes : List (List Int) :=
  let blk (dc : Int) := dc :: 5 :: List.replicate 62 0
  [blk 100 ++ blk (-2) ++ List.replicate 64 0 ++ blk 1500, blk (-2054)]

example : samplePlanes.length = sampleMeta.length ∧ (∀ c : Fin 2, samplePlanes[c.val].length = sampleMeta[c.val].w * (1 * sampleMeta[c.val].vs) * 64) ∧
    (∀ img ∈ samplePlanes, ∀ v ∈ img, -32768 ≤ v ∧ v < 32768) := by decide +kernel
example : ∀ c : Fin 2, predictDCCoeffs samplePlanes[c.val] sampleMeta[c.val].w (1 * sampleMeta[c.val].vs) = true := by decide +kernel
/-- Histograms that suit anything. -/
def flatHistogram : List Nat := List.replicate 17 60 ++ [4]

theorem flat_suits {ops : List Op} {n : Nat} (h : ∀ op ∈ ops, op.Fits n) : Suits (fun _ => flatHistogram) ops := by
  intro c s hcs
  have hs : s < 18 := (h _ hcs).2
  refine ⟨show flatHistogram.sum = 1024 by decide, ?_⟩
  have : ∀ s < 18, 0 < flatHistogram.getD s 0 := by decide
  exact this s hs

/-- The sample is coded, and comes back through the bytes. -/
example : ((encodeDC 1 sampleMeta samplePlanes).ops.bind fun ops => (encodeWords (fun _ => flatHistogram) ops).bind fun ws =>
    (decodeWords (fun _ => ansMap flatHistogram) (decodeDC 18 1 sampleMeta) (bytesWords (wordBytes ws))).map fun r =>
      decide (r.map Prod.fst = samplePlanes.map dcOnly)) = some true := by decide +kernel

/-- A residual the encoder rejects. -/
example : predictDCCoeffs (2055 :: List.replicate 63 0) 1 1 = false := by decide +kernel

end Brunsli
