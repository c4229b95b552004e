import Verif.E2E
import Verif.GroupSafe
/-!
# The memory estimate of the decoder

`BrunsliEstimateDecoderPeakMemoryUsage` (c/dec/brunsli_decode.cc:2470-2501), the way the parser passes over sections for it, and what decoding allocates.
-/

namespace Brunsli

/-- The histogram section with `shallow_histograms` (c/dec/brunsli_decode.cc:1826-1873): the schemes and the number of histograms; the rest is passed over. -/
def shallowHistograms (ncomp : Nat) : P Bool (List Nat × Nat) := do
  let schemes ← P.replicate ncomp readScheme
  let x ← decodeVarLenUint8
  Pure.pure (schemes, x + 1)

/-- `ParseSection`, `ProcessSection` (c/dec/brunsli_decode.cc:2046-2196) with every known section skipped but that of the histograms (`skip_tags`, :2477): all is read
once the data end behind a section and the AC data were met (:2057).  `n` components; `s` is what the histogram section told. -/
def skipSections (n : Nat) : (fuel : Nat) → (met : List Nat) → Option (List Nat × Nat) → Rd (Option (List Nat × Nat))
  | 0, _, _ => Rd.fail
  | fuel + 1, met, s => fun bs =>
    if bs = [] ∧ 8 ∈ met then .ok s []
    else Rd.andThen (readTag met) (fun t =>
      if t.2.1 then
        Rd.andThen decodeBase128 fun v =>
          if t.1 ≠ 6 then Rd.andThen (Rd.bytes v) fun _ => skipSections n fuel t.2.2 s
          else if 4 ∉ met then Rd.fail
          else Rd.andThen (Rd.bytes v) fun payload =>
            match shallowHistograms n (bytesBits payload) with
            | none => Rd.fail
            | some (r, _) => skipSections n fuel t.2.2 (some r)
      else if t.1 ≤ 9 then Rd.fail
      else Rd.andThen decodeBase128 fun _ => skipSections n fuel t.2.2 s) bs

/-- What the estimate is made from: the components (none in a bypassed file, c/dec/brunsli_decode.cc:1182-1188), and the histogram section. -/
def estimateParse (bs : List Nat) : Option (Header × Option (List Nat × Nat)) :=
  match (Rd.andThen readSignature fun _ =>
    Rd.andThen (readHeader [1]) fun t =>
      if t.1.version = 1 then Rd.andThen (readOriginal t.2) fun _ => Rd.ret (t.1, none)
      else Rd.andThen (skipSections t.1.comps.length 17 (9 :: t.2) none) fun s => Rd.ret (t.1, s)) bs with
  | .ok r [] => some r
  | _ => none

/-- `ComponentState::SizeInBytes` (c/common/context.h:367-372); `int` and `Prob` (c/common/distributions.h:100-105) have 4 bytes, the tables are of
c/common/context.h:19, :35-39, :48. -/
def stateSizeInBytes (w : Nat) : Nat := (4 + (10 + 3 * w) * 64 + 2 * w) * 4 + ((11 + 2 * 8 + 11) * 64 + 32 * 63) * 4

/-- The number of blocks of all components. -/
def Header.totalBlocks (h : Header) : Nat := (h.blocks.map fun b => b.1 * b.2).sum

/-- `decode_peak` (c/dec/brunsli_decode.cc:2495-2497); before the histogram section has been met there are no contexts and no histograms.  A decoding table has 1024 entries
of 6 bytes (c/dec/ans_decode.h:21-33). -/
def decodePeak (h : Header) (s : Option (List Nat × Nat)) : Nat :=
  (match s with
   | none => 0
   | some (schemes, n) => numContexts schemes * kNumAvrgContexts * 4 + n * (1024 * 6)) + (h.blocks.map fun b => stateSizeInBytes b.1).sum

/-- `jpeg_writer_size` (c/dec/brunsli_decode.cc:2498). -/
def kJpegWriterSize : Nat := 2 ^ 17 + 2 ^ 16 * 4

/-- `BrunsliEstimateDecoderPeakMemoryUsage` (c/dec/brunsli_decode.cc:2470-2501) in 64 bits. -/
def estimateDecoder (bs : List Nat) : Nat :=
  match estimateParse bs with
  | none => 0
  | some (h, s) => (2 * bs.length + h.totalBlocks * 64 * 2 + max (decodePeak h s) kJpegWriterSize) % 2 ^ 64

/-! ## What decoding allocates -/

/-- The state of a component of `w` blocks per row while AC coefficients are decoded (`ComponentState`, c/common/context.h:347-387), without the headers of its vectors. -/
def stateBytes (w : Nat) : Nat :=
  (2 + 3 * 64) * 4 + (11 * 64 + (2 * 8 + 1) * 64 + 32 * 63 + 10 * 64) * 4 + (w + 1) * 4 + w + 64 * 2 * (w + 3) * 4 + 64 * (w + 1) * 4

/-- The coefficients and block states allocated before DC coefficients are decoded (`WarmupMeta`, c/dec/brunsli_decode.cc:2248-2254; `coeff_t` has 2 bytes). -/
def storageBytes (h : Header) : Nat := (h.blocks.map fun b => b.1 * b.2 * 64 * 2 + b.1 * b.2).sum

/-- All that is there while AC coefficients are decoded: storage, context map of bytes (c/dec/state_internal.h:349, c/dec/brunsli_decode.cc:1854), decoding tables (:1856), and
the states of the components.  Metadata, internals and the vectors themselves are not counted. -/
def liveBytes (h : Header) (schemes : List Nat) (n : Nat) : Nat :=
  storageBytes h + numContexts schemes * kNumAvrgContexts + n * (1024 * 6) + (h.blocks.map fun b => stateBytes b.1).sum

/-- The decoder stopped at the DC section, with the storage it has allocated by then (c/dec/brunsli_decode.cc:2150-2163). -/
def stopAtDc (par : Codec) : SectState ⊕ Nat → Nat → List Nat → Option (SectState ⊕ Nat)
  | .inl s, tag, payload => if tag = 7 then some (.inr (storageBytes s.header)) else (decBody par s tag payload).map .inl
  | .inr n, _, _ => some (.inr n)

/-! ## The estimate of a file that can be decoded -/

theorem state_fits (w : Nat) : stateBytes w ≤ stateSizeInBytes w := by
  unfold stateBytes stateSizeInBytes
  omega

theorem shallow_of_histogramData {n : Nat} {bs : List Bool} {r : HistogramData} (h : decodeHistogramData n bs = some (some r, [])) :
    ∃ rest, shallowHistograms n bs = some ((r.schemes, r.histograms.length), rest) := by
  unfold decodeHistogramData at h
  obtain ⟨schemes, b1, h1, h⟩ := P.bind_some h
  obtain ⟨m, b2, h2, h⟩ := P.bind_some h
  unfold decodeContextMap at h2
  obtain ⟨x, b3, h3, h2⟩ := P.bind_some h2
  have hx : ∀ nh map, m = some (nh, map) → nh = x + 1 := by
    intro nh map hm
    subst hm
    split at h2
    · obtain ⟨p, b4, h4, h2⟩ := P.bind_some h2
      obtain ⟨t, b5, h5, h2⟩ := P.bind_some h2
      cases t with
      | none => cases h2
      | some t =>
        obtain ⟨v, b6, h6, h2⟩ := P.bind_some h2
        cases h2
        rfl
    · cases h2
      rfl
  cases m with
  | none => cases h
  | some m =>
    obtain ⟨nh, map⟩ := m
    have hn := hx nh map rfl
    dsimp only at h
    obtain ⟨hs, b4, h4, h⟩ := P.bind_some h
    obtain ⟨hs', rfl, hl, -⟩ := readHistograms_safe nh h4
    obtain ⟨u, b5, h5, h⟩ := P.bind_some h
    cases h
    refine ⟨b3, ?_⟩
    unfold shallowHistograms
    rw [P.bind_apply, h1]
    dsimp only
    rw [P.bind_apply, h3]
    dsimp only
    rw [hl, hn]
    rfl

/-- What the histogram section of a file told. -/
def SectState.told (s : SectState) : Option (List Nat × Nat) := s.hist.map fun r => (r.schemes, r.histograms.length)

theorem decBody_told {par : Codec} {s s' : SectState} {tag : Nat} {payload : List Nat} (h : decBody par s tag payload = some s') :
    s'.header = s.header ∧ (tag ≠ 6 → s'.told = s.told) ∧
      (tag = 6 → ∃ r rest, shallowHistograms s.header.comps.length (bytesBits payload) = some (r, rest) ∧ s'.told = some r) := by
  unfold decBody at h
  by_cases t3 : tag = 3
  · rw [if_pos t3] at h
    obtain ⟨m, -, rfl⟩ := Option.map_eq_some_iff.mp h
    exact ⟨rfl, fun _ => rfl, fun h => by omega⟩
  rw [if_neg t3] at h
  by_cases t4 : tag = 4
  · rw [if_pos t4] at h
    obtain ⟨m, -, rfl⟩ := Option.map_eq_some_iff.mp h
    exact ⟨rfl, fun _ => rfl, fun h => by omega⟩
  rw [if_neg t4] at h
  by_cases t5 : tag = 5
  · rw [if_pos t5] at h
    split at h
    · cases h
    · split at h
      · cases h
        exact ⟨rfl, fun _ => rfl, fun h => by omega⟩
      · cases h
  rw [if_neg t5] at h
  by_cases t6 : tag = 6
  · rw [if_pos t6] at h
    split at h
    · rename_i r heq
      cases h
      obtain ⟨rest, hr⟩ := shallow_of_histogramData heq
      exact ⟨rfl, fun h => absurd t6 h, fun _ => ⟨_, rest, hr, rfl⟩⟩
    · cases h
  rw [if_neg t6] at h
  by_cases t7 : tag = 7
  · rw [if_pos t7] at h
    split at h
    · cases h
    · obtain ⟨m, -, rfl⟩ := Option.map_eq_some_iff.mp h
      exact ⟨rfl, fun _ => rfl, fun h => by omega⟩
  rw [if_neg t7] at h
  by_cases t8 : tag = 8
  · rw [if_pos t8] at h
    split at h
    · obtain ⟨m, -, rfl⟩ := Option.map_eq_some_iff.mp h
      exact ⟨rfl, fun _ => rfl, fun h => by omega⟩
    · cases h
  rw [if_neg t8] at h
  cases h

theorem readTag_step {met bs rest : List Nat} {t : Nat × Bool × List Nat} (h : readTag met bs = .ok t rest) : bs ≠ [] ∧ t.1 ∈ t.2.2 := by
  cases bs with
  | nil => cases h
  | cons m bs =>
    refine ⟨by simp, ?_⟩
    unfold readTag at h
    dsimp only at h
    split at h
    · cases h
    · split at h
      · cases h
      · split at h
        · cases h
        · cases h
          exact List.mem_cons_self

theorem skip_of_read {par : Codec} (fuel : Nat) : ∀ {met : List Nat} {s s' : SectState} {bs : List Nat}, readSections (decBody par) fuel met s bs = .ok s' [] →
    s'.header = s.header ∧ skipSections s.header.comps.length (fuel + 1) met s.told bs = .ok s'.told [] := by
  induction fuel with
  | zero => intro met s s' bs h; cases h
  | succ fuel ih =>
    intro met s s' bs h
    rw [readSections] at h
    obtain ⟨t, b1, h1, h⟩ := Rd.andThen_ok h
    obtain ⟨hne, hmem⟩ := readTag_step h1
    rw [skipSections]
    beta_reduce
    rw [if_neg (fun h => hne h.1), andThen_eq h1]
    by_cases hsec : t.2.1 = true
    · rw [if_pos hsec] at h ⊢
      obtain ⟨v, b2, h2, h⟩ := Rd.andThen_ok h
      rw [andThen_eq h2]
      by_cases h9 : 9 < t.1
      · rw [if_pos h9] at h
        obtain ⟨_, b3, h3, h⟩ := Rd.andThen_ok h
        rw [if_pos (by omega), andThen_eq h3]
        exact ih h
      · rw [if_neg h9] at h
        by_cases hreq : ((requires t.1).any fun r => r ∉ met) = true
        · rw [if_pos hreq] at h; cases h
        rw [if_neg hreq] at h
        split at h
        · cases h
        obtain ⟨payload, b3, h3, h⟩ := Rd.andThen_ok h
        obtain ⟨s1, b4, h4, h⟩ := Rd.andThen_ok h
        obtain ⟨h5, rfl⟩ := ofOption_ok h4
        obtain ⟨d1, d2, d3⟩ := decBody_told h5
        have main : s'.header = s.header ∧ skipSections s.header.comps.length (fuel + 1) t.2.2 s1.told b3 = .ok s'.told [] := by
          by_cases h8 : t.1 = 8
          · rw [if_pos h8] at h
            cases h
            refine ⟨d1, ?_⟩
            rw [skipSections]
            beta_reduce
            rw [if_pos ⟨rfl, by rw [← h8]; exact hmem⟩]
          · rw [if_neg h8] at h
            have := ih h
            rw [d1] at this
            exact this
        refine ⟨main.1, ?_⟩
        by_cases h6 : t.1 = 6
        · obtain ⟨r, rest, e1, e2⟩ := d3 h6
          rw [if_neg (not_not.mpr h6), if_neg ?_, andThen_eq h3]
          · rw [e1]
            dsimp only
            rw [← e2]
            exact main.2
          · intro h4'
            apply hreq
            rw [h6]
            show ([4].any fun r => decide (r ∉ met)) = true
            simpa using h4'
        · rw [if_pos h6, andThen_eq h3, ← d2 h6]
          exact main.2
    · rw [if_neg hsec] at h ⊢
      by_cases h9 : t.1 ≤ 9
      · rw [if_pos h9] at h; cases h
      · rw [if_neg h9] at h ⊢
        obtain ⟨v, b2, h2, h⟩ := Rd.andThen_ok h
        rw [andThen_eq h2]
        exact ih h

/-- Everything the estimate of a decodable file is made from is as decoding it finds it. -/
theorem estimateParse_image {par : Codec} {bs : List Nat} {s : SectState} (h : decodeFile (fun h => some (SectState.init h)) (decBody par) bs = .ok (.image s) []) :
    estimateParse bs = some (s.header, s.told) ∧ s.header.Ok := by
  unfold decodeFile at h
  cases hr : readFile (fun h => some (SectState.init h)) (decBody par) bs with
  | needMore => rw [hr] at h; cases h
  | invalid => rw [hr] at h; cases h
  | ok c rest =>
    rw [hr] at h
    dsimp only at h
    by_cases he : rest = []
    · rw [if_pos he] at h
      subst he
      cases h
      unfold readFile at hr
      obtain ⟨u, b1, h1, hr⟩ := Rd.andThen_ok hr
      obtain ⟨t, b2, h2, hr⟩ := Rd.andThen_ok hr
      obtain ⟨hd, met⟩ := t
      have hok := readHeader_ok h2
      dsimp only at hr
      by_cases hv : hd.version = 1
      · rw [if_pos hv] at hr
        obtain ⟨d, b3, h3, hr⟩ := Rd.andThen_ok hr
        cases hr
      · rw [if_neg hv] at hr
        obtain ⟨s0, b3, h3, hr⟩ := Rd.andThen_ok hr
        cases h3
        obtain ⟨s1, b4, h4, hr⟩ := Rd.andThen_ok hr
        cases hr
        obtain ⟨e1, e2⟩ := skip_of_read 16 h4
        refine ⟨?_, by rw [e1]; exact hok.resolve_left hv⟩
        have e2' : skipSections hd.comps.length 17 (9 :: met) none b2 = .ok s.told [] := e2
        unfold estimateParse
        rw [andThen_eq h1, andThen_eq h2]
        dsimp only
        rw [if_neg hv, andThen_eq e2', e1]
        rfl
    · rw [if_neg he] at h
      cases h

theorem sum_add_map {α : Type} (f g : α → Nat) (l : List α) : (l.map fun x => f x + g x).sum = (l.map f).sum + (l.map g).sum := by
  induction l with
  | nil => rfl
  | cons a l ih => simp only [List.map_cons, List.sum_cons, ih]; omega

theorem storage_eq (h : Header) : storageBytes h = h.totalBlocks * 128 + h.totalBlocks := by
  unfold storageBytes Header.totalBlocks
  rw [sum_add_map]
  congr 1
  induction h.blocks with
  | nil => rfl
  | cons a l ih => simp only [List.map_cons, List.sum_cons, ih]; omega

theorem sum_mono {α : Type} {f g : α → Nat} {l : List α} (h : ∀ x ∈ l, f x ≤ g x) : (l.map f).sum ≤ (l.map g).sum := by
  induction l with
  | nil => exact Nat.le_refl _
  | cons a l ih =>
    simp only [List.map_cons, List.sum_cons]
    have := h a List.mem_cons_self
    have := ih fun x hx => h x (List.mem_cons_of_mem _ hx)
    omega

theorem sum_bounded {α : Type} {f : α → Nat} {l : List α} {c : Nat} (h : ∀ x ∈ l, f x ≤ c) : (l.map f).sum ≤ l.length * c := by
  induction l with
  | nil => exact Nat.zero_le _
  | cons a l ih =>
    simp only [List.map_cons, List.sum_cons, List.length_cons, Nat.succ_mul]
    have := h a List.mem_cons_self
    have := ih fun x hx => h x (List.mem_cons_of_mem _ hx)
    omega

/-! ## No overflow -/

theorem readHeader_cases {met bs rest met' : List Nat} {h : Header} (hr : readHeader met bs = .ok (h, met') rest) : h = ⟨1, 0, 0, []⟩ ∨ h.Ok := by
  obtain ⟨t, m1, h1, h2⟩ := Rd.andThen_ok hr
  by_cases hc : t.1 = 2 ∧ t.2.1 = true
  · rw [if_pos hc] at h2
    obtain ⟨size, m2, h3, h4⟩ := Rd.andThen_ok h2
    obtain ⟨h', m3, h5, h6⟩ := Rd.andThen_ok h4
    cases h6
    obtain ⟨u, m4, h7, h8⟩ := Rd.andThen_ok h5
    rcases headerFinale_ok (ofOption_ok h8).1 with h | ⟨hok, _⟩
    · exact Or.inl h
    · exact Or.inr hok
  · rw [if_neg hc] at h2
    cases h2

/-- What the histogram section of a file with `n` components can tell. -/
def Told (n : Nat) (r : List Nat × Nat) : Prop := r.1.length = n ∧ r.2 ≤ 256

theorem shallow_told {n : Nat} {bs rest : List Bool} {r : List Nat × Nat} (h : shallowHistograms n bs = some (r, rest)) : Told n r := by
  unfold shallowHistograms at h
  obtain ⟨schemes, b1, h1, h⟩ := P.bind_some h
  obtain ⟨x, b2, h2, h⟩ := P.bind_some h
  cases h
  have := decodeVarLenUint8_lt h2
  exact ⟨(replicate_all (q := fun _ => True) (fun _ _ _ _ => trivial) _ _ _ _ h1).1, by omega⟩

theorem skip_told {n : Nat} (fuel : Nat) : ∀ {met : List Nat} {s s' : Option (List Nat × Nat)} {bs rest : List Nat}, (∀ r ∈ s, Told n r) →
    skipSections n fuel met s bs = .ok s' rest → ∀ r ∈ s', Told n r := by
  induction fuel with
  | zero => intro met s s' bs rest _ h; cases h
  | succ fuel ih =>
    intro met s s' bs rest hs h
    rw [skipSections] at h
    beta_reduce at h
    by_cases hc : bs = [] ∧ 8 ∈ met
    · rw [if_pos hc] at h
      cases h
      exact hs
    rw [if_neg hc] at h
    obtain ⟨t, b1, h1, h⟩ := Rd.andThen_ok h
    by_cases hsec : t.2.1 = true
    · rw [if_pos hsec] at h
      obtain ⟨v, b2, h2, h⟩ := Rd.andThen_ok h
      by_cases h6 : t.1 ≠ 6
      · rw [if_pos h6] at h
        obtain ⟨_, b3, h3, h⟩ := Rd.andThen_ok h
        exact ih hs h
      · rw [if_neg h6] at h
        by_cases h4 : 4 ∉ met
        · rw [if_pos h4] at h; cases h
        rw [if_neg h4] at h
        obtain ⟨payload, b3, h3, h⟩ := Rd.andThen_ok h
        cases hsh : shallowHistograms n (bytesBits payload) with
        | none => rw [hsh] at h; cases h
        | some r =>
          rw [hsh] at h
          refine ih ?_ h
          intro r' hr'
          cases hr'
          exact shallow_told hsh
    · rw [if_neg hsec] at h
      by_cases h9 : t.1 ≤ 9
      · rw [if_pos h9] at h; cases h
      · rw [if_neg h9] at h
        obtain ⟨v, b2, h2, h⟩ := Rd.andThen_ok h
        exact ih hs h

theorem estimateParse_sane {bs : List Nat} {h : Header} {s : Option (List Nat × Nat)} (he : estimateParse bs = some (h, s)) :
    (h = ⟨1, 0, 0, []⟩ ∨ h.Ok) ∧ ∀ r ∈ s, Told h.comps.length r := by
  unfold estimateParse at he
  split at he
  · rename_i r heq
    cases he
    obtain ⟨u, b1, h1, h2⟩ := Rd.andThen_ok heq
    obtain ⟨t, b2, h3, h4⟩ := Rd.andThen_ok h2
    obtain ⟨hd, met⟩ := t
    have hc := readHeader_cases h3
    dsimp only at h4
    by_cases hv : hd.version = 1
    · rw [if_pos hv] at h4
      obtain ⟨_, b3, h5, h6⟩ := Rd.andThen_ok h4
      cases h6
      exact ⟨hc, by simp⟩
    · rw [if_neg hv] at h4
      obtain ⟨_, b3, h5, h6⟩ := Rd.andThen_ok h4
      cases h6
      exact ⟨hc, skip_told _ (by simp) h5⟩
  · cases he

theorem contexts_le (schemes : List Nat) : numContexts schemes ≤ schemes.length * 413 := by
  unfold numContexts
  have : (schemes.map fun s => kNumNonzeroContextSkip.getD s 0).sum ≤ schemes.length * 412 := by
    refine sum_bounded fun s _ => ?_
    rcases Nat.lt_or_ge s 7 with h | h
    · have : ∀ s < 7, kNumNonzeroContextSkip.getD s 0 ≤ 412 := by decide
      exact this s h
    · rw [List.getD_eq_getElem?_getD, List.getElem?_eq_none (by exact h)]
      exact Nat.zero_le _
  omega

theorem blocks_small {h : Header} (hok : h.Ok) : h.blocks.length ≤ 4 ∧ ∀ b ∈ h.blocks, b.1 ≤ 65535 * 15 ∧ b.1 * b.2 ≤ 2 ^ 21 := by
  refine ⟨by unfold Header.blocks; rw [List.length_map]; exact hok.ncomp.2, fun b hb => ⟨?_, hok.blocks b hb⟩⟩
  obtain ⟨c, hc, rfl⟩ := List.mem_map.mp hb
  have h1 := (hok.factors c hc).2.1
  have h2 : h.mcuCols ≤ 65535 := by
    unfold Header.mcuCols
    have hp : 0 < maxFactor (h.comps.map Prod.fst) * 8 := by have := maxFactor_pos (h.comps.map Prod.fst); omega
    rw [divCeil_le_iff hp]
    have := hok.width.2
    exact Nat.le_trans this (Nat.le_mul_of_pos_right _ hp)
  exact Nat.mul_le_mul h2 h1

theorem estimate_small {bs : List Nat} {h : Header} {s : Option (List Nat × Nat)} (he : estimateParse bs = some (h, s)) :
    h.totalBlocks * 64 * 2 + max (decodePeak h s) kJpegWriterSize < 2 ^ 62 := by
  obtain ⟨hc, ht⟩ := estimateParse_sane he
  have hb : h.blocks.length ≤ 4 ∧ ∀ b ∈ h.blocks, b.1 ≤ 65535 * 15 ∧ b.1 * b.2 ≤ 2 ^ 21 := by
    rcases hc with rfl | hok
    · exact ⟨by decide, fun b hb => by cases hb⟩
    · exact blocks_small hok
  have hn : h.comps.length ≤ 4 := by
    rcases hc with rfl | hok
    · decide
    · exact hok.ncomp.2
  have h1 : h.totalBlocks ≤ 4 * 2 ^ 21 := Nat.le_trans (sum_bounded fun b hx => (hb.2 b hx).2) (Nat.mul_le_mul_right _ hb.1)
  have h2 : (h.blocks.map fun b => stateSizeInBytes b.1).sum ≤ 4 * stateSizeInBytes (65535 * 15) := by
    refine Nat.le_trans (sum_bounded (c := stateSizeInBytes (65535 * 15)) fun b hx => ?_) (Nat.mul_le_mul_right _ hb.1)
    have := (hb.2 b hx).1
    unfold stateSizeInBytes
    omega
  have h3 : decodePeak h s ≤ 2 ^ 40 := by
    unfold decodePeak
    have e : 4 * stateSizeInBytes (65535 * 15) ≤ 2 ^ 39 := by decide
    cases s with
    | none => dsimp only; omega
    | some r =>
      obtain ⟨schemes, n⟩ := r
      obtain ⟨t1, t2⟩ := ht _ rfl
      dsimp only at t1 t2 ⊢
      have := contexts_le schemes
      unfold kNumAvrgContexts
      omega
  have h4 : kJpegWriterSize ≤ 2 ^ 40 := by decide
  omega

/-! ## The histogram section of a decodable file is there -/

theorem readSections_hist {par : Codec} (fuel : Nat) : ∀ {met : List Nat} {s s' : SectState} {bs rest : List Nat},
    readSections (decBody par) fuel met s bs = .ok s' rest → ∃ r, s'.hist = some r := by
  induction fuel with
  | zero => intro met s s' bs rest h; cases h
  | succ fuel ih =>
    intro met s s' bs rest h
    rw [readSections] at h
    obtain ⟨t, b1, h1, h⟩ := Rd.andThen_ok h
    by_cases hsec : t.2.1 = true
    · rw [if_pos hsec] at h
      obtain ⟨v, b2, h2, h⟩ := Rd.andThen_ok h
      by_cases h9 : 9 < t.1
      · rw [if_pos h9] at h
        obtain ⟨_, b3, h3, h⟩ := Rd.andThen_ok h
        exact ih h
      · rw [if_neg h9] at h
        split at h
        · cases h
        split at h
        · cases h
        obtain ⟨payload, b3, h3, h⟩ := Rd.andThen_ok h
        obtain ⟨s1, b4, h4, h⟩ := Rd.andThen_ok h
        obtain ⟨h5, -⟩ := ofOption_ok h4
        by_cases h8 : t.1 = 8
        · rw [if_pos h8] at h
          cases h
          rw [h8] at h5
          unfold decBody at h5
          rw [if_neg (by decide), if_neg (by decide), if_neg (by decide), if_neg (by decide), if_neg (by decide), if_pos rfl] at h5
          split at h5
          · rename_i r _ _ _ e _ _
            obtain ⟨m, -, rfl⟩ := Option.map_eq_some_iff.mp h5
            exact ⟨r, e⟩
          · cases h5
        · rw [if_neg h8] at h
          exact ih h
    · rw [if_neg hsec] at h
      by_cases h9 : t.1 ≤ 9
      · rw [if_pos h9] at h; cases h
      · rw [if_neg h9] at h
        obtain ⟨v, b2, h2, h⟩ := Rd.andThen_ok h
        exact ih h

theorem decodeFile_hist {par : Codec} {bs : List Nat} {s : SectState} (h : decodeFile (fun h => some (SectState.init h)) (decBody par) bs = .ok (.image s) []) :
    ∃ r, s.hist = some r := by
  unfold decodeFile at h
  cases hr : readFile (fun h => some (SectState.init h)) (decBody par) bs with
  | needMore => rw [hr] at h; cases h
  | invalid => rw [hr] at h; cases h
  | ok c rest =>
    rw [hr] at h
    dsimp only at h
    by_cases he : rest = []
    · rw [if_pos he] at h
      cases h
      unfold readFile at hr
      obtain ⟨u, b1, h1, hr⟩ := Rd.andThen_ok hr
      obtain ⟨t, b2, h2, hr⟩ := Rd.andThen_ok hr
      by_cases hv : t.1.version = 1
      · rw [if_pos hv] at hr
        obtain ⟨d, b3, h3, hr⟩ := Rd.andThen_ok hr
        cases hr
      · rw [if_neg hv] at hr
        obtain ⟨s0, b3, h3, hr⟩ := Rd.andThen_ok hr
        obtain ⟨s1, b4, h4, hr⟩ := Rd.andThen_ok hr
        cases hr
        exact readSections_hist 16 h4
    · rw [if_neg he] at h
      cases h

end Brunsli
