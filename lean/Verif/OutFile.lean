import Verif.OutSize
import Verif.JFile
import Verif.JGrid
import Verif.StreamOutSpec
/-!
# How much is written

A bound on the size of a file that `SerializeJpeg` writes (c/dec/jpeg_data_writer.cc:876-1077).
-/

namespace Brunsli

/-! ## Blocks of a scan -/

/-- The blocks of a component. -/
def JpegData.blocksAt (J : JpegData) (c : Nat) : Nat :=
  match J.components[c]? with
  | none => 0
  | some x => x.width * x.height

/-- The blocks of the components of a scan. -/
def JpegData.scanBlocks (J : JpegData) (s : ScanInfo) : Nat := (s.comps.map fun c => J.blocksAt c.compIdx).sum

theorem sum_map_const {α : Type} (l : List α) (k : Nat) : (l.map fun _ => k).sum = l.length * k := by
  induction l with
  | nil => simp
  | cons a l ih => rw [List.map_cons, List.sum_cons, ih, List.length_cons, Nat.succ_mul]; omega

theorem length_flatMap_const {α β : Type} {f : α → List β} {k : Nat} : ∀ (l : List α), (∀ a ∈ l, (f a).length = k) → (l.flatMap f).length = l.length * k
  | [], _ => by simp
  | a :: l, h => by
    rw [List.flatMap_cons, List.length_append, h a List.mem_cons_self, length_flatMap_const l fun b hb => h b (List.mem_cons_of_mem _ hb), List.length_cons, Nat.succ_mul]
    omega

theorem mcuVisits_length (dims : Nat → CompDim) (comps : List ScanComp) (my mx : Nat) :
    (mcuVisits dims comps my mx).length = (comps.map fun s => unitsIn comps (dims s.compIdx).v * unitsIn comps (dims s.compIdx).h).sum := by
  unfold mcuVisits
  rw [List.length_flatMap]
  congr 1
  refine List.map_congr_left fun s _ => ?_
  rw [length_flatMap_const (k := unitsIn comps (dims s.compIdx).h) _ fun iy _ => by rw [List.length_map, List.length_range]; rfl, List.length_range]
  rfl

theorem mcuGrid_count (dims : Nat → CompDim) (comps : List ScanComp) (rows cols : Nat) : (mcuGrid dims comps rows cols).length = rows * cols := by
  unfold mcuGrid
  rw [length_flatMap_const (k := cols) _ fun _ _ => by rw [List.length_map, List.length_range], List.length_range]

theorem length_flatten_const {α : Type} {k : Nat} : ∀ (l : List (List α)), (∀ a ∈ l, a.length = k) → l.flatten.length = l.length * k
  | [], _ => by simp
  | a :: l, h => by
    rw [List.flatten_cons, List.length_append, h a List.mem_cons_self, length_flatten_const l fun b hb => h b (List.mem_cons_of_mem _ hb), List.length_cons, Nat.succ_mul]
    omega

theorem mcuGrid_flatten (dims : Nat → CompDim) (comps : List ScanComp) (rows cols : Nat) :
    (mcuGrid dims comps rows cols).flatten.length = rows * cols * (comps.map fun s => unitsIn comps (dims s.compIdx).v * unitsIn comps (dims s.compIdx).h).sum := by
  rw [length_flatten_const (k := (comps.map fun s => unitsIn comps (dims s.compIdx).v * unitsIn comps (dims s.compIdx).h).sum), mcuGrid_count]
  intro m hm
  unfold mcuGrid at hm
  obtain ⟨my, -, hm⟩ := List.mem_flatMap.mp hm
  obtain ⟨mx, -, rfl⟩ := List.mem_map.mp hm
  exact mcuVisits_length _ _ _ _

theorem mul_sum_le {α : Type} {f g : α → Nat} {k : Nat} : ∀ (l : List α), (∀ a ∈ l, k * f a ≤ g a) → k * (l.map f).sum ≤ (l.map g).sum
  | [], _ => by simp
  | a :: l, h => by
    have h1 := h a List.mem_cons_self
    have h2 := mul_sum_le l fun b hb => h b (List.mem_cons_of_mem _ hb)
    simp only [List.map_cons, List.sum_cons, Nat.mul_add]
    omega

/-- A scan has as many blocks as its components, at most. -/
theorem scan_blocks {J : JpegData} (hJ : J.Whole) (s : ScanInfo) :
    (mcuGrid (dimsOf J.components) s.comps (writerMcus J s).1 (writerMcus J s).2).flatten.length ≤ J.scanBlocks s := by
  rw [mcuGrid_flatten]
  refine mul_sum_le _ fun c hc => ?_
  have hrows := rows_all J s
  unfold JpegData.blocksAt
  cases hx : J.components[c.compIdx]? with
  | none =>
    have hd : dimsOf J.components c.compIdx = ⟨0, 0, 0⟩ := by unfold dimsOf; rw [hx]
    rw [hd]
    unfold unitsIn
    dsimp only
    by_cases hn : 1 < s.comps.length
    · rw [if_pos hn]; simp
    · rw [if_neg hn]
      have hs := only_comp hc hn
      unfold vGroup at hrows
      rw [if_neg hn, hs] at hrows
      simp only [List.map_cons, List.headD_cons, hd] at hrows
      have : (writerMcus J s).1 = 0 := by omega
      rw [this]; simp
  | some x =>
    have hd : dimsOf J.components c.compIdx = ⟨x.hSamp, x.vSamp, x.width⟩ := by unfold dimsOf; rw [hx]
    obtain ⟨hw, hh⟩ := hJ _ _ hx
    rw [hd]
    dsimp only
    have h1 : (writerMcus J s).1 * unitsIn s.comps x.vSamp ≤ x.height := by
      rw [hh]
      unfold unitsIn vGroup at *
      by_cases hn : 1 < s.comps.length
      · rw [if_pos hn] at hrows ⊢
        exact Nat.mul_le_mul_right _ (by omega)
      · have hs := only_comp hc hn
        rw [if_neg hn] at hrows ⊢
        rw [hs] at hrows
        simp only [List.map_cons, List.headD_cons, hd] at hrows
        rw [Nat.mul_one]
        exact hrows
    have h2 : (writerMcus J s).2 * unitsIn s.comps x.hSamp ≤ x.width := by
      rw [hw]
      unfold unitsIn writerMcus
      by_cases hn : 1 < s.comps.length
      · simp only [if_pos hn, Nat.mul_one]
        exact Nat.le_refl _
      · have hs := only_comp hc hn
        simp only [if_neg hn, Nat.mul_one]
        rw [hs]
        simp only [List.map_cons, List.headD_cons, hd]
        by_cases hz : 8 * maxH J.components = 0
        · rw [hz]
          unfold divCeil
          simp
        · exact divCeil_mul_le J.width x.hSamp (by omega)
    calc (writerMcus J s).1 * (writerMcus J s).2 * (unitsIn s.comps x.vSamp * unitsIn s.comps x.hSamp)
        = ((writerMcus J s).1 * unitsIn s.comps x.vSamp) * ((writerMcus J s).2 * unitsIn s.comps x.hSamp) := Nat.mul_mul_mul_comm _ _ _ _
      _ ≤ x.height * x.width := Nat.mul_le_mul h1 h2
      _ = x.width * x.height := Nat.mul_comm _ _

theorem units_pos {comps : List ScanComp} {n : Nat} (h : 1 ≤ n) : 1 ≤ unitsIn comps n := by
  unfold unitsIn
  split <;> omega

/-- Every MCU has a block. -/
theorem scan_mcus {dims : Nat → CompDim} {comps : List ScanComp} {rows cols : Nat} (hne : comps ≠ []) (hd : ∀ c ∈ comps, 1 ≤ (dims c.compIdx).h ∧ 1 ≤ (dims c.compIdx).v) :
    (mcuGrid dims comps rows cols).length ≤ (mcuGrid dims comps rows cols).flatten.length := by
  rw [mcuGrid_count, mcuGrid_flatten]
  have h1 : 1 ≤ (comps.map fun s => unitsIn comps (dims s.compIdx).v * unitsIn comps (dims s.compIdx).h).sum := by
    cases comps with
    | nil => exact absurd rfl hne
    | cons c cs =>
      rw [List.map_cons, List.sum_cons]
      have h := hd c List.mem_cons_self
      have := Nat.mul_le_mul (units_pos (comps := c :: cs) h.2) (units_pos (comps := c :: cs) h.1)
      omega
  calc rows * cols = rows * cols * 1 := (Nat.mul_one _).symm
    _ ≤ _ := Nat.mul_le_mul_left _ h1

/-! ## Segments -/

theorem chunkOf_length {n : Nat} {bs c : List Nat} (h : chunkOf n bs = .ok c) : c.length = n := by
  unfold chunkOf at h
  split at h
  · cases h
    rw [List.length_append, List.length_replicate]
    omega
  · cases h

theorem sosBytes_found {comps : List Component} : ∀ {l : List ScanComp} {bs : List Nat}, sosBytes comps l = some bs → ∀ c ∈ l, ∃ x, comps[c.compIdx]? = some x
  | [], _, _, c, hc => nomatch hc
  | s :: ss, bs, h, c, hc => by
    rw [sosBytes] at h
    cases hx : comps[s.compIdx]? with
    | none => rw [hx] at h; cases h
    | some x =>
      rw [hx] at h
      obtain ⟨r, hr, -⟩ := Option.map_eq_some_iff.mp h
      cases hc with
      | head => exact ⟨x, hx⟩
      | tail _ hc => exact sosBytes_found hr c hc

theorem encodeSOS_length {J : JpegData} {s : ScanInfo} {c : List Nat} (h : encodeSOS J s = .ok c) : c.length = 8 + 2 * s.comps.length ∧ ∀ c ∈ s.comps, ∃ x, J.components[c.compIdx]? = some x := by
  unfold encodeSOS at h
  dsimp only at h
  cases hs : sosBytes J.components s.comps with
  | none => rw [hs] at h; cases h
  | some bs =>
    rw [hs] at h
    have := chunkOf_length h
    exact ⟨by omega, sosBytes_found hs⟩

/-- The bytes that a scan may take. -/
def JpegData.scanLimit (J : JpegData) (s : ScanInfo) : Nat := 10 + 2 * s.comps.length + 8 * (s.extraZeroRuns.map Prod.snd).sum + 1058 * J.scanBlocks s

/-- What is known about the numbers in a scan. -/
structure ScanSmall (s : ScanInfo) : Prop where
  se : s.se < 64
  some : s.comps ≠ []

/-- What is known about the components. -/
def JpegData.Sampled (J : JpegData) : Prop := ∀ x ∈ J.components, 1 ≤ x.hSamp ∧ 1 ≤ x.vSamp

theorem BW.finish_out (w : BW) : w.finish.flatten = w.out := by
  unfold BW.finish BW.out
  split
  · rename_i h; rw [h, List.append_nil]
  · simp

theorem encodeScan_length {J : JpegData} (hJ : J.Whole) (hm : J.Sampled) {s : ScanInfo} (hs : ScanSmall s) {ws : WJ} {cs : List (List Nat)} {pads : Pads} (h : encodeScan J s ws = .ok (cs, pads)) :
    cs.flatten.length ≤ J.scanLimit s := by
  unfold encodeScan at h
  cases hsos : encodeSOS J s with
  | ok sos =>
    rw [hsos] at h
    obtain ⟨h1, h2⟩ := encodeSOS_length hsos
    simp only [Run.bind] at h
    split at h
    · cases h
    · cases hw : writeScanData ws.T ws.prog (scanParams ws.prog s) (if ws.dri then J.restartInterval else 0) J.coefs
        (mcuGrid (dimsOf J.components) s.comps (writerMcus J s).1 (writerMcus J s).2) s.resetPoints s.extraZeroRuns (BW.init [sos]) ws.pads with
      | ok p =>
        obtain ⟨w, ps⟩ := p
        rw [hw] at h
        have h := (Prod.mk.inj (Run.ok.inj h)).1
        subst h
        have hse : (scanParams ws.prog s).se < 64 := by
          unfold scanParams
          split
          · exact hs.se
          · decide
        have h3 := writeScanData_size hse rfl hw
        have h4 := scan_blocks hJ s
        have h5 := scan_mcus (dims := dimsOf J.components) (rows := (writerMcus J s).1) (cols := (writerMcus J s).2) hs.some fun c hc => by
          obtain ⟨x, hx⟩ := h2 c hc
          unfold dimsOf
          rw [hx]
          exact hm x (List.mem_of_getElem? hx)
        have h6 : (BW.init [sos]).out.length = sos.length := by simp [BW.init, BW.out]
        rw [BW.finish_out]
        unfold JpegData.scanLimit
        show w.out.length ≤ _
        omega
      | fail => rw [hw] at h; cases h
      | ub => rw [hw] at h; cases h
  | fail => rw [hsos] at h; cases h
  | ub => rw [hsos] at h; cases h

/-- The bytes of the codes in a DHT segment. -/
def huffBytes (l : List HuffCode) : Nat := (l.map fun h => 16 + h.counts.sum).sum

theorem dhtWrite_length : ∀ {l : List HuffCode} {T : HSlot → CodeTable} {r : List Nat × Nat × (HSlot → CodeTable)}, dhtWrite l T = .ok r → dhtLength l + huffBytes (l.drop r.2.1) ≤ huffBytes l
  | [], _, _, h => by cases h
  | a :: l, T, r, h => by
    rw [dhtWrite] at h
    split at h
    · cases h
    · cases hb : buildCodeTable (T a.slot) a with
      | ok t =>
        rw [hb] at h
        simp only [Run.bind] at h
        rw [dhtLength]
        have ha : huffBytes (a :: l) = 16 + a.counts.sum + huffBytes l := by unfold huffBytes; rw [List.map_cons, List.sum_cons]
        split at h
        · rename_i hl
          cases h
          rw [if_pos hl, ha]
          simp
        · rename_i hl
          cases hr : dhtWrite l (fun s => if s = a.slot then t else T s) with
          | ok q =>
            rw [hr] at h
            cases h
            have := dhtWrite_length hr
            rw [if_neg hl, ha, List.drop_succ_cons]
            omega
          | fail => rw [hr] at h; cases h
          | ub => rw [hr] at h; cases h
      | fail => rw [hb] at h; cases h
      | ub => rw [hb] at h; cases h

theorem dqtWrite_length : ∀ {l : List QuantTable} {r : List Nat × Nat}, dqtWrite l = .ok r → dqtLength l + 129 * (l.drop r.2).length ≤ 129 * l.length
  | [], _, h => by cases h
  | a :: l, r, h => by
    rw [dqtWrite] at h
    rw [dqtLength]
    have h2 : (if a.precision ≠ 0 then 2 else 1) * 64 ≤ 128 := by split <;> omega
    split at h
    · rename_i hl
      cases h
      rw [if_pos hl]
      simp only [List.drop_succ_cons, List.drop_zero, List.length_cons]
      omega
    · rename_i hl
      cases hr : dqtWrite l with
      | ok q =>
        rw [hr] at h
        cases h
        have := dqtWrite_length hr
        rw [if_neg hl, List.drop_succ_cons]
        simp only [List.length_cons]
        omega
      | fail => rw [hr] at h; cases h
      | ub => rw [hr] at h; cases h

/-! ## Markers -/

/-- Bytes in a list of strings. -/
def bytesIn (l : List (List Nat)) : Nat := (l.map List.length).sum

theorem bytesIn_drop {l : List (List Nat)} {i : Nat} {a : List Nat} (h : l[i]? = some a) : a.length + bytesIn (l.drop (i + 1)) = bytesIn (l.drop i) := by
  obtain ⟨hi, rfl⟩ := List.getElem?_eq_some_iff.mp h
  rw [List.drop_eq_getElem_cons hi]
  unfold bytesIn
  rw [List.map_cons, List.sum_cons]

theorem scans_drop {J : JpegData} {l : List ScanInfo} {i : Nat} {a : ScanInfo} (h : l[i]? = some a) :
    J.scanLimit a + ((l.drop (i + 1)).map J.scanLimit).sum = ((l.drop i).map J.scanLimit).sum := by
  obtain ⟨hi, rfl⟩ := List.getElem?_eq_some_iff.mp h
  rw [List.drop_eq_getElem_cons hi, List.map_cons, List.sum_cons]

/-- What may be written for what is left. -/
def WJ.left (J : JpegData) (ws : WJ) : Nat :=
  bytesIn (J.appData.drop ws.app) + bytesIn (J.comData.drop ws.com) + bytesIn (J.interMarker.drop ws.inter) + huffBytes (J.huffman.drop ws.dht) +
    129 * (J.quant.drop ws.dqt).length + ((J.scans.drop ws.scan).map J.scanLimit).sum

/-- What a marker may take by itself. -/
def JpegData.markerLimit (J : JpegData) (m : Nat) : Nat := 10 + 3 * J.components.length + if m = 0xD9 then J.tailData.length else 0

theorem flatten_one {α : Type} (c : List α) : [c].flatten = c := by simp

theorem writeMarker_length {J : JpegData} (hJ : J.Whole) (hm : J.Sampled) (hs : ∀ s ∈ J.scans, ScanSmall s) {ws ws' : WJ} {m : Nat} {cs : List (List Nat)}
    (h : writeMarker J ws m = .ok (cs, ws')) : cs.flatten.length + ws'.left J ≤ ws.left J + J.markerLimit m := by
  unfold writeMarker at h
  unfold JpegData.markerLimit
  by_cases c0 : (0xC0 ≤ m ∧ m ≤ 0xC2) ∨ m = 0xC9 ∨ m = 0xCA
  · rw [if_pos c0] at h
    cases hc : encodeSOF J m with
    | ok c =>
      rw [hc] at h
      cases h
      unfold encodeSOF at hc
      dsimp only at hc
      cases hb : sofBytes J.quant J.components with
      | none => rw [hb] at hc; cases hc
      | some bs =>
        rw [hb] at hc
        have := chunkOf_length hc
        rw [flatten_one]
        show c.length + ws.left J ≤ _
        omega
    | fail => rw [hc] at h; cases h
    | ub => rw [hc] at h; cases h
  rw [if_neg c0] at h
  by_cases c1 : m = 0xC4
  · rw [if_pos c1] at h
    cases hc : encodeDHT J ws.dht ws.T with
    | ok p =>
      obtain ⟨c, i, T⟩ := p
      rw [hc] at h
      cases h
      unfold encodeDHT at hc
      dsimp only at hc
      cases hd : dhtWrite (J.huffman.drop ws.dht) ws.T with
      | ok r =>
        rw [hd] at hc
        simp only [Run.bind] at hc
        cases hk : chunkOf (2 + dhtLength (J.huffman.drop ws.dht) + 2) (0xFF :: 0xC4 :: (be16 (2 + dhtLength (J.huffman.drop ws.dht)) ++ r.1)) with
        | ok k =>
          rw [hk] at hc
          cases hc
          have h1 := chunkOf_length hk
          have h2 := dhtWrite_length hd
          rw [List.drop_drop] at h2
          rw [flatten_one]
          unfold WJ.left
          dsimp only
          omega
        | fail => rw [hk] at hc; cases hc
        | ub => rw [hk] at hc; cases hc
      | fail => rw [hd] at hc; cases hc
      | ub => rw [hd] at hc; cases hc
    | fail => rw [hc] at h; cases h
    | ub => rw [hc] at h; cases h
  rw [if_neg c1] at h
  by_cases c2 : 0xD0 ≤ m ∧ m ≤ 0xD7
  · rw [if_pos c2] at h
    cases h
    rw [flatten_one]
    simp only [List.length_cons, List.length_nil]
    omega
  rw [if_neg c2] at h
  by_cases c3 : m = 0xD9
  · rw [if_pos c3] at h
    cases h
    rw [if_pos c3]
    simp only [List.flatten_cons, List.flatten_nil, List.append_nil, List.length_append, List.length_cons, List.length_nil]
    omega
  rw [if_neg c3] at h
  by_cases c4 : m = 0xDA
  · rw [if_pos c4] at h
    cases hg : J.scans[ws.scan]? with
    | none => rw [hg] at h; cases h
    | some s =>
      rw [hg] at h
      dsimp only at h
      cases he : encodeScan J s ws with
      | ok p =>
        obtain ⟨c, ps⟩ := p
        rw [he] at h
        cases h
        have h1 := encodeScan_length hJ hm (hs s (List.mem_of_getElem? hg)) he
        have h2 := scans_drop (J := J) hg
        unfold WJ.left
        dsimp only
        omega
      | fail => rw [he] at h; cases h
      | ub => rw [he] at h; cases h
  rw [if_neg c4] at h
  by_cases c5 : m = 0xDB
  · rw [if_pos c5] at h
    cases hc : encodeDQT J ws.dqt with
    | ok p =>
      obtain ⟨c, i⟩ := p
      rw [hc] at h
      cases h
      unfold encodeDQT at hc
      dsimp only at hc
      cases hd : dqtWrite (J.quant.drop ws.dqt) with
      | ok r =>
        rw [hd] at hc
        simp only [Run.bind] at hc
        cases hk : chunkOf (2 + dqtLength (J.quant.drop ws.dqt) + 2) (0xFF :: 0xDB :: (be16 (2 + dqtLength (J.quant.drop ws.dqt)) ++ r.1)) with
        | ok k =>
          rw [hk] at hc
          cases hc
          have h1 := chunkOf_length hk
          have h2 := dqtWrite_length hd
          rw [List.drop_drop] at h2
          rw [flatten_one]
          unfold WJ.left
          dsimp only
          omega
        | fail => rw [hk] at hc; cases hc
        | ub => rw [hk] at hc; cases hc
      | fail => rw [hd] at hc; cases hc
      | ub => rw [hd] at hc; cases hc
    | fail => rw [hc] at h; cases h
    | ub => rw [hc] at h; cases h
  rw [if_neg c5] at h
  by_cases c6 : m = 0xDD
  · rw [if_pos c6] at h
    cases h
    rw [flatten_one]
    show (encodeDRI J).length + ws.left J ≤ _
    have : (encodeDRI J).length = 6 := rfl
    omega
  rw [if_neg c6] at h
  by_cases c7 : 0xE0 ≤ m ∧ m ≤ 0xEF
  · rw [if_pos c7] at h
    cases hg : J.appData[ws.app]? with
    | none => rw [hg] at h; cases h
    | some a =>
      rw [hg] at h
      cases h
      have h2 := bytesIn_drop hg
      unfold WJ.left
      simp only [List.flatten_cons, List.flatten_nil, List.append_nil, List.length_append, List.length_cons, List.length_nil]
      omega
  rw [if_neg c7] at h
  by_cases c8 : m = 0xFE
  · rw [if_pos c8] at h
    cases hg : J.comData[ws.com]? with
    | none => rw [hg] at h; cases h
    | some a =>
      rw [hg] at h
      cases h
      have h2 := bytesIn_drop hg
      unfold WJ.left
      simp only [List.flatten_cons, List.flatten_nil, List.append_nil, List.length_append, List.length_cons, List.length_nil]
      omega
  rw [if_neg c8] at h
  by_cases c9 : m = 0xFF
  · rw [if_pos c9] at h
    cases hg : J.interMarker[ws.inter]? with
    | none => rw [hg] at h; cases h
    | some a =>
      rw [hg] at h
      cases h
      have h2 := bytesIn_drop hg
      unfold WJ.left
      simp only [List.flatten_cons, List.flatten_nil, List.append_nil]
      omega
  rw [if_neg c9] at h
  cases h

theorem writeMarkers_length {J : JpegData} (hJ : J.Whole) (hm : J.Sampled) (hs : ∀ s ∈ J.scans, ScanSmall s) : ∀ {ms : List Nat} {ws : WJ} {cs : List (List Nat)},
    writeMarkers J ms ws = .ok cs → cs.flatten.length ≤ ws.left J + (ms.map J.markerLimit).sum
  | [], ws, cs, h => by cases h; simp
  | m :: ms, ws, cs, h => by
    rw [writeMarkers] at h
    cases h1 : writeMarker J ws m with
    | ok p =>
      obtain ⟨c, ws'⟩ := p
      rw [h1] at h
      simp only [Run.bind] at h
      cases h2 : writeMarkers J ms ws' with
      | ok r =>
        rw [h2] at h
        cases h
        have h3 := writeMarker_length hJ hm hs h1
        have h4 := writeMarkers_length hJ hm hs h2
        rw [List.flatten_append, List.length_append, List.map_cons, List.sum_cons]
        omega
      | fail => rw [h2] at h; cases h
      | ub => rw [h2] at h; cases h
    | fail => rw [h1] at h; cases h
    | ub => rw [h1] at h; cases h

/-- The bytes that the file may have. -/
def JpegData.outputLimit (J : JpegData) : Nat :=
  2 + (bytesIn J.appData + bytesIn J.comData + bytesIn J.interMarker + huffBytes J.huffman + 129 * J.quant.length + (J.scans.map J.scanLimit).sum) + (J.markerOrder.map J.markerLimit).sum

/-- **The size of a file.** -/
theorem writeJpeg_length {J : JpegData} (hJ : J.Whole) (hm : J.Sampled) (hs : ∀ s ∈ J.scans, ScanSmall s) {T : HSlot → CodeTable} {cs : List (List Nat)}
    (h : writeJpeg T J = .ok cs) : cs.flatten.length ≤ J.outputLimit := by
  unfold writeJpeg at h
  split at h
  · cases h
  split at h
  · cases h
  cases h2 : writeMarkers J J.markerOrder ((WJ.init T).prepared J) with
  | ok r =>
    rw [h2] at h
    cases h
    have h3 := writeMarkers_length hJ hm hs h2
    have h4 : ((WJ.init T).prepared J).left J =
        bytesIn J.appData + bytesIn J.comData + bytesIn J.interMarker + huffBytes J.huffman + 129 * J.quant.length + (J.scans.map J.scanLimit).sum := rfl
    rw [h4] at h3
    rw [List.flatten_cons, List.length_append]
    unfold JpegData.outputLimit
    simp only [List.length_cons, List.length_nil]
    omega
  | fail => rw [h2] at h; cases h
  | ub => rw [h2] at h; cases h

end Brunsli
