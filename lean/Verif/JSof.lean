import Verif.JHoare
/-!
# Frame and scan headers

What the readers of the frame header and of the scan header accept, and which bytes they read.
-/

namespace Brunsli

open JM

/-! ## Frame headers -/

/-- The bytes of a component in a frame header. -/
def Component.bytes (c : Component) : List Nat := [c.id, c.hSamp * 16 + c.vSamp, c.quantIdx]

/-- A component as a frame header can give it. -/
structure Component.Raw (c : Component) : Prop where
  id : c.id < 256
  h : 1 ≤ c.hSamp ∧ c.hSamp ≤ 15
  v : 1 ≤ c.vSamp ∧ c.vSamp ≤ 15
  quant : c.quantIdx < 256
  coeffs : c.coeffs = []

theorem sofComps_wp {d : List Nat} (hd : Bytes d) (n : Nat) : ∀ (seen : List Nat) (p : Nat), p + 3 * n ≤ d.length →
    (sofComps n seen).Wp d p fun cs p' => p' = p + 3 * n ∧ cs.length = n ∧ slice d p p' = cs.flatMap Component.bytes ∧ (∀ c ∈ cs, c.Raw) ∧
      (cs.map Component.id).Nodup ∧ ∀ c ∈ cs, c.id ∉ seen := by
  induction n with
  | zero =>
    intro seen p _
    rw [sofComps, wp_pure]
    exact ⟨rfl, rfl, by rw [slice_nil _ (by omega)]; rfl, (fun _ h => (List.not_mem_nil h).elim), List.nodup_nil, (fun _ h => (List.not_mem_nil h).elim)⟩
  | succ n ih =>
    intro seen p hp
    rw [sofComps]
    simp only [wp_bind, wp_u8, wp_check, wp_pure, decide_eq_true_eq]
    refine ⟨by omega, fun hs => ⟨by omega, fun hh hv => ⟨by omega, ?_⟩⟩⟩
    refine (ih (byteOf d p :: seen) (p + 1 + 1 + 1) (by omega)).mono fun cs p' hq => ?_
    obtain ⟨e1, e2, e3, e4, e5, e6⟩ := hq
    refine ⟨by omega, by simp [e2], ?_, ?_, ?_, ?_⟩
    · rw [slice_cons _ (by omega), slice_cons _ (by omega), slice_cons _ (by omega), e3, List.flatMap_cons]
      unfold Component.bytes
      have : byteOf d (p + 1) / 16 * 16 + byteOf d (p + 1) % 16 = byteOf d (p + 1) := by omega
      simp only [this, List.cons_append, List.nil_append]
    · intro c hc
      rcases List.mem_cons.mp hc with rfl | hc
      · exact ⟨byteOf_lt hd _, hh, hv, byteOf_lt hd _, rfl⟩
      · exact e4 c hc
    · rw [List.map_cons, List.nodup_cons]
      refine ⟨?_, e5⟩
      intro hm
      obtain ⟨c, hc, he⟩ := List.mem_map.mp hm
      exact e6 c hc (by rw [he]; exact List.mem_cons_self)
    · intro c hc
      rcases List.mem_cons.mp hc with rfl | hc
      · exact hs
      · exact fun h => e6 c hc (List.mem_cons_of_mem _ h)

/-- The components of a frame, as the reader accepts them: the checks of the frame header (c/enc/jpeg_data_reader.cc:91-146). -/
structure FrameOk (w h : Nat) (cs : List Component) : Prop where
  width : 1 ≤ w ∧ w ≤ 65535
  height : 1 ≤ h ∧ h ≤ 65535
  count : 1 ≤ cs.length ∧ cs.length ≤ 4
  ids : (cs.map Component.id).Nodup
  raw : ∀ c ∈ cs, c.Raw
  div : ∀ c ∈ cs, maxH cs % c.hSamp = 0 ∧ maxV cs % c.vSamp = 0
  cols : ∀ c ∈ cs, c.width = divCeil w (maxH cs * 8) * c.hSamp
  rows : ∀ c ∈ cs, c.height = divCeil h (maxV cs * 8) * c.vSamp
  blocks : ∀ c ∈ cs, c.width * c.height ≤ kBrunsliMaxNumBlocks

theorem maxH_sized (w h mh mv : Nat) (cs : List Component) : maxH (cs.map (sizedComp w h mh mv)) = maxH cs := by
  unfold maxH
  rw [List.map_map]
  rfl

theorem maxV_sized (w h mh mv : Nat) (cs : List Component) : maxV (cs.map (sizedComp w h mh mv)) = maxV cs := by
  unfold maxV
  rw [List.map_map]
  rfl

/-- **Frame headers**: what the reader accepts is in order, and is what the segment says. -/
theorem processSOF_wp {d : List Nat} (hd : Bytes d) (width0 p : Nat) :
    (processSOF width0).Wp d p fun r p' => p ≤ p' ∧ p' ≤ d.length ∧ width0 = 0 ∧ FrameOk r.1 r.2.1 r.2.2 ∧
      slice d p p' = be16 (8 + 3 * r.2.2.length) ++ 8 :: (be16 r.2.1 ++ (be16 r.1 ++ r.2.2.length :: r.2.2.flatMap Component.bytes)) := by
  unfold processSOF
  simp only [wp_bind, wp_u8, wp_u16, wp_check, wp_need, wp_pos, wp_pure, wp_endsAt, decide_eq_true_eq]
  intro h0 hn
  refine ⟨by omega, by omega, by omega, by omega, by omega, fun hpr hh hw hc hl => ?_⟩
  refine (sofComps_wp hd _ _ _ hl).mono fun cs p' hq => ?_
  obtain ⟨e1, e2, e3, e4, e5, -⟩ := hq
  intro hall hend
  have hb := byteOf_lt hd
  have hlen : (cs.map (sizedComp (byteOf d (p + 2 + 1 + 2) * 256 + byteOf d (p + 2 + 1 + 2 + 1)) (byteOf d (p + 2 + 1) * 256 + byteOf d (p + 2 + 1 + 1)) (maxH cs) (maxV cs))).length =
      byteOf d (p + 2 + 1 + 2 + 2) := by rw [List.length_map, e2]
  refine ⟨by omega, by omega, h0, ?_, ?_⟩
  · rw [List.all_eq_true] at hall
    constructor
    · exact hw
    · exact hh
    · show _ ≤ List.length _ ∧ List.length _ ≤ _
      rw [hlen]; exact hc
    · rw [List.map_map]; exact e5
    · intro c hcm
      obtain ⟨c', hc', rfl⟩ := List.mem_map.mp hcm
      exact ⟨(e4 c' hc').id, (e4 c' hc').h, (e4 c' hc').v, (e4 c' hc').quant, (e4 c' hc').coeffs⟩
    · intro c hcm
      have := hall c hcm
      unfold compOk at this
      rw [decide_eq_true_eq] at this
      show maxH (List.map _ _) % _ = 0 ∧ maxV (List.map _ _) % _ = 0
      rw [maxH_sized, maxV_sized]
      exact ⟨this.1, this.2.1⟩
    · intro c hcm
      obtain ⟨c', hc', rfl⟩ := List.mem_map.mp hcm
      show _ = divCeil _ (maxH (List.map _ _) * 8) * _
      rw [maxH_sized]
      rfl
    · intro c hcm
      obtain ⟨c', hc', rfl⟩ := List.mem_map.mp hcm
      show _ = divCeil _ (maxV (List.map _ _) * 8) * _
      rw [maxV_sized]
      rfl
    · intro c hcm
      have := hall c hcm
      unfold compOk at this
      rw [decide_eq_true_eq] at this
      exact this.2.2
  · show slice d p p' = be16 (8 + 3 * List.length _) ++ 8 :: (be16 _ ++ (be16 _ ++ List.length _ :: List.flatMap _ (List.map _ _)))
    rw [hlen, List.flatMap_map]
    rw [show 8 + 3 * byteOf d (p + 2 + 1 + 2 + 2) = byteOf d p * 256 + byteOf d (p + 1) by omega, be16_u16 (hb _) (hb _), be16_u16 (hb _) (hb _), be16_u16 (hb _) (hb _)]
    have e : (cs.flatMap fun a => (sizedComp (byteOf d (p + 2 + 1 + 2) * 256 + byteOf d (p + 2 + 1 + 2 + 1)) (byteOf d (p + 2 + 1) * 256 + byteOf d (p + 2 + 1 + 1)) (maxH cs) (maxV cs) a).bytes) =
      cs.flatMap Component.bytes := rfl
    rw [e, ← e3]
    rw [slice_cons (a := p) _ (by omega), slice_cons _ (by omega), slice_cons _ (by omega), slice_cons _ (by omega), slice_cons _ (by omega), slice_cons _ (by omega), slice_cons _ (by omega), slice_cons _ (by omega), hpr]
    simp only [List.cons_append, List.nil_append, Nat.add_assoc, Nat.reduceAdd]

/-! ## Scan headers -/

theorem findComp_spec {id : Nat} (cs : List Component) : ∀ {j0 j : Nat}, findComp id j0 cs = some j → ∃ i c, j = j0 + i ∧ cs[i]? = some c ∧ c.id = id := by
  induction cs with
  | nil => intro j0 j h; cases h
  | cons c cs ih =>
    intro j0 j h
    rw [findComp] at h
    cases hf : findComp id (j0 + 1) cs with
    | some j' =>
      rw [hf, Option.some_or] at h
      cases h
      obtain ⟨i, c', h1, h2, h3⟩ := ih hf
      exact ⟨i + 1, c', by omega, h2, h3⟩
    | none =>
      rw [hf, Option.none_or] at h
      split at h
      · rename_i hid
        cases h
        exact ⟨0, c, rfl, rfl, hid⟩
      · cases h

/-- The identifier of a component. -/
def idOf (comps : List Component) (j : Nat) : Nat := ((comps[j]?).map Component.id).getD 0

/-- The bytes of a component in a scan header. -/
def ScanComp.bytes (comps : List Component) (s : ScanComp) : List Nat := [idOf comps s.compIdx, s.dcTbl * 16 + s.acTbl]

theorem sosComps_wp {d : List Nat} (comps : List Component) (n : Nat) : ∀ (seen : List Nat) (p : Nat), p + 2 * n ≤ d.length →
    (sosComps comps n seen).Wp d p fun cs p' => p' = p + 2 * n ∧ cs.length = n ∧ slice d p p' = cs.flatMap (ScanComp.bytes comps) ∧
      (∀ s ∈ cs, s.compIdx < comps.length ∧ s.dcTbl ≤ 3 ∧ s.acTbl ≤ 3) ∧ (cs.map ScanComp.compIdx).Nodup ∧ ∀ s ∈ cs, idOf comps s.compIdx ∉ seen := by
  induction n with
  | zero =>
    intro seen p _
    rw [sosComps, wp_pure]
    exact ⟨rfl, rfl, by rw [slice_nil _ (by omega)]; rfl, (fun _ h => (List.not_mem_nil h).elim), List.nodup_nil, (fun _ h => (List.not_mem_nil h).elim)⟩
  | succ n ih =>
    intro seen p hp
    rw [sosComps]
    simp only [wp_bind, wp_u8, wp_check, decide_eq_true_eq]
    refine ⟨by omega, fun hs => ?_⟩
    cases hf : findComp (byteOf d p) 0 comps with
    | none => trivial
    | some j =>
      obtain ⟨i, c, rfl, hi, hid⟩ := findComp_spec _ hf
      have hil : i < comps.length := by
        rcases Nat.lt_or_ge i comps.length with h | h
        · exact h
        · rw [List.getElem?_eq_none h] at hi; cases hi
      have hio : idOf comps (0 + i) = byteOf d p := by rw [Nat.zero_add]; unfold idOf; rw [hi]; exact hid
      simp only [wp_bind, wp_u8, wp_check, wp_pure, decide_eq_true_eq]
      refine ⟨by omega, fun h1 h2 => ?_⟩
      refine (ih (byteOf d p :: seen) (p + 1 + 1) (by omega)).mono fun cs p' hq => ?_
      obtain ⟨e1, e2, e3, e4, e5, e6⟩ := hq
      refine ⟨by omega, by simp [e2], ?_, ?_, ?_, ?_⟩
      · rw [slice_cons _ (by omega), slice_cons _ (by omega), e3, List.flatMap_cons]
        unfold ScanComp.bytes
        dsimp only
        rw [hio, show byteOf d (p + 1) / 16 * 16 + byteOf d (p + 1) % 16 = byteOf d (p + 1) by omega]
        rfl
      · intro s hs
        rcases List.mem_cons.mp hs with rfl | hs
        · exact ⟨by show 0 + i < _; omega, h1, h2⟩
        · exact e4 s hs
      · rw [List.map_cons, List.nodup_cons]
        refine ⟨?_, e5⟩
        intro hm
        obtain ⟨s, hs, he⟩ := List.mem_map.mp hm
        exact e6 s hs (by rw [he, hio]; exact List.mem_cons_self)
      · intro s hs'
        rcases List.mem_cons.mp hs' with rfl | hs'
        · show idOf comps (0 + i) ∉ _
          rw [hio]; exact hs
        · exact fun h => e6 s hs' (List.mem_cons_of_mem _ h)

/-- A scan header as the reader accepts it (c/enc/jpeg_data_reader.cc:155-244). -/
structure ScanHeadOk (comps : List Component) (huffman : List HuffCode) (s : ScanInfo) : Prop where
  count : 1 ≤ s.comps.length ∧ s.comps.length ≤ comps.length
  comp : ∀ c ∈ s.comps, c.compIdx < comps.length ∧ c.dcTbl ≤ 3 ∧ c.acTbl ≤ 3
  nodup : (s.comps.map ScanComp.compIdx).Nodup
  band : s.ss ≤ s.se ∧ s.se ≤ 63
  approx : s.ah < 16 ∧ s.al < 16
  tables : ∀ c ∈ s.comps, (s.ss = 0 → ∃ h ∈ huffman, h.slotId = c.dcTbl) ∧ (0 < s.se → ∃ h ∈ huffman, h.slotId = c.acTbl + 16)

/-- **Scan headers**: what the reader accepts is in order, and is what the segment says. -/
theorem processSOS_wp {d : List Nat} (hd : Bytes d) (comps : List Component) (huffman : List HuffCode) (p : Nat) :
    (processSOS comps huffman).Wp d p fun s p' => p ≤ p' ∧ p' ≤ d.length ∧ ScanHeadOk comps huffman s ∧ s.resetPoints = [] ∧ s.extraZeroRuns = [] ∧
      slice d p p' = be16 (6 + 2 * s.comps.length) ++ s.comps.length :: (s.comps.flatMap (ScanComp.bytes comps) ++ [s.ss, s.se, s.ah * 16 + s.al]) := by
  unfold processSOS
  simp only [wp_bind, wp_u8, wp_u16, wp_check, wp_need, wp_pos, decide_eq_true_eq]
  intro hn
  refine ⟨by omega, by omega, fun hc hl => ?_⟩
  refine (sosComps_wp comps _ _ _ hl).mono fun cs p' hq => ?_
  obtain ⟨e1, e2, e3, e4, e5, -⟩ := hq
  simp only [wp_bind, wp_u8, wp_u16, wp_check, wp_need, wp_pos, wp_pure, wp_endsAt, decide_eq_true_eq]
  intro hl3
  refine ⟨by omega, by omega, fun h1 h2 => ⟨by omega, fun ht hend => ?_⟩⟩
  have hb := byteOf_lt hd
  refine ⟨by omega, by omega, ⟨?_, e4, e5, h2, ?_, ?_⟩, trivial, trivial, ?_⟩
  · show 1 ≤ cs.length ∧ cs.length ≤ _
    rw [e2]; exact hc
  · have := hb (p' + 1 + 1)
    exact ⟨by show _ / 16 < 16; omega, by show _ % 16 < 16; omega⟩
  · intro c hcm
    have := List.all_eq_true.mp ht c hcm
    unfold tablesFound at this
    simp only [Bool.and_eq_true, Bool.or_eq_true, List.any_eq_true, decide_eq_true_eq] at this
    obtain ⟨t1, t2⟩ := this
    constructor
    · intro (h0 : byteOf d p' = 0)
      rcases t1 with t1 | t1
      · exact absurd h0 t1
      · exact t1
    · intro (h0 : 0 < byteOf d (p' + 1))
      rcases t2 with t2 | ⟨h, t2, t3⟩
      · omega
      · exact ⟨h, t2, t3.2⟩
  · show _ = be16 (6 + 2 * cs.length) ++ cs.length :: (cs.flatMap _ ++ [byteOf d p', byteOf d (p' + 1), byteOf d (p' + 1 + 1) / 16 * 16 + byteOf d (p' + 1 + 1) % 16])
    rw [e2, ← e3, show 6 + 2 * byteOf d (p + 2) = byteOf d p * 256 + byteOf d (p + 1) by omega, be16_u16 (hb _) (hb _),
      show byteOf d (p' + 1 + 1) / 16 * 16 + byteOf d (p' + 1 + 1) % 16 = byteOf d (p' + 1 + 1) by omega]
    rw [slice_cons (a := p) _ (by omega), slice_cons _ (by omega), slice_cons _ (by omega), slice_append (a := p + 1 + 1 + 1) (b := p') (by omega) (by omega),
      slice_cons (a := p') _ (by omega), slice_cons (a := p' + 1) _ (by omega), slice_cons (a := p' + 1 + 1) _ (by omega), slice_nil (a := p' + 1 + 1 + 1) _ (by omega)]
    rfl

end Brunsli
