import Verif.JSync
/-!
# JPEG files are written back as read
-/

namespace Brunsli

open JM

theorem sosBytes_eq {quant : List QuantTable} {cs xs : List Component} (h : List.Forall₂ (SameComp quant) cs xs) (hr : ∀ c ∈ cs, c.Raw) (ss : List ScanComp) :
    (∀ c ∈ ss, c.compIdx < cs.length ∧ c.dcTbl ≤ 3 ∧ c.acTbl ≤ 3) → sosBytes xs ss = some (ss.flatMap (ScanComp.bytes cs)) := by
  induction ss with
  | nil => intro _; rfl
  | cons s ss ih =>
    intro hs
    obtain ⟨h1, h2, h3⟩ := hs s List.mem_cons_self
    have hx : s.compIdx < xs.length := by rw [← h.length_eq]; exact h1
    rw [sosBytes, List.getElem?_eq_getElem hx, ih fun c hc => hs c (List.mem_cons_of_mem _ hc)]
    have hid : (xs[s.compIdx]).id = idOf cs s.compIdx := by
      have := congrFun (SameComp.ids h) s.compIdx
      rw [← this]
      unfold idOf
      rw [List.getElem?_eq_getElem hx]
      rfl
    have hid256 : idOf cs s.compIdx < 256 := by
      unfold idOf
      rw [List.getElem?_eq_getElem h1]
      exact (hr _ (List.getElem_mem h1)).id
    simp only [Option.map_some, List.flatMap_cons, ScanComp.bytes, hid, Nat.mod_eq_of_lt hid256, Nat.mod_eq_of_lt (show s.dcTbl * 16 + s.acTbl < 256 by omega)]
    rfl

theorem SameFirst.refl (a b c : Nat) (F : Blk) : SameFirst a b c F F := ⟨fun _ => rfl, fun _ _ _ _ => ⟨rfl, fun _ => Iff.rfl⟩⟩

theorem pads_for {st pads X : List Bool} {J : JpegData} {P : List Bool} (hp : pads = st ++ X) (h1 : pads <+: P) (h2 : J.hasZeroPaddingBit = P.any (!·)) (h3 : J.paddingBits = P.map Bool.toNat) :
    PadsFor X (if J.hasZeroPaddingBit then some (J.paddingBits.drop st.length) else none) (if J.hasZeroPaddingBit then some (J.paddingBits.drop pads.length) else none) := by
  obtain ⟨Y, rfl⟩ := h1
  subst hp
  by_cases hz : J.hasZeroPaddingBit = true
  · rw [if_pos hz, if_pos hz]
    refine ⟨_, rfl, ?_⟩
    rw [h3, List.map_append, List.map_append, List.append_assoc]
    rw [List.drop_append_of_le_length (by simp), List.drop_of_length_le (by simp), List.nil_append]
    congr 1
    rw [← List.append_assoc, List.drop_append_of_le_length (by simp), List.drop_of_length_le (by simp), List.nil_append]
  · rw [if_neg hz, if_neg hz]
    refine ⟨fun b hb => ?_, rfl⟩
    rw [h2] at hz
    cases hb2 : b with
    | true => rfl
    | false =>
      exfalso
      apply hz
      rw [List.any_eq_true]
      exact ⟨b, List.mem_append_left _ (List.mem_append_right _ hb), by rw [hb2]; rfl⟩

theorem scanParams_ok {cs : List Component} {hs : List HuffCode} {s : ScanInfo} (h : ScanHeadOk cs hs s) (prog : Bool) : (scanParams prog s).Ok prog := by
  unfold scanParams
  cases prog with
  | false => exact ⟨Nat.zero_le _, Nat.le_refl _, fun _ => rfl⟩
  | true => exact ⟨h.band.1, h.band.2, nofun⟩

/-- The coefficients the writer uses are small. -/
theorem JpegData.coefs_small {J : JpegData} {m : Masks} {C : Coefs} (hg : Good m C) {c b : Nat} (h : ∀ k, k < 64 → J.coefs c b k = C c b k) : (J.coefs c b).Small := by
  intro k h1
  by_cases hk : k < 64
  · rw [h k hk]; exact hg.small c b k h1
  · have : J.coefs c b k = 0 := by
      unfold JpegData.coefs
      split
      · rfl
      · rw [if_neg hk]
    rw [this]; decide

theorem sameFirst_congr {Ss Se Al : Nat} {F F' G : Blk} (hse : Se ≤ 63) (h : ∀ k, k < 64 → F k = F' k) (hs : SameFirst Ss Se Al F' G) : SameFirst Ss Se Al F G := by
  constructor
  · intro h0; rw [h 0 (by omega)]; exact hs.1 h0
  · intro k k1 k2 k3
    rw [h k (by omega)]
    exact hs.2 k k1 k2 k3

/-- A scan, once its header has been read. -/
theorem scan_step {d : List Nat} (hd : Bytes d) {st : RJ} (hi : RInv st) {m p : Nat} (h0 : byteOf d p = 255) (hm : byteOf d (p + 1) = m)
    (hr : m = 0xda) :
    (readSegment st m).Wp d (p + 2) fun st' p' => p + 2 ≤ p' ∧ p' ≤ d.length ∧ RInv st' ∧ st'.order = st.order ∧ (NoMarkFrom d p' ∨ Writes d st st' m p p') := by
  unfold readSegment
  rw [if_neg (by omega), if_neg (by omega), if_neg (by omega), if_neg (by omega), if_pos hr]
  unfold processScan
  rw [wp_bind]
  refine (processSOS_wp hd st.comps st.huffman (p + 2)).mono fun s p1 hq => ?_
  obtain ⟨e1, e2, hs, -, -, e3⟩ := hq
  cases hmk : markScan (scanParams st.prog s) (s.comps.map ScanComp.compIdx) st.masks with
  | none => trivial
  | some masks =>
    dsimp only
    have hsof : st.sof = true := by
      cases h : st.sof with
      | true => rfl
      | false =>
        have h1 := (hi.noSof h).1
        have h2 := hs.count
        rw [h1, List.length_nil] at h2
        omega
    have hf := hi.frame hsof
    obtain ⟨g1, g2, g3, g4⟩ := scan_grid hf hs
    unfold Wp scanBody
    dsimp only
    generalize hmc : mcuGrid (dimsOf st.comps) s.comps (readerMcus st.width st.height st.comps s).1 (readerMcus st.width st.height st.comps s).2 = mcus at g1 g2 g3 g4 ⊢
    rw [if_neg (by
      rw [List.any_eq_true]
      rintro ⟨v, hv, h⟩
      rw [decide_eq_true_eq] at h
      have := (g2 v hv).2
      omega)]
    cases hrd : readScanData d st.lut (scanParams st.prog s) st.ri mcus p1 st.coefs st.pads with
    | none => trivial
    | some q =>
      obtain ⟨rs, p'⟩ := q
      dsimp only
      have hP := scanParams_ok hs st.prog
      obtain ⟨hg, hl, hpre, hset⟩ := scan_later hrd g1 hP.band hs.nodup (fun v hv => (g2 v hv).1) hmk hi.good
      obtain ⟨T0, hT0⟩ := hi.tabs
      have hv0 : VisitsOk (scanParams st.prog s) rs.coefs st.coefs rs.coefs mcus.flatten :=
        ⟨g1, hpre, fun v _ => SameFirst.refl _ _ _ _, fun v _ => hg.small _ _⟩
      obtain ⟨a1, a2, X, a3, -⟩ := scan_writes_back hd (SlotMatch.toMatch hT0) hP hrd hv0 g3 g4
      refine ⟨by omega, a2, ⟨hi.tabs, hg, hi.noSof, hi.frame, hi.noDri, hi.ri, hi.huff, hi.quant, hi.quants⟩, rfl, ?_⟩
      by_cases hno : NoMarkFrom d p'
      · exact Or.inl hno
      · right
        intro J hJ
        obtain ⟨m', C, c1, c2, c3⟩ := hJ.coefs
        obtain ⟨P, p1', p2', p3'⟩ := hJ.pads
        have hcs := hJ.comps hsof
        obtain ⟨hw1, hh1⟩ := hJ.dims hsof
        dsimp only at hcs hw1 hh1 c1 p1'
        refine ⟨⟨hJ.app, hJ.com, hJ.inter, hJ.quant, hJ.huffman, prefix_left hJ.scans, hJ.dims, hJ.comps, hJ.ri, ⟨m', C, hl.trans c1, c2, c3⟩, ⟨P, ?_, p2', p3'⟩⟩, fun ws hw => ?_⟩
        · rw [a3] at p1'; exact prefix_left p1'
        -- the visits
        have hcoef : ∀ v ∈ mcus.flatten, ∀ k, k < 64 → J.coefs v.comp v.blk k = C v.comp v.blk k := by
          intro v hv k hk
          refine c3 v.comp v.blk ?_ k hk
          rw [SameComp.blocks hcs]
          exact (g2 v hv).2
        have hvJ : VisitsOk (scanParams st.prog s) J.coefs st.coefs rs.coefs mcus.flatten := by
          refine ⟨g1, hpre, fun v hv => ?_, fun v hv => JpegData.coefs_small c2 (hcoef v hv)⟩
          exact sameFirst_congr hP.se (hcoef v hv) (c1.same hset (g2 v hv).1)
        obtain ⟨-, -, X', a3', b1⟩ := scan_writes_back hd (SlotMatch.toMatch hw.tabs) hP hrd hvJ g3 g4
        have hX : X' = X := List.append_cancel_left (a3'.symm.trans a3)
        subst hX
        have hpf := pads_for a3 p1' p2' p3'
        rw [← hw.pads] at hpf
        have b2 := (b1.resolve_left hno) _ _ hpf [slice d p p1]
        obtain ⟨w, w1, w2⟩ := b2
        have hsc : J.scans[ws.scan]? = some { s with resetPoints := rs.resets, extraZeroRuns := rs.runs } := by
          rw [hw.scan]; exact prefix_get hJ.scans
        have hlen : ∀ c ∈ s.comps, c.compIdx < st.comps.length ∧ c.dcTbl ≤ 3 ∧ c.acTbl ≤ 3 := hs.comp
        have hfl : (s.comps.flatMap (ScanComp.bytes st.comps)).length = 2 * s.comps.length := flatMap_length_const _ 2 _ fun _ _ => rfl
        have hcnt := hs.count
        have hband := hs.band
        have hap := hs.approx
        have hfc := hf.count
        have hsos : encodeSOS J { s with resetPoints := rs.resets, extraZeroRuns := rs.runs } = .ok (slice d p p1) := by
          unfold encodeSOS
          dsimp only
          rw [sosBytes_eq hcs hf.raw s.comps hlen]
          dsimp only
          rw [chunkOf_exact (by simp only [List.length_cons, List.length_append, be16_length, hfl, List.length_nil]; omega)]
          rw [slice_marker h0 hm e1, e3, hr, Nat.mod_eq_of_lt (show s.comps.length < 256 by omega), Nat.mod_eq_of_lt (show s.ss < 256 by omega), Nat.mod_eq_of_lt (show s.se < 256 by omega),
            byte_or s.ah hap.1 s.al hap.2]
        have hn : writerMcus J { s with resetPoints := rs.resets, extraZeroRuns := rs.runs } = readerMcus st.width st.height st.comps s := by
          unfold writerMcus readerMcus
          obtain ⟨m1, m2⟩ := SameComp.maxes hcs
          simp only [hw1, hh1, SameComp.dims hcs, m1, m2]
          by_cases h1 : 1 < s.comps.length
          · simp only [if_pos h1, Nat.mul_one, Nat.mul_comm 8]
          · simp only [if_neg h1]
        have hri : (if ws.dri then J.restartInterval else 0) = st.ri := by
          rw [hw.dri]
          cases hdri : st.dri with
          | true => rw [if_pos rfl]; exact hJ.ri hdri
          | false => rw [if_neg (by decide)]; exact (hi.noDri hdri).symm
        refine ⟨w.finish, { ws with pads := if J.hasZeroPaddingBit then some (J.paddingBits.drop rs.pads.length) else none, scan := ws.scan + 1 }, ?_, ?_, ?_⟩
        · unfold writeMarker
          rw [if_neg (by omega), if_neg (by omega), if_neg (by omega), if_neg (by omega), if_pos hr, hsc]
          dsimp only
          unfold encodeScan
          rw [hsos]
          show Run.bind (if _ then Run.ub else _) _ = _
          rw [hn]
          simp only [SameComp.dims hcs]
          rw [hmc, if_neg, hri, hw.prog]
          · have hpar : scanParams st.prog { s with resetPoints := rs.resets, extraZeroRuns := rs.runs } = scanParams st.prog s := rfl
            rw [hpar, w1]
            rfl
          · rintro (h | h)
            · rw [List.any_eq_true] at h
              obtain ⟨c, hc, h⟩ := h
              have := hs.comp c hc
              simp only [Bool.or_eq_true, decide_eq_true_eq] at h
              omega
            · rw [List.any_eq_true] at h
              obtain ⟨v, hv, h⟩ := h
              rw [decide_eq_true_eq, SameComp.lengths hcs] at h
              have := (g2 v hv).2
              omega
        · rw [if_neg (by omega), List.append_nil, w2, slice_append (a := p) (b := p1) (by omega) a1]
          simp
        · exact ⟨hw.dht, hw.dqt, hw.app, hw.com, hw.inter, by show ws.scan + 1 = (st.scans ++ [_]).length; rw [hw.scan, List.length_append]; rfl, hw.tabs, rfl, hw.dri, hw.prog⟩

/-- Any segment. -/
theorem segment_step {d : List Nat} (hd : Bytes d) {st : RJ} (hi : RInv st) {m p : Nat} (hp : p + 2 ≤ d.length) (h0 : byteOf d p = 255) (hm : byteOf d (p + 1) = m) :
    (readSegment st m).Wp d (p + 2) fun st' p' => p + 2 ≤ p' ∧ p' ≤ d.length ∧ RInv st' ∧ st'.order = st.order ∧ (m = 0xda ∧ NoMarkFrom d p' ∨ Writes d st st' m p p') := by
  have key : ∀ {Q : RJ → Nat → Prop}, (readSegment st m).Wp d (p + 2) (fun st' p' => p + 2 ≤ p' ∧ p' ≤ d.length ∧ RInv st' ∧ st'.order = st.order ∧ Writes d st st' m p p') →
      (readSegment st m).Wp d (p + 2) fun st' p' => p + 2 ≤ p' ∧ p' ≤ d.length ∧ RInv st' ∧ st'.order = st.order ∧ (m = 0xda ∧ NoMarkFrom d p' ∨ Writes d st st' m p p') :=
    fun h => h.mono fun _ _ ⟨a, b, c, e, f⟩ => ⟨a, b, c, e, Or.inr f⟩
  by_cases h1 : 0xc0 ≤ m ∧ m ≤ 0xc2
  · exact key (Q := fun _ _ => True) (sof_step hd hi hp h0 hm h1)
  by_cases h2 : m = 0xc4
  · exact key (Q := fun _ _ => True) (dht_step hd hi hp h0 hm h2)
  by_cases h3 : 0xd0 ≤ m ∧ m ≤ 0xd7
  · exact key (Q := fun _ _ => True) (rst_step hi hp h0 hm h3)
  by_cases h4 : m = 0xd9
  · exact key (Q := fun _ _ => True) (eoi_step hi hp h0 hm h4)
  by_cases h5 : m = 0xda
  · refine (scan_step hd hi h0 hm h5).mono fun _ _ ⟨a, b, c, e, f⟩ => ⟨a, b, c, e, ?_⟩
    rcases f with f | f
    · exact Or.inl ⟨h5, f⟩
    · exact Or.inr f
  by_cases h6 : m = 0xdb
  · exact key (Q := fun _ _ => True) (dqt_step hd hi h0 hm h6)
  by_cases h7 : m = 0xdd
  · exact key (Q := fun _ _ => True) (dri_step hd hi h0 hm h7)
  by_cases h8 : 0xe0 ≤ m ∧ m ≤ 0xef
  · exact key (Q := fun _ _ => True) (app_step hd hi h0 h8)
  by_cases h9 : m = 0xfe
  · exact key (Q := fun _ _ => True) (com_step hd hi h0 h9)
  unfold readSegment
  rw [if_neg h1, if_neg h2, if_neg h3, if_neg h4, if_neg h5, if_neg h6, if_neg h7, if_neg h8, if_neg h9]
  trivial

theorem findMarker_spec {d : List Nat} (fuel : Nat) : ∀ {p : Nat}, p ≤ d.length → d.length ≤ p + fuel → p ≤ findMarker d fuel p ∧ findMarker d fuel p ≤ d.length ∧
    (d.length ≤ findMarker d fuel p + 1 ∨ byteOf d (findMarker d fuel p) = 255 ∧ isMarker (byteOf d (findMarker d fuel p + 1)) = true) := by
  induction fuel with
  | zero => intro p h1 h2; exact ⟨Nat.le_refl _, h1, Or.inl (by rw [findMarker]; omega)⟩
  | succ fuel ih =>
    intro p h1 h2
    rw [findMarker]
    split
    · rename_i h
      obtain ⟨a, b, c⟩ := ih (p := p + 1) (by omega) (by omega)
      exact ⟨by omega, b, c⟩
    · rename_i h
      refine ⟨Nat.le_refl _, h1, ?_⟩
      by_cases h3 : p + 1 < d.length
      · right
        have h4 : ¬ (byteOf d p ≠ 255 ∨ isMarker (byteOf d (p + 1)) = false) := fun h5 => h ⟨h3, h5⟩
        push Not at h4
        exact ⟨h4.1, by simpa using h4.2⟩
      · left; omega

theorem Fin.order {st : RJ} {J : JpegData} {o : List Nat} : Fin { st with order := o } J ↔ Fin st J :=
  ⟨fun h => ⟨h.app, h.com, h.inter, h.quant, h.huffman, h.scans, h.dims, h.comps, h.ri, h.coefs, h.pads⟩,
   fun h => ⟨h.app, h.com, h.inter, h.quant, h.huffman, h.scans, h.dims, h.comps, h.ri, h.coefs, h.pads⟩⟩

theorem Sync.order {st : RJ} {J : JpegData} {ws : WJ} {o : List Nat} : Sync { st with order := o } J ws ↔ Sync st J ws :=
  ⟨fun h => ⟨h.dht, h.dqt, h.app, h.com, h.inter, h.scan, h.tabs, h.pads, h.dri, h.prog⟩,
   fun h => ⟨h.dht, h.dqt, h.app, h.com, h.inter, h.scan, h.tabs, h.pads, h.dri, h.prog⟩⟩

theorem RInv.order {st : RJ} (h : RInv st) {o : List Nat} : RInv { st with order := o } :=
  ⟨h.tabs, h.good, h.noSof, h.frame, h.noDri, h.ri, h.huff, h.quant, h.quants⟩

/-- The writer's part of a round of the loop: the markers `ms` give the bytes. -/
def WritesAll (d : List Nat) (st st' : RJ) (ms : List Nat) (last p p' : Nat) : Prop :=
  ∀ J, Fin st' J → Fin st J ∧ ∀ ws, Sync st J ws → ∃ cs ws', (∀ rest, writeMarkers J (ms ++ rest) ws = (writeMarkers J rest ws').bind fun r => .ok (cs ++ r)) ∧
    cs.flatten = slice d p p' ++ (if last = 0xd9 then J.tailData else []) ∧ Sync st' J ws'

theorem Writes.all {d : List Nat} {st st' : RJ} {m p p' : Nat} (h : Writes d st st' m p p') : WritesAll d st st' [m] m p p' := by
  intro J hJ
  obtain ⟨h1, h2⟩ := h J hJ
  refine ⟨h1, fun ws hw => ?_⟩
  obtain ⟨cs, ws', e1, e2, e3⟩ := h2 ws hw
  refine ⟨cs, ws', fun rest => ?_, e2, e3⟩
  rw [List.singleton_append, writeMarkers, e1]
  rfl

/-- One round of the loop. -/
theorem readMarker_wp {d : List Nat} (hd : Bytes d) {st : RJ} (hi : RInv st) {p : Nat} (hp : p ≤ d.length) :
    (readMarker st).Wp d p fun r p' => p + 2 ≤ p' ∧ p' ≤ d.length ∧ RInv r.1 ∧ ¬ NoMarkFrom d p ∧
      (r.2 = 0xda ∧ NoMarkFrom d p' ∨ ∃ ms, ms ≠ [] ∧ r.1.order = st.order ++ ms ∧ WritesAll d st r.1 ms r.2 p p') := by
  unfold readMarker
  obtain ⟨f1, f2, f3⟩ := findMarker_spec (d := d) d.length hp (by omega)
  generalize hq : findMarker d d.length p = q at f1 f2 f3
  -- the bytes before the marker
  have hskip : ∃ st1 ms, skipData st d p = .ok (st1, q) ∧ RInv st1 ∧ st1.order = st.order ++ ms ∧ WritesAll d st st1 ms 0 p q := by
    unfold skipData
    dsimp only
    rw [hq]
    by_cases hlt : p < q
    · rw [if_pos hlt]
      refine ⟨_, [0xff], rfl, ⟨hi.tabs, hi.good, hi.noSof, hi.frame, hi.noDri, hi.ri, hi.huff, hi.quant, hi.quants⟩, rfl, fun J hJ => ⟨?_, fun ws hw => ?_⟩⟩
      · exact ⟨hJ.app, hJ.com, prefix_left hJ.inter, hJ.quant, hJ.huffman, hJ.scans, hJ.dims, hJ.comps, hJ.ri, hJ.coefs, hJ.pads⟩
      · refine ⟨[slice d p q], { ws with inter := ws.inter + 1 }, fun rest => ?_, by simp, ?_⟩
        · have hwm : writeMarker J ws 0xFF = .ok ([slice d p q], { ws with inter := ws.inter + 1 }) := by
            unfold writeMarker
            rw [if_neg (by decide), if_neg (by decide), if_neg (by decide), if_neg (by decide), if_neg (by decide), if_neg (by decide), if_neg (by decide), if_neg (by decide), if_neg (by decide),
              if_pos rfl, hw.inter, prefix_get hJ.inter]
          rw [List.singleton_append, writeMarkers, hwm]
          rfl
        · exact ⟨hw.dht, hw.dqt, hw.app, hw.com, by show ws.inter + 1 = (st.inter ++ [_]).length; rw [hw.inter, List.length_append]; rfl, hw.scan, hw.tabs, hw.pads, hw.dri, hw.prog⟩
    · rw [if_neg hlt]
      have : p = q := by omega
      subst this
      refine ⟨st, [], rfl, hi, by simp, fun J hJ => ⟨hJ, fun ws hw => ⟨[], ws, fun rest => ?_, ?_, hw⟩⟩⟩
      · rw [List.nil_append]
        cases writeMarkers J rest ws <;> rfl
      · rw [slice_nil _ (Nat.le_refl _)]; rfl
  obtain ⟨st1, ms, hs1, hi1, ho1, hw1⟩ := hskip
  rw [wp_bind]
  unfold Wp
  rw [hs1]
  dsimp only
  show Wp _ d q _
  rw [wp_bind]
  unfold Wp expectMarker
  by_cases hbad : d.length < q + 2 ∨ byteOf d q ≠ 0xff
  · rw [if_pos hbad]; trivial
  rw [if_neg hbad]
  dsimp only
  push Not at hbad
  have hmk := (f3.resolve_left (by omega)).2
  show Wp _ d (q + 2) _
  rw [wp_bind]
  refine (segment_step hd hi1 (by omega) hbad.2 rfl).mono fun st2 p' hr => ?_
  obtain ⟨a1, a2, a3, a4, a5⟩ := hr
  rw [wp_pure]
  refine ⟨by omega, a2, a3.order, ?_, ?_⟩
  · intro hno
    have := hno q f1 (by omega) hbad.2
    rw [this] at hmk
    exact absurd hmk (by decide)
  · dsimp only
    rcases a5 with a5 | a5
    · exact Or.inl a5
    · right
      refine ⟨ms ++ [byteOf d (q + 1)], by simp, by rw [a4, ho1, List.append_assoc], fun J hJ => ?_⟩
      obtain ⟨b1, b2⟩ := a5.all J (Fin.order.mp hJ)
      obtain ⟨c1, c2⟩ := hw1 J b1
      refine ⟨c1, fun ws hw => ?_⟩
      obtain ⟨cs1, ws1, g1, g2, g3⟩ := c2 ws hw
      obtain ⟨cs2, ws2, k1, k2, k3⟩ := b2 ws1 g3
      refine ⟨cs1 ++ cs2, ws2, fun rest => ?_, ?_, Sync.order.mpr k3⟩
      · rw [List.append_assoc, g1, k1]
        cases writeMarkers J rest ws2 with
        | ok r => show Run.ok _ = Run.ok _; rw [List.append_assoc]
        | fail => rfl
        | ub => rfl
      · rw [List.flatten_append, g2, k2, if_neg (by decide), List.append_nil, slice_append (a := p) (b := q) (c := p') (by omega) (by omega), List.append_assoc]

/-- The loop over markers. -/
theorem readLoop_wp {d : List Nat} (hd : Bytes d) (fuel : Nat) : ∀ {st : RJ} {p : Nat}, RInv st → p ≤ d.length → d.length + 1 ≤ p + fuel →
    (readLoop fuel st).Wp d p fun st' p' => p ≤ p' ∧ p' ≤ d.length ∧ RInv st' ∧ ¬ NoMarkFrom d p ∧ ∃ ms, ms ≠ [] ∧ st'.order = st.order ++ ms ∧
      ∀ J, Fin st' J → Fin st J ∧ ∀ ws, Sync st J ws → ∃ cs, writeMarkers J ms ws = .ok cs ∧ cs.flatten = slice d p p' ++ J.tailData := by
  induction fuel with
  | zero => intro st p _ h1 h2; omega
  | succ fuel ih =>
    intro st p hi hp hf
    rw [readLoop, wp_bind]
    refine (readMarker_wp hd hi hp).mono fun r p1 hr => ?_
    obtain ⟨a1, a2, a3, a4, a5⟩ := hr
    by_cases h9 : r.2 = 0xd9
    · rw [if_pos h9, wp_pure]
      rcases a5 with ⟨h, _⟩ | ⟨ms, b1, b2, b3⟩
      · rw [h9] at h; exact absurd h (by decide)
      refine ⟨by omega, a2, a3, a4, ms, b1, b2, fun J hJ => ?_⟩
      obtain ⟨c1, c2⟩ := b3 J hJ
      refine ⟨c1, fun ws hw => ?_⟩
      obtain ⟨cs, ws', e1, e2, e3⟩ := c2 ws hw
      refine ⟨cs, ?_, by rw [e2, if_pos h9]⟩
      have := e1 []
      rw [List.append_nil, writeMarkers] at this
      rw [this]
      show Run.ok _ = _
      rw [List.append_nil]
    · rw [if_neg h9]
      refine (ih a3 a2 (by omega)).mono fun st' p' hr => ?_
      obtain ⟨g1, g2, g3, g4, ms2, g5, g6, g7⟩ := hr
      rcases a5 with ⟨_, h⟩ | ⟨ms, b1, b2, b3⟩
      · exact absurd h g4
      refine ⟨by omega, g2, g3, a4, ms ++ ms2, by simp [b1], by rw [g6, b2, List.append_assoc], fun J hJ => ?_⟩
      obtain ⟨c1, c2⟩ := g7 J hJ
      obtain ⟨c3, c4⟩ := b3 J c1
      refine ⟨c3, fun ws hw => ?_⟩
      obtain ⟨cs, ws', e1, e2, e3⟩ := c4 ws hw
      obtain ⟨cs2, k1, k2⟩ := c2 ws' e3
      refine ⟨cs ++ cs2, by rw [e1, k1]; rfl, ?_⟩
      rw [List.flatten_append, e2, k2, if_neg h9, List.append_nil, slice_append (a := p) (b := p1) (c := p') (by omega) (by omega), List.append_assoc]

theorem RInv.init : RInv RJ.init where
  tabs := ⟨fun _ => ⟨fun _ => 0, fun _ => 0⟩, fun _ => slotMatch_init _⟩
  good := Good.init
  noSof := fun _ => ⟨rfl, rfl⟩
  frame := nofun
  noDri := fun _ => rfl
  ri := Nat.zero_lt_succ _
  huff := fun _ h => (List.not_mem_nil h).elim
  quant := fun _ h => (List.not_mem_nil h).elim
  quants := Nat.zero_le _

end Brunsli
