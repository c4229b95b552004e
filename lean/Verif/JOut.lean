import Verif.JRound
import Verif.ScanInfo
import Mathlib.Data.List.Perm.Subperm
import Mathlib.Data.List.ProdSigma
/-!
# What the JPEG reader returns

Facts about the result of `ReadJpeg` (c/enc/jpeg_data_reader.cc:1021-1164) that the Brunsli encoder relies on: the markers and the lists they refer to agree in number, the
reset points and zero runs of the scans are in order, segments have the length they say, and so on.
-/

namespace Brunsli

open JM

/-! ## Scans -/

theorem Increasing.append {a b : Nat} {X Y : List Nat} (h1 : Increasing a X) (hX : ∀ x ∈ X, x < b) (hab : a ≤ b) (h2 : Increasing b Y) : Increasing a (X ++ Y) := by
  induction X generalizing a with
  | nil =>
    cases Y with
    | nil => trivial
    | cons y Y => exact ⟨by have := h2.1; omega, h2.2⟩
  | cons x X ih =>
    have := hX x List.mem_cons_self
    exact ⟨h1.1, ih h1.2 (fun y hy => hX y (List.mem_cons_of_mem _ hy)) (by omega)⟩

theorem RunsOk.append {a b : Nat} {X Y : List (Nat × Nat)} (h1 : RunsOk a X) (hX : ∀ x ∈ X, x.1 < b) (hab : a ≤ b) (h2 : RunsOk b Y) : RunsOk a (X ++ Y) := by
  induction X generalizing a with
  | nil =>
    cases Y with
    | nil => trivial
    | cons y Y => exact ⟨by have := h2.1; omega, h2.2⟩
  | cons x X ih =>
    have := hX x List.mem_cons_self
    exact ⟨h1.1, h1.2.1, ih h1.2.2 (fun y hy => hX y (List.mem_cons_of_mem _ hy)) (by omega)⟩

/-- `n` blocks lead from one state to the other, and what they record is in order. -/
structure Recorded (st st' : RS) (n : Nat) : Prop where
  idx : st'.idx = st.idx + n
  resets : ∃ X, st'.resets = st.resets ++ X ∧ Increasing st.idx X ∧ ∀ x ∈ X, x < st'.idx
  runs : ∃ Y, st'.runs = st.runs ++ Y ∧ RunsOk st.idx Y ∧ ∀ y ∈ Y, y.1 < st'.idx

theorem Recorded.trans {a b c : RS} {n m : Nat} (h1 : Recorded a b n) (h2 : Recorded b c m) : Recorded a c (n + m) := by
  have i1 := h1.idx
  have i2 := h2.idx
  obtain ⟨X1, x1, x2, x3⟩ := h1.resets
  obtain ⟨X2, x4, x5, x6⟩ := h2.resets
  obtain ⟨Y1, y1, y2, y3⟩ := h1.runs
  obtain ⟨Y2, y4, y5, y6⟩ := h2.runs
  refine ⟨by omega, ⟨X1 ++ X2, by rw [x4, x1, List.append_assoc], x2.append x3 (by omega) x5, ?_⟩, ⟨Y1 ++ Y2, by rw [y4, y1, List.append_assoc], y2.append y3 (by omega) y5, ?_⟩⟩
  · intro x hx
    rcases List.mem_append.mp hx with hx | hx
    · have := x3 x hx; omega
    · exact x6 x hx
  · intro x hx
    rcases List.mem_append.mp hx with hx | hx
    · have := y3 x hx; omega
    · exact y6 x hx

theorem Recorded.same {st st' : RS} (h1 : st'.idx = st.idx) (h2 : st'.resets = st.resets) (h3 : st'.runs = st.runs) : Recorded st st' 0 :=
  ⟨h1, ⟨[], by rw [h2, List.append_nil], trivial, (fun _ h => (List.not_mem_nil h).elim)⟩, ⟨[], by rw [h3, List.append_nil], trivial, (fun _ h => (List.not_mem_nil h).elim)⟩⟩

theorem after_recorded (st : RS) (v : Visit) (o : BlkOut) (br : JR) : Recorded st (st.after v o br) 1 := by
  obtain ⟨h1, h2, h3, h4, h5⟩ := after_added st v o br
  refine ⟨rfl, ⟨_, h2, ?_, fun x hx => (h4 x hx).2⟩, ⟨_, h3, ?_, fun x hx => (h5 x hx).2⟩⟩
  · split
    · exact ⟨Nat.le_refl _, trivial⟩
    · trivial
  · split
    · rename_i h; exact ⟨Nat.le_refl _, h, trivial⟩
    · trivial

theorem readMcu_recorded {data : List Nat} {lut : HSlot → JMem} {P : SP} (vs : List Visit) : ∀ {st st' : RS}, readMcu data lut P vs st = some st' → Recorded st st' vs.length := by
  induction vs with
  | nil => intro st st' h; cases h; exact Recorded.same rfl rfl rfl
  | cons v vs ih =>
    intro st st' h
    rw [readMcu] at h
    obtain ⟨s1, hb, h⟩ := Option.bind_eq_some_iff.mp h
    unfold readBlk at hb
    obtain ⟨q, -, rfl⟩ := Option.map_eq_some_iff.mp hb
    have := (after_recorded st v q.1 q.2).trans (ih h)
    rwa [Nat.add_comm] at this

theorem readMcus_recorded {data : List Nat} {lut : HSlot → JMem} {P : SP} {ri : Nat} (ms : List (List Visit)) : ∀ {st st' : RS}, readMcus data lut P ri ms st = some st' →
    Recorded st st' ms.flatten.length := by
  induction ms with
  | nil => intro st st' h; cases h; exact Recorded.same rfl rfl rfl
  | cons m ms ih =>
    intro st st' h
    rw [readMcus] at h
    cases hh : readMcuHead data ri st with
    | none => rw [hh] at h; cases h
    | some s1 =>
      rw [hh] at h
      dsimp only at h
      split at h
      · cases h
      · obtain ⟨s2, hb, h⟩ := Option.bind_eq_some_iff.mp h
        obtain ⟨a1, a2, a3, a4, -⟩ := readMcuHead_same hh
        have := ((Recorded.same a2 a3 a4).trans (readMcu_recorded _ hb)).trans (ih h)
        rw [List.flatten_cons, List.length_append]
        rwa [Nat.zero_add] at this

theorem readScanData_recorded {data : List Nat} {lut : HSlot → JMem} {P : SP} {ri : Nat} {mcus : List (List Visit)} {pos pos' : Nat} {coefs : Coefs} {pads : List Bool} {rs : RS}
    (h : readScanData data lut P ri mcus pos coefs pads = some (rs, pos')) :
    Increasing 0 rs.resets ∧ (∀ x ∈ rs.resets, x < mcus.flatten.length) ∧ RunsOk 0 rs.runs ∧ ∀ y ∈ rs.runs, y.1 < mcus.flatten.length := by
  unfold readScanData at h
  cases hm : readMcus data lut P ri mcus (RS.start data ri pos coefs pads) with
  | none => rw [hm] at h; cases h
  | some s1 =>
    rw [hm] at h
    dsimp only at h
    split at h
    · cases h
    · cases hf : s1.br.finish data with
      | none => rw [hf] at h; cases h
      | some q =>
        rw [hf] at h
        dsimp only at h
        split at h
        · cases h
        · cases h
          obtain ⟨h1, ⟨X, h2, h3, h4⟩, ⟨Y, h5, h6, h7⟩⟩ := readMcus_recorded _ hm
          have e0 : s1.idx = mcus.flatten.length := by rw [h1]; exact Nat.zero_add _
          have e1 : s1.resets = X := h2
          have e2 : s1.runs = Y := h5
          rw [e0] at h4 h7
          dsimp only
          rw [e1, e2]
          exact ⟨h3, h4, h6, h7⟩

/-- A scan has at most 2^23 blocks. -/
theorem visits_bound {w h : Nat} {cs : List Component} {hs : List HuffCode} {s : ScanInfo} (hf : FrameOk w h cs) (hs : ScanHeadOk cs hs s) :
    (mcuGrid (dimsOf cs) s.comps (readerMcus w h cs s).1 (readerMcus w h cs s).2).flatten.length ≤ 2 ^ 23 := by
  obtain ⟨g1, g2, -, -⟩ := scan_grid hf hs
  generalize mcuGrid (dimsOf cs) s.comps (readerMcus w h cs s).1 (readerMcus w h cs s).2 = mcus at g1 g2 ⊢
  have hsub : mcus.flatten.map Visit.key ⊆ List.range 4 ×ˢ List.range (2 ^ 21) := by
    intro x hx
    obtain ⟨v, hv, rfl⟩ := List.mem_map.mp hx
    obtain ⟨v1, v2⟩ := g2 v hv
    obtain ⟨c, hc, hc'⟩ := List.mem_map.mp v1
    have h1 := (hs.comp c hc).1
    have h2 := hf.count.2
    refine List.mem_product.mpr ⟨List.mem_range.mpr (by show v.comp < 4; omega), List.mem_range.mpr ?_⟩
    show v.blk < 2 ^ 21
    rw [hc'] at h1
    unfold blocksOf at v2
    rw [List.getElem?_eq_getElem h1] at v2
    exact Nat.lt_of_lt_of_le v2 (hf.blocks _ (List.getElem_mem h1))
  have := (g1.subperm hsub).length_le
  rw [List.length_map, List.length_product, List.length_range, List.length_range] at this
  calc mcus.flatten.length ≤ 4 * 2 ^ 21 := this
    _ = 2 ^ 23 := by norm_num

/-! ## Lists of tables -/

theorem dhtWrite_last (new : List HuffCode) : ∀ {T T' : HSlot → CodeTable} {rest : List HuffCode} {bs : List Nat}, dhtWrite (new ++ rest) T = .ok (bs, new.length, T') → new ≠ [] →
    new.countP (·.isLast) = 1 ∧ ∀ h ∈ new.getLast?, h.isLast = true := by
  induction new with
  | nil => intro _ _ _ _ _ h; exact absurd rfl h
  | cons c new ih =>
    intro T T' rest bs h _
    rw [List.cons_append, dhtWrite] at h
    split at h
    · exact absurd h nofun
    cases hb : buildCodeTable (T c.slot) c with
    | fail => rw [hb] at h; exact absurd h nofun
    | ub => rw [hb] at h; exact absurd h nofun
    | ok t =>
      rw [hb] at h
      dsimp only [Run.bind] at h
      split at h
      · rename_i hl
        have h1 : new.length + 1 = 1 := by injection h with h; injection h with _ h; injection h with h _; exact h.symm
        have : new = [] := List.length_eq_zero_iff.mp (by omega)
        subst this
        refine ⟨by simp [hl], fun x hx => ?_⟩
        have : c = x := by simpa using hx
        rw [← this]; exact hl
      · rename_i hl
        cases hr : dhtWrite (new ++ rest) fun s => if s = c.slot then t else T s with
        | fail => rw [hr] at h; exact absurd h nofun
        | ub => rw [hr] at h; exact absurd h nofun
        | ok r =>
          obtain ⟨b1, n1, T1⟩ := r
          rw [hr] at h
          dsimp only at h
          have hn : n1 = new.length := by injection h with h; injection h with _ h; injection h with h _; simpa using h
          subst hn
          cases new with
          | nil =>
            cases rest with
            | nil => rw [List.nil_append, dhtWrite] at hr; exact absurd hr nofun
            | cons x rest =>
              exfalso
              rw [List.nil_append, dhtWrite] at hr
              split at hr
              · exact absurd hr nofun
              cases hb : buildCodeTable ((fun s => if s = c.slot then t else T s) x.slot) x with
              | fail => rw [hb] at hr; exact absurd hr nofun
              | ub => rw [hb] at hr; exact absurd hr nofun
              | ok t2 =>
                rw [hb] at hr
                dsimp only [Run.bind] at hr
                split at hr
                · injection hr with h; injection h with _ h; injection h with h _; exact absurd h (by simp)
                · cases hr2 : dhtWrite rest fun s => if s = x.slot then t2 else if s = c.slot then t else T s with
                  | fail => rw [hr2] at hr; exact absurd hr nofun
                  | ub => rw [hr2] at hr; exact absurd hr nofun
                  | ok r2 =>
                    rw [hr2] at hr
                    injection hr with h; injection h with _ h; injection h with h _
                    exact absurd h (by simp)
          | cons x new =>
            obtain ⟨i1, i2⟩ := ih hr (by simp)
            exact ⟨by rw [List.countP_cons, i1, if_neg hl], by rw [List.getLast?_cons_cons]; exact i2⟩

theorem dqtWrite_last (new : List QuantTable) : ∀ {rest : List QuantTable} {bs : List Nat}, dqtWrite (new ++ rest) = .ok (bs, new.length) → new ≠ [] →
    ∀ h ∈ new.getLast?, h.isLast = true := by
  induction new with
  | nil => intro _ _ _ h; exact absurd rfl h
  | cons c new ih =>
    intro rest bs h _
    rw [List.cons_append, dqtWrite] at h
    split at h
    · rename_i hl
      have h1 : new.length + 1 = 1 := by injection h with h; injection h with _ h; exact h.symm
      have : new = [] := List.length_eq_zero_iff.mp (by omega)
      subst this
      intro x hx
      have : c = x := by simpa using hx
      rw [← this]; exact hl
    · cases hr : dqtWrite (new ++ rest) with
      | fail => rw [hr] at h; exact absurd h nofun
      | ub => rw [hr] at h; exact absurd h nofun
      | ok r =>
        obtain ⟨b1, n1⟩ := r
        rw [hr] at h
        dsimp only [Run.bind] at h
        have hn : n1 = new.length := by injection h with h; injection h with _ h; simpa using h
        subst hn
        cases new with
        | nil =>
          cases rest with
          | nil => rw [List.nil_append, dqtWrite] at hr; exact absurd hr nofun
          | cons x rest =>
            exfalso
            rw [List.nil_append, dqtWrite] at hr
            split at hr
            · injection hr with h; injection h with _ h; exact absurd h (by simp)
            · cases hr2 : dqtWrite rest with
              | fail => rw [hr2] at hr; exact absurd hr nofun
              | ub => rw [hr2] at hr; exact absurd hr nofun
              | ok r2 =>
                rw [hr2] at hr
                injection hr with h; injection h with _ h
                exact absurd h (by simp)
        | cons x new => rw [List.getLast?_cons_cons]; exact ih hr (by simp)

/-! ## The state between markers -/

/-- A segment with a marker from `lo` to `hi`, as `ProcessAPP` and `ProcessCOM` keep it: marker, length, contents. -/
def Segment (lo hi : Nat) (s : List Nat) : Prop := Bytes s ∧ 3 ≤ s.length ∧ (lo ≤ s.getD 0 0 ∧ s.getD 0 0 ≤ hi) ∧ s.getD 1 0 * 256 + s.getD 2 0 + 1 = s.length

/-- What holds of the reader's state when it has read `p` bytes. -/
structure ROut (st : RJ) (p : Nat) : Prop where
  order : ∀ m ∈ st.order, 0xc0 ≤ m ∧ m < 256
  dri : 0xdd ∉ st.order → st.dri = false
  dht : st.order.count 0xc4 = st.huffman.countP (·.isLast)
  dhtLast : ∀ h ∈ st.huffman.getLast?, h.isLast = true
  dqtLast : ∀ h ∈ st.quant.getLast?, h.isLast = true
  sos : st.order.count 0xda = st.scans.length
  scans : ∀ s ∈ st.scans, s.Ok
  inter : st.order.count 0xff = st.inter.length
  interOk : ∀ s ∈ st.inter, Bytes s ∧ s.length ≤ p
  app : ∀ s ∈ st.app, Segment 0xe0 0xef s
  com : ∀ s ∈ st.com, Segment 0xfe 0xfe s
  size : st.app.flatten.length + st.com.flatten.length ≤ p

theorem ROut.init : ROut RJ.init 2 where
  order := (fun _ h => (List.not_mem_nil h).elim)
  dri := fun _ => rfl
  dht := rfl
  dhtLast := (fun _ h => absurd h (by simp [RJ.init]))
  dqtLast := (fun _ h => absurd h (by simp [RJ.init]))
  sos := rfl
  scans := (fun _ h => (List.not_mem_nil h).elim)
  inter := rfl
  interOk := (fun _ h => (List.not_mem_nil h).elim)
  app := (fun _ h => (List.not_mem_nil h).elim)
  com := (fun _ h => (List.not_mem_nil h).elim)
  size := Nat.zero_le _

theorem Wp.both {α : Type} {m : JM α} {d : List Nat} {p : Nat} {Q R : α → Nat → Prop} (h1 : m.Wp d p Q) (h2 : m.Wp d p R) : m.Wp d p fun a p' => Q a p' ∧ R a p' := by
  unfold Wp at h1 h2 ⊢
  cases hm : m d p with
  | ok r => rw [hm] at h1 h2; exact ⟨h1, h2⟩
  | fail => trivial
  | ub => rw [hm] at h1; exact h1

/-- One segment. -/
theorem segment_out {d : List Nat} (hd : Bytes d) {st : RJ} (hi : RInv st) {m p : Nat} (ho : ROut st p) (hp : p + 2 ≤ d.length) (hm : byteOf d (p + 1) = m) :
    (readSegment st m).Wp d (p + 2) fun st' p' => p + 2 ≤ p' → ROut { st' with order := st.order ++ [m] } p' ∧ m ≠ 0xff := by
  have horder : 0xc0 ≤ m → m < 256 → ∀ x ∈ st.order ++ [m], 0xc0 ≤ x ∧ x < 256 := by
    intro h1 h2 x hx
    rcases List.mem_append.mp hx with hx | hx
    · exact ho.order x hx
    · rw [List.mem_singleton.mp hx]; exact ⟨h1, h2⟩
  have hnot : ∀ x, m ≠ x → (st.order ++ [m]).count x = st.order.count x := by
    intro x hx
    rw [List.count_append, List.count_singleton, if_neg (by simpa using hx), Nat.add_zero]
  have hone : ∀ x, m = x → (st.order ++ [m]).count x = st.order.count x + 1 := by
    intro x hx
    rw [List.count_append, hx, List.count_singleton_self]
  have hdri : 0xdd ∉ st.order ++ [m] → st.dri = false := fun h => ho.dri fun h' => h (List.mem_append_left _ h')
  have hinter : ∀ p', p + 2 ≤ p' → ∀ s ∈ st.inter, Bytes s ∧ s.length ≤ p' := fun p' hp' s hs => ⟨(ho.interOk s hs).1, by have := (ho.interOk s hs).2; omega⟩
  have hsize := ho.size
  unfold readSegment
  by_cases h1 : 0xc0 ≤ m ∧ m ≤ 0xc2
  · rw [if_pos h1]
    simp only [wp_bind, wp_pure]
    refine (processSOF_wp hd st.width (p + 2)).mono fun r p' _ hp' => ⟨?_, by omega⟩
    exact ⟨horder (by omega) (by omega), hdri, by rw [hnot _ (by omega)]; exact ho.dht, ho.dhtLast, ho.dqtLast, by rw [hnot _ (by omega)]; exact ho.sos, ho.scans,
      by rw [hnot _ (by omega)]; exact ho.inter, hinter p' hp', ho.app, ho.com, by dsimp only; omega⟩
  rw [if_neg h1]
  by_cases h2 : m = 0xc4
  · rw [if_pos h2]
    simp only [wp_bind, wp_pure]
    obtain ⟨T0, hT0⟩ := hi.tabs
    refine (processDHT_wp hd (hs := st.huffman) hT0 (p + 2) hp).mono fun r p' hq hp' => ⟨?_, by omega⟩
    obtain ⟨-, -, new, n1, n2, -, -, n3⟩ := hq
    obtain ⟨T', bs, w1, -⟩ := n3 T0 [] hT0
    obtain ⟨l1, l2⟩ := dhtWrite_last _ w1 n1
    refine ⟨horder (by omega) (by omega), hdri, ?_, ?_, ho.dqtLast, by rw [hnot _ (by omega)]; exact ho.sos, ho.scans,
      by rw [hnot _ (by omega)]; exact ho.inter, hinter p' hp', ho.app, ho.com, by dsimp only; omega⟩
    · rw [hone _ h2]
      show _ = r.1.countP _
      rw [n2, List.countP_append, l1, ho.dht]
    · show ∀ h ∈ r.1.getLast?, _
      rw [n2]
      intro h hh
      rw [List.getLast?_append_of_ne_nil _ n1] at hh
      exact l2 h hh
  rw [if_neg h2]
  by_cases h3 : 0xd0 ≤ m ∧ m ≤ 0xd7
  · rw [if_pos h3, wp_pure]
    intro hp'
    refine ⟨?_, by omega⟩
    exact ⟨horder (by omega) (by omega), hdri, by rw [hnot _ (by omega)]; exact ho.dht, ho.dhtLast, ho.dqtLast, by rw [hnot _ (by omega)]; exact ho.sos, ho.scans,
      by rw [hnot _ (by omega)]; exact ho.inter, hinter _ hp', ho.app, ho.com, by dsimp only; omega⟩
  rw [if_neg h3]
  by_cases h4 : m = 0xd9
  · rw [if_pos h4, wp_pure]
    intro hp'
    refine ⟨?_, by omega⟩
    exact ⟨horder (by omega) (by omega), hdri, by rw [hnot _ (by omega)]; exact ho.dht, ho.dhtLast, ho.dqtLast, by rw [hnot _ (by omega)]; exact ho.sos, ho.scans,
      by rw [hnot _ (by omega)]; exact ho.inter, hinter _ hp', ho.app, ho.com, by dsimp only; omega⟩
  rw [if_neg h4]
  by_cases h5 : m = 0xda
  · rw [if_pos h5]
    unfold processScan
    rw [wp_bind]
    refine (processSOS_wp hd st.comps st.huffman (p + 2)).mono fun s p1 hq => ?_
    obtain ⟨-, -, hs, -, -, -⟩ := hq
    cases hmk : markScan (scanParams st.prog s) (s.comps.map ScanComp.compIdx) st.masks with
    | none => trivial
    | some masks =>
      dsimp only
      have hsof : st.sof = true := by
        cases h : st.sof with
        | true => rfl
        | false =>
          have h1 := (hi.noSof h).1
          have h2 := hs.count
          rw [h1, List.length_nil] at h2
          omega
      have hf := hi.frame hsof
      obtain ⟨-, g2, -, -⟩ := scan_grid hf hs
      have hv := visits_bound hf hs
      unfold Wp scanBody
      dsimp only
      generalize mcuGrid (dimsOf st.comps) s.comps (readerMcus st.width st.height st.comps s).1 (readerMcus st.width st.height st.comps s).2 = mcus at g2 hv ⊢
      rw [if_neg (by
        rw [List.any_eq_true]
        rintro ⟨v, hv, h⟩
        rw [decide_eq_true_eq] at h
        have := (g2 v hv).2
        omega)]
      cases hrd : readScanData d st.lut (scanParams st.prog s) st.ri mcus p1 st.coefs st.pads with
      | none => trivial
      | some q =>
        obtain ⟨rs, p'⟩ := q
        dsimp only
        intro hp'
        refine ⟨?_, by omega⟩
        obtain ⟨r1, r2, r3, r4⟩ := readScanData_recorded hrd
        have hsc : ({ s with resetPoints := rs.resets, extraZeroRuns := rs.runs } : ScanInfo).Ok := by
          have b1 := hs.band
          have b2 := hs.approx
          have b3 := hs.count
          have b4 := hf.count
          refine ⟨by show s.ss < 64; omega, by show s.se < 64; omega, b2.1, b2.2, ⟨b3.1, by show s.comps.length ≤ 4; omega⟩, fun c hc => ?_, ⟨r1, fun x hx => ?_⟩, ⟨r3, fun x hx => ?_⟩⟩
          · have := hs.comp c hc; omega
          · exact Nat.lt_of_lt_of_le (r2 x hx) (Nat.le_trans hv (Nat.pow_le_pow_right (by omega) (by omega)))
          · exact Nat.lt_of_lt_of_le (r4 x hx) (Nat.le_trans hv (Nat.pow_le_pow_right (by omega) (by omega)))
        refine ⟨horder (by omega) (by omega), hdri, by rw [hnot _ (by omega)]; exact ho.dht, ho.dhtLast, ho.dqtLast, ?_, ?_,
          by rw [hnot _ (by omega)]; exact ho.inter, hinter p' hp', ho.app, ho.com, by dsimp only; omega⟩
        · rw [hone _ h5]
          show _ = (st.scans ++ [_]).length
          rw [List.length_append, ho.sos]
          rfl
        · intro x hx
          rcases List.mem_append.mp hx with hx | hx
          · exact ho.scans x hx
          · rw [List.mem_singleton.mp hx]; exact hsc
  rw [if_neg h5]
  by_cases h6 : m = 0xdb
  · rw [if_pos h6]
    simp only [wp_bind, wp_pure]
    refine (processDQT_wp hd hi.quants (p + 2)).mono fun r p' hq hp' => ⟨?_, by omega⟩
    obtain ⟨-, -, -, new, n1, n2, -, n3⟩ := hq
    obtain ⟨bs, w1, -⟩ := n3 []
    have l2 := dqtWrite_last _ w1 n1
    refine ⟨horder (by omega) (by omega), hdri, by rw [hnot _ (by omega)]; exact ho.dht, ho.dhtLast, ?_, by rw [hnot _ (by omega)]; exact ho.sos, ho.scans,
      by rw [hnot _ (by omega)]; exact ho.inter, hinter p' hp', ho.app, ho.com, by dsimp only; omega⟩
    show ∀ h ∈ r.getLast?, _
    rw [n2]
    intro h hh
    rw [List.getLast?_append_of_ne_nil _ n1] at hh
    exact l2 h hh
  rw [if_neg h6]
  by_cases h7 : m = 0xdd
  · rw [if_pos h7]
    simp only [wp_bind, wp_pure]
    refine (processDRI_wp hd st.dri (p + 2)).mono fun r p' _ hp' => ⟨?_, by omega⟩
    exact ⟨horder (by omega) (by omega), fun h => absurd (List.mem_append_right _ (List.mem_singleton.mpr h7.symm)) h, by rw [hnot _ (by omega)]; exact ho.dht, ho.dhtLast, ho.dqtLast,
      by rw [hnot _ (by omega)]; exact ho.sos, ho.scans, by rw [hnot _ (by omega)]; exact ho.inter, hinter p' hp', ho.app, ho.com, by dsimp only; omega⟩
  rw [if_neg h7]
  have hblob : ∀ {r : List Nat} {p' : Nat}, p + 2 ≤ p' → r = slice d (p + 2 - 1) p' ∧ 3 ≤ r.length ∧ r.getD 1 0 * 256 + r.getD 2 0 + 1 = r.length →
      Segment m m r ∧ r.length + p + 1 = p' := by
    rintro r p' hp' ⟨b1, b2, b3⟩
    have hl : r.length + p + 1 = p' := by rw [b1, slice_length]; omega
    refine ⟨⟨by rw [b1]; exact slice_bytes hd _ _, b2, ?_, b3⟩, hl⟩
    have : r.getD 0 0 = m := by
      rw [b1, show p + 2 - 1 = p + 1 by omega, slice_cons _ (by omega), List.getD_cons_zero, hm]
    rw [this]
    exact ⟨Nat.le_refl _, Nat.le_refl _⟩
  by_cases h8 : 0xe0 ≤ m ∧ m ≤ 0xef
  · rw [if_pos h8]
    simp only [wp_bind, wp_pure]
    refine (processBlob_wp (p + 2) (by omega) hd).mono fun r p' hq hp' => ⟨?_, by omega⟩
    obtain ⟨s1, s2⟩ := hblob hp' hq.2.2
    refine ⟨horder (by omega) (by omega), hdri, by rw [hnot _ (by omega)]; exact ho.dht, ho.dhtLast, ho.dqtLast, by rw [hnot _ (by omega)]; exact ho.sos, ho.scans,
      by rw [hnot _ (by omega)]; exact ho.inter, hinter p' hp', ?_, ho.com, ?_⟩
    · intro x hx
      rcases List.mem_append.mp hx with hx | hx
      · exact ho.app x hx
      · rw [List.mem_singleton.mp hx]
        obtain ⟨a1, a2, a3, a4⟩ := s1
        exact ⟨a1, a2, by omega, a4⟩
    · show (st.app ++ [r]).flatten.length + st.com.flatten.length ≤ p'
      rw [List.flatten_append, List.length_append, List.flatten_singleton]
      omega
  rw [if_neg h8]
  by_cases h9 : m = 0xfe
  · rw [if_pos h9]
    simp only [wp_bind, wp_pure]
    refine (processBlob_wp (p + 2) (by omega) hd).mono fun r p' hq hp' => ⟨?_, by omega⟩
    obtain ⟨s1, s2⟩ := hblob hp' hq.2.2
    refine ⟨horder (by omega) (by omega), hdri, by rw [hnot _ (by omega)]; exact ho.dht, ho.dhtLast, ho.dqtLast, by rw [hnot _ (by omega)]; exact ho.sos, ho.scans,
      by rw [hnot _ (by omega)]; exact ho.inter, hinter p' hp', ho.app, ?_, ?_⟩
    · intro x hx
      rcases List.mem_append.mp hx with hx | hx
      · exact ho.com x hx
      · rw [List.mem_singleton.mp hx]
        obtain ⟨a1, a2, a3, a4⟩ := s1
        exact ⟨a1, a2, by omega, a4⟩
    · show st.app.flatten.length + (st.com ++ [r]).flatten.length ≤ p'
      rw [List.flatten_append, List.length_append, List.flatten_singleton]
      omega
  rw [if_neg h9]
  trivial

/-- One round of the loop. -/
theorem readMarker_out {d : List Nat} (hd : Bytes d) {st : RJ} (hi : RInv st) {p : Nat} (ho : ROut st p) (hp : p ≤ d.length) :
    (readMarker st).Wp d p fun r p' => ROut r.1 p' ∧ ∃ ms, r.1.order = st.order ++ ms ++ [r.2] ∧ 0xd9 ∉ ms := by
  unfold readMarker
  obtain ⟨f1, f2, f3⟩ := findMarker_spec (d := d) d.length hp (by omega)
  generalize hq : findMarker d d.length p = q at f1 f2 f3
  have hskip : ∃ st1 ms, skipData st d p = .ok (st1, q) ∧ RInv st1 ∧ ROut st1 q ∧ st1.order = st.order ++ ms ∧ 0xd9 ∉ ms := by
    unfold skipData
    dsimp only
    rw [hq]
    by_cases hlt : p < q
    · rw [if_pos hlt]
      have hnot : ∀ x, 0xff ≠ x → (st.order ++ [0xff]).count x = st.order.count x := by
        intro x hx
        rw [List.count_append, List.count_singleton, if_neg (by simpa using hx), Nat.add_zero]
      have hsize := ho.size
      refine ⟨_, [0xff], rfl, ⟨hi.tabs, hi.good, hi.noSof, hi.frame, hi.noDri, hi.ri, hi.huff, hi.quant, hi.quants⟩, ?_, rfl, by decide⟩
      refine ⟨?_, fun h => ho.dri fun h' => h (List.mem_append_left _ h'), by rw [hnot _ (by decide)]; exact ho.dht, ho.dhtLast, ho.dqtLast, by rw [hnot _ (by decide)]; exact ho.sos, ho.scans, ?_,
        ?_, ho.app, ho.com, by dsimp only; omega⟩
      · intro x hx
        rcases List.mem_append.mp hx with hx | hx
        · exact ho.order x hx
        · rw [List.mem_singleton.mp hx]; decide
      · show (st.order ++ [0xff]).count 0xff = (st.inter ++ [_]).length
        rw [List.count_append, List.count_singleton_self, List.length_append, ho.inter]
        rfl
      · intro x hx
        rcases List.mem_append.mp hx with hx | hx
        · exact ⟨(ho.interOk x hx).1, by have := (ho.interOk x hx).2; omega⟩
        · rw [List.mem_singleton.mp hx]
          exact ⟨slice_bytes hd _ _, by rw [slice_length]; omega⟩
    · rw [if_neg hlt]
      have : p = q := by omega
      subst this
      exact ⟨st, [], rfl, hi, ho, by simp, by simp⟩
  obtain ⟨st1, ms, hs1, hi1, ho1, hor, hms⟩ := hskip
  rw [wp_bind]
  unfold Wp
  rw [hs1]
  dsimp only
  show Wp _ d q _
  rw [wp_bind]
  unfold Wp expectMarker
  by_cases hbad : d.length < q + 2 ∨ byteOf d q ≠ 0xff
  · rw [if_pos hbad]; trivial
  rw [if_neg hbad]
  dsimp only
  push Not at hbad
  show Wp _ d (q + 2) _
  rw [wp_bind]
  refine (Wp.both (segment_step hd hi1 (by omega) hbad.2 rfl) (segment_out hd hi1 ho1 (by omega) rfl)).mono fun st2 p' hr => ?_
  obtain ⟨⟨a1, a2, a3, a4, a5⟩, hr⟩ := hr
  rw [wp_pure]
  obtain ⟨b1, b2⟩ := hr a1
  dsimp only
  rw [← a4] at b1
  exact ⟨b1, ms, by rw [a4, hor], hms⟩

/-- The loop over markers. -/
theorem readLoop_out {d : List Nat} (hd : Bytes d) (fuel : Nat) : ∀ {st : RJ} {p : Nat}, RInv st → ROut st p → 0xd9 ∉ st.order → p ≤ d.length → d.length + 1 ≤ p + fuel →
    (readLoop fuel st).Wp d p fun st' p' => ROut st' p' ∧ ∃ ms, st'.order = ms ++ [0xd9] ∧ 0xd9 ∉ ms := by
  induction fuel with
  | zero => intro st p _ _ _ h1 h2; omega
  | succ fuel ih =>
    intro st p hi ho h9 hp hf
    rw [readLoop, wp_bind]
    refine (Wp.both (readMarker_wp hd hi hp) (readMarker_out hd hi ho hp)).mono fun r p1 hr => ?_
    obtain ⟨⟨a1, a2, a3, -, -⟩, b1, ms, b2, b3⟩ := hr
    have hno : 0xd9 ∉ st.order ++ ms := by
      intro h
      rcases List.mem_append.mp h with h | h
      · exact h9 h
      · exact b3 h
    by_cases hr : r.2 = 0xd9
    · rw [if_pos hr, wp_pure]
      exact ⟨b1, st.order ++ ms, by rw [b2, hr], hno⟩
    · rw [if_neg hr]
      refine ih a3 b1 ?_ a2 (by omega)
      rw [b2]
      intro h
      rcases List.mem_append.mp h with h | h
      · exact hno h
      · exact hr (List.mem_singleton.mp h).symm

end Brunsli
