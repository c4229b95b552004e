import Verif.StreamOut
/-!
# The writer on parsed data that grows

A view is *of* an image if what the parser presents as known is the same in the image.  Writing from any such views, one after the other, gives the bytes that
are written when the image is complete.
-/

namespace Brunsli

/-! ## The views -/

/-- A block is there, with the DC coefficient, or with all coefficients, of the image. -/
def View.Has (v : View) (J : JpegData) (dcOnly : Bool) (c b : Nat) : Prop :=
  64 * b + 64 ≤ ((v.jpg.components[c]?).map fun x => x.coeffs.length).getD 0 ∧ ∀ k, (dcOnly = true → k = 0) → v.jpg.coefs c b k = J.coefs c b k

/-- All blocks of the first `rows` MCU rows are there. -/
def View.HasRows (v : View) (J : JpegData) (rows : Nat) (dcOnly : Bool) : Prop :=
  ∀ (c : Nat) (x : Component) (r k : Nat), J.components[c]? = some x → r < rows * x.vSamp → k < x.width → v.Has J dcOnly c (r * x.width + k)

/-- The number of MCU rows of an image. -/
def JpegData.mcuRows (J : JpegData) : Nat := divCeil J.height (8 * maxV J.components)

/-- What the parser presents as known is the same in the image `J`: everything but the coefficients; the DC coefficients of the rows decoded; all DC coefficients
once the AC section has begun; the AC coefficients of the rows decoded. -/
structure View.Of (v : View) (J : JpegData) : Prop where
  bare : v.jpg.bare = J.bare
  whole : v.done = true → v.jpg = J
  row : v.row = 0 ∨ v.row < J.mcuRows
  dc : 7 ∈ v.met → 8 ∉ v.met → v.HasRows J v.row true
  dcAll : 8 ∈ v.met → v.HasRows J J.mcuRows true
  ac : 8 ∈ v.met → v.HasRows J v.row false

/-- The components have whole MCUs. -/
def JpegData.Whole (J : JpegData) : Prop :=
  ∀ (c : Nat) (x : Component), J.components[c]? = some x → x.width = divCeil J.width (8 * maxH J.components) * x.hSamp ∧ x.height = J.mcuRows * x.vSamp

/-! ## Bit writers -/

/-- Chunks before the others. -/
def BW.pre (q : List (List Nat)) (w : BW) : BW := { w with queue := q ++ w.queue }

/-- Change of a result. -/
def Run.map {α β : Type} (f : α → β) : Run α → Run β
  | .ok a => .ok (f a)
  | .fail => .fail
  | .ub => .ub

theorem Run.bind_map {α β γ : Type} (f : α → β) (g : β → Run γ) (r : Run α) : (r.map f).bind g = r.bind fun a => g (f a) := by cases r <;> rfl

theorem Run.map_bind {α β γ : Type} (g : α → Run β) (f : β → γ) (r : Run α) : (r.bind g).map f = r.bind fun a => (g a).map f := by cases r <;> rfl

theorem Run.bind_assoc' {α β γ : Type} (r : Run α) (f : α → Run β) (g : β → Run γ) : (r.bind f).bind g = r.bind fun a => (f a).bind g := by cases r <;> rfl

theorem reserve_pre (q : List (List Nat)) (w : BW) (n : Nat) : (w.pre q).reserve n = (w.reserve n).pre q := by
  unfold BW.reserve BW.pre
  dsimp only
  split
  · simp
  · rfl

theorem push_pre (q : List (List Nat)) (w : BW) (bs : List Nat) : (w.pre q).push bs = (w.push bs).map (BW.pre q) := by
  unfold BW.push
  have e : (w.pre q).data = w.data := rfl
  rw [e]
  split <;> rfl

theorem emitByte_pre (q : List (List Nat)) (w : BW) (b : Nat) : (w.pre q).emitByte b = (w.emitByte b).map (BW.pre q) := push_pre _ _ _

theorem emitBytes_pre (q : List (List Nat)) (bs : List Nat) : ∀ w : BW, (w.pre q).emitBytes bs = (w.emitBytes bs).map (BW.pre q) := by
  induction bs with
  | nil => intro w; rfl
  | cons b bs ih =>
    intro w
    rw [BW.emitBytes, BW.emitBytes, emitByte_pre, Run.bind_map, Run.map_bind]
    congr 1
    funext w
    exact ih w

theorem discharge_pre (q : List (List Nat)) (w : BW) : (w.pre q).discharge = w.discharge.map (BW.pre q) := by
  unfold BW.discharge
  dsimp only
  rw [reserve_pre]
  generalize w.reserve 12 = w
  have e : (w.pre q).buf = w.buf := rfl
  rw [e, Run.map_bind]
  split
  · rw [emitBytes_pre, Run.bind_map]; rfl
  · rw [push_pre, Run.bind_map]; rfl

theorem writeBits_pre (q : List (List Nat)) (w : BW) (n v : Nat) : (w.pre q).writeBits n v = (w.writeBits n v).map (BW.pre q) := by
  unfold BW.writeBits
  have e : (w.pre q).left = w.left := rfl
  have e2 : (w.pre q).buf = w.buf := rfl
  dsimp only
  rw [e, e2]
  split
  · rfl
  split
  · rfl
  split
  · exact discharge_pre q { w with left := w.left - n, buf := w.buf ||| (v * 2 ^ (w.left - n) % 2 ^ 64) }
  · rfl

theorem flushBytes_pre (q : List (List Nat)) : ∀ (fuel : Nat) (w : BW), (w.pre q).flushBytes fuel = (w.flushBytes fuel).map (BW.pre q) := by
  intro fuel
  induction fuel with
  | zero => intro w; rfl
  | succ fuel ih =>
    intro w
    rw [BW.flushBytes, BW.flushBytes]
    have e : (w.pre q).left = w.left := rfl
    have e2 : (w.pre q).buf = w.buf := rfl
    rw [e, e2]
    split
    · rw [emitByte_pre, Run.bind_map, Run.map_bind]
      congr 1
      funext w
      exact ih { w with buf := w.buf * 2 ^ 8 % 2 ^ 64, left := w.left + 8 }
    · rfl

/-- The chunks before the others, in a result. -/
def preFst {α : Type} (q : List (List Nat)) (r : BW × α) : BW × α := (r.1.pre q, r.2)

theorem jump_pre (q : List (List Nat)) (w : BW) (pads : Pads) : (w.pre q).jump pads = (w.jump pads).map (preFst q) := by
  unfold BW.jump
  have e : (w.pre q).left = w.left := rfl
  rw [e, Run.map_bind]
  congr 1
  funext p
  obtain ⟨pat, pads⟩ := p
  dsimp only
  rw [reserve_pre, flushBytes_pre, Run.bind_map, Run.map_bind]
  congr 1
  funext w
  have e : (w.pre q).left = w.left := rfl
  have e2 : (w.pre q).buf = w.buf := rfl
  rw [e, e2, Run.map_bind]
  split
  · rw [emitByte_pre, Run.bind_map]; rfl
  · rfl

theorem emitMarker_pre (q : List (List Nat)) (w : BW) (m : Nat) : (w.pre q).emitMarker m = (w.emitMarker m).map (BW.pre q) := by
  unfold BW.emitMarker
  rw [reserve_pre, push_pre]

theorem acts_pre (q : List (List Nat)) (as : List Act) : ∀ (w : BW) (pads : Pads), (w.pre q).acts pads as = (w.acts pads as).map (preFst q) := by
  induction as with
  | nil => intro w pads; rfl
  | cons a as ih =>
    intro w pads
    cases a with
    | bits n v =>
      rw [BW.acts, BW.acts, writeBits_pre, Run.bind_map, Run.map_bind]
      congr 1
      funext w
      exact ih w pads
    | restart m =>
      rw [BW.acts, BW.acts, jump_pre, Run.bind_map, Run.map_bind]
      congr 1
      funext p
      obtain ⟨w, pads⟩ := p
      simp only [preFst]
      rw [emitMarker_pre, Run.bind_map, Run.map_bind]
      congr 1
      funext w
      exact ih w pads

theorem finish_pre (q : List (List Nat)) (w : BW) : (w.pre q).finish = q ++ w.finish := by
  unfold BW.finish
  have e : (w.pre q).data = w.data := rfl
  rw [e]
  split
  · rfl
  · simp [BW.pre]

/-! ## A bit writer that has failed stays so -/

theorem push_healthy {w w' : BW} {bs : List Nat} (h : w.push bs = .ok w') : w'.healthy = w.healthy := by
  unfold BW.push at h
  split at h
  · cases h; rfl
  · cases h

theorem reserve_healthy (w : BW) (n : Nat) : (w.reserve n).healthy = w.healthy := by
  unfold BW.reserve
  split <;> rfl

theorem emitBytes_healthy (bs : List Nat) : ∀ {w w' : BW}, w.emitBytes bs = .ok w' → w'.healthy = w.healthy := by
  induction bs with
  | nil => intro w w' h; cases h; rfl
  | cons b bs ih =>
    intro w w' h
    rw [BW.emitBytes] at h
    cases h1 : w.emitByte b with
    | ok w1 =>
      rw [h1] at h
      rw [ih h]
      exact push_healthy h1
    | fail => rw [h1] at h; cases h
    | ub => rw [h1] at h; cases h

theorem discharge_healthy {w w' : BW} (h : w.discharge = .ok w') : w'.healthy = w.healthy := by
  unfold BW.discharge at h
  dsimp only at h
  have e := reserve_healthy w 12
  generalize w.reserve 12 = w0 at h e
  rw [← e]
  split at h
  · generalize h1 : w0.emitBytes _ = r at h
    cases r with
    | ok w1 => cases h; have := emitBytes_healthy _ h1; exact this
    | fail => cases h
    | ub => cases h
  · generalize h1 : w0.push _ = r at h
    cases r with
    | ok w1 => cases h; have := push_healthy h1; exact this
    | fail => cases h
    | ub => cases h

theorem writeBits_healthy {w w' : BW} {n v : Nat} (h : w.writeBits n v = .ok w') (hh : w'.healthy = true) : w.healthy = true := by
  unfold BW.writeBits at h
  dsimp only at h
  split at h
  · cases h; cases hh
  split at h
  · cases h
  split at h
  · rw [discharge_healthy h] at hh; exact hh
  · cases h; exact hh

theorem flushBytes_healthy : ∀ (fuel : Nat) {w w' : BW}, w.flushBytes fuel = .ok w' → w'.healthy = w.healthy := by
  intro fuel
  induction fuel with
  | zero => intro w w' h; cases h; rfl
  | succ fuel ih =>
    intro w w' h
    rw [BW.flushBytes] at h
    split at h
    · cases h1 : w.emitByte (byteAt w.buf 56) with
      | ok w1 =>
        rw [h1] at h
        rw [ih h]
        have := push_healthy h1
        exact this
      | fail => rw [h1] at h; cases h
      | ub => rw [h1] at h; cases h
    · cases h; rfl

theorem jump_healthy {w w' : BW} {pads pads' : Pads} (h : w.jump pads = .ok (w', pads')) : w'.healthy = w.healthy := by
  unfold BW.jump at h
  cases h1 : padPattern (w.left % 8) pads with
  | fail => rw [h1] at h; cases h
  | ub => rw [h1] at h; cases h
  | ok p =>
    rw [h1] at h
    simp only [Run.bind] at h
    cases h2 : (w.reserve 16).flushBytes 8 with
    | fail => rw [h2] at h; cases h
    | ub => rw [h2] at h; cases h
    | ok w2 =>
      rw [h2] at h
      simp only at h
      rw [← reserve_healthy w 16, ← flushBytes_healthy _ h2]
      by_cases hl : w2.left < 64
      · rw [if_pos hl] at h
        generalize h3 : w2.emitByte _ = r at h
        cases r with
        | ok w3 => cases h; have := push_healthy h3; exact this
        | fail => cases h
        | ub => cases h
      · rw [if_neg hl] at h
        cases h; rfl

theorem acts_healthy (as : List Act) : ∀ {w w' : BW} {pads pads' : Pads}, w.acts pads as = .ok (w', pads') → w'.healthy = true → w.healthy = true := by
  induction as with
  | nil => intro w w' pads pads' h hh; cases h; exact hh
  | cons a as ih =>
    intro w w' pads pads' h hh
    cases a with
    | bits n v =>
      rw [BW.acts] at h
      cases h1 : w.writeBits n v with
      | ok w1 => rw [h1] at h; exact writeBits_healthy h1 (ih h hh)
      | fail => rw [h1] at h; cases h
      | ub => rw [h1] at h; cases h
    | restart m =>
      rw [BW.acts] at h
      cases h1 : w.jump pads with
      | fail => rw [h1] at h; cases h
      | ub => rw [h1] at h; cases h
      | ok p =>
        obtain ⟨w1, pads1⟩ := p
        rw [h1] at h
        simp only [Run.bind] at h
        cases h2 : w1.emitMarker (0xD0 + m) with
        | fail => rw [h2] at h; cases h
        | ub => rw [h2] at h; cases h
        | ok w2 =>
          rw [h2] at h
          have := ih h hh
          rw [← jump_healthy h1, ← reserve_healthy w1 2, ← push_healthy h2]
          exact this

/-! ## Rows of MCUs -/

theorem writeMcus_append (prog : Bool) (P : SP) (ri : Nat) (F : Coefs) (a b : List (List Visit)) : ∀ ws : WS,
    writeMcus prog P ri F (a ++ b) ws = (writeMcus prog P ri F a ws).bind fun p => (writeMcus prog P ri F b p.2).map fun q => (p.1 ++ q.1, q.2) := by
  induction a with
  | nil =>
    intro ws
    simp only [List.nil_append, writeMcus, Option.bind_some]
    cases writeMcus prog P ri F b ws <;> rfl
  | cons m a ih =>
    intro ws
    simp only [List.cons_append, writeMcus]
    cases writeMcu prog P F m (writeMcuHead ri ws).2 with
    | none => rfl
    | some p =>
      simp only [Option.bind_some, ih]
      cases writeMcus prog P ri F a { p.2 with toGo := p.2.toGo - 1 } with
      | none => rfl
      | some q =>
        simp only [Option.bind_some, Option.map_some]
        cases writeMcus prog P ri F b q.2 with
        | none => rfl
        | some r => simp

/-- The coefficients that matter for a scan are the same. -/
def SameBlk (P : SP) (F G : Blk) : Prop := ∀ k, (wantAc P = false → k = 0) → F k = G k

theorem encBlock_congr {prog : Bool} {s : ScanInfo} {v : Visit} {nzr : Nat} {last : Int} {F G : Blk} {cs : CS} (h : SameBlk (scanParams prog s) F G) :
    encBlock prog (scanParams prog s) v nzr last F cs = encBlock prog (scanParams prog s) v nzr last G cs := by
  cases hw : wantAc (scanParams prog s) with
  | true =>
    have : F = G := funext fun k => h k fun e => by rw [hw] at e; cases e
    rw [this]
  | false =>
    have h0 : F 0 = G 0 := h 0 fun _ => rfl
    cases prog with
    | false => cases hw
    | true =>
      generalize scanParams true s = P at hw h
      simp only [wantAc, Bool.or_eq_false_iff, bne_eq_false_iff_eq] at hw
      obtain ⟨h1, h2⟩ := hw
      obtain ⟨ss, se, ah, al⟩ := P
      cases h1
      cases h2
      simp [encBlock, encProg, encRefine, progRest, refEncRest, h0]

theorem writeMcu_congr {prog : Bool} {s : ScanInfo} {F G : Coefs} (m : List Visit) : ∀ (ws : WS),
    (∀ v ∈ m, SameBlk (scanParams prog s) (F v.comp v.blk) (G v.comp v.blk)) → writeMcu prog (scanParams prog s) F m ws = writeMcu prog (scanParams prog s) G m ws := by
  induction m with
  | nil => intro ws _; rfl
  | cons v m ih =>
    intro ws h
    rw [writeMcu, writeMcu]
    have e : writeBlk prog (scanParams prog s) F v ws = writeBlk prog (scanParams prog s) G v ws := by
      unfold writeBlk
      dsimp only
      rw [encBlock_congr (h v List.mem_cons_self)]
    rw [e]
    congr 1
    funext p
    rw [ih p.2 fun v hv => h v (List.mem_cons_of_mem _ hv)]

theorem writeMcus_congr {prog : Bool} {s : ScanInfo} {ri : Nat} {F G : Coefs} (ms : List (List Visit)) : ∀ (ws : WS),
    (∀ v ∈ ms.flatten, SameBlk (scanParams prog s) (F v.comp v.blk) (G v.comp v.blk)) →
      writeMcus prog (scanParams prog s) ri F ms ws = writeMcus prog (scanParams prog s) ri G ms ws := by
  induction ms with
  | nil => intro ws _; rfl
  | cons m ms ih =>
    intro ws h
    rw [writeMcus, writeMcus]
    dsimp only
    rw [writeMcu_congr m _ fun v hv => h v (by simp [hv])]
    congr 1
    funext p
    rw [ih _ fun v hv => h v (by rw [List.flatten_cons]; exact List.mem_append_right _ hv)]

theorem mcuRange_split (dims : Nat → CompDim) (comps : List ScanComp) {y k n : Nat} (cols : Nat) (h : k ≤ n) :
    mcuRange dims comps y n cols = mcuRange dims comps y k cols ++ mcuRange dims comps (max y k) n cols := by
  unfold mcuRange
  rw [← List.flatMap_append]
  congr 1
  by_cases hy : y ≤ k
  · rw [Nat.max_eq_right hy, show n - y = (k - y) + (n - k) by omega, ← List.range'_append_1, show y + (k - y) = k by omega]
  · rw [Nat.max_eq_left (by omega), show k - y = 0 by omega]
    rfl

theorem mcuRange_grid (dims : Nat → CompDim) (comps : List ScanComp) (n cols : Nat) : mcuRange dims comps 0 n cols = mcuGrid dims comps n cols := by
  unfold mcuRange mcuGrid
  rw [Nat.sub_zero, ← List.range_eq_range' (n := n)]

theorem mem_mcuRange {dims : Nat → CompDim} {comps : List ScanComp} {y n cols : Nat} {v : Visit} :
    v ∈ (mcuRange dims comps y n cols).flatten ↔ ∃ my, (y ≤ my ∧ my < n) ∧ ∃ mx < cols, v ∈ mcuVisits dims comps my mx := by
  unfold mcuRange
  simp only [List.mem_flatten, List.mem_flatMap, List.mem_map, List.mem_range'_1, List.mem_range]
  constructor
  · rintro ⟨l, ⟨my, h1, mx, h2, rfl⟩, h3⟩
    exact ⟨my, ⟨h1.1, by omega⟩, mx, h2, h3⟩
  · rintro ⟨my, h1, mx, h2, h3⟩
    exact ⟨_, ⟨my, ⟨h1.1, by omega⟩, mx, h2, rfl⟩, h3⟩

theorem only_comp {l : List ScanComp} {c : ScanComp} (hc : c ∈ l) (hn : ¬ 1 < l.length) : l = [c] := by
  match l, hc with
  | [a], hc => rw [List.mem_singleton.mp hc]
  | a :: b :: l, _ => simp at hn

/-- A block written is in one of the rows that are there. -/
theorem visit_in {J : JpegData} (hJ : J.Whole) {s : ScanInfo} {y last R : Nat} (hl : last ≤ R * vGroup J s) {v : Visit}
    (hv : v ∈ (mcuRange (dimsOf J.components) s.comps y last (writerMcus J s).2).flatten) :
    ∃ x r k, J.components[v.comp]? = some x ∧ r < R * x.vSamp ∧ k < x.width ∧ v.blk = r * x.width + k := by
  obtain ⟨my, ⟨_, h1⟩, mx, h2, h3⟩ := mem_mcuRange.mp hv
  obtain ⟨c, hc, iy, hiy, ix, hix, rfl⟩ := mem_mcuVisits.mp h3
  dsimp only
  cases hx : J.components[c.compIdx]? with
  | none =>
    exfalso
    have hd : dimsOf J.components c.compIdx = ⟨0, 0, 0⟩ := by unfold dimsOf; rw [hx]
    rw [hd] at hiy hix
    dsimp only at hiy
    unfold unitsIn at hiy
    split at hiy
    · omega
    · rename_i hn
      have hs : s.comps = [c] := only_comp hc hn
      unfold vGroup at hl
      rw [if_neg hn, hs] at hl
      simp only [List.map_cons, List.headD_cons, hd] at hl
      omega
  | some x =>
    have hd : dimsOf J.components c.compIdx = ⟨x.hSamp, x.vSamp, x.width⟩ := by unfold dimsOf; rw [hx]
    obtain ⟨hw, _⟩ := hJ _ _ hx
    rw [hd] at hiy hix ⊢
    dsimp only at hiy hix ⊢
    refine ⟨x, _, _, rfl, ?_, ?_, rfl⟩
    · unfold unitsIn at hiy ⊢
      unfold vGroup at hl
      by_cases hn : 1 < s.comps.length
      · rw [if_pos hn] at hiy hl ⊢
        exact mulAdd_lt (by omega) hiy
      · rw [if_neg hn] at hiy hl ⊢
        have hs : s.comps = [c] := only_comp hc hn
        rw [hs] at hl
        simp only [List.map_cons, List.headD_cons, hd] at hl
        omega
    · rw [hw]
      unfold unitsIn at hix ⊢
      unfold writerMcus at h2
      by_cases hn : 1 < s.comps.length
      · rw [if_pos hn] at hix ⊢
        simp only [if_pos hn, Nat.mul_one] at h2
        exact mulAdd_lt h2 hix
      · rw [if_neg hn] at hix ⊢
        have hs : s.comps = [c] := only_comp hc hn
        simp only [if_neg hn] at h2
        rw [hs] at h2
        simp only [List.map_cons, List.headD_cons, hd] at h2
        by_cases hz : 8 * maxH J.components = 0
        · rw [hz] at h2
          unfold divCeil at h2
          simp at h2
        · have := divCeil_mul_le J.width x.hSamp (b := 8 * maxH J.components) (by omega)
          omega

/-! ## A scan written in parts -/

theorem writerMcus_rows (J : JpegData) (s : ScanInfo) : (writerMcus J s).1 = divCeil (J.height * vGroup J s) (8 * maxV J.components) := rfl

theorem rows_le {J : JpegData} {s : ScanInfo} {row : Nat} (h : row = 0 ∨ row < J.mcuRows) : row * vGroup J s ≤ (writerMcus J s).1 := by
  rcases h with rfl | h
  · simp
  rw [writerMcus_rows]
  unfold JpegData.mcuRows at h
  by_cases hb : 8 * maxV J.components = 0
  · rw [hb] at h
    simp [divCeil] at h
  have hb' : 0 < 8 * maxV J.components := by omega
  generalize 8 * maxV J.components = b at h hb'
  generalize vGroup J s = g
  have h1 : row * b < J.height := by
    by_contra hc
    exact absurd ((divCeil_le_iff hb').mpr (Nat.le_of_not_lt hc)) (by omega)
  have h2 := le_divCeil_mul (J.height * g) hb'
  by_contra hc
  have h3 : divCeil (J.height * g) b * b < row * g * b := Nat.mul_lt_mul_of_pos_right (by omega) hb'
  have h4 : row * b * g ≤ J.height * g := Nat.mul_le_mul_right _ (by omega)
  have h5 : row * g * b = row * b * g := by rw [Nat.mul_assoc, Nat.mul_comm g b, ← Nat.mul_assoc]
  omega

theorem rows_all (J : JpegData) (s : ScanInfo) : (writerMcus J s).1 ≤ J.mcuRows * vGroup J s := by
  rw [writerMcus_rows]
  unfold JpegData.mcuRows
  by_cases hb : 8 * maxV J.components = 0
  · rw [hb]
    simp [divCeil]
  · exact divCeil_mul_le _ _ (by omega)

theorem lastRow_complete (J : JpegData) (prog : Bool) (s : ScanInfo) : lastRow (View.complete J) prog s = some (writerMcus J s).1 := by
  unfold lastRow View.complete
  cases wantAc (scanParams prog s) <;> rfl

/-- The rows left of a scan, when all is known. -/
theorem scanRows_complete (J : JpegData) (s : ScanInfo) (a : WJ) (w : WScan) : scanRows (View.complete J) s a w =
    if outOfRange J s (mcuRange (dimsOf J.components) s.comps w.y (writerMcus J s).1 (writerMcus J s).2) then .ub
    else match writeMcus a.prog (scanParams a.prog s) (driOf J a) J.coefs (mcuRange (dimsOf J.components) s.comps w.y (writerMcus J s).1 (writerMcus J s).2) w.ws with
      | none => .fail
      | some (as, ws) => (w.bw.acts a.pads (as.map (WAct.toAct a.T))).bind fun p => (scanEnd a.T ws p.1 p.2).bind fun q => .ok ⟨q.2, none, q.1⟩ := by
  unfold scanRows
  rw [lastRow_complete]
  dsimp only
  show (if outOfRange J s _ = true then _ else _) = _
  have hm : ∀ y n : Nat, ¬ max y n < n := fun y n => by omega
  simp only [View.complete, hm, if_false]
  rfl

theorem scanEnd_pre (T : HSlot → CodeTable) (ws : WS) (q : List (List Nat)) (bw : BW) (pads : Pads) :
    scanEnd T ws (bw.pre q) pads = (scanEnd T ws bw pads).map fun r => (q ++ r.1, r.2) := by
  unfold scanEnd
  rw [acts_pre, Run.bind_map, Run.map_bind]
  congr 1
  funext p
  obtain ⟨w, pads⟩ := p
  simp only [preFst]
  rw [jump_pre, Run.bind_map, Run.map_bind]
  congr 1
  funext p
  obtain ⟨w, pads⟩ := p
  simp only [preFst, finish_pre]
  have e : (w.pre q).healthy = w.healthy := rfl
  rw [e]
  split <;> rfl

theorem scanEnd_healthy {T : HSlot → CodeTable} {ws : WS} {bw : BW} {pads : Pads} {r : List (List Nat) × Pads} (h : scanEnd T ws bw pads = .ok r) : bw.healthy = true := by
  unfold scanEnd at h
  generalize h1 : bw.acts pads _ = x at h
  cases x with
  | fail => cases h
  | ub => cases h
  | ok p =>
    obtain ⟨w, pads⟩ := p
    simp only [Run.bind] at h
    cases h2 : w.jump pads with
    | fail => rw [h2] at h; cases h
    | ub => rw [h2] at h; cases h
    | ok p =>
      obtain ⟨w2, pads2⟩ := p
      rw [h2] at h
      simp only at h
      split at h
      · rename_i hh
        exact acts_healthy _ h1 (by rw [← jump_healthy h2]; exact hh)
      · cases h

/-- With other chunks before the ones of the scan. -/
theorem scanRows_pre (J : JpegData) (s : ScanInfo) (a : WJ) (ws : WS) (bw : BW) (y : Nat) (q : List (List Nat)) :
    scanRows (View.complete J) s a ⟨ws, bw.pre q, y⟩ = (scanRows (View.complete J) s a ⟨ws, bw, y⟩).map fun o => { o with chunks := q ++ o.chunks } := by
  rw [scanRows_complete, scanRows_complete]
  dsimp only
  split
  · rfl
  split
  · rfl
  · rw [acts_pre, Run.bind_map, Run.map_bind]
    congr 1
    funext p
    rw [Run.map_bind]
    simp only [preFst, scanEnd_pre, Run.bind_map]
    rfl

theorem outOfRange_append (j : JpegData) (s : ScanInfo) (a b : List (List Visit)) : outOfRange j s (a ++ b) = (outOfRange j s a || outOfRange j s b) := by
  unfold outOfRange
  rw [List.flatten_append, List.any_append]
  cases s.comps.any _ <;> simp

/-- What it means to write a part of a scan: the writer has stopped, and going on with all known completes the scan. -/
def SplitScan (J : JpegData) (s : ScanInfo) (a : WJ) (o o1 : ScanOut) : Prop :=
  (o1 = o ∧ o.scan = none) ∨ ∃ w1 o2, o1.scan = some w1 ∧ scanRows (View.complete J) s { a with pads := o1.pads } w1 = .ok o2 ∧ o2.pads = o.pads ∧
    o2.scan = none ∧ o.scan = none ∧ o.chunks = o1.chunks ++ o2.chunks

theorem complete_scan {J : JpegData} {s : ScanInfo} {a : WJ} {w : WScan} {o : ScanOut} (h : scanRows (View.complete J) s a w = .ok o) : o.scan = none := by
  rw [scanRows_complete] at h
  split at h
  · cases h
  split at h
  · cases h
  · generalize w.bw.acts a.pads _ = x at h
    cases x with
    | fail => cases h
    | ub => cases h
    | ok p =>
      simp only [Run.bind] at h
      generalize scanEnd a.T _ p.1 p.2 = x at h
      cases x with
      | fail => cases h
      | ub => cases h
      | ok q => cases h; rfl

theorem pause_split {J : JpegData} {s : ScanInfo} {a : WJ} {w : WScan} {pads : Pads} {o : ScanOut}
    (h : scanRows (View.complete J) s { a with pads := pads } w = .ok o) : SplitScan J s a o (w.pause pads) := by
  have h0 := complete_scan h
  obtain ⟨ws, bw, y⟩ := w
  have e : bw = BW.pre bw.queue { bw with queue := [] } := by simp [BW.pre]
  rw [e, scanRows_pre] at h
  cases h2 : scanRows (View.complete J) s { a with pads := pads } ⟨ws, { bw with queue := [] }, y⟩ with
  | fail => rw [h2] at h; cases h
  | ub => rw [h2] at h; cases h
  | ok o2 =>
    rw [h2] at h
    cases h
    exact .inr ⟨_, o2, rfl, h2, rfl, complete_scan h2, h0, rfl⟩

theorem lt_mcuRange {dims : Nat → CompDim} {comps : List ScanComp} {y n cols : Nat} (h : n ≤ y) : mcuRange dims comps y n cols = [] := by
  unfold mcuRange
  rw [show n - y = 0 by omega]
  rfl

theorem rows_split {v : View} {J : JpegData} (hb : v.jpg.bare = J.bare) (hJ : J.Whole) {s : ScanInfo} {a : WJ} {w : WScan} {o : ScanOut} {k R : Nat} {dcOnly : Bool}
    (hl : lastRow v a.prog s = some k) (hk : k ≤ (writerMcus J s).1) (hR : k ≤ R * vGroup J s) (hh : v.HasRows J R dcOnly)
    (hdc : dcOnly = true → wantAc (scanParams a.prog s) = false)
    (h : scanRows (View.complete J) s a w = .ok o) : ∃ o1, scanRows v s a w = .ok o1 ∧ SplitScan J s a o o1 := by
  have hsc := complete_scan h
  have hn : writerMcus v.jpg s = writerMcus J s := by rw [← writerMcus_bare, hb, writerMcus_bare]
  have hd : dimsOf v.jpg.components = dimsOf J.components := by rw [← dimsOf_bare, hb, dimsOf_bare]
  have hri : driOf v.jpg a = driOf J a := by
    unfold driOf
    have : v.jpg.restartInterval = J.restartInterval := by
      have := congrArg JpegData.restartInterval hb
      exact this
    rw [this]
  rw [scanRows_complete, mcuRange_split _ _ _ hk] at h
  have hmem : ∀ x ∈ (mcuRange (dimsOf J.components) s.comps w.y k (writerMcus J s).2).flatten, v.Has J dcOnly x.comp x.blk := by
    intro x hx
    obtain ⟨c, r, i, h1, h2, h3, h4⟩ := visit_in hJ hR hx
    rw [h4]
    exact hh _ _ _ _ h1 h2 h3
  have hcong := fun ws => writeMcus_congr (prog := a.prog) (s := s) (ri := driOf J a) (F := v.jpg.coefs) (G := J.coefs)
    (mcuRange (dimsOf J.components) s.comps w.y k (writerMcus J s).2) ws fun x hx i hi => (hmem x hx).2 i fun e => hi (hdc e)
  generalize hA : mcuRange (dimsOf J.components) s.comps w.y k (writerMcus J s).2 = A at h hmem hcong
  generalize hB : mcuRange (dimsOf J.components) s.comps (max w.y k) (writerMcus J s).1 (writerMcus J s).2 = B at h
  rw [outOfRange_append] at h
  split at h
  · cases h
  rename_i hoor
  rw [Bool.or_eq_true, not_or] at hoor
  rw [writeMcus_append] at h
  unfold scanRows
  rw [hl]
  dsimp only
  rw [hn, hd, hri, hA]
  have hov : ¬ outOfRange v.jpg s A = true := by
    intro he
    unfold outOfRange at he
    rw [Bool.or_eq_true] at he
    rcases he with he | he
    · apply hoor.1
      unfold outOfRange
      rw [Bool.or_eq_true]
      exact .inl he
    · rw [List.any_eq_true] at he
      obtain ⟨x, hx, he⟩ := he
      rw [decide_eq_true_iff] at he
      have := (hmem x hx).1
      omega
  rw [if_neg hov, hcong]
  cases h1 : writeMcus a.prog (scanParams a.prog s) (driOf J a) J.coefs A w.ws with
  | none => rw [h1] at h; cases h
  | some p1 =>
    obtain ⟨as1, ws1⟩ := p1
    rw [h1] at h
    simp only [Option.bind_some] at h ⊢
    cases h2 : writeMcus a.prog (scanParams a.prog s) (driOf J a) J.coefs B ws1 with
    | none => rw [h2] at h; cases h
    | some p2 =>
      obtain ⟨as2, ws2⟩ := p2
      rw [h2] at h
      simp only [Option.map_some, List.map_append, BW.acts_append] at h
      cases h3 : w.bw.acts a.pads (as1.map (WAct.toAct a.T)) with
      | fail => rw [h3] at h; cases h
      | ub => rw [h3] at h; cases h
      | ok p =>
        obtain ⟨bw1, pads1⟩ := p
        rw [h3] at h
        simp only [Run.bind] at h ⊢
        by_cases hlt : max w.y k < (writerMcus J s).1
        · rw [if_pos hlt]
          have hD : scanRows (View.complete J) s { a with pads := pads1 } ⟨ws1, bw1, max w.y k⟩ = .ok o := by
            rw [scanRows_complete]
            dsimp only
            rw [hB, if_neg hoor.2]
            have : driOf J { a with pads := pads1 } = driOf J a := rfl
            rw [this, h2]
            exact h
          have hbw : bw1.healthy = true := by
            generalize h4 : bw1.acts pads1 (as2.map (WAct.toAct a.T)) = x at h
            cases x with
            | fail => cases h
            | ub => cases h
            | ok p =>
              obtain ⟨bw2, pads2⟩ := p
              dsimp only at h
              generalize h5 : scanEnd a.T ws2 bw2 pads2 = x at h
              cases x with
              | fail => cases h
              | ub => cases h
              | ok q => exact acts_healthy _ h4 (scanEnd_healthy h5)
          rw [if_pos hbw]
          exact ⟨_, rfl, pause_split hD⟩
        · rw [if_neg hlt]
          rw [lt_mcuRange (by omega)] at hB
          subst hB
          rw [writeMcus] at h2
          cases h2
          exact ⟨o, h, .inl ⟨rfl, hsc⟩⟩

/-- A scan written from a view of the image. -/
theorem scan_split {v : View} {J : JpegData} (hv : v.Of J) (hJ : J.Whole) (hd : v.done = false) (hs : v.canStart = true) {s : ScanInfo} {a : WJ} {w : WScan}
    {o : ScanOut} (h : scanRows (View.complete J) s a w = .ok o) : ∃ o1, scanRows v s a w = .ok o1 ∧ SplitScan J s a o o1 := by
  have hvg : vGroup v.jpg s = vGroup J s := by rw [← vGroup_bare, hv.bare, vGroup_bare]
  have hn : writerMcus v.jpg s = writerMcus J s := by rw [← writerMcus_bare, hv.bare, writerMcus_bare]
  unfold View.canStart at hs
  rw [hd, Bool.false_or, Bool.or_eq_true, List.contains_iff_mem, List.contains_iff_mem] at hs
  by_cases h8 : 8 ∈ v.met
  · have h8' : v.met.contains 8 = true := List.contains_iff_mem.mpr h8
    cases hw : wantAc (scanParams a.prog s) with
    | true =>
      refine rows_split (k := v.row * vGroup J s) hv.bare hJ ?_ (rows_le hv.row) (Nat.le_refl _) (hv.ac h8) (fun e => by cases e) h
      unfold lastRow
      simp [hw, hd, h8, hvg]
    | false =>
      refine rows_split (k := (writerMcus J s).1) hv.bare hJ ?_ (Nat.le_refl _) (rows_all J s) (hv.dcAll h8) (fun _ => hw) h
      unfold lastRow
      simp [hw, hd, h8, hn]
  · cases hw : wantAc (scanParams a.prog s) with
    | true =>
      refine ⟨w.pause a.pads, ?_, pause_split h⟩
      unfold scanRows
      have : lastRow v a.prog s = none := by
        unfold lastRow
        simp [hw, hd, h8]
      rw [this]
    | false =>
      refine rows_split (k := v.row * vGroup J s) hv.bare hJ ?_ (rows_le hv.row) (Nat.le_refl _) (hv.dc (hs.resolve_right h8) h8) (fun _ => hw) h
      unfold lastRow
      simp [hw, hd, h8, hvg]

/-! ## A file written in parts -/

theorem lastRow_done {v : View} (hd : v.done = true) (prog : Bool) (s : ScanInfo) : lastRow v prog s = some (writerMcus v.jpg s).1 := by
  unfold lastRow
  rw [hd]
  cases wantAc (scanParams prog s) <;> rfl

theorem scanRows_done {v : View} (hd : v.done = true) (s : ScanInfo) (a : WJ) (w : WScan) : scanRows v s a w = scanRows (View.complete v.jpg) s a w := by
  unfold scanRows
  rw [lastRow_done hd, lastRow_complete]
  rfl

theorem streamMarker_done {v : View} (hd : v.done = true) (a : WJS) (m : Nat) : streamMarker v a m = streamMarker (View.complete v.jpg) a m := by
  unfold streamMarker streamScan
  have : ∀ s a, scanRows v s a = scanRows (View.complete v.jpg) s a := fun s a => funext (scanRows_done hd s a)
  simp only [this]
  rfl

/-- The parts of a segment. -/
def SplitMark (J : JpegData) (m : Nat) (r r1 : WJS × List (List Nat) × Bool) : Prop :=
  r.2.2 = true ∧ (r1 = r ∨ r1.2.2 = false ∧ ∃ cs2, streamMarker (View.complete J) r1.1 m = .ok (r.1, cs2, true) ∧ r.2.1 = r1.2.1 ++ cs2)

theorem mark_split {v : View} {J : JpegData} (hv : v.Of J) (hJ : J.Whole) (hs : v.canStart = true) {a : WJS} {m : Nat} {r : WJS × List (List Nat) × Bool}
    (h : streamMarker (View.complete J) a m = .ok r) : ∃ r1, streamMarker v a m = .ok r1 ∧ SplitMark J m r r1 := by
  have hfin : r.2.2 = true := by
    unfold streamMarker at h
    split at h
    · split at h
      · cases h
      rename_i s _
      generalize h1 : streamScan (View.complete J) s a.base a.scan = x at h
      unfold streamScan at h1
      cases x with
      | fail => cases h
      | ub => cases h
      | ok o =>
        cases h2 : scanHead (View.complete J).jpg s a.base a.scan with
        | fail => rw [h2] at h1; cases h1
        | ub => rw [h2] at h1; cases h1
        | ok w =>
          rw [h2] at h1
          cases h
          show o.scan.isNone = true
          rw [complete_scan h1]
          rfl
    · generalize writeMarker (View.complete J).jpg a.base m = x at h
      cases x <;> cases h
      rfl
  cases hd : v.done with
  | true =>
    rw [streamMarker_done hd, hv.whole hd]
    exact ⟨r, h, hfin, .inl rfl⟩
  | false =>
    unfold streamMarker at h ⊢
    by_cases hm : m = 0xDA
    · rw [if_pos hm] at h ⊢
      have hsc : v.jpg.scans = J.scans := by
        have := congrArg JpegData.scans hv.bare
        exact this
      rw [hsc]
      have e0 : (View.complete J).jpg.scans = J.scans := rfl
      rw [e0] at h
      cases hg : J.scans[a.base.scan]? with
      | none => rw [hg] at h; cases h
      | some s =>
        rw [hg] at h
        dsimp only at h ⊢
        unfold streamScan at h ⊢
        have hhead : scanHead v.jpg s a.base a.scan = scanHead J s a.base a.scan := by
          cases a.scan with
          | some w => rfl
          | none =>
            have e1 : encodeSOS v.jpg s = encodeSOS J s := by rw [← encodeSOS_bare, hv.bare, encodeSOS_bare]
            have e2 : v.jpg.restartInterval = J.restartInterval := by
              have := congrArg JpegData.restartInterval hv.bare
              exact this
            simp only [scanHead, driOf, e1, e2]
        rw [hhead]
        have e3 : (View.complete J).jpg = J := rfl
        rw [e3] at h
        cases h2 : scanHead J s a.base a.scan with
        | fail => rw [h2] at h; cases h
        | ub => rw [h2] at h; cases h
        | ok w =>
          rw [h2] at h
          simp only [Run.bind] at h ⊢
          cases h3 : scanRows (View.complete J) s a.base w with
          | fail => rw [h3] at h; cases h
          | ub => rw [h3] at h; cases h
          | ok o =>
            rw [h3] at h
            cases h
            obtain ⟨o1, h4, h5⟩ := scan_split hv hJ hd hs h3
            rw [h4]
            refine ⟨_, rfl, hfin, ?_⟩
            rcases h5 with ⟨rfl, _⟩ | ⟨w1, o2, h6, h7, h8, h9, h10, h11⟩
            · exact .inl rfl
            · refine .inr ⟨by simp [h6], o2.chunks, ?_, h11⟩
              unfold streamMarker
              rw [if_pos hm, e0]
              simp only [h6, Option.isSome_some, if_true, hg, streamScan, scanHead, Run.bind]
              rw [h7]
              simp only [h8, h9, h10, Option.isSome_none, Option.isNone_none]
    · rw [if_neg hm] at h ⊢
      have e : writeMarker v.jpg a.base m = writeMarker (View.complete J).jpg a.base m := by
        show writeMarker v.jpg a.base m = writeMarker J a.base m
        rw [← writeMarker_bare _ _ hm, hv.bare, writeMarker_bare _ _ hm]
      rw [e]
      exact ⟨r, h, hfin, .inl rfl⟩

/-- The parts of the whole output. -/
def SplitFile (J : JpegData) (r r1 : SStage × WJS × List (List Nat)) : Prop :=
  ∃ cs2, prod streamApi (View.complete J) r1.1 r1.2.1 = (r.1, r.2.1, cs2) ∧ r.2.2 = r1.2.2 ++ cs2

theorem sections_split {v : View} {J : JpegData} (hv : v.Of J) (hJ : J.Whole) (hs : v.canStart = true) (ms : List Nat) : ∀ (a : WJS),
    (prodSections streamApi (View.complete J) ms a).1 = .done → SplitFile J (prodSections streamApi (View.complete J) ms a) (prodSections streamApi v ms a) := by
  induction ms with
  | nil => intro a _; exact ⟨[], rfl, rfl⟩
  | cons m ms ih =>
    intro a h
    cases h1 : streamMarker (View.complete J) a m with
    | fail =>
      rw [prodSections] at h
      simp only [streamApi, h1] at h
      cases h
    | ub =>
      rw [prodSections] at h
      simp only [streamApi, h1] at h
      cases h
    | ok r =>
      obtain ⟨r1, h2, h3, h4⟩ := mark_split hv hJ hs h1
      obtain ⟨a', cs, fin⟩ := r
      dsimp only at h3 h4
      subst h3
      have hD : streamApi.marker (View.complete J) a m = (a', cs, .done) := by simp only [streamApi, h1]; rfl
      have hp : prodSections streamApi (View.complete J) (m :: ms) a = ((prodSections streamApi (View.complete J) ms a').1,
          (prodSections streamApi (View.complete J) ms a').2.1, cs ++ (prodSections streamApi (View.complete J) ms a').2.2) := by rw [prodSections, hD]
      rw [hp] at h ⊢
      rcases h4 with rfl | ⟨h5, cs2, h6, h7⟩
      · have hV : streamApi.marker v a m = (a', cs, .done) := by simp only [streamApi, h2]; rfl
        rw [prodSections, hV]
        obtain ⟨cs2, h8, h9⟩ := ih a' h
        refine ⟨cs2, h8, ?_⟩
        dsimp only
        rw [h9, List.append_assoc]
      · obtain ⟨a1, cs1, fin1⟩ := r1
        dsimp only at h5 h6 h7
        subst h5
        have hV : streamApi.marker v a m = (a1, cs1, .needsInput) := by simp only [streamApi, h2]; rfl
        have hD2 : streamApi.marker (View.complete J) a1 m = (a', cs2, .done) := by simp only [streamApi, h6]; rfl
        rw [prodSections, hV]
        dsimp only
        refine ⟨cs2 ++ (prodSections streamApi (View.complete J) ms a').2.2, ?_, ?_⟩
        · rw [prod]
          dsimp only
          rw [prodSections, hD2]
        · dsimp only
          rw [h7, List.append_assoc]

/-- A call of the writer with a view of an image that can be written: what it leaves can be completed, and the parts make up the whole. -/
theorem file_split {v : View} {J : JpegData} (hv : v.canStart = true → v.Of J) (hJ : J.Whole) (st : SStage) (a : WJS) (hst : st ≠ .init → v.canStart = true)
    (h : (prod streamApi (View.complete J) st a).1 = .done) : SplitFile J (prod streamApi (View.complete J) st a) (prod streamApi v st a) := by
  cases st with
  | error => cases h
  | done => exact ⟨[], rfl, rfl⟩
  | sections rest =>
    have hs := hst (by simp)
    exact sections_split (hv hs) hJ hs rest a h
  | init =>
    cases hs : v.canStart with
    | false =>
      have e : prod streamApi v .init a = (.init, a, []) := by
        unfold prod
        dsimp only
        rw [if_pos (show ¬ streamApi.canStart v = true by show ¬ v.canStart = true; rw [hs]; simp)]
      rw [e]
      exact ⟨_, rfl, rfl⟩
    | true =>
      have hv := hv hs
      have e1 : v.jpg.version = J.version := by
        have := congrArg JpegData.version hv.bare
        exact this
      have e2 : v.jpg.markerOrder = J.markerOrder := by
        have := congrArg JpegData.markerOrder hv.bare
        exact this
      have e3 : v.jpg.paddingBits = J.paddingBits := by
        have := congrArg JpegData.paddingBits hv.bare
        exact this
      have e4 : v.jpg.hasZeroPaddingBit = J.hasZeroPaddingBit := by
        have := congrArg JpegData.hasZeroPaddingBit hv.bare
        exact this
      have e5 : streamApi.prepared v a = streamApi.prepared (View.complete J) a := by
        show { a with base := a.base.prepared v.jpg } = { a with base := a.base.prepared J }
        simp only [WJ.prepared, e3, e4]
      unfold prod at h ⊢
      dsimp only at h ⊢
      rw [if_neg (show ¬ ¬ streamApi.canStart (View.complete J) = true by simp [streamApi, View.complete, View.canStart])] at h ⊢
      rw [if_neg (show ¬ ¬ streamApi.canStart v = true by simp [streamApi, hs])]
      have f1 : streamApi.version v = J.version := e1
      have f2 : streamApi.version (View.complete J) = J.version := rfl
      have f3 : streamApi.markers v = J.markerOrder := e2
      have f4 : streamApi.markers (View.complete J) = J.markerOrder := rfl
      have f5 : streamApi.original (View.complete J) = none := rfl
      rw [f2, f4, f5] at h ⊢
      rw [f1, f3]
      by_cases c1 : J.version = 1
      · rw [if_pos c1] at h; cases h
      rw [if_neg c1] at h ⊢
      rw [if_neg c1]
      by_cases c2 : J.version % 2 = 1
      · rw [if_pos c2] at h; cases h
      rw [if_neg c2] at h ⊢
      rw [if_neg c2]
      by_cases c3 : J.markerOrder.isEmpty = true
      · rw [if_pos c3] at h; cases h
      rw [if_neg c3] at h ⊢
      rw [if_neg c3]
      dsimp only at h ⊢
      obtain ⟨cs2, h1, h2⟩ := sections_split hv hJ hs J.markerOrder (streamApi.prepared (View.complete J) a) h
      rw [e5]
      refine ⟨cs2, ?_, ?_⟩
      · dsimp only
        unfold prod at h1
        exact h1
      · dsimp only
        rw [h2, List.cons_append]

/-! ## With all known, the writer is the one for complete data -/

theorem encodeScan_stream (J : JpegData) (s : ScanInfo) (a : WJ) : streamScan (View.complete J) s a none = (encodeScan J s a).map fun p => ⟨p.2, none, p.1⟩ := by
  unfold streamScan encodeScan scanHead
  have e : (View.complete J).jpg = J := rfl
  rw [e]
  cases encodeSOS J s with
  | fail => rfl
  | ub => rfl
  | ok sos =>
    simp only [Run.bind]
    rw [scanRows_complete]
    dsimp only
    rw [mcuRange_grid]
    generalize mcuGrid (dimsOf J.components) s.comps (writerMcus J s).1 (writerMcus J s).2 = mcus
    have ho : (outOfRange J s mcus = true) = ((s.comps.any fun c => 4 ≤ c.dcTbl || 4 ≤ c.acTbl) = true ∨
        (mcus.flatten.any fun v => decide (((J.components[v.comp]?).map fun c => c.coeffs.length).getD 0 < 64 * v.blk + 64)) = true) := by
      unfold outOfRange
      rw [Bool.or_eq_true]
    by_cases h : outOfRange J s mcus = true
    · rw [if_pos h, if_pos (ho ▸ h)]
      rfl
    · rw [if_neg h, if_neg (ho ▸ h)]
      unfold writeScanData scanCalls driOf
      cases writeMcus a.prog (scanParams a.prog s) (if a.dri then J.restartInterval else 0) J.coefs mcus (WS.start (if a.dri then J.restartInterval else 0) s.resetPoints s.extraZeroRuns) with
      | none => rfl
      | some q =>
        obtain ⟨as, ws⟩ := q
        simp only [Option.map_some, BW.scan, List.map_append, BW.acts_append]
        cases (BW.init [sos]).acts a.pads (as.map (WAct.toAct a.T)) with
        | fail => rfl
        | ub => rfl
        | ok p =>
          obtain ⟨bw, pads⟩ := p
          simp only [Run.bind, scanEnd]
          cases bw.acts pads ((ws.cs.flush.1.map WAct.req).map (WAct.toAct a.T)) with
          | fail => rfl
          | ub => rfl
          | ok p =>
            obtain ⟨bw, pads⟩ := p
            simp only
            cases bw.jump pads with
            | fail => rfl
            | ub => rfl
            | ok p =>
              obtain ⟨bw, pads⟩ := p
              simp only
              cases bw.healthy <;> rfl

theorem marker_stream (J : JpegData) (b : WJ) (br : Bool) (m : Nat) :
    streamMarker (View.complete J) ⟨b, none, br⟩ m = (writeMarker J b m).map fun r => (⟨r.2, none, br⟩, r.1, true) := by
  have e : (View.complete J).jpg = J := rfl
  by_cases hm : m = 0xDA
  · subst hm
    unfold streamMarker writeMarker
    rw [if_pos rfl, if_neg (by decide), if_neg (by decide), if_neg (by decide), if_neg (by decide), if_pos rfl, e]
    dsimp only
    cases J.scans[b.scan]? with
    | none => rfl
    | some s =>
      dsimp only
      rw [encodeScan_stream]
      cases encodeScan J s b <;> rfl
  · unfold streamMarker
    rw [if_neg hm, e]
    dsimp only
    cases writeMarker J b m <;> rfl

theorem sections_stream (J : JpegData) (br : Bool) (ms : List Nat) : ∀ {b : WJ} {cs : List (List Nat)}, writeMarkers J ms b = .ok cs →
    (prodSections streamApi (View.complete J) ms ⟨b, none, br⟩).1 = .done ∧ (prodSections streamApi (View.complete J) ms ⟨b, none, br⟩).2.2 = cs := by
  induction ms with
  | nil => intro b cs h; rw [writeMarkers] at h; cases h; exact ⟨rfl, rfl⟩
  | cons m ms ih =>
    intro b cs h
    rw [writeMarkers] at h
    cases h1 : writeMarker J b m with
    | fail => rw [h1] at h; cases h
    | ub => rw [h1] at h; cases h
    | ok r =>
      obtain ⟨c1, b1⟩ := r
      rw [h1] at h
      dsimp only [Run.bind] at h
      cases h2 : writeMarkers J ms b1 with
      | fail => rw [h2] at h; cases h
      | ub => rw [h2] at h; cases h
      | ok cs2 =>
        rw [h2] at h
        cases h
        obtain ⟨i1, i2⟩ := ih h2
        have h3 : streamMarker (View.complete J) ⟨b, none, br⟩ m = .ok (⟨b1, none, br⟩, c1, true) := by rw [marker_stream, h1]; rfl
        have hm : streamApi.marker (View.complete J) ⟨b, none, br⟩ m = (⟨b1, none, br⟩, c1, .done) := by simp only [streamApi, h3]; rfl
        rw [prodSections, hm]
        exact ⟨i1, by dsimp only; rw [i2]⟩

theorem writeJpeg_stream {J : JpegData} {T : HSlot → CodeTable} {cs : List (List Nat)} (h : writeJpeg T J = .ok cs) :
    (prod streamApi (View.complete J) .init (WJS.init T)).1 = .done ∧ (prod streamApi (View.complete J) .init (WJS.init T)).2.2 = cs := by
  unfold writeJpeg at h
  split at h
  · cases h
  rename_i h1
  split at h
  · cases h
  rename_i h2
  cases h3 : writeMarkers J J.markerOrder ((WJ.init T).prepared J) with
  | fail => rw [h3] at h; cases h
  | ub => rw [h3] at h; cases h
  | ok r =>
    rw [h3] at h
    cases h
    obtain ⟨i1, i2⟩ := sections_stream J false _ h3
    have f2 : streamApi.version (View.complete J) = J.version := rfl
    have f4 : streamApi.markers (View.complete J) = J.markerOrder := rfl
    unfold prod
    dsimp only
    rw [f2, f4, if_neg (show ¬ ¬ streamApi.canStart (View.complete J) = true by simp [streamApi, View.complete, View.canStart]), if_neg (by omega), if_neg h1,
      if_neg (by simpa using h2)]
    exact ⟨i1, by show [0xFF, 0xD8] :: _ = _; rw [← i2]; rfl⟩

theorem prodSections_done {v : View} (hd : v.done = true) (ms : List Nat) : ∀ a, prodSections streamApi v ms a = prodSections streamApi (View.complete v.jpg) ms a := by
  have hm : ∀ a m, streamApi.marker v a m = streamApi.marker (View.complete v.jpg) a m := by
    intro a m
    simp only [streamApi, streamMarker_done hd]
  induction ms with
  | nil => intro a; rfl
  | cons m ms ih =>
    intro a
    rw [prodSections, prodSections, hm]
    rcases streamApi.marker (View.complete v.jpg) a m with ⟨a', cs, st⟩
    cases st with
    | done => dsimp only; rw [ih]
    | error => rfl
    | needsInput => rfl
    | needsOutput => rfl

theorem prod_done {v : View} (hd : v.done = true) (st : SStage) (a : WJS) (h : (prod streamApi (View.complete v.jpg) st a).1 = .done) : (prod streamApi v st a).1 = .done := by
  cases st with
  | error => cases h
  | done => rfl
  | sections rest =>
    unfold prod at h ⊢
    dsimp only at h ⊢
    rw [prodSections_done hd]
    exact h
  | init =>
    have f1 : streamApi.version v = streamApi.version (View.complete v.jpg) := rfl
    have f2 : streamApi.markers v = streamApi.markers (View.complete v.jpg) := rfl
    have f3 : streamApi.prepared v = streamApi.prepared (View.complete v.jpg) := rfl
    have f4 : streamApi.original (View.complete v.jpg) = none := rfl
    unfold prod at h ⊢
    dsimp only at h ⊢
    rw [if_neg (show ¬ ¬ streamApi.canStart (View.complete v.jpg) = true by simp [streamApi, View.complete, View.canStart])] at h
    rw [if_neg (show ¬ ¬ streamApi.canStart v = true by simp [streamApi, View.canStart, hd]), f1, f2, f3]
    by_cases c1 : streamApi.version (View.complete v.jpg) = 1
    · rw [if_pos c1, f4] at h; cases h
    rw [if_neg c1] at h ⊢
    by_cases c2 : streamApi.version (View.complete v.jpg) % 2 = 1
    · rw [if_pos c2] at h; cases h
    rw [if_neg c2] at h ⊢
    by_cases c3 : (streamApi.markers (View.complete v.jpg)).isEmpty = true
    · rw [if_pos c3] at h; cases h
    rw [if_neg c3] at h ⊢
    dsimp only at h ⊢
    rw [prodSections_done hd]
    exact h

/-! ## Calls of the writer -/

/-- The writer is on its way to `whole`: with all known it would complete, and what has been delivered, what is queued and what is still to come make up `whole`. -/
def OnWay (J : JpegData) (whole out : List Nat) (s : SState WJS) : Prop :=
  (prod streamApi (View.complete J) s.stage s.aux).1 = .done ∧
    out ++ s.queue.flatten ++ (prod streamApi (View.complete J) s.stage s.aux).2.2.flatten = whole

theorem OnWay.init {J : JpegData} {T : HSlot → CodeTable} {cs : List (List Nat)} (h : writeJpeg T J = .ok cs) : OnWay J cs.flatten [] (SState.init (WJS.init T)) := by
  obtain ⟨h1, h2⟩ := writeJpeg_stream h
  exact ⟨h1, by show [] ++ [].flatten ++ _ = _; rw [show (SState.init (WJS.init T)).stage = .init from rfl, show (SState.init (WJS.init T)).aux = WJS.init T from rfl, h2]; simp⟩

/-- One call, whatever the space. -/
theorem OnWay.call {J : JpegData} {whole out : List Nat} {s : SState WJS} (h : OnWay J whole out s) (hJ : J.Whole) {v : View} (hv : v.canStart = true → v.Of J)
    (hst : s.stage ≠ .init → v.canStart = true) (space : Nat) :
    OnWay J whole (out ++ (serialize streamApi v space s).out) (serialize streamApi v space s).state ∧
      ((serialize streamApi v space s).state.stage ≠ .init → v.canStart = true) ∧
      (v.done = true → (serialize streamApi v space s).state.stage = .done) := by
  obtain ⟨h1, h2⟩ := h
  obtain ⟨i1, i2, i3⟩ := serialize_prod streamApi v space s
  obtain ⟨cs2, j1, j2⟩ := file_split hv hJ s.stage s.aux hst h1
  refine ⟨⟨?_, ?_⟩, ?_, ?_⟩
  · rw [i2, i3, j1]
    exact h1
  · rw [i2, i3, j1]
    dsimp only
    rw [List.append_assoc out, i1, ← h2, j2]
    simp
  · rw [i2]
    intro hne
    by_cases hi : s.stage = .init
    · by_contra hc
      apply hne
      rw [hi]
      unfold prod
      dsimp only
      rw [if_pos (show ¬ streamApi.canStart v = true from hc)]
    · exact hst hi
  · intro hd
    have hw := (hv (by simp [View.canStart, hd])).whole hd
    rw [i2]
    exact prod_done hd _ _ (by rw [hw]; exact h1)

/-- Never an error on the way. -/
theorem OnWay.stage {J : JpegData} {whole out : List Nat} {s : SState WJS} (h : OnWay J whole out s) : s.stage ≠ .error := by
  intro e
  have := h.1
  rw [e] at this
  cases this

/-- At the end. -/
theorem OnWay.all {J : JpegData} {whole out : List Nat} {s : SState WJS} (h : OnWay J whole out s) (hd : s.stage = .done) : out ++ s.queue.flatten = whole := by
  have := h.2
  rw [hd] at this
  simpa [prod] using this

/-! ## A parser the writer looks at -/

/-- The writer, looking at the parser through `f`. -/
def SerApi.via {V W σ : Type} (f : W → V) (api : SerApi V σ) : SerApi W σ where
  canStart := fun w => api.canStart (f w)
  version := fun w => api.version (f w)
  original := fun w => api.original (f w)
  markers := fun w => api.markers (f w)
  prepared := fun w => api.prepared (f w)
  marker := fun w => api.marker (f w)

theorem serSections_via {V W σ : Type} (f : W → V) (api : SerApi V σ) (w : W) (ms : List Nat) : ∀ (a : σ) (q : List (List Nat)) (n : Nat),
    serSections (api.via f) w ms a q n = serSections api (f w) ms a q n := by
  induction ms with
  | nil => intro a q n; rfl
  | cons m ms ih =>
    intro a q n
    rw [serSections, serSections]
    have : (api.via f).marker w a m = api.marker (f w) a m := rfl
    rw [this]
    simp only [ih]

theorem serialize_via {V W σ : Type} (f : W → V) (api : SerApi V σ) (w : W) (n : Nat) (s : SState σ) : serialize (api.via f) w n s = serialize api (f w) n s := by
  unfold serialize
  simp only [serSections_via]
  rfl

end Brunsli
