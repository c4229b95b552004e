import Verif.CodeCount
import Verif.Accept
/-!
# The buffers of code words of a whole image

`EncodeDC` and `EncodeAC` with the vectors they write to (c/enc/brunsli_encode.cc:1086-1346).
-/

namespace Brunsli

/-- `EncodeDC` (c/enc/brunsli_encode.cc:1086-1178) with its vector, and the start of `EncodeCodeWords` (:694-700): the code words; the flags of the empty blocks for `EncodeAC`. -/
def storeDC (grow : Nat → Nat) (rows : Nat) (ms : List Meta) (imgs : List (List Int)) : Run (List (List Bool) × List (Option Slot)) :=
  (Run.orUb (E.blocks (encDcStep (ms.length * 9) ms imgs) (ms.map fun m => ⟨DcState.init m.w, List.replicate (m.w * (rows * m.vs)) false⟩) (schedule rows ms))).bind
    fun (s, bl) => ((CodeBuf.mk (3 * (ms.map fun m => m.w * (rows * m.vs)).sum + 128) DS.init).putBlocks grow bl).bind
      fun b => b.finish.bind fun slots => .ok (s.map DcEnc.empty, slots)

/-- `EncodeAC` (c/enc/brunsli_encode.cc:1180-1346) with its vector, and the start of `EncodeCodeWords`; `nzs` are the numbers `approx_total_nonzeros`. -/
def storeAC (grow : Nat → Nat) (n : Nat) (legacy : Bool) (rows : Nat) (ms : List Meta) (orders quants : List (List Nat)) (imgs : List (List Int)) (flags : List (List Bool))
    (nzs : List Nat) : Run (List (Option Slot)) :=
  (Run.orUb (acParams orders quants)).bind fun prs =>
    (Run.orUb (encOrders orders)).bind fun (_, first) =>
      ((CodeBuf.mk ((ms.zip nzs).map fun (m, nz) => 2 * nz + 1024 + 3 * (m.w * (rows * m.vs))).sum DS.init).putAll first).bind fun b =>
        (Run.orUb (E.blocks (encAcStep n (contextModes legacy) ms prs imgs flags) (ms.map fun m => AcState.init m.w) (schedule rows ms))).bind
          fun (_, bl) => (b.putBlocks grow bl).bind CodeBuf.finish

/-- `meta[i].approx_total_nonzeros` (c/enc/brunsli_encode.cc:1436-1438). -/
def JpegData.approxNonzeros (jpg : JpegData) : List Nat :=
  jpg.components.map fun c => sampleNumNonZeros c.coeffs (jpg.header.mcuCols * c.hSamp * (jpg.header.mcuRows * c.vSamp))

/-- `BrunsliEncodeJpeg` up to the entropy codes (c/enc/brunsli_encode.cc:1427-1470), with the vectors: the code words of the two streams. -/
def storeCoefs (grow : Nat → Nat) (jpg : JpegData) : Run (List (Option Slot) × List (Option Slot)) :=
  (Run.orFail jpg.quants).bind fun quants =>
    let ms := metas jpg.header jpg.schemes
    let rows := jpg.header.mcuRows
    let imgs := jpg.components.map Component.coeffs
    if ¬ (ms.zip imgs).all (fun (m, img) => predictDCCoeffs img m.w (rows * m.vs)) then .fail
    else
      (storeDC grow rows ms imgs).bind fun (flags, dc) =>
        (storeAC grow (contextCount ms) (legacyModel jpg.version) rows ms jpg.orders quants imgs flags jpg.approxNonzeros).bind fun ac => .ok (dc, ac)

/-! ## The vectors suffice -/

theorem encDcStep_cost (n : Nat) (ms : List Meta) (imgs : List (List Int)) (s : List DcEnc) (p : Nat × Nat × Nat) : (encDcStep n ms imgs s p).Cost 6 := by
  unfold encDcStep
  refine E.Cost.liftBind fun _ => E.Cost.liftBind fun _ => E.Cost.liftBind fun _ => E.Cost.liftBind fun _ => E.Cost.liftBind fun _ => ?_
  exact (encDcBlock_cost _ _ _ _ _ _).bind (l := 0) fun _ => E.Cost.liftBind fun _ => E.Cost.lift _

theorem encAcStep_cost (n : Nat) (modes : List Nat) (ms : List Meta) (prs : List AcParam) (imgs : List (List Int)) (flags : List (List Bool)) (s : List AcState) (p : Nat × Nat × Nat) :
    (encAcStep n modes ms prs imgs flags s p).Cost 321 := by
  unfold encAcStep
  refine E.Cost.liftBind fun _ => E.Cost.liftBind fun _ => E.Cost.liftBind fun _ => E.Cost.liftBind fun _ => E.Cost.liftBind fun _ => E.Cost.liftBind fun _ => ?_
  exact (encAcBlock_cost _ _ _ _).bind (l := 0) fun _ => E.Cost.lift _

theorem storeDC_ok {grow : Nat → Nat} (hg : ∀ n, n + kSlackForOneBlock ≤ grow n) {rows : Nat} {ms : List Meta} {imgs : List (List Int)} {flags : List (List Bool)} {ops : List Op}
    (hs : (schedule rows ms).length ≤ 2 ^ 23) (h : encodeDC rows ms imgs = some (flags, ops)) :
    storeDC grow rows ms imgs = .ok (flags, (ops.foldl DS.step DS.init).flush) := by
  have hc := encodeDC_cost _ _ _ _ _ h
  unfold encodeDC at h
  change E.bind _ _ = _ at h
  unfold E.bind at h
  cases hl : E.loop (encDcStep (ms.length * 9) ms imgs) (ms.map fun m => ⟨DcState.init m.w, List.replicate (m.w * (rows * m.vs)) false⟩) (schedule rows ms) with
  | none => rw [hl] at h; cases h
  | some r =>
    obtain ⟨s, o⟩ := r
    rw [hl] at h
    dsimp only at h
    change some (s.map DcEnc.empty, o ++ []) = _ at h
    rw [List.append_nil] at h
    cases h
    obtain ⟨bl, h1, h2⟩ := E.blocks_flatten hl
    have hlen := steps_length ops DS.init
    have h3 : DS.init.cw.length = 3 := rfl
    obtain ⟨n, h4, h5⟩ := CodeBuf.putBlocks_ok hg bl (b := ⟨3 * (ms.map fun m => m.w * (rows * m.vs)).sum + 128, DS.init⟩) DS.init_ok (by dsimp only; omega)
      (fun b hb => Nat.le_trans (E.blocks_le (encDcStep_cost _ _ _) h1 b hb) (by decide)) (by rw [h2]; dsimp only; omega)
    dsimp only at h4 h5
    rw [h2] at h4 h5
    unfold storeDC
    rw [h1]
    change ((CodeBuf.mk _ DS.init).putBlocks grow bl).bind _ = _
    rw [h4]
    change (CodeBuf.finish _).bind _ = _
    rw [CodeBuf.finish_ok (DS.steps_ok ops DS.init_ok) h5]
    rfl

theorem digitOps_bits (v : Nat) : ∀ op ∈ digitOps v, ∃ n x, op = .bits n x := by
  induction v using Nat.strongRecOn with
  | _ v ih =>
    intro op ho
    rw [digitOps] at ho
    split at ho
    · rcases List.mem_cons.mp ho with rfl | ho
      · exact ⟨_, _, rfl⟩
      · exact ih _ (by omega) op ho
    · rw [List.mem_singleton] at ho; exact ⟨_, _, ho⟩

theorem spanOps_bits (l : List Nat) (start n : Nat) : ∀ op ∈ spanOps l start n, ∃ n x, op = .bits n x := by
  intro op ho
  unfold spanOps at ho
  dsimp only at ho
  split at ho
  · rw [List.mem_singleton] at ho; exact ⟨_, _, ho⟩
  · rcases List.mem_cons.mp ho with rfl | ho
    · exact ⟨_, _, rfl⟩
    · obtain ⟨v, -, hv⟩ := List.mem_flatMap.mp ho
      exact digitOps_bits v op hv

theorem encOrders_bits : ∀ {os : List (List Nat)} {ops : List Op}, encOrders os = some ((), ops) → ∀ op ∈ ops, ∃ n x, op = .bits n x
  | [], ops, h => by cases h; simp
  | o :: os, ops, h => by
    rw [encOrders] at h
    change E.bind _ _ = _ at h
    unfold E.bind E.emit at h
    cases ho : encodeCoeffOrder o with
    | none => rw [ho] at h; cases h
    | some l =>
      rw [ho] at h
      dsimp only [Option.map_some] at h
      cases hos : encOrders os with
      | none => rw [hos] at h; cases h
      | some r =>
        obtain ⟨⟨⟩, l'⟩ := r
        rw [hos] at h
        cases h
        intro op hop
        rcases List.mem_append.mp hop with hop | hop
        · unfold encodeCoeffOrder at ho
          simp only [bind, Option.bind_eq_some_iff, Option.some.injEq] at ho
          obtain ⟨zz, -, lh, -, rfl⟩ := ho
          simp only [List.mem_append] at hop
          rcases hop with ((hop | hop) | hop) | hop <;> exact spanOps_bits _ _ _ op hop
        · exact encOrders_bits hos op hop

theorem weight_bits {ops : List Op} (h : ∀ op ∈ ops, ∃ n x, op = .bits n x) : weight ops = 16 * ops.length ∧ ∀ op ∈ ops, op.Small := by
  constructor
  · induction ops with
    | nil => rfl
    | cons o ops ih =>
      obtain ⟨n, x, rfl⟩ := h o (by simp)
      have e : weight (Op.bits n x :: ops) = 16 + weight ops := by unfold weight; rw [List.map_cons, List.sum_cons]; rfl
      rw [e, ih fun o ho => h o (by simp [ho]), List.length_cons]
      omega
  · intro op ho
    obtain ⟨n, x, rfl⟩ := h op ho
    trivial

theorem inits_bank : ∀ (ms : List Meta), Banks (ms.map fun m => AcState.init m.w) ∧ ((ms.map fun m => AcState.init m.w).map AcState.credit).sum ≤ 97856 * ms.length
  | [] => ⟨fun _ h => (by simp at h), by simp⟩
  | m :: ms => by
    obtain ⟨h1, h2⟩ := inits_bank ms
    obtain ⟨h3, h4⟩ := acInit_bank m.w
    refine ⟨fun st hst => ?_, ?_⟩
    · rcases List.mem_cons.mp hst with rfl | hst
      · exact h3
      · exact h1 st hst
    · rw [List.map_cons, List.map_cons, List.sum_cons, List.length_cons]
      omega

theorem first_size : ∀ {ms : List Meta} {nzs : List Nat} (rows : Nat), nzs.length = ms.length →
    1024 * ms.length ≤ ((ms.zip nzs).map fun (m, nz) => 2 * nz + 1024 + 3 * (m.w * (rows * m.vs))).sum
  | [], _, _, _ => by simp
  | m :: ms, [], _, h => by simp at h
  | m :: ms, z :: nzs, rows, h => by
    have := first_size (ms := ms) (nzs := nzs) rows (by simpa using h)
    have e : (((m :: ms).zip (z :: nzs)).map fun (m, nz) => 2 * nz + 1024 + 3 * (m.w * (rows * m.vs))).sum =
        2 * z + 1024 + 3 * (m.w * (rows * m.vs)) + ((ms.zip nzs).map fun (m, nz) => 2 * nz + 1024 + 3 * (m.w * (rows * m.vs))).sum := by
      rw [List.zip_cons_cons, List.map_cons, List.sum_cons]
    rw [e, List.length_cons]
    generalize ((ms.zip nzs).map fun (m, nz) => 2 * nz + 1024 + 3 * (m.w * (rows * m.vs))).sum = t at *
    omega

theorem E.lift_some_bind {α β : Type} (a : α) (f : α → E β) : E.bind (E.lift (some a)) f = f a := by
  unfold E.lift E.bind
  dsimp only [Option.map_some, List.nil_append]
  cases f a <;> rfl

theorem storeAC_ok {grow : Nat → Nat} (hg : ∀ n, n + kSlackForOneBlock ≤ grow n) {n : Nat} {legacy : Bool} {rows : Nat} {ms : List Meta} {orders quants : List (List Nat)}
    {imgs : List (List Int)} {flags : List (List Bool)} {nzs : List Nat} {ops : List Op} (hs : (schedule rows ms).length ≤ 2 ^ 23) (hm : 1 ≤ ms.length ∧ ms.length ≤ 4)
    (hol : orders.length = ms.length) (hnz : nzs.length = ms.length) (ho : ∀ o ∈ orders, o.length = 64)
    (h : encodeAC n legacy rows ms orders quants imgs flags = some ((), ops)) :
    storeAC grow n legacy rows ms orders quants imgs flags nzs = .ok (ops.foldl DS.step DS.init).flush := by
  unfold encodeAC at h
  cases hp : acParams orders quants with
  | none => rw [hp] at h; cases h
  | some prs =>
    rw [hp] at h
    change E.bind (E.lift (some prs)) (fun prs => E.bind (encOrders orders) fun _ =>
      E.bind (E.loop (encAcStep n (contextModes legacy) ms prs imgs flags) (ms.map fun m => AcState.init m.w) (schedule rows ms)) fun _ => Pure.pure ()) = _ at h
    have h' := h
    clear h
    rw [E.lift_some_bind] at h'
    unfold E.bind at h'
    cases he : encOrders orders with
    | none => rw [he] at h'; cases h'
    | some r =>
      obtain ⟨⟨⟩, first⟩ := r
      rw [he] at h'
      dsimp only at h'
      cases hl : E.loop (encAcStep n (contextModes legacy) ms prs imgs flags) (ms.map fun m => AcState.init m.w) (schedule rows ms) with
      | none => rw [hl] at h'; cases h'
      | some r =>
        obtain ⟨s, o⟩ := r
        rw [hl] at h'
        change some ((), first ++ (o ++ [])) = _ at h'
        rw [List.append_nil] at h'
        cases h'
        obtain ⟨bl, h1, h2⟩ := E.blocks_flatten hl
        have hfl := encOrders_cost ho _ _ he
        rw [hol] at hfl
        obtain ⟨hfw, hfs⟩ := weight_bits (encOrders_bits he)
        obtain ⟨hb, hcr⟩ := inits_bank ms
        obtain ⟨-, hos, hw⟩ := E.Paid.loop (fun s p hq => encAcStep_paid n (contextModes legacy) ms prs imgs flags hq p) (schedule rows ms) _ hb s o hl
        dsimp only at hw
        have hwords := words_le (ops := first ++ o) fun op hop => by
          rcases List.mem_append.mp hop with hop | hop
          · exact hfs op hop
          · exact hos op hop
        rw [weight_append, hfw] at hwords
        have hpos : ((first ++ o).foldl DS.step DS.init).cw.length < 2 ^ 31 := by omega
        have hfn := first_size (ms := ms) (nzs := nzs) rows hnz
        have h3 : DS.init.cw.length = 3 := rfl
        have hmono := DS.steps_mono o (first.foldl DS.step DS.init)
        have hlen := steps_length first DS.init
        rw [List.foldl_append] at hpos ⊢
        unfold storeAC
        generalize ((ms.zip nzs).map fun (m, nz) => 2 * nz + 1024 + 3 * (m.w * (rows * m.vs))).sum = sz at hfn ⊢
        have hput := CodeBuf.putAll_ok first (b := ⟨sz, DS.init⟩) DS.init_ok (by dsimp only; omega) (by dsimp only; omega)
        obtain ⟨k, h4, h5⟩ := CodeBuf.putBlocks_ok hg bl (b := ⟨sz, first.foldl DS.step DS.init⟩) (DS.steps_ok first DS.init_ok) (by dsimp only; omega)
          (fun b hb => Nat.le_trans (E.blocks_le (encAcStep_cost _ _ _ _ _ _) h1 b hb) (by decide)) (by rw [h2]; exact hpos)
        dsimp only at h4 h5
        rw [h2] at h4 h5
        rw [hp, he]
        change ((CodeBuf.mk sz DS.init).putAll first).bind _ = _
        rw [hput, h1]
        change ((CodeBuf.mk sz _).putBlocks grow bl).bind _ = _
        rw [h4]
        exact CodeBuf.finish_ok (DS.steps_ok o (DS.steps_ok first DS.init_ok)) h5

/-- Valid data is coded. -/
theorem coefs_coded {jpg : JpegData} (hv : jpg.Valid)
    (hp : ((metas jpg.header jpg.schemes).zip (jpg.components.map Component.coeffs)).all (fun (m, img) => predictDCCoeffs img m.w (jpg.header.mcuRows * m.vs)) = true) :
    ∃ quants flags dc ac, jpg.quants = some quants ∧ encodeDC jpg.header.mcuRows (metas jpg.header jpg.schemes) (jpg.components.map Component.coeffs) = some (flags, dc) ∧
      encodeAC (contextCount (metas jpg.header jpg.schemes)) (legacyModel jpg.version) jpg.header.mcuRows (metas jpg.header jpg.schemes) jpg.orders quants
        (jpg.components.map Component.coeffs) flags = some ((), ac) := by
  have hcomps : jpg.header.comps.length = jpg.components.length := by simp [JpegData.header]
  have hsl := jpg.schemes_length
  have hml := metas_length hsl
  have hquants := quants_eq hv
  generalize hqs : ((jpg.components.map Component.quantIdx).map fun i => (jpg.quant.map QuantTable.values).getD i []) = quants at hquants
  obtain ⟨fl, dc, ac, e1, e2, -, -⟩ := coefs_roundtrip (legacyModel jpg.version) jpg.header.mcuRows (metas jpg.header jpg.schemes) jpg.orders
    quants (jpg.components.map Component.coeffs) (metas_layout hsl (schemes_lt jpg)) (by rw [hml, hcomps]; simp [JpegData.orders])
    (by rw [← hqs, hml, hcomps]; simp)
    (by rw [hml, hcomps]; simp)
    (fun c m img hm hi => by
      have hz : (m, img) ∈ (metas jpg.header jpg.schemes).zip (jpg.components.map Component.coeffs) :=
        List.mem_of_getElem? (List.getElem?_zip_eq_some.mpr ⟨hm, hi⟩)
      have hpm := (List.all_eq_true.mp hp) _ hz
      dsimp only at hpm
      obtain ⟨q, q1, q2, q3⟩ := metas_comp hm
      rw [List.getElem?_map, q1] at hi
      cases hi
      have hq := List.mem_of_getElem? q1
      refine ⟨?_, hv.range q hq, hpm⟩
      rw [hv.size q hq, hv.width q hq, hv.height q hq, q2, q3])
    (by
      intro img himg i hi h0
      obtain ⟨q, hq, rfl⟩ := List.mem_map.mp himg
      have := hv.ac q hq i h0
      rw [List.getD_eq_getElem?_getD, List.getElem?_eq_getElem hi] at this
      simp only [Option.getD_some] at this
      omega)
    (by
      intro o hoo
      obtain ⟨q, -, rfl⟩ := List.mem_map.mp hoo
      exact computeCoeffOrder_ok _ (by simp [numZeros]))
    (by
      intro q hq
      rw [← hqs] at hq
      obtain ⟨i, hi, rfl⟩ := List.mem_map.mp hq
      obtain ⟨c, hc, rfl⟩ := List.mem_map.mp hi
      have hlt := hv.quantIdx c hc
      rw [List.getD_eq_getElem?_getD, List.getElem?_map, List.getElem?_eq_getElem hlt]
      have := hv.quant _ (List.getElem_mem hlt)
      exact ⟨this.length, fun v hv => this.range v hv⟩)
  exact ⟨quants, fl, dc, ac, hquants, e1, e2⟩

theorem orders_length64 (jpg : JpegData) : ∀ o ∈ jpg.orders, o.length = 64 := fun o ho => by
  obtain ⟨q, -, rfl⟩ := List.mem_map.mp ho
  have := (computeCoeffOrder_ok (numZeros q.coeffs (jpg.header.mcuCols * q.hSamp * (jpg.header.mcuRows * q.vSamp))) (by simp [numZeros])).1.length_eq
  rw [this, List.length_range]

theorem storeCoefs_ok {grow : Nat → Nat} (hg : ∀ n, n + kSlackForOneBlock ≤ grow n) {jpg : JpegData} (hv : jpg.Valid) {quants : List (List Nat)} {flags : List (List Bool)}
    {dc ac : List Op} (hq : jpg.quants = some quants)
    (hp : ((metas jpg.header jpg.schemes).zip (jpg.components.map Component.coeffs)).all (fun (m, img) => predictDCCoeffs img m.w (jpg.header.mcuRows * m.vs)) = true)
    (h1 : encodeDC jpg.header.mcuRows (metas jpg.header jpg.schemes) (jpg.components.map Component.coeffs) = some (flags, dc))
    (h2 : encodeAC (contextCount (metas jpg.header jpg.schemes)) (legacyModel jpg.version) jpg.header.mcuRows (metas jpg.header jpg.schemes) jpg.orders quants
        (jpg.components.map Component.coeffs) flags = some ((), ac)) :
    storeCoefs grow jpg = .ok ((dc.foldl DS.step DS.init).flush, (ac.foldl DS.step DS.init).flush) := by
  have hs := schedule_le hv.header jpg.schemes
  have hml := metas_length jpg.schemes_length
  have hcomps : jpg.header.comps.length = jpg.components.length := by simp [JpegData.header]
  have hn := hv.ncomp
  have a1 := storeDC_ok hg hs h1
  have a2 := storeAC_ok hg (nzs := jpg.approxNonzeros) hs (by rw [hml, hcomps]; exact hn) (by rw [hml, hcomps]; simp [JpegData.orders]) (by rw [hml, hcomps]; simp [JpegData.approxNonzeros])
    (orders_length64 jpg) h2
  unfold storeCoefs
  rw [hq]
  change (if _ then _ else _) = _
  rw [if_neg (not_not.mpr hp), a1]
  change (storeAC _ _ _ _ _ _ _ _ _ _).bind _ = _
  rw [a2]
  rfl

end Brunsli
