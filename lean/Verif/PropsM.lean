import Verif.JRound
import Verif.PropsJ
/-!
# Properties C29, C30, C31 and C32: JPEG files are read and written back exactly
-/

namespace Brunsli

open JM

/-- Lookup tables of the reader and code tables of the writer after the same definitions, each of which the reader accepts, from any
initial contents of the writer's tables. -/
inductive Tables : List HuffCode → (HSlot → JMem) → (HSlot → CodeTable) → Prop where
  | none (T : HSlot → CodeTable) : Tables [] (fun _ _ => badEnt) T
  | define {hs : List HuffCode} {lut : HSlot → JMem} {T : HSlot → CodeTable} {h : HuffCode} {m : JMem} {t : CodeTable} : Tables hs lut T → h.Ok →
      dhtLut (lut h.slot) h = some m → buildCodeTable (T h.slot) h = .ok t →
      Tables (hs ++ [h]) (fun s => if s = h.slot then m else lut s) (fun s => if s = h.slot then t else T s)

theorem Tables.tabs {hs : List HuffCode} {lut : HSlot → JMem} {T : HSlot → CodeTable} (h : Tables hs lut T) : Tabs lut T := by
  induction h with
  | none T => exact fun _ => slotMatch_init _
  | define _ ok hm ht ih =>
    obtain ⟨m', t', h1, h2, h3⟩ := slotMatch_dht (ih _) ok
    rw [hm] at h1
    rw [ht] at h2
    cases h1
    cases h2
    exact tabs_put ih h3

theorem Tables.match {hs : List HuffCode} {lut : HSlot → JMem} {T : HSlot → CodeTable} (h : Tables hs lut T) : Match lut T := SlotMatch.toMatch h.tabs

/-- Every list of definitions the reader accepts leads to such tables. -/
theorem Tables.exist (hs : List HuffCode) (hok : ∀ h ∈ hs, h.Ok) (T : HSlot → CodeTable) : ∃ lut T', Tables hs lut T' := by
  have key : ∀ rs : List HuffCode, (∀ h ∈ rs, h.Ok) → ∃ lut T', Tables rs.reverse lut T' := by
    intro rs
    induction rs with
    | nil => intro _; exact ⟨_, T, .none T⟩
    | cons h rs ih =>
      intro hr
      obtain ⟨lut, T', ht⟩ := ih fun x hx => hr x (List.mem_cons_of_mem _ hx)
      have ok := hr h List.mem_cons_self
      obtain ⟨m, t, h1, h2, -⟩ := slotMatch_dht (ht.tabs h.slot) ok
      rw [List.reverse_cons]
      exact ⟨_, _, .define ht ok h1 h2⟩
  have := key hs.reverse fun h hh => hok h (List.mem_reverse.mp hh)
  rwa [List.reverse_reverse] at this

/-- The bits that a list of calls of `WriteBits` appends. -/
def writtenBits (T : HSlot → CodeTable) (l : List WReq) : List Bool := actBits (l.map (reqPair T))

/-- **C29 (block)**: the bits the reader consumes for a block of a sequential scan are exactly the bits the writer emits for its coefficients,
the recorded number of extra zero runs and the previous DC value; and both have the same DC value for the next block.  `b.Rep data start c`
says that the reader has consumed `c` bits of the entropy-coded segment that starts at `start`. -/
theorem C29_block {data : List Nat} (hd : Bytes data) {hs : List HuffCode} {lut : HSlot → JMem} {T : HSlot → CodeTable} (ht : Tables hs lut T)
    {start c : Nat} {b b' : JR} (hb : b.Rep data start c) {dc ac : HSlot} {last e : Int} (he : e ≤ 0) {o : BlkOut}
    (h : (decodeBlock dc ac 0 63 0 last e fun _ => 0).run data lut b = some (o, b')) :
    ∃ k, 1 ≤ k ∧ b'.Rep data start (c + k) ∧ writtenBits T (encSeq dc ac o.nzr last o.blk).1 = window data start c k ∧ (encSeq dc ac o.nzr last o.blk).2 = o.last := by
  obtain ⟨as, k, h1, h2, h3, h4, -⟩ := JProg.run_eats hd ht.match _ decodeBlock_small hb h
  have hj : Joint false e .init [] [] := ⟨rfl, by decide, Nat.zero_le _, fun _ => rfl, fun _ => ⟨rfl, he⟩, fun _ => rfl, fun h => by omega⟩
  obtain ⟨g1, g2, -⟩ := decodeBlock_write_seq h1 (fun _ _ => rfl) hj (F := o.blk) fun _ _ => rfl
  refine ⟨k, ?_, h2, ?_, g2⟩
  · refine h4 ?_
    unfold decodeBlock
    rw [if_pos rfl]
    exact ⟨_, _, rfl⟩
  · have := g1.done (g1.plain rfl).2
    rw [CS.pending_empty rfl rfl, List.append_nil, List.nil_append, List.nil_append] at this
    unfold writtenBits
    rw [actBits_reqs, ← this, h3]

/-- What a scan may find: zeros in its band when it is the first one, multiples of the next precision when it refines. -/
def ReadyFor (P : SP) (C : Coefs) (v : Visit) : Prop :=
  ∀ k, P.ss ≤ k → k ≤ P.se → if P.ah = 0 then C v.comp v.blk k = 0 else ∃ x : Int, C v.comp v.blk k = x * 2 ^ (P.al + 1)

/-- `F` are coefficients from which the writer may regenerate the scan: at the precision of the scan they are those the scan left. -/
def AgreesAt (P : SP) (F C : Coefs) (v : Visit) : Prop :=
  (P.ss = 0 → F v.comp v.blk 0 / 2 ^ P.al = C v.comp v.blk 0 / 2 ^ P.al) ∧
  ∀ k, 1 ≤ k → P.ss ≤ k → k ≤ P.se → (F v.comp v.blk k).natAbs / 2 ^ P.al = (C v.comp v.blk k).natAbs / 2 ^ P.al ∧
    ((F v.comp v.blk k).natAbs / 2 ^ P.al ≠ 0 → (F v.comp v.blk k < 0 ↔ C v.comp v.blk k < 0))

/-- The segments of a scan, whether sequential or progressive, restart markers included, are regenerated byte for byte from coefficients that
agree with those after the scan at its precision, from the recorded reset points, zero runs and padding bits.  A marker has to follow, as in
every file the reader accepts. -/
theorem scan_regenerated {data : List Nat} (hd : Bytes data) {hs : List HuffCode} {lut : HSlot → JMem} {T : HSlot → CodeTable} (ht : Tables hs lut T) {prog : Bool} {P : SP}
    (hP : P.ss ≤ P.se ∧ P.se ≤ 63) (hseq : prog = false → P = ⟨0, 63, 0, 0⟩) {ri : Nat} {mcus : List (List Visit)} (hne : mcus ≠ []) (hfull : ∀ m ∈ mcus, m ≠ [])
    (hdist : (mcus.flatten.map fun v => (v.comp, v.blk)).Nodup) {start pos : Nat} {before : Coefs} {st : RS}
    (hready : ∀ v ∈ mcus.flatten, ReadyFor P before v) (h : readScanData data lut P ri mcus start before [] = some (st, pos))
    (hmark : ∃ q, pos ≤ q ∧ q + 2 ≤ data.length ∧ byteOf data q = 0xFF ∧ byteOf data (q + 1) ≠ 0)
    {F : Coefs} (hF : ∀ v ∈ mcus.flatten, AgreesAt P F st.coefs v ∧ ∀ k, 1 ≤ k → (F v.comp v.blk k).natAbs < 32768)
    {pads : Pads} (hpads : pads = some (st.pads.map Bool.toNat) ∨ pads = none ∧ ∀ x ∈ st.pads, x = true) (queue : List (List Nat)) :
    ∃ w pads', writeScanData T prog P ri F mcus st.resets st.runs (BW.init queue) pads = .ok (w, pads') ∧ w.finish.flatten = queue.flatten ++ slice data start pos := by
  have hok : VisitsOk P F before st.coefs mcus.flatten := by
    refine ⟨hdist, fun v hv j h1 h2 => ?_, fun v hv => (hF v hv).1, fun v hv => (hF v hv).2⟩
    have := hready v hv j h1 h2
    constructor
    · intro ha; rwa [if_pos ha] at this
    · intro ha; rwa [if_neg ha] at this
  obtain ⟨-, -, X, h3, h4⟩ := scan_writes_back hd ht.match (prog := prog) ⟨hP.1, hP.2, hseq⟩ h hok hfull hne
  rw [List.nil_append] at h3
  rcases h4 with h4 | h4
  · obtain ⟨q, a, b, c, e⟩ := hmark
    exact absurd (h4 q a b c) e
  · rcases hpads with hp | ⟨hp, h1⟩
    · obtain ⟨w, e1, e2⟩ := h4 pads (some []) (by rw [hp, h3]; exact ⟨[], rfl, by simp⟩) queue
      exact ⟨w, _, e1, e2⟩
    · obtain ⟨w, e1, e2⟩ := h4 pads none (by rw [hp]; exact ⟨by rw [← h3]; exact h1, rfl⟩) queue
      exact ⟨w, _, e1, e2⟩

/-- **C29 (scan)**: the same for all blocks of a sequential scan together. -/
theorem C29_scan {data : List Nat} (hd : Bytes data) {hs : List HuffCode} {lut : HSlot → JMem} {T : HSlot → CodeTable} (ht : Tables hs lut T)
    {ri : Nat} {mcus : List (List Visit)} (hne : mcus ≠ []) (hfull : ∀ m ∈ mcus, m ≠ []) (hdist : (mcus.flatten.map fun v => (v.comp, v.blk)).Nodup) {start pos : Nat} {before : Coefs} {st : RS}
    (hready : ∀ v ∈ mcus.flatten, ∀ k ≤ 63, before v.comp v.blk k = 0) (h : readScanData data lut ⟨0, 63, 0, 0⟩ ri mcus start before [] = some (st, pos))
    (hmark : ∃ q, pos ≤ q ∧ q + 2 ≤ data.length ∧ byteOf data q = 0xFF ∧ byteOf data (q + 1) ≠ 0)
    {F : Coefs} (hF : ∀ v ∈ mcus.flatten, (∀ k ≤ 63, F v.comp v.blk k = st.coefs v.comp v.blk k) ∧ ∀ k, 1 ≤ k → (F v.comp v.blk k).natAbs < 32768)
    {pads : Pads} (hpads : pads = some (st.pads.map Bool.toNat) ∨ pads = none ∧ ∀ x ∈ st.pads, x = true) (queue : List (List Nat)) :
    ∃ w pads', writeScanData T false ⟨0, 63, 0, 0⟩ ri F mcus st.resets st.runs (BW.init queue) pads = .ok (w, pads') ∧ w.finish.flatten = queue.flatten ++ slice data start pos := by
  refine scan_regenerated hd ht ⟨Nat.zero_le _, Nat.le_refl _⟩ (fun _ => rfl) hne hfull hdist ?_ h hmark ?_ hpads queue
  · intro v hv k _ hk
    rw [if_pos rfl]
    exact hready v hv k hk
  · intro v hv
    refine ⟨⟨fun _ => by rw [(hF v hv).1 0 (Nat.zero_le _)], fun k _ _ hk => ?_⟩, (hF v hv).2⟩
    rw [(hF v hv).1 k hk]
    exact ⟨rfl, fun _ => Iff.rfl⟩

/-- **C30**: progressive scans: spectral selection, end-of-band runs over any number of blocks, successive approximation. -/
theorem C30_scan {data : List Nat} (hd : Bytes data) {hs : List HuffCode} {lut : HSlot → JMem} {T : HSlot → CodeTable} (ht : Tables hs lut T) {P : SP}
    (hP : P.ss ≤ P.se ∧ P.se ≤ 63) {ri : Nat} {mcus : List (List Visit)} (hne : mcus ≠ []) (hfull : ∀ m ∈ mcus, m ≠ [])
    (hdist : (mcus.flatten.map fun v => (v.comp, v.blk)).Nodup) {start pos : Nat} {before : Coefs} {st : RS}
    (hready : ∀ v ∈ mcus.flatten, ReadyFor P before v) (h : readScanData data lut P ri mcus start before [] = some (st, pos))
    (hmark : ∃ q, pos ≤ q ∧ q + 2 ≤ data.length ∧ byteOf data q = 0xFF ∧ byteOf data (q + 1) ≠ 0)
    {F : Coefs} (hF : ∀ v ∈ mcus.flatten, AgreesAt P F st.coefs v ∧ ∀ k, 1 ≤ k → (F v.comp v.blk k).natAbs < 32768)
    {pads : Pads} (hpads : pads = some (st.pads.map Bool.toNat) ∨ pads = none ∧ ∀ x ∈ st.pads, x = true) (queue : List (List Nat)) :
    ∃ w pads', writeScanData T true P ri F mcus st.resets st.runs (BW.init queue) pads = .ok (w, pads') ∧ w.finish.flatten = queue.flatten ++ slice data start pos :=
  scan_regenerated (prog := true) hd ht hP nofun hne hfull hdist hready h hmark hF hpads queue

/-- **C31**: whatever file `ReadJpeg` accepts, sequential or progressive, `SerializeJpeg` regenerates all of it from the parsed data, byte for byte: marker
segments, entropy-coded data, bytes between markers and after the end.  `T` are the indeterminate contents of the code tables. -/
theorem C31_file (data : List Nat) (hd : Bytes data) (jpg : JpegData) (h : readJpeg data = .ok jpg) (T : HSlot → CodeTable) :
    ∃ chunks, writeJpeg T jpg = .ok chunks ∧ chunks.flatten = data := readJpeg_writeJpeg hd h T

/-- **C31 (delivery)**: and `WriteJpeg`, with a buffer of any size and a callback that accepts what it is given, hands over exactly the file. -/
theorem C31_delivered (data : List Nat) (hd : Bytes data) (jpg : JpegData) (h : readJpeg data = .ok jpg) (T : HSlot → CodeTable)
    (size : Nat) (hsize : 0 < size) (sink : Sink) (hsink : ∀ h b, sink h b = b.length) :
    ∃ fuel hist, writeJpegLoop jpegApi jpg sink size fuel (.init (WJ.init T)) [] = (some true, hist) ∧ hist.flatten = data := by
  obtain ⟨cs, h1, h2⟩ := readJpeg_writeJpeg hd h T
  obtain ⟨h3, h4⟩ := jpegApi_prod h1
  obtain ⟨fuel, hist, h5, h6⟩ := C25_writer_completes jpegApi jpg (WJ.init T) size hsize h3 sink hsink
  exact ⟨fuel, hist, h5, by rw [h6, h4, h2]⟩

theorem statusOf_done {g : SStage} {q : List (List Nat)} (h : SStatus.done = statusOf g q) : q = [] := by
  cases g <;> cases q <;> first | rfl | exact absurd h (by simp [statusOf])

/-- **C31 (streaming)**: and `SerializeJpeg`, called with any sequence of buffer sizes, delivers first bytes of the file, all of it when it reports completion. -/
theorem C31_streamed (data : List Nat) (hd : Bytes data) (jpg : JpegData) (h : readJpeg data = .ok jpg) (T : HSlot → CodeTable) (sizes : List Nat) :
    (deliver jpegApi (sizes.map fun n => (jpg, n)) (.init (WJ.init T)) .needsInput).1 <+: data ∧
    ((deliver jpegApi (sizes.map fun n => (jpg, n)) (.init (WJ.init T)) .needsInput).2.1 = .done →
      (deliver jpegApi (sizes.map fun n => (jpg, n)) (.init (WJ.init T)) .needsInput).1 = data) := by
  obtain ⟨cs, h1, h2⟩ := readJpeg_writeJpeg hd h T
  obtain ⟨h3, h4⟩ := jpegApi_prod h1
  cases sizes with
  | nil => exact ⟨List.nil_prefix, nofun⟩
  | cons n sizes =>
    have hp := deliver_prod jpegApi ((n :: sizes).map fun n => (jpg, n)) (.init (WJ.init T)) .needsInput
    have hm : ((n :: sizes).map fun n => (jpg, n)).map Prod.fst = List.replicate (sizes.length + 1) jpg := by
      rw [List.map_map, show (Prod.fst ∘ fun n : Nat => (jpg, n)) = fun _ => jpg from rfl, List.map_const']
      rfl
    rw [hm, show (SState.init (WJ.init T)).stage = .init from rfl, show (SState.init (WJ.init T)).aux = WJ.init T from rfl, prodSections_final _ _ _ _ _ h3, h4, h2,
      show (SState.init (WJ.init T)).queue = [] from rfl, List.flatten_nil, List.nil_append] at hp
    refine ⟨⟨_, hp⟩, fun hdone => ?_⟩
    have hs := deliver_status jpegApi ((n :: sizes).map fun n => (jpg, n)) (.init (WJ.init T)) .needsInput rfl
    rw [hdone] at hs
    rw [statusOf_done hs, List.flatten_nil, List.append_nil] at hp
    exact hp

/-- **C32 (safety)**: on no byte string does the reader read outside of the input, store outside of a lookup table or the coefficients, or run forever. -/
theorem C32_reader_safe (data : List Nat) (hd : Bytes data) : readJpeg data ≠ .ub := readJpeg_safe hd

/-- The Huffman code `h` as the standard wants it: `counts` are the numbers of code words per length; the last code word, all ones, is that of no symbol (256). -/
structure GoodHuffman (h : HuffCode) : Prop where
  table : h.slotId < 4 ∨ 16 ≤ h.slotId ∧ h.slotId < 20
  lengths : h.counts.length = 17 ∧ h.counts.getD 0 0 = 0
  reserved : h.values[h.counts.sum - 1]? = some 256
  symbols : (h.values.take (h.counts.sum - 1)).Nodup ∧ ∀ v ∈ h.values.take (h.counts.sum - 1), v < if h.slotId < 4 then 12 else 256
  kraft : ((List.range' 1 16).map fun l => h.counts.getD l 0 * 2 ^ (16 - l)).sum ≤ 2 ^ 16

/-- The components and tables of `J` are in order. -/
structure GoodTables (J : JpegData) : Prop where
  dims : 1 ≤ J.width ∧ J.width ≤ 65535 ∧ 1 ≤ J.height ∧ J.height ≤ 65535
  quant : ∀ q ∈ J.quant, q.values.length = 64 ∧ (∀ v ∈ q.values, 1 ≤ v ∧ v ≤ 65535) ∧ (q.precision = 0 → ∀ v ∈ q.values, v ≤ 255) ∧ q.precision ≤ 1 ∧ q.index ≤ 3
  quants : J.quant.length ≤ 4
  count : 1 ≤ J.components.length ∧ J.components.length ≤ 4
  ids : (J.components.map Component.id).Nodup
  sampling : ∀ c ∈ J.components, 1 ≤ c.hSamp ∧ c.hSamp ≤ 15 ∧ 1 ≤ c.vSamp ∧ c.vSamp ≤ 15
  maxima : ∃ mh mv, (∀ c ∈ J.components, c.hSamp ∣ mh ∧ c.vSamp ∣ mv ∧ c.hSamp ≤ mh ∧ c.vSamp ≤ mv) ∧ (∃ c ∈ J.components, c.hSamp = mh) ∧ (∃ c ∈ J.components, c.vSamp = mv)
  blocks : ∀ c ∈ J.components, c.width * c.height ≤ 2 ^ 21 ∧ c.coeffs.length = 64 * (c.width * c.height)
  tables : ∀ c ∈ J.components, c.quantIdx < J.quant.length
  huffman : J.huffman ≠ [] ∧ J.huffman.length < 512 ∧ ∀ h ∈ J.huffman, GoodHuffman h

theorem forall₂_mem {α β : Type} {R : α → β → Prop} {xs : List α} {ys : List β} (h : List.Forall₂ R xs ys) {y : β} (hy : y ∈ ys) : ∃ x ∈ xs, R x y := by
  induction h with
  | nil => exact absurd hy List.not_mem_nil
  | cons h _ ih =>
    rcases List.mem_cons.mp hy with rfl | hy
    · exact ⟨_, List.mem_cons_self, h⟩
    · obtain ⟨x, hx, hr⟩ := ih hy
      exact ⟨x, List.mem_cons_of_mem _ hx, hr⟩

theorem forall₂_mem' {α β : Type} {R : α → β → Prop} {xs : List α} {ys : List β} (h : List.Forall₂ R xs ys) {x : α} (hx : x ∈ xs) : ∃ y ∈ ys, R x y := by
  induction h with
  | nil => exact absurd hx List.not_mem_nil
  | cons h _ ih =>
    rcases List.mem_cons.mp hx with rfl | hx
    · exact ⟨_, List.mem_cons_self, h⟩
    · obtain ⟨y, hy, hr⟩ := ih hx
      exact ⟨y, List.mem_cons_of_mem _ hy, hr⟩

theorem foldl_max_all (l : List Nat) : ∀ a : Nat, a ≤ l.foldl max a ∧ (∀ x ∈ l, x ≤ l.foldl max a) ∧ (l.foldl max a = a ∨ l.foldl max a ∈ l) := by
  induction l with
  | nil => intro a; exact ⟨Nat.le_refl _, (fun _ h => (List.not_mem_nil h).elim), Or.inl rfl⟩
  | cons y l ih =>
    intro a
    obtain ⟨h1, h2, h3⟩ := ih (max a y)
    rw [List.foldl_cons]
    refine ⟨by omega, fun x hx => ?_, ?_⟩
    · rcases List.mem_cons.mp hx with rfl | hx
      · omega
      · exact h2 x hx
    · rcases h3 with h3 | h3
      · rw [h3]
        by_cases h : y ≤ a
        · left; omega
        · right; rw [show max a y = y by omega]; exact List.mem_cons_self
      · exact Or.inr (List.mem_cons_of_mem _ h3)

theorem maxFactor_spec (l : List Nat) (hne : l ≠ []) (h1 : ∀ x ∈ l, 1 ≤ x) : (∀ x ∈ l, x ≤ maxFactor l) ∧ maxFactor l ∈ l := by
  obtain ⟨a, b, c⟩ := foldl_max_all l 1
  refine ⟨b, ?_⟩
  rcases c with c | c
  · obtain ⟨x, hx⟩ := List.exists_mem_of_ne_nil l hne
    have := h1 x hx
    have h2 := b x hx
    unfold maxFactor
    rw [c] at h2 ⊢
    rwa [show (1 : Nat) = x by omega]
  · exact c

theorem SameComp.map_id {quant : List QuantTable} {cs xs : List Component} (h : List.Forall₂ (SameComp quant) cs xs) : xs.map Component.id = cs.map Component.id := by
  induction h with
  | nil => rfl
  | cons h _ ih => rw [List.map_cons, List.map_cons, h.id, ih]

/-- **C32**: whatever `ReadJpeg` accepts is in order. -/
theorem C32_validated (data : List Nat) (hd : Bytes data) (jpg : JpegData) (h : readJpeg data = .ok jpg) : GoodTables jpg := by
  obtain ⟨st, p, comps, -, -, h2, h3, h4, h5, h6, h7, rfl⟩ := readJpeg_ok h
  have hw := readLoop_wp hd (data.length + 1) RInv.init (p := 2) (by omega) (by omega)
  unfold Wp at hw
  rw [h3] at hw
  obtain ⟨-, -, hi, -⟩ := hw
  have hfin := fin_result hi h5 (slice data p data.length)
  have hf := hi.frame h4
  have hc := hfin.comps h4
  generalize hJ : st.result comps (slice data p data.length) = J at hc ⊢
  have hq : J.quant = st.quant := by rw [← hJ]; rfl
  have mem : ∀ x ∈ J.components, ∃ c ∈ st.comps, SameComp J.quant c x := fun x hx => forall₂_mem hc hx
  have mem' : ∀ c ∈ st.comps, ∃ x ∈ J.components, SameComp J.quant c x := fun c hcm => forall₂_mem' hc hcm
  refine ⟨?_, ?_, by rw [hq]; exact hi.quants, by rw [← hc.length_eq]; exact hf.count, ?_, ?_, ?_, ?_, ?_, ?_⟩
  · rw [← hJ]; exact ⟨hf.width.1, hf.width.2, hf.height.1, hf.height.2⟩
  · rw [hq]
    intro q hqm
    have := hi.quant q hqm
    exact ⟨this.length, this.range, this.small, this.precision, this.index⟩
  · rw [SameComp.map_id hc]
    exact hf.ids
  · intro x hx
    obtain ⟨c, hcm, hs⟩ := mem x hx
    have := hf.raw c hcm
    rw [hs.h, hs.v]
    exact ⟨this.h.1, this.h.2, this.v.1, this.v.2⟩
  · have hne : st.comps ≠ [] := by intro e; have := hf.count.1; rw [e] at this; exact absurd this (by decide)
    have hraw := hf.raw
    obtain ⟨a1, a2⟩ := maxFactor_spec (st.comps.map Component.hSamp) (by simpa using hne) (by intro x hx; obtain ⟨c, hcm, rfl⟩ := List.mem_map.mp hx; exact (hraw c hcm).h.1)
    obtain ⟨b1, b2⟩ := maxFactor_spec (st.comps.map Component.vSamp) (by simpa using hne) (by intro x hx; obtain ⟨c, hcm, rfl⟩ := List.mem_map.mp hx; exact (hraw c hcm).v.1)
    refine ⟨maxH st.comps, maxV st.comps, fun x hx => ?_, ?_, ?_⟩
    · obtain ⟨c, hcm, hs⟩ := mem x hx
      have := hf.div c hcm
      rw [hs.h, hs.v]
      exact ⟨Nat.dvd_of_mod_eq_zero this.1, Nat.dvd_of_mod_eq_zero this.2, a1 _ (List.mem_map.mpr ⟨c, hcm, rfl⟩), b1 _ (List.mem_map.mpr ⟨c, hcm, rfl⟩)⟩
    · obtain ⟨c, hcm, e⟩ := List.mem_map.mp a2
      obtain ⟨x, hx, hs⟩ := mem' c hcm
      exact ⟨x, hx, by rw [hs.h]; exact e⟩
    · obtain ⟨c, hcm, e⟩ := List.mem_map.mp b2
      obtain ⟨x, hx, hs⟩ := mem' c hcm
      exact ⟨x, hx, by rw [hs.v]; exact e⟩
  · intro x hx
    obtain ⟨c, hcm, hs⟩ := mem x hx
    rw [hs.width, hs.height]
    exact ⟨hf.blocks c hcm, hs.coeffs⟩
  · intro x hx
    obtain ⟨c, hcm, hs⟩ := mem x hx
    obtain ⟨q, e, -⟩ := hs.quant
    exact (List.getElem?_eq_some_iff.mp e).1
  · rw [show J.huffman = st.huffman by rw [← hJ]; rfl]
    refine ⟨h6, h7, fun h hm => ?_⟩
    have ok := hi.huff h hm
    have hsl := ok.slot
    obtain ⟨l1, l2⟩ := ok.length
    have ht := ok.total
    refine ⟨by omega, ⟨ok.countsLength, ok.zero⟩, ?_, ⟨ok.nodup, fun v hv => ?_⟩, ok.kraft⟩
    · rw [ok.values, List.getElem?_append_right (by omega), l1, Nat.sub_self]; rfl
    · have := ok.bound v hv
      by_cases h4 : h.slotId < 4
      · rw [if_pos (by omega)] at this; rw [if_pos h4]; exact this
      · rw [if_neg (by omega)] at this; rw [if_neg h4]; exact this

/-! ## The hypotheses are met -/

/-- A sequential file of two blocks with a restart marker, a comment, bytes between markers and after the end, an extra zero run and a padding bit that is 0. -/
def sampleSequential : List Nat :=
  [0xFF, 0xD8] ++ [0xFF, 0xDB, 0, 67, 0] ++ List.replicate 64 1 ++ [0xFF, 0xC0, 0, 11, 8, 0, 8, 0, 16, 1, 1, 0x11, 0] ++
  [0xFF, 0xC4, 0, 42, 0x00, 0, 3, 0, 0, 0, 0, 0, 0, 0, 0, 0, 0, 0, 0, 0, 0, 0, 1, 2, 0x10, 0, 3, 0, 0, 0, 0, 0, 0, 0, 0, 0, 0, 0, 0, 0, 0, 0x00, 0x01, 0xF0] ++
  [0xFF, 0xDD, 0, 4, 0, 1] ++ [0xFF, 0xFE, 0, 5, 1, 2, 3] ++ [7, 8] ++ [0xFF, 0xDA, 0, 8, 1, 1, 0x00, 0, 63, 0] ++ [0xB7, 0x1E, 0xFF, 0xD0, 0x0F] ++ [0xFF, 0xD9, 1, 2]

/-- A progressive file of two blocks: DC coefficients in two scans, AC coefficients in a first scan with an end-of-band run over both blocks and in a refinement scan. -/
def sampleProgressive : List Nat :=
  [0xFF, 0xD8] ++ [0xFF, 0xDB, 0, 67, 0] ++ List.replicate 64 1 ++ [0xFF, 0xC2, 0, 11, 8, 0, 8, 0, 16, 1, 1, 0x11, 0] ++
  [0xFF, 0xC4, 0, 42, 0x00, 0, 3, 0, 0, 0, 0, 0, 0, 0, 0, 0, 0, 0, 0, 0, 0, 0, 1, 2, 0x10, 0, 3, 0, 0, 0, 0, 0, 0, 0, 0, 0, 0, 0, 0, 0, 0, 0x00, 0x01, 0x10] ++
  [0xFF, 0xDA, 0, 8, 1, 1, 0x00, 0, 0, 0x01, 0x67] ++ [0xFF, 0xDA, 0, 8, 1, 1, 0x00, 0, 0, 0x10, 0xBF] ++
  [0xFF, 0xDA, 0, 8, 1, 1, 0x00, 1, 63, 0x01, 0x73] ++ [0xFF, 0xDA, 0, 8, 1, 1, 0x00, 1, 63, 0x10, 0x79] ++ [0xFF, 0xD9]

/-- The file is accepted, with these zero runs, first coefficients and marker order. -/
def accepts (data : List Nat) (runs : List (List (Nat × Nat))) (first : List (List Int)) (order : List Nat) : Bool :=
  match readJpeg data with
  | .ok jpg => decide (jpg.scans.map ScanInfo.extraZeroRuns = runs ∧ jpg.components.map (fun c => c.coeffs.take 9) = first ∧ jpg.markerOrder = order)
  | _ => false

theorem accepts_ok {data : List Nat} {runs : List (List (Nat × Nat))} {first : List (List Int)} {order : List Nat} (h : accepts data runs first order = true) : ∃ jpg, readJpeg data = .ok jpg := by
  unfold accepts at h
  split at h
  · exact ⟨_, ‹_›⟩
  · exact absurd h (by decide)

theorem sampleSequential_accepted : accepts sampleSequential [[(0, 1)]] [[3, 1, 0, 0, 0, 0, 0, 0, 0]] [0xDB, 0xC0, 0xC4, 0xDD, 0xFE, 0xFF, 0xDA, 0xD9] = true := by decide +kernel

theorem sampleProgressive_accepted : accepts sampleProgressive [[], [], [], []] [[3, 3, 0, 0, 0, 0, 0, 0, 1]] [0xDB, 0xC2, 0xC4, 0xDA, 0xDA, 0xDA, 0xDA, 0xD9] = true := by decide +kernel

theorem bytes_of_all {l : List Nat} (h : (l.all fun b => decide (b < 256)) = true) : Bytes l := fun b hb => by
  have := List.all_eq_true.mp h b hb
  simpa using this

/-- C31 and C32 apply to these files. -/
example : Bytes sampleSequential ∧ (∃ jpg, readJpeg sampleSequential = .ok jpg) ∧ Bytes sampleProgressive ∧ ∃ jpg, readJpeg sampleProgressive = .ok jpg :=
  ⟨bytes_of_all (by decide +kernel), accepts_ok sampleSequential_accepted, bytes_of_all (by decide +kernel), accepts_ok sampleProgressive_accepted⟩

/-- Codes of two bits: 0, 1 and 2 for DC coefficients; 0x00, 0x01 and 0x10 for AC coefficients. -/
def sampleDcCode : HuffCode := ⟨[0, 0, 4, 0, 0, 0, 0, 0, 0, 0, 0, 0, 0, 0, 0, 0, 0], [0, 1, 2, 256] ++ List.replicate 253 0, 0, false⟩

def sampleAcCode : HuffCode := ⟨[0, 0, 4, 0, 0, 0, 0, 0, 0, 0, 0, 0, 0, 0, 0, 0, 0], [0x00, 0x01, 0x10, 256] ++ List.replicate 253 0, 16, true⟩

theorem sampleDcCode_ok : sampleDcCode.Ok := by constructor <;> decide +kernel

theorem sampleAcCode_ok : sampleAcCode.Ok := by constructor <;> decide +kernel

def noTable : CodeTable := ⟨fun _ => 0, fun _ => 0⟩

/-- The reader's tables after both definitions. -/
def sampleLut : HSlot → JMem := fun s =>
  if s = (true, 0) then (dhtLut (fun _ => badEnt) sampleAcCode).getD fun _ => badEnt else if s = (false, 0) then (dhtLut (fun _ => badEnt) sampleDcCode).getD fun _ => badEnt else fun _ => badEnt

theorem sampleTables : ∃ T, Tables [sampleDcCode, sampleAcCode] sampleLut T := by
  obtain ⟨m1, t1, a1, a2, -⟩ := slotMatch_dht (slotMatch_init noTable) sampleDcCode_ok
  have h1 : Tables [sampleDcCode] _ _ := .define (.none fun _ => noTable) sampleDcCode_ok a1 a2
  have e1 : sampleDcCode.slot = (false, 0) := by decide
  have e2 : sampleAcCode.slot = (true, 0) := by decide
  obtain ⟨m2, t2, b1, b2, -⟩ := slotMatch_dht (slotMatch_init noTable) sampleAcCode_ok
  have h2 : Tables [sampleDcCode, sampleAcCode] _ _ := .define h1 sampleAcCode_ok (m := m2) (t := t2) (by rw [if_neg (by rw [e1, e2]; decide)]; exact b1) (by rw [if_neg (by rw [e1, e2]; decide)]; exact b2)
  have e : sampleLut = fun s => if s = sampleAcCode.slot then m2 else if s = sampleDcCode.slot then m1 else fun _ => badEnt := by
    funext s
    unfold sampleLut
    rw [a1, b1, e1, e2]
    rfl
  rw [e]
  exact ⟨_, h2⟩

/-- C29 applies to a block with three coefficients. -/
example : ∃ T o b', Tables [sampleDcCode, sampleAcCode] sampleLut T ∧ (JR.reset [0xB6, 0x8F, 0xFF, 0xD9] 0).Rep [0xB6, 0x8F, 0xFF, 0xD9] 0 0 ∧
    (decodeBlock (false, 0) (true, 0) 0 63 0 5 (-1) fun _ => 0).run [0xB6, 0x8F, 0xFF, 0xD9] sampleLut (JR.reset [0xB6, 0x8F, 0xFF, 0xD9] 0) = some (o, b') ∧ o.blk 0 = 8 ∧ o.blk 1 = 1 ∧ o.blk 2 = -1 := by
  obtain ⟨T, hT⟩ := sampleTables
  have h : (match (decodeBlock (false, 0) (true, 0) 0 63 0 5 (-1) fun _ => 0).run [0xB6, 0x8F, 0xFF, 0xD9] sampleLut (JR.reset [0xB6, 0x8F, 0xFF, 0xD9] 0) with
      | some (o, _) => decide (o.blk 0 = 8 ∧ o.blk 1 = 1 ∧ o.blk 2 = -1)
      | none => false) = true := by decide +kernel
  split at h
  · exact ⟨T, _, _, hT, JR.reset_rep (bytes_of_all (by decide)) 0, ‹_›, by simpa using h⟩
  · exact absurd h (by decide)

/-- Two blocks of a component in a scan on its own. -/
def sampleMcus : List (List Visit) := [[⟨0, (false, 0), (true, 0), 0⟩], [⟨0, (false, 0), (true, 0), 1⟩]]

/-- The scan is read up to position `pos`, and the coefficients are small. -/
def readsTo (data : List Nat) (P : SP) (before : Coefs) (pos : Nat) : Bool :=
  match readScanData data sampleLut P 0 sampleMcus 0 before [] with
  | some (st, p) => decide (p = pos) && ((List.range 2).all fun b => (List.range 64).all fun k => decide ((st.coefs 0 b k).natAbs < 32768)) && st.pads.all id
  | none => false

/-- Such scans meet the hypotheses of C29 and C30. -/
theorem sample_scan {data : List Nat} {P : SP} {before : Coefs} {pos : Nat} (hP : P.se ≤ 63) (h : readsTo data P before pos = true) :
    ∃ st, readScanData data sampleLut P 0 sampleMcus 0 before [] = some (st, pos) ∧ (∀ x ∈ st.pads, x = true) ∧
      ∃ F : Coefs, ∀ v ∈ sampleMcus.flatten, (∀ k ≤ 63, F v.comp v.blk k = st.coefs v.comp v.blk k) ∧ AgreesAt P F st.coefs v ∧ ∀ k, 1 ≤ k → (F v.comp v.blk k).natAbs < 32768 := by
  unfold readsTo at h
  split at h
  · rename_i st p heq
    simp only [Bool.and_eq_true, decide_eq_true_eq, List.all_eq_true, List.mem_range, id] at h
    obtain ⟨⟨rfl, h1⟩, h2⟩ := h
    refine ⟨st, heq, h2, fun c b k => if k ≤ 63 then st.coefs c b k else 0, fun v hv => ?_⟩
    have hv' : v.comp = 0 ∧ v.blk < 2 := by
      simp only [sampleMcus, List.flatten_cons, List.flatten_nil, List.append_nil, List.singleton_append, List.mem_cons, List.not_mem_nil, or_false] at hv
      rcases hv with rfl | rfl <;> exact ⟨rfl, by decide⟩
    refine ⟨fun k hk => if_pos hk, ⟨fun _ => by dsimp only; rw [if_pos (Nat.zero_le _)], fun k _ _ hk => ?_⟩, fun k _ => ?_⟩
    · dsimp only
      rw [if_pos (show k ≤ 63 by omega)]
      exact ⟨rfl, fun _ => Iff.rfl⟩
    · dsimp only
      split
      · rw [hv'.1]; exact h1 _ hv'.2 k (by omega)
      · decide
  · exact absurd h (by decide)

/-- A sequential scan of two blocks, and a first and a refinement scan of their AC coefficients, with an end-of-band run over both blocks. -/
example : readsTo [0xB6, 0x80, 0xFF, 0xD9] ⟨0, 63, 0, 0⟩ (fun _ _ _ => 0) 2 = true ∧ readsTo [0x73, 0xFF, 0xD9] ⟨1, 63, 0, 1⟩ (fun _ _ _ => 0) 1 = true ∧
    readsTo [0x79, 0xFF, 0xD9] ⟨1, 63, 1, 0⟩ (fun _ b k => if b = 0 ∧ k = 1 then 2 else 0) 1 = true := by decide +kernel

end Brunsli
