import Mathlib.Data.Fintype.BigOperators
import Mathlib.Data.Fintype.Pigeonhole
import Verif.BigRead
import Verif.Acceptance
import Verif.PropsN
/-!
# More large files than short outputs
-/

namespace Brunsli

/-! ## The encoder writes bytes -/

theorem wordBytes_bytes (ws : List Nat) : Bytes (wordBytes ws) := by
  induction ws with
  | nil => intro b hb; cases hb
  | cons w ws ih =>
    intro b hb
    rw [wordBytes] at hb
    rcases List.mem_cons.mp hb with rfl | hb
    · omega
    · rcases List.mem_cons.mp hb with rfl | hb
      · omega
      · exact ih b hb

theorem Bytes.append {a b : List Nat} (ha : Bytes a) (hb : Bytes b) : Bytes (a ++ b) := by
  intro x hx
  rcases List.mem_append.mp hx with h | h
  · exact ha x h
  · exact hb x h

theorem encodeSection_bytes {tag k : Nat} {p s : List Nat} (ht : tag ≤ 15) (hp : Bytes p) (h : encodeSection tag k (some p) = some s) : Bytes s := by
  unfold encodeSection at h
  dsimp only at h
  split at h
  · cases h
  · cases h
    refine Bytes.append (a := _ :: _) ?_ hp
    intro b hb
    rcases List.mem_cons.mp hb with rfl | hb
    · unfold sectionMarker; omega
    · exact encodeBase128Fix_bytes _ _ b hb

theorem encodeSections_bytes : ∀ {l : List (Nat × Nat × List Nat)} {s : List Nat}, (∀ x ∈ l, x.1 ≤ 15 ∧ Bytes x.2.2) → encodeSections l = some s → Bytes s := by
  intro l
  induction l with
  | nil => intro s _ h; cases h; intro b hb; cases hb
  | cons x l ih =>
    obtain ⟨tag, k, p⟩ := x
    intro s hl h
    rw [encodeSections] at h
    split at h
    · cases h
    rename_i t ht
    obtain ⟨r, hr, rfl⟩ := Option.map_eq_some_iff.mp h
    exact (encodeSection_bytes (hl _ (List.mem_cons_self ..)).1 (hl _ (List.mem_cons_self ..)).2 ht).append (ih (fun y hy => hl y (List.mem_cons_of_mem _ hy)) hr)

theorem encodeValue_bytes {tag v : Nat} (ht : tag ≤ 31) : Bytes (encodeValue tag v) := by
  intro b hb
  unfold encodeValue at hb
  rcases List.mem_cons.mp hb with rfl | hb
  · unfold valueMarker; omega
  · exact encodeBase128_bytes _ b hb

theorem encodeHeader_bytes {h : Header} {p : List Nat} (e : encodeHeader h = some p) : Bytes p := by
  unfold encodeHeader at e
  split at e
  · cases e
  split at e
  · cases e
  split at e
  · cases e
  cases e
  exact (encodeValue_bytes (by decide)).append ((encodeValue_bytes (by decide)).append ((encodeValue_bytes (by decide)).append (encodeValue_bytes (by decide))))

/-- What the encoder writes are bytes, if the metadata section is. -/
theorem Parts.Ok.bytes {par : Codec} {jpg : JpegData} {x : Parts par jpg} {cap : Nat} {out : List Nat} (ok : x.Ok cap out)
    (hi : ∀ s ∈ jpg.interMarker, Bytes s) (hm : Bytes x.meta_) : Bytes out := by
  have hf := ok.file
  unfold encodeFile encodeHeaderSection at hf
  split at hf
  · cases hf
  rename_i s hs
  obtain ⟨t, ht, rfl⟩ := Option.map_eq_some_iff.mp hf
  refine Bytes.append (by unfold kBrunsliSignature Bytes; decide) (Bytes.append ?_ (encodeSections_bytes ?_ ht))
  · cases he : encodeHeader jpg.header with
    | none => rw [he] at hs; cases hs
    | some p => rw [he] at hs; exact encodeSection_bytes (by decide) (encodeHeader_bytes he) hs
  · intro y hy
    unfold Parts.sections at hy
    simp only [List.mem_cons, List.not_mem_nil, or_false] at hy
    rcases hy with rfl | rfl | rfl | rfl | rfl | rfl
    · exact ⟨by dsimp only; omega, encodeInternals_bytes ok.inner hi⟩
    · exact ⟨by dsimp only; omega, hm⟩
    · exact ⟨by dsimp only; omega, packBits_bytes _⟩
    · exact ⟨by dsimp only; omega, packBits_bytes _⟩
    · exact ⟨by dsimp only; omega, wordBytes_bytes _⟩
    · exact ⟨by dsimp only; omega, wordBytes_bytes _⟩

/-! ## Counting byte strings -/

/-- A number for a byte string. -/
def bytesCode : List Nat → Nat
  | [] => 1
  | b :: bs => b + 256 * bytesCode bs

theorem bytesCode_pos (l : List Nat) : 1 ≤ bytesCode l := by
  induction l with
  | nil => exact Nat.le_refl _
  | cons b l ih => rw [bytesCode]; omega

theorem bytesCode_lt {l : List Nat} (h : Bytes l) : bytesCode l < 256 ^ (l.length + 1) := by
  induction l with
  | nil => simp [bytesCode]
  | cons b l ih =>
    have h1 := ih fun x hx => h x (List.mem_cons_of_mem _ hx)
    have h2 := h b (List.mem_cons_self ..)
    rw [bytesCode, List.length_cons, Nat.pow_succ]
    omega

theorem bytesCode_inj {l : List Nat} : ∀ {r : List Nat}, Bytes l → Bytes r → bytesCode l = bytesCode r → l = r := by
  induction l with
  | nil =>
    intro r _ _ h
    cases r with
    | nil => rfl
    | cons b r => have := bytesCode_pos r; rw [bytesCode, bytesCode] at h; omega
  | cons b l ih =>
    intro r hl hr h
    cases r with
    | nil => have := bytesCode_pos l; rw [bytesCode, bytesCode] at h; omega
    | cons c r =>
      have h1 := hl b (List.mem_cons_self ..)
      have h2 := hr c (List.mem_cons_self ..)
      rw [bytesCode, bytesCode] at h
      have h3 : b = c := by omega
      have h4 : bytesCode l = bytesCode r := by omega
      rw [h3, ih (fun x hx => hl x (List.mem_cons_of_mem _ hx)) (fun x hx => hr x (List.mem_cons_of_mem _ hx)) h4]

/-- `2040^(63 N)` choices cannot have different outputs of at most `86 N - 1` bytes each. -/
theorem pigeon {N L : Nat} (hN : 0 < N) (hL : L + 1 ≤ 86 * N) (F : (_root_.Fin (63 * N) → _root_.Fin 2040) → List Nat) (hb : ∀ f, Bytes (F f)) (hlen : ∀ f, (F f).length ≤ L) :
    ∃ f g, f ≠ g ∧ F f = F g := by
  have hlt : ∀ f, bytesCode (F f) < 256 ^ (L + 1) := fun f =>
    Nat.lt_of_lt_of_le (bytesCode_lt (hb f)) (Nat.pow_le_pow_right (by decide) (Nat.succ_le_succ (hlen f)))
  have hcard : Fintype.card (_root_.Fin (256 ^ (L + 1))) < Fintype.card (_root_.Fin (63 * N) → _root_.Fin 2040) := by
    rw [Fintype.card_fun, Fintype.card_fin, Fintype.card_fin, Fintype.card_fin]
    calc 256 ^ (L + 1) ≤ 256 ^ (86 * N) := Nat.pow_le_pow_right (by decide) hL
      _ = (256 ^ 86) ^ N := Nat.pow_mul ..
      _ < (2040 ^ 63) ^ N := Nat.pow_lt_pow_left (by decide) (by omega)
      _ = 2040 ^ (63 * N) := (Nat.pow_mul ..).symm
  obtain ⟨f, g, hne, h⟩ := Fintype.exists_ne_map_eq_of_card_lt (fun f => (⟨bytesCode (F f), hlt f⟩ : _root_.Fin (256 ^ (L + 1)))) hcard
  exact ⟨f, g, hne, bytesCode_inj (hb f) (hb g) (_root_.Fin.mk.inj h)⟩

/-! ## The data of the blocks -/

/-- The byte at place `j`: 0 for the DC coefficient, then two bytes for each AC coefficient. -/
def bigByte (f : Nat → Nat) (j : Nat) : Nat :=
  if j % 127 = 0 then 0
  else if j % 127 % 2 = 1 then f (63 * (j / 127) + (j % 127 - 1) / 2) / 255
  else f (63 * (j / 127) + (j % 127 - 1) / 2) % 255

/-- `n` blocks. -/
def bigBody (f : Nat → Nat) (n : Nat) : List Nat := (List.range (127 * n)).map (bigByte f)

/-- The whole file. -/
def bigFile (f : Nat → Nat) (n : Nat) : List Nat := bigHead ++ (bigBody f n ++ [0xFF, 0xD9])

theorem bigByte_lt {f : Nat → Nat} (hf : ∀ i, f i < 2040) (j : Nat) : bigByte f j < 255 := by
  unfold bigByte
  have := hf (63 * (j / 127) + (j % 127 - 1) / 2)
  split
  · omega
  · split <;> omega

theorem bigBody_length (f : Nat → Nat) (n : Nat) : (bigBody f n).length = 127 * n := by simp [bigBody]

theorem bigHead_length : bigHead.length = 134 := by decide +kernel

theorem bigFile_byte (f : Nat → Nat) {n j : Nat} (hj : j < 127 * n) : byteOf (bigFile f n) (134 + j) = bigByte f j := by
  unfold byteOf bigFile
  rw [List.getD_eq_getElem?_getD, List.getElem?_append_right (by rw [bigHead_length]; omega), bigHead_length, Nat.add_sub_cancel_left,
    List.getElem?_append_left (by rw [bigBody_length]; exact hj)]
  unfold bigBody
  rw [List.getElem?_map, List.getElem?_range hj]
  rfl

theorem bigHead_bytes : Bytes bigHead := by
  have : bigHead.all (· < 256) = true := by decide +kernel
  intro b hb
  simpa using List.all_eq_true.mp this b hb

theorem bigFile_length (f : Nat → Nat) (n : Nat) : (bigFile f n).length = 134 + 127 * n + 2 := by
  unfold bigFile
  rw [List.length_append, List.length_append, bigHead_length, bigBody_length]
  simp only [List.length_cons, List.length_nil]; omega

theorem bigFile_data {f : Nat → Nat} (hf : ∀ i, f i < 2040) (n : Nat) : BigData (bigFile f n) 134 n := by
  have hlen := bigFile_length f n
  refine ⟨?_, Nat.le_of_eq hlen.symm, ?_, ?_, ?_⟩
  · refine bigHead_bytes.append (Bytes.append ?_ (by unfold Bytes; decide))
    intro b hb
    obtain ⟨j, _, rfl⟩ := List.mem_map.mp hb
    have := bigByte_lt hf j; omega
  · intro i h1 h2
    obtain ⟨j, rfl⟩ : ∃ j, i = 134 + j := ⟨i - 134, by omega⟩
    rw [bigFile_byte f (by omega)]
    have := bigByte_lt hf j; omega
  · intro i hi
    rw [bigFile_byte f (by omega)]
    unfold bigByte
    rw [if_pos (by omega)]
  · intro i hi j hj
    rw [bigFile_byte f (by omega)]
    unfold bigByte
    have e1 : (127 * i + 1 + 2 * j) % 127 = 1 + 2 * j := by omega
    rw [e1, if_neg (by omega), if_pos (by omega)]
    have := hf (63 * ((127 * i + 1 + 2 * j) / 127) + (1 + 2 * j - 1) / 2)
    omega

theorem bigFile_inj {f g : Nat → Nat} {n : Nat} (h : bigFile f n = bigFile g n) {k : Nat} (hk : k < 63 * n) : f k = g k := by
  have key : ∀ j < 127 * n, bigByte f j = bigByte g j := fun j hj => by rw [← bigFile_byte f hj, ← bigFile_byte g hj, h]
  have h1 := key (127 * (k / 63) + 1 + 2 * (k % 63)) (by omega)
  have h2 := key (127 * (k / 63) + 2 + 2 * (k % 63)) (by omega)
  unfold bigByte at h1 h2
  have e1 : (127 * (k / 63) + 1 + 2 * (k % 63)) % 127 = 1 + 2 * (k % 63) := by omega
  have e2 : (127 * (k / 63) + 2 + 2 * (k % 63)) % 127 = 2 + 2 * (k % 63) := by omega
  have e3 : (127 * (k / 63) + 1 + 2 * (k % 63)) / 127 = k / 63 := by omega
  have e4 : (127 * (k / 63) + 2 + 2 * (k % 63)) / 127 = k / 63 := by omega
  rw [e1, e3, if_neg (by omega), if_pos (by omega), if_neg (by omega), if_pos (by omega)] at h1
  rw [e2, e4, if_neg (by omega), if_neg (by omega), if_neg (by omega), if_neg (by omega)] at h2
  have e5 : 63 * (k / 63) + (1 + 2 * (k % 63) - 1) / 2 = k := by omega
  have e6 : 63 * (k / 63) + (2 + 2 * (k % 63) - 1) / 2 = k := by omega
  rw [e5] at h1
  rw [e6] at h2
  omega

/-! ## The encoder on these files -/

theorem predictDCCoeffs_zero {img : List Int} {w h : Nat} (hl : img.length = w * h * 64) (h0 : ∀ i, img.getD (64 * i) 0 = 0) : predictDCCoeffs img w h = true := by
  have hz : ∀ i, i < w * h → img[i * 64]? = some 0 := by
    intro i hi
    have := h0 i
    rw [List.getD_eq_getElem?_getD, Nat.mul_comm] at this
    cases e : img[i * 64]? with
    | none => rw [List.getElem?_eq_none_iff] at e; omega
    | some v => rw [e] at this; simpa using this
  unfold predictDCCoeffs
  refine List.all_eq_true.mpr fun y hy => List.all_eq_true.mpr fun x hx => ?_
  rw [List.mem_range] at hy hx
  have hlt : y * w + x < w * h := by
    have : (y + 1) * w ≤ h * w := Nat.mul_le_mul_right _ hy
    rw [Nat.add_mul, Nat.mul_comm h w] at this
    omega
  have hp : predictDC img w y x = some 0 := by
    unfold predictDC
    by_cases hy0 : y = 0
    · rw [if_neg (by simpa using hy0)]
      by_cases hx0 : x = 0
      · rw [if_neg (by simpa using hx0)]
      · rw [if_pos hx0, show (y * w + x) * 64 - 64 = (y * w + x - 1) * 64 by omega, hz _ (by omega)]
    · rw [if_pos hy0]
      have : w ≤ y * w := Nat.le_mul_of_pos_left _ (by omega)
      have e2 : (y * w + x) * 64 - w * 64 = (y * w + x - w) * 64 := by omega
      by_cases hx0 : x = 0
      · rw [if_neg (by simpa using hx0), e2, hz _ (by omega)]
      · rw [if_pos hx0, e2, show (y * w + x) * 64 - 64 = (y * w + x - 1) * 64 by omega, show (y * w + x - w) * 64 - 64 = (y * w + x - w - 1) * 64 by omega,
          hz _ (by omega), hz _ (by omega), hz _ (by omega)]
        rfl
  unfold dcErr
  rw [hz _ hlt, hp]
  decide

theorem BigJpeg.estimate {jpg : JpegData} (h : BigJpeg jpg) : estimateAuxDataSize jpg = 577 := by
  unfold estimateAuxDataSize
  rw [h.order, h.huffman, h.scans, h.pad, h.inter, if_neg (by decide)]
  decide

theorem BigJpeg.max {jpg : JpegData} (h : BigJpeg jpg) : maxEncodedSize jpg = 84 * (1024 * 1024) + (1024 * 1024 + 577) := by
  obtain ⟨c, h1, _, _, h2, h3, _⟩ := h.comps
  unfold maxEncodedSize
  rw [h.estimate, h1, h.app, h.com, h.tail]
  simp [h2, h3]

theorem BigJpeg.encodable {jpg : JpegData} (h : BigJpeg jpg) (hv : jpg.Valid) (par : Codec) : ∃ inner, Encodable par jpg inner 0 := by
  obtain ⟨inner, hi⟩ := hv.internals_some (by intro hz; rw [h.pad] at hz; cases hz)
  have hs := internals_size hv (by rw [h.inter]; simp) hi
  have hr : jpg.runCount = 0 := by unfold JpegData.runCount; rw [h.scans]; rfl
  rw [h.estimate, h.huffman, hr] at hs
  refine ⟨inner, hv, ?_, ?_, hi, ?_, fun room _ => ⟨[], ?_, Nat.le_refl _⟩⟩
  · intro c hc
    obtain ⟨c', h1, _, _, h2, h3, h4⟩ := h.comps
    have hsz := hv.size c hc
    rw [h1, List.mem_singleton] at hc
    subst hc
    exact predictDCCoeffs_zero hsz h4
  · obtain ⟨c', h1, _, _, h2, h3, h4⟩ := h.comps
    unfold JpegData.blocks
    simp [h1, h2, h3]
  · have : base128Size 577 = 2 := by rw [base128Size, if_neg (by decide), base128Size, if_pos (by decide)]
    rw [h.estimate, this]
    omega
  · unfold encodeMetadata joinMetadata
    rw [h.app, h.com, h.tail]
    rfl

theorem bigFile_read {f : Nat → Nat} (hf : ∀ i, f i < 2040) {N : Nat} (hN : 1024 * 1024 = N) : ∃ jpg, readJpeg (bigFile f N) = .ok jpg ∧ BigJpeg jpg :=
  readJpeg_big hN (bigFile_data hf N) (bigFile_length f N)

/-- The encoder succeeds on such a file within its buffer, or leaves it. -/
theorem encodeData_big {par : Codec} (hcl : par.Clusters) (hw : par.Works) {f : Nat → Nat} (hf : ∀ i, f i < 2040) {N : Nat} (hN : 1024 * 1024 = N) :
    (∃ out, encodeData par (bigFile f N) = .ok out ∧ Bytes out ∧ out.length ≤ 85 * N + 577) ∨ encodeData par (bigFile f N) = .ub := by
  obtain ⟨jpg, hj, hb⟩ := bigFile_read hf hN
  have hv := readJpeg_valid (bigFile_data hf N).bytes hj
  obtain ⟨inner, he⟩ := hb.encodable hv par
  have hmax := hb.max
  have hlt : maxEncodedSize jpg < 2 ^ 63 := by rw [hmax]; omega
  have hd : encodeData par (bigFile f N) = encodeJpeg par (maxEncodedSize jpg) jpg := by
    unfold encodeData
    rw [hj]
    show (if 2 ^ 63 ≤ maxEncodedSize jpg then Run.fail else _) = _
    rw [if_neg (by omega)]
  rw [hd]
  rcases encodeJpeg_run hcl hw he hlt (by rw [hmax]; omega) hlt (.inl rfl) with ⟨out, h⟩ | ⟨_, h⟩
  · left
    obtain ⟨x, ok⟩ := encodeJpeg_parts h
    refine ⟨out, h, ok.bytes (by rw [hb.inter]; simp) ?_, ?_⟩
    · have hm := ok.meta_
      unfold encodeMetadata joinMetadata at hm
      rw [hb.app, hb.com, hb.tail] at hm
      have : some [] = some x.meta_ := hm
      rw [← Option.some.inj this]
      intro b hb; cases hb
    · have := ok.fits; rw [hmax] at this; omega
  · exact .inr h

/-- Some of these files make the encoder leave its buffer. -/
theorem exists_overrun {par : Codec} (hl : par.Lossless) (hcl : par.Clusters) (hw : par.Works) {N : Nat} (hN : 1024 * 1024 = N) :
    ∃ f : Nat → Nat, (∀ i, f i < 2040) ∧ encodeData par (bigFile f N) = .ub := by
  by_contra hno
  let ext (f : _root_.Fin (63 * N) → _root_.Fin 2040) (i : Nat) : Nat := if h : i < 63 * N then (f ⟨i, h⟩).val else 0
  have hext : ∀ f i, ext f i < 2040 := by
    intro f i
    show (if h : i < 63 * N then (f ⟨i, h⟩).val else 0) < 2040
    split
    · exact (f _).isLt
    · omega
  have hall : ∀ f, ∃ out, encodeData par (bigFile (ext f) N) = .ok out ∧ Bytes out ∧ out.length ≤ 85 * N + 577 := fun f =>
    (encodeData_big hcl hw (hext f) hN).resolve_right fun h => hno ⟨ext f, hext f, h⟩
  obtain ⟨f, g, hne, hfg⟩ := pigeon (N := N) (L := 85 * N + 577) (by omega) (by omega) (fun f => (hall f).choose)
    (fun f => (hall f).choose_spec.2.1) (fun f => (hall f).choose_spec.2.2)
  have h1 := (hall f).choose_spec.1
  have h2 := (hall g).choose_spec.1
  rw [← hfg] at h2
  have he := C37_injective par hl hcl _ _ _ (bigFile_data (hext f) N).bytes (bigFile_data (hext g) N).bytes h1 h2
  apply hne
  funext i
  have := bigFile_inj he i.isLt
  have e : ∀ f, ext f i.val = (f i).val := by
    intro f
    show (if h : i.val < 63 * N then (f ⟨i.val, h⟩).val else 0) = _
    rw [dif_pos i.isLt]
  rw [e, e] at this
  exact _root_.Fin.ext this

/-- Outputs into a large enough buffer determine the file. -/
theorem encodeJpeg_inj {par : Codec} (hl : par.Lossless) (hcl : par.Clusters) {cap : Nat} (hcap : cap < 2 ^ 63) {d d' out : List Nat} (hd : Bytes d) (hd' : Bytes d')
    {jpg jpg' : JpegData} (hr : readJpeg d = .ok jpg) (hr' : readJpeg d' = .ok jpg') (hm : maxEncodedSize jpg < 2 ^ 63) (hm' : maxEncodedSize jpg' < 2 ^ 63)
    (h : encodeJpeg par cap jpg = .ok out) (h' : encodeJpeg par cap jpg' = .ok out) : d = d' := by
  have h1 := decodeJpeg_encodeJpeg hl hcl hcap (readJpeg_valid hd hr) hm h
  have h2 := decodeJpeg_encodeJpeg hl hcl hcap (readJpeg_valid hd' hr') hm' h'
  rw [h1] at h2
  have e := Option.some.inj h2
  obtain ⟨cs, h3, h4⟩ := readJpeg_writeJpeg hd hr fun _ => ⟨fun _ => 0, fun _ => 0⟩
  obtain ⟨cs', h3', h4'⟩ := readJpeg_writeJpeg hd' hr' fun _ => ⟨fun _ => 0, fun _ => 0⟩
  rw [← writeJpeg_stored] at h3 h3'
  rw [e, h3'] at h3
  cases h3
  rw [← h4, ← h4']

/-- With a large enough buffer the encoder succeeds on these files. -/
theorem encodeJpeg_big {par : Codec} (hcl : par.Clusters) (hw : par.Works) {f : Nat → Nat} (hf : ∀ i, f i < 2040) {N : Nat} (hN : 1024 * 1024 = N) {cap : Nat}
    (h1 : 654 * N + 54000 ≤ cap) (h2 : cap < 2 ^ 63) : ∃ jpg out, readJpeg (bigFile f N) = .ok jpg ∧ maxEncodedSize jpg = 85 * N + 577 ∧ encodeJpeg par cap jpg = .ok out ∧
      Bytes out := by
  obtain ⟨jpg, hj, hb⟩ := bigFile_read hf hN
  have hv := readJpeg_valid (bigFile_data hf N).bytes hj
  obtain ⟨inner, he⟩ := hb.encodable hv par
  have hmax := hb.max
  have hs := internals_size hv (by rw [hb.inter]; simp) he.internals
  have hr : jpg.runCount = 0 := by unfold JpegData.runCount; rw [hb.scans]; rfl
  rw [hb.estimate, hb.huffman, hr] at hs
  have hbl : jpg.blocks = N := by
    obtain ⟨c, e1, _, _, e2, e3, _⟩ := hb.comps
    unfold JpegData.blocks
    rw [e1, List.map_singleton, List.sum_singleton, e2, e3, hN]
  have hsb : sizeBound jpg inner.length 0 ≤ cap := by unfold sizeBound; rw [hbl]; omega
  rcases encodeJpeg_run hcl hw he (by rw [hmax]; omega) (by omega) h2 (.inl rfl) with ⟨out, h⟩ | ⟨h, _⟩
  · obtain ⟨x, ok⟩ := encodeJpeg_parts h
    refine ⟨jpg, out, hj, by rw [hmax]; omega, h, ok.bytes (by rw [hb.inter]; simp) ?_⟩
    have hm := ok.meta_
    unfold encodeMetadata joinMetadata at hm
    rw [hb.app, hb.com, hb.tail] at hm
    have : some [] = some x.meta_ := hm
    rw [← Option.some.inj this]
    intro b hb; cases hb
  · omega

/-- For some of them the result is longer than the bound. -/
theorem exists_long {par : Codec} (hl : par.Lossless) (hcl : par.Clusters) (hw : par.Works) {N : Nat} (hN : 1024 * 1024 = N) {cap : Nat} (h1 : 654 * N + 54000 ≤ cap) (h2 : cap < 2 ^ 63) :
    ∃ (f : Nat → Nat) (jpg : JpegData) (out : List Nat), (∀ i, f i < 2040) ∧ readJpeg (bigFile f N) = .ok jpg ∧ encodeJpeg par cap jpg = .ok out ∧ maxEncodedSize jpg < out.length := by
  by_contra hno
  let ext (f : _root_.Fin (63 * N) → _root_.Fin 2040) (i : Nat) : Nat := if h : i < 63 * N then (f ⟨i, h⟩).val else 0
  have hext : ∀ f i, ext f i < 2040 := by
    intro f i
    show (if h : i < 63 * N then (f ⟨i, h⟩).val else 0) < 2040
    split
    · exact (f _).isLt
    · omega
  have hall : ∀ f, ∃ out, (∃ jpg, readJpeg (bigFile (ext f) N) = .ok jpg ∧ maxEncodedSize jpg = 85 * N + 577 ∧ encodeJpeg par cap jpg = .ok out) ∧ Bytes out ∧
      out.length ≤ 85 * N + 577 := by
    intro f
    obtain ⟨jpg, out, e1, e2, e3, e4⟩ := encodeJpeg_big hcl hw (hext f) hN h1 h2
    refine ⟨out, ⟨jpg, e1, e2, e3⟩, e4, ?_⟩
    by_contra hlt
    exact hno ⟨ext f, jpg, out, hext f, e1, e3, by omega⟩
  obtain ⟨f, g, hne, hfg⟩ := pigeon (N := N) (L := 85 * N + 577) (by omega) (by omega) (fun f => (hall f).choose)
    (fun f => (hall f).choose_spec.2.1) (fun f => (hall f).choose_spec.2.2)
  obtain ⟨j1, a1, a2, a3⟩ := (hall f).choose_spec.1
  obtain ⟨j2, b1, b2, b3⟩ := (hall g).choose_spec.1
  rw [← hfg] at b3
  have he := encodeJpeg_inj hl hcl h2 (bigFile_data (hext f) N).bytes (bigFile_data (hext g) N).bytes a1 b1 (by omega) (by omega) a3 b3
  apply hne
  funext i
  have := bigFile_inj he i.isLt
  have e : ∀ f, ext f i.val = (f i).val := by
    intro f
    show (if h : i.val < 63 * N then (f ⟨i.val, h⟩).val else 0) = _
    rw [dif_pos i.isLt]
  rw [e, e] at this
  exact _root_.Fin.ext this

end Brunsli
