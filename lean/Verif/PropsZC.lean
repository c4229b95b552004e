import Verif.CodeStore
import Verif.PropsO
/-!
# C62: the encoder keeps within the vectors of its code words
-/

namespace Brunsli

/-- **C62.**  Whatever the size is that the library reserves when the vectors grow (`grow`, `floor(1.2 * capacity) + 1024` in the code, the capacity being the size at least): for no JPEG file does the
encoder write behind the end of a vector of code words, read a place behind it, or count more code words than an `int` holds. -/
theorem C62_defined (grow : Nat → Nat) (hg : ∀ n, n + 1024 ≤ grow n) (data : List Nat) (hd : Bytes data) (jpg : JpegData) (h : readJpeg data = .ok jpg) : storeCoefs grow jpg ≠ .ub := by
  have hv := readJpeg_valid hd h
  by_cases hp : ((metas jpg.header jpg.schemes).zip (jpg.components.map Component.coeffs)).all (fun (m, img) => predictDCCoeffs img m.w (jpg.header.mcuRows * m.vs)) = true
  · obtain ⟨quants, flags, dc, ac, h1, h2, h3⟩ := coefs_coded hv hp
    rw [storeCoefs_ok hg hv h1 hp h2 h3]
    exact nofun
  · unfold storeCoefs
    rw [quants_eq hv]
    change (if _ then _ else _) ≠ _
    rw [if_pos hp]
    exact nofun

/-- **C62.**  And what it stores are the code words of the model with unbounded lists (`encodeWords` of C01), so that all that is proved of those holds with the vectors. -/
theorem C62_same (grow : Nat → Nat) (hg : ∀ n, n + 1024 ≤ grow n) (par : Codec) (data : List Nat) (hd : Bytes data) (jpg : JpegData) (h : readJpeg data = .ok jpg) (c : Coded)
    (hc : encodeCoefs par jpg = .ok c) : storeCoefs grow jpg = .ok ((c.dc.foldl DS.step DS.init).flush, (c.ac.foldl DS.step DS.init).flush) := by
  have hv := readJpeg_valid hd h
  unfold encodeCoefs at hc
  obtain ⟨quants, hq, hc⟩ := Run.bind_ok hc
  dsimp only at hc
  split at hc
  · exact absurd hc nofun
  rename_i hp
  obtain ⟨⟨flags, dc⟩, hdc, hc⟩ := Run.bind_ok hc
  obtain ⟨⟨⟨⟩, ac⟩, hac, hc⟩ := Run.bind_ok hc
  dsimp only at hac hc
  obtain ⟨r, -, hc⟩ := Run.bind_ok hc
  injection hc with hc
  subst hc
  refine storeCoefs_ok hg hv (quants := quants) (flags := flags) ?_ (not_not.mp hp) ?_ ?_
  · cases hj : jpg.quants with
    | none => rw [hj] at hq; cases hq
    | some q => rw [hj] at hq; cases hq; rfl
  · revert hdc
    cases encodeDC jpg.header.mcuRows (metas jpg.header jpg.schemes) (jpg.components.map Component.coeffs) with
    | none => intro h; cases h
    | some q => intro h; cases h; rfl
  · revert hac
    cases encodeAC (contextCount (metas jpg.header jpg.schemes)) (legacyModel jpg.version) jpg.header.mcuRows (metas jpg.header jpg.schemes) jpg.orders quants
      (jpg.components.map Component.coeffs) flags with
    | none => intro h; cases h
    | some q => intro h; cases h; rfl

/-- A file with restart markers and a progressive one are stored; the rule of the code for growing. -/
example : (∀ n, n + 1024 ≤ n * 12 / 10 + 1024) ∧ ∀ data ∈ [sampleSequential, sampleProgressive], ∃ jpg slots, readJpeg data = .ok jpg ∧ storeCoefs (fun n => n * 12 / 10 + 1024) jpg = .ok slots := by
  refine ⟨fun n => by omega, fun data hm => ?_⟩
  have key : ∀ data, Bytes data → (∃ out, encodeData plainCodec data = .ok out) → ∃ jpg slots, readJpeg data = .ok jpg ∧ storeCoefs (fun n => n * 12 / 10 + 1024) jpg = .ok slots := by
    rintro data hd ⟨out, h⟩
    unfold encodeData at h
    obtain ⟨jpg, h1, h⟩ := Run.bind_ok h
    split at h
    · exact absurd h nofun
    unfold encodeJpeg at h
    obtain ⟨c, hc, h⟩ := Run.bind_ok h
    exact ⟨jpg, _, h1, C62_same _ (fun n => by omega) plainCodec data hd jpg h1 c hc⟩
  simp only [List.mem_cons, List.not_mem_nil, or_false] at hm
  rcases hm with rfl | rfl
  · exact key _ (bytes_of_all (by decide +kernel)) samples_accepted.1
  · exact key _ (bytes_of_all (by decide +kernel)) samples_accepted.2

/-- The blocks matter: a vector that does not grow is overrun by a long block. -/
example : ∃ ops : List Op, ops.length ≤ 321 ∧ (match (CodeBuf.mk 131 DS.init).putBlocks (fun n => n) [ops] with | .ub => true | _ => false) = true :=
  ⟨List.replicate 129 (.code 0 0), by simp, by decide +kernel⟩

end Brunsli
