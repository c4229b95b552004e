import Verif.BitFeed
import Verif.StreamHist
import Verif.StreamInternals
/-!
# The sections made of bits can be served by the bit reader

No read asks for more than 24 bits, and every table that a symbol is looked up in holds what the look-up expects.
-/

namespace Brunsli

open P

namespace BP

variable {α β : Type}

theorem Narrow.seq {p1 : α → Prop} {p2 : β → Prop} {f : α → BP β} {p : BP α} (hp : Narrow p1 p) (hf : ∀ a, p1 a → Narrow p2 (f a)) :
    Narrow p2 (p >>= f) := Narrow.bind hf hp

theorem Narrow.bits {n : Nat} (h : n ≤ 24) : Narrow (fun v => v < 2 ^ n) (BP.bits n) := ⟨h, fun _ ha => ha⟩

theorem Narrow.read {n : Nat} (h : n ≤ 24) : Narrow (fun v => v < 2 ^ n) (BP.read n) := ⟨h, fun _ ha => ha⟩

theorem Narrow.bit : Narrow (fun _ => True) BP.bit := ⟨by decide, fun _ _ => trivial⟩

theorem Narrow.readb : Narrow (fun _ => True) BP.readb := ⟨by decide, fun _ _ => trivial⟩

theorem Narrow.check {c : Prop} [Decidable c] : Narrow (fun _ => True) (BP.check c) := by
  unfold BP.check
  split <;> trivial

theorem Narrow.ite {post : α → Prop} {c : Prop} [Decidable c] {p q : BP α} (h1 : c → Narrow post p) (h2 : ¬c → Narrow post q) :
    Narrow post (if c then p else q) := by
  split
  · exact h1 (by assumption)
  · exact h2 (by assumption)

theorem Narrow.imp {p q : α → Prop} (h : ∀ a, p a → q a) {r : BP α} (hr : Narrow p r) : Narrow q r := by
  have := Narrow.bind (p1 := p) (p2 := q) (f := BP.ret) h hr
  have e : ∀ r : BP α, BP.bind r BP.ret = r := by
    intro r
    induction r with
    | ret a => rfl
    | fail => rfl
    | need n k ih => simp only [BP.bind, ih]
    | prim q k ih => simp only [BP.bind]; congr 1; funext a; exact ih a
  rwa [e] at this

theorem Narrow.any {p : α → Prop} {r : BP α} (hr : Narrow p r) : Narrow (fun _ => True) r := hr.imp fun _ _ => trivial

theorem Narrow.rep {p : BP α} {post : α → Prop} (h : Narrow post p) : ∀ n, Narrow (fun _ => True) (BP.rep n p)
  | 0 => trivial
  | n + 1 => Narrow.seq h fun _ _ => Narrow.seq (Narrow.rep h n) fun _ _ => trivial

theorem Fit.seq {p1 : α → Prop} {p2 : β → Prop} {f : α → BP β} {p : BP α} (hp : Fit p1 p) (hf : ∀ a, p1 a → Fit p2 (f a)) :
    Fit p2 (p >>= f) := Fit.bind hf hp

theorem Fit.ite {post : α → Prop} {c : Prop} [Decidable c] {p q : BP α} (h1 : c → Fit post p) (h2 : ¬c → Fit post q) :
    Fit post (if c then p else q) := by
  split
  · exact h1 (by assumption)
  · exact h2 (by assumption)

end BP

open BP

/-! ## Quantisation tables -/

theorem varintBP_narrow : ∀ l i v, (varintBP l i v).Narrow (fun _ => True)
  | 0, _, _ => trivial
  | l + 1, i, v => by
    rw [varintBP]
    refine Narrow.seq (p1 := fun _ => True) (Narrow.ite (fun _ => trivial) fun _ => Narrow.bit) fun go _ => ?_
    exact Narrow.ite (fun _ => Narrow.seq Narrow.bit fun b _ => varintBP_narrow l _ _) fun _ => trivial

theorem limitedBP_narrow {nbits : Nat} (hn : nbits ≤ 24) : ∀ l i v, (limitedBP nbits l i v).Narrow (fun _ => True)
  | 0, _, _ => trivial
  | l + 1, i, v => by
    rw [limitedBP]
    exact Narrow.seq Narrow.bit fun go _ => Narrow.ite (fun _ => Narrow.seq (Narrow.bits hn) fun b _ => limitedBP_narrow hn l _ _) fun _ => trivial

theorem quantDiffsBP_narrow (pred : List Nat) : ∀ js delta t, (quantDiffsBP pred js delta t).Narrow (fun _ => True)
  | [], _, _ => trivial
  | j :: js, delta, t => by
    rw [quantDiffsBP]
    refine Narrow.seq (p1 := fun _ => True) ?_ fun d _ => Narrow.seq Narrow.check fun _ _ => Narrow.seq Narrow.check fun _ _ => quantDiffsBP_narrow pred js _ _
    exact Narrow.seq Narrow.bit fun b _ => Narrow.ite (fun _ => Narrow.seq Narrow.bit fun _ _ => Narrow.seq (varintBP_narrow _ _ _) fun _ _ => trivial) fun _ => trivial

theorem quantTableBP_narrow (chroma : Bool) (precision : Nat) : (quantTableBP chroma precision).Narrow (fun _ => True) := by
  refine Narrow.seq Narrow.readb fun b _ => Narrow.ite (fun _ => ?_) fun _ => Narrow.seq (Narrow.read (by decide)) fun _ _ => trivial
  exact Narrow.seq (Narrow.bits (by decide)) fun q _ => Narrow.seq (quantDiffsBP_narrow _ _ _ _) fun _ _ => Narrow.seq Narrow.check fun _ _ => trivial

theorem quantTabsBP_narrow : ∀ ps i, (quantTabsBP i ps).Narrow (fun _ => True)
  | [], _ => trivial
  | p :: ps, i => Narrow.seq (quantTableBP_narrow _ _) fun _ _ => Narrow.seq (quantTabsBP_narrow ps _) fun _ _ => trivial

theorem quantIdxBP_narrow (n : Nat) : (quantIdxBP n).Narrow (fun _ => True) :=
  Narrow.seq (Narrow.bits (by decide)) fun _ _ => Narrow.seq Narrow.check fun _ _ => trivial

/-- The section of quantisation tables only reads small numbers of bits. -/
theorem quantBP_narrow (precs : List Nat) (ncomp : Nat) : (quantBP precs ncomp).Narrow (fun _ => True) :=
  Narrow.seq (Narrow.bits (by decide)) fun _ _ => Narrow.seq Narrow.check fun _ _ => Narrow.seq (quantTabsBP_narrow precs 0) fun _ _ =>
    Narrow.seq (Narrow.rep (quantIdxBP_narrow _) ncomp) fun _ _ => trivial

/-! ## Internals -/

theorem markersBP_narrow : ∀ f, (markersBP f).Narrow (fun _ => True)
  | 0 => trivial
  | f + 1 => Narrow.seq (Narrow.bits (by decide)) fun _ _ => Narrow.ite (fun _ => trivial) fun _ => Narrow.seq (markersBP_narrow f) fun _ _ => trivial

theorem huffCountsBP_narrow {mc : Nat} (hm : mc ≤ 256) : ∀ is total space counts, (huffCountsBP mc is total space counts).Narrow (fun _ => True)
  | [], _, _, _ => trivial
  | i :: is, total, space, counts => by
    rw [huffCountsBP]
    refine Narrow.ite (fun hl => ?_) fun _ => huffCountsBP_narrow hm is _ _ _
    refine Narrow.seq (Narrow.bits ?_) fun c _ => Narrow.seq Narrow.check fun _ _ => huffCountsBP_narrow hm is _ _ _
    have h2 : min (mc - total) (space / 2 ^ (16 - i)) < 2 ^ 9 := by
      have := Nat.min_le_left (mc - total) (space / 2 ^ (16 - i))
      omega
    have := (Nat.log2_lt (by omega)).mpr h2
    omega

theorem permBP_narrow : ∀ n avail, (permBP avail n).Narrow (fun _ => True)
  | 0, _ => trivial
  | n + 1, avail => by
    rw [permBP]
    refine Narrow.seq (limitedBP_narrow (by decide) _ _ _) fun k _ => ?_
    split
    · trivial
    · exact Narrow.seq (permBP_narrow n _) fun _ _ => trivial

theorem customHuffBP_narrow (dc : Bool) : (customHuffBP dc).Narrow (fun _ => True) :=
  Narrow.seq (Narrow.bits (by decide)) fun _ _ => Narrow.seq (huffCountsBP_narrow (huffMaxCount_le dc) _ _ _ _) fun _ _ =>
    Narrow.seq (permBP_narrow _ _) fun _ _ => trivial

theorem huffBodyBP_narrow (dc : Bool) : (huffBodyBP dc).Narrow (fun _ => True) :=
  Narrow.seq Narrow.readb fun _ _ => Narrow.ite (fun _ => Narrow.seq (Narrow.read (by decide)) fun _ _ => trivial) fun _ => customHuffBP_narrow dc

theorem huffCodeBP_narrow (last : Bool) : (huffCodeBP last).Narrow (fun _ => True) := by
  refine Narrow.seq (p := BP.read 2) (Narrow.read (by decide)) fun slot _ => Narrow.seq (Narrow.read (by decide)) fun ac _ => ?_
  refine Narrow.seq (p1 := fun _ => True) ?_ fun _ _ => Narrow.seq (huffBodyBP_narrow _) fun _ _ => trivial
  exact Narrow.ite (fun _ => trivial) fun _ => Narrow.readb

theorem huffCodesBP_narrow : ∀ f, (huffCodesBP f).Narrow (fun _ => True)
  | 0 => trivial
  | f + 1 => Narrow.seq Narrow.bit fun last _ => Narrow.seq (huffCodeBP_narrow last) fun _ _ => Narrow.ite (fun _ => trivial) fun _ =>
      Narrow.seq (huffCodesBP_narrow f) fun _ _ => trivial

theorem resetsBP_narrow : ∀ f next, (resetsBP f next).Narrow (fun _ => True)
  | 0, _ => trivial
  | f + 1, next => Narrow.seq Narrow.bit fun _ _ => Narrow.ite (fun _ => Narrow.seq (varintBP_narrow _ _ _) fun _ _ =>
      Narrow.seq Narrow.check fun _ _ => Narrow.seq (resetsBP_narrow f _) fun _ _ => trivial) fun _ => trivial

theorem runsBP_narrow : ∀ f last num, (runsBP f last num).Narrow (fun _ => True)
  | 0, _, _ => trivial
  | f + 1, last, num => Narrow.seq Narrow.bit fun _ _ => Narrow.ite (fun _ => Narrow.seq (varintBP_narrow _ _ _) fun _ _ =>
      Narrow.seq Narrow.check fun _ _ => Narrow.ite (fun _ => Narrow.seq (runsBP_narrow f _ _) fun _ _ => trivial) fun _ =>
        runsBP_narrow f _ _) fun _ => trivial

theorem scanCompBP_narrow : scanCompBP.Narrow (fun _ => True) :=
  Narrow.seq (p := BP.read 2) (Narrow.read (by decide)) fun _ _ => Narrow.seq (Narrow.read (by decide)) fun _ _ =>
    Narrow.seq (Narrow.read (by decide)) fun _ _ => trivial

theorem scanInfoBP_narrow (f : Nat) : (scanInfoBP f).Narrow (fun _ => True) := by
  refine Narrow.seq (p := BP.read 6) (Narrow.read (by decide)) fun _ _ => Narrow.seq (Narrow.read (by decide)) fun _ _ =>
    Narrow.seq (Narrow.read (by decide)) fun _ _ => Narrow.seq (Narrow.read (by decide)) fun _ _ => Narrow.seq (Narrow.read (by decide)) fun n _ => ?_
  exact Narrow.seq (Narrow.rep scanCompBP_narrow _) fun _ _ => Narrow.seq (resetsBP_narrow f _) fun _ _ =>
    Narrow.seq (runsBP_narrow f _ _) fun _ _ => trivial

theorem quantHeadsBP_narrow {α : Type} {post : α → Prop} {k : List (Nat × Bool × Nat) → BP α} (hk : ∀ l, (k l).Narrow post) :
    ∀ n acc, (quantHeadsBP k n acc).Narrow post
  | 0, acc => hk acc
  | n + 1, acc => by
    rw [quantHeadsBP]
    refine Narrow.seq (p := BP.read 2) (Narrow.read (by decide)) fun i _ => ?_
    refine Narrow.seq (p1 := fun _ => True) (Narrow.ite (fun _ => trivial) fun _ => Narrow.readb) fun l _ => ?_
    exact Narrow.seq (Narrow.read (by decide)) fun p _ => Narrow.seq Narrow.check fun _ _ => quantHeadsBP_narrow hk n _

theorem idsBP_narrow (n : Nat) : (idsBP n).Narrow (fun _ => True) :=
  Narrow.seq (Narrow.bits (by decide)) fun k _ => Narrow.ite (fun _ => Narrow.rep (Narrow.bits (by decide)) _) fun _ =>
    Narrow.seq Narrow.check fun _ _ => trivial

/-- The section of internals only reads small numbers of bits. -/
theorem internalsBP_narrow (fuel limit ncomp : Nat) : (internalsBP fuel limit ncomp).Narrow (fun _ => True) := by
  refine Narrow.seq (markersBP_narrow _) fun markers _ => ?_
  refine Narrow.seq (p1 := fun _ => True) (Narrow.ite (fun _ => (Narrow.bits (by decide)).any) fun _ => trivial) fun dri _ => ?_
  refine Narrow.seq (huffCodesBP_narrow _) fun huffman _ => Narrow.seq Narrow.check fun _ _ => ?_
  refine Narrow.seq (Narrow.rep (scanInfoBP_narrow _) _) fun scans _ => Narrow.seq (Narrow.bits (by decide)) fun n _ => ?_
  refine quantHeadsBP_narrow (fun quant => ?_) _ _
  exact Narrow.seq (idsBP_narrow _) fun ids _ => Narrow.seq (limitedBP_narrow (by decide) _ _ _) fun np _ => Narrow.seq Narrow.check fun _ _ =>
    Narrow.seq (Narrow.rep Narrow.bit _) fun _ _ => trivial

/-! ## Histograms -/

theorem schemesBP_narrow : ∀ n, (schemesBP n).Narrow (fun _ => True)
  | 0 => trivial
  | n + 1 => Narrow.seq (Narrow.read (by decide)) fun _ _ => Narrow.seq Narrow.check fun _ _ => Narrow.seq (schemesBP_narrow n) fun _ _ => trivial

theorem varLenBP_narrow : varLenBP.Narrow (fun _ => True) :=
  Narrow.seq (Narrow.read (by decide)) fun f _ => Narrow.ite (fun _ => Narrow.seq (Narrow.read (by decide)) fun nbits hn =>
    Narrow.ite (fun _ => trivial) fun _ => Narrow.seq (Narrow.read (by omega)) fun _ _ => trivial) fun _ => trivial

theorem mapBP_fit {m : Mem} {p n : Nat} (hm : Snug m 8) (hp : p ≤ 16) : ∀ fuel acc, (mapBP m p n fuel acc).Fit (fun _ => True) := by
  have fin : ∀ acc : List Nat, BP.Fit (fun _ => True) (do
      let imtf ← BP.read 1
      Pure.pure (if imtf = 1 then imtfLoop (List.range 256) acc else acc)) := fun acc =>
    Fit.seq (Narrow.read (by decide)).fit fun _ _ => trivial
  intro fuel
  induction fuel with
  | zero =>
    intro acc
    rw [mapBP]
    exact Fit.ite (fun _ => trivial) fun _ => fin acc
  | succ fuel ih =>
    intro acc
    rw [mapBP]
    refine Fit.ite (fun _ => ⟨hm, fun code _ => ?_⟩) fun _ => fin acc
    refine Fit.ite (c := code = (0 : Nat)) (fun _ => ih _) fun _ => Fit.ite (fun hc => ?_) fun _ => ih _
    exact Fit.seq (Narrow.read (Nat.le_trans hc (by omega))).fit fun b _ => Fit.seq Narrow.check.fit fun _ _ => ih _

theorem codeMapBP_fit {k p n : Nat} (hp : p ≤ 16) : (codeMapBP k p n).Fit (fun _ => True) := by
  refine ⟨trivial, fun t ht => ?_⟩
  obtain ⟨bs, rest, h⟩ := ht
  cases t with
  | none => trivial
  | some m => exact mapBP_fit (readCode_snug h) hp _ _

theorem contextMapBP_fit (nh n : Nat) : (contextMapBP nh n).Fit (fun _ => True) := by
  refine Fit.seq (p := BP.read 1) (Narrow.read (by decide)).fit fun rle _ => Fit.ite (fun _ => ?_) fun _ => codeMapBP_fit (by decide)
  exact Fit.seq (Narrow.read (by decide)).fit fun x hx => codeMapBP_fit (by omega)

theorem histogramsBP_fit : ∀ n, (histogramsBP n).Fit (fun _ => True)
  | 0 => trivial
  | n + 1 => by
    rw [histogramsBP]
    refine ⟨trivial, fun t _ => ?_⟩
    cases t with
    | none => trivial
    | some h => exact Fit.seq Narrow.check.fit fun _ _ => Fit.seq (histogramsBP_fit n) fun _ _ => trivial

/-- The histogram section can be served. -/
theorem histBP_fit (ncomp : Nat) : (histBP ncomp).Fit (fun _ => True) := by
  refine Fit.seq (p := schemesBP ncomp) (schemesBP_narrow ncomp).fit fun schemes _ => ?_
  refine Fit.seq (p := BP.need 11 varLenBP) (p1 := fun _ => True) varLenBP_narrow.fit fun x _ => ?_
  refine Fit.seq (p1 := fun _ => True) (Fit.ite (fun _ => contextMapBP_fit _ _) fun _ => trivial) fun map _ => ?_
  exact Fit.seq (histogramsBP_fit _) fun _ _ => trivial

end Brunsli
