import Verif.StreamWatch
import Verif.WriterSafe
/-!
# What the parser accepts is fit to be written

The bounds on what the readers of the sections yield that the writer of the JPEG relies on without checking them again: the sizes of the planes, the absolute values of the AC
coefficients, the tables named by scans, the symbols of Huffman codes.  They hold for every input, also for files that are rejected later.
-/

namespace Brunsli

open P

/-! ## Results of bit programs -/

namespace BP
variable {α β : Type}

/-- Every result of a program satisfies `q`, for answers of the right types. -/
def Post (q : α → Prop) : BP α → Prop
  | ret a => q a
  | fail => True
  | need _ k => Post q k
  | prim r k => ∀ a, r.post a → Post q (k a)

theorem Within.post {q : α → Prop} : ∀ {p : BP α} {b : Nat}, Within q p b → Post q p
  | .ret _, _, h => h
  | .fail, _, _ => trivial
  | .need n k, _, h => Within.post (p := k) (b := n) h.2
  | .prim _ _, _, h => fun a ha => Within.post (h.2.2 a ha)

theorem Post.any : ∀ p : BP α, Post (fun _ => True) p
  | ret _ => trivial
  | fail => trivial
  | need _ k => Post.any k
  | prim _ k => fun a _ => Post.any (k a)

theorem Post.mono {q r : α → Prop} (h : ∀ a, q a → r a) : ∀ {p : BP α}, Post q p → Post r p
  | ret _, hp => h _ hp
  | fail, _ => trivial
  | need _ k, hp => Post.mono h (p := k) hp
  | prim _ _, hp => fun a ha => Post.mono h (hp a ha)

theorem Post.bind {q : α → Prop} {r : β → Prop} {f : α → BP β} (hf : ∀ a, q a → Post r (f a)) : ∀ {p : BP α}, Post q p → Post r (BP.bind p f)
  | ret _, hp => hf _ hp
  | fail, _ => trivial
  | need _ k, hp => Post.bind hf (p := k) hp
  | prim _ _, hp => fun a ha => Post.bind hf (hp a ha)

theorem Post.seq {q : α → Prop} {r : β → Prop} {f : α → BP β} {p : BP α} (hp : Post q p) (hf : ∀ a, q a → Post r (f a)) : Post r (p >>= f) := Post.bind hf hp

theorem Post.then {r : β → Prop} {f : α → BP β} {p : BP α} (hf : ∀ a, Post r (f a)) : Post r (p >>= f) := Post.bind (fun a _ => hf a) (Post.any p)

theorem Post.bits {r : β → Prop} {n : Nat} {f : Nat → BP β} (hf : ∀ v < 2 ^ n, Post r (f v)) : Post r (BP.read n >>= f) := hf

theorem Post.rep {q : α → Prop} {p : BP α} (h : Post q p) : ∀ n, Post (fun l => l.length = n ∧ ∀ a ∈ l, q a) (BP.rep n p)
  | 0 => ⟨rfl, by simp⟩
  | n + 1 => Post.seq h fun a ha => Post.seq (Post.rep h n) fun l hl => show _ ∧ _ from ⟨by simp [hl.1], by simpa using ⟨ha, hl.2⟩⟩

/-- What a run leaves of a program has no other results. -/
theorem exec_post {w q : α → Prop} (p : BP α) : ∀ {b : Nat} {bs : List Bool} {p' : BP α} {bs' : List Bool}, Within w p b → exec p bs = some (p', bs') → Post q p → Post q p' := by
  induction p with
  | ret a => intro b bs p' bs' _ h hp; cases h; exact hp
  | fail => intro b bs p' bs' _ h; cases h
  | need n k ih => intro b bs p' bs' _ h hp; cases h; exact hp
  | prim r k ih =>
    intro b bs p' bs' hw h hp
    simp only [exec] at h
    split at h
    · cases h
    · rename_i a mid hq
      obtain ⟨pa, _⟩ := hw.1.res _ _ _ hq
      exact ih a (hw.2.2 a pa) h (hp a pa)

/-- Nothing but bits are read. -/
def Plain : BP α → Prop
  | ret _ => True
  | fail => True
  | need _ k => Plain k
  | prim (.bits _) k => ∀ v, Plain (k v)
  | prim _ _ => False

theorem Plain.bind {f : α → BP β} (hf : ∀ a, Plain (f a)) : ∀ {p : BP α}, Plain p → Plain (BP.bind p f)
  | ret _, _ => hf _
  | fail, _ => trivial
  | need _ k, hp => Plain.bind hf (p := k) hp
  | prim (.bits _) _, hp => fun v => Plain.bind hf (hp v)
  | prim (.code _) _, hp => hp.elim
  | prim (.sym _) _, hp => hp.elim
  | prim .hist _, hp => hp.elim

theorem Plain.seq {f : α → BP β} {p : BP α} (hp : Plain p) (hf : ∀ a, Plain (f a)) : Plain (p >>= f) := Plain.bind hf hp

theorem Plain.check {c : Prop} [Decidable c] : Plain (BP.check c) := by unfold BP.check; split <;> trivial

theorem Plain.ite {c : Prop} [Decidable c] {p q : BP α} (h1 : Plain p) (h2 : Plain q) : Plain (if c then p else q) := by split <;> assumption

/-- What holds of all that is read from long inputs holds of all results. -/
theorem Plain.post {q : α → Prop} : ∀ {p : BP α}, Plain p → ∀ N : Nat, (∀ bs a rest, N ≤ bs.length → p.run false bs = some (a, rest) → q a) → Post q p
  | ret a, _, N, h => h (List.replicate N false) a _ (by simp) rfl
  | fail, _, _, _ => trivial
  | need n k, hp, N, h => by
    refine Plain.post (p := k) hp (max N n) fun bs a rest hl hr => h bs a rest (by omega) ?_
    simp only [run]
    rw [if_pos (Or.inr (by omega))]
    exact hr
  | prim (.bits n) k, hp, N, h => by
    intro v hv
    refine Plain.post (hp v) N fun bs a rest hl hr => h (bitsOf n v ++ bs) a rest (by rw [List.length_append]; omega) ?_
    have e : (Prim.bits n).run (bitsOf n v ++ bs) = some (v, bs) := readBits_reads hv bs
    simp only [run]
    rw [e]
    exact hr
  | prim (.code _) _, hp, _, _ => hp.elim
  | prim (.sym _) _, hp, _, _ => hp.elim
  | prim .hist _, hp, _, _ => hp.elim

end BP

/-! ## Huffman codes -/

theorem limitedBP_plain (nbits : Nat) : ∀ l i v, (limitedBP nbits l i v).Plain
  | 0, _, _ => trivial
  | l + 1, i, v => BP.Plain.seq (p := BP.bit) (fun _ => trivial) fun go => BP.Plain.ite
      (BP.Plain.seq (p := BP.bits nbits) (fun _ => trivial) fun _ => limitedBP_plain nbits l _ _) trivial

theorem huffCountsBP_plain (mc : Nat) : ∀ is total space counts, (huffCountsBP mc is total space counts).Plain
  | [], _, _, _ => trivial
  | i :: is, total, space, counts => by
    rw [huffCountsBP]
    exact BP.Plain.ite (BP.Plain.seq (p := BP.bits _) (fun _ => trivial) fun _ => BP.Plain.seq BP.Plain.check fun _ => huffCountsBP_plain mc is _ _ _)
      (huffCountsBP_plain mc is _ _ _)

theorem permBP_plain : ∀ n avail, (permBP avail n).Plain
  | 0, _ => trivial
  | n + 1, avail => by
    rw [permBP]
    refine BP.Plain.seq (limitedBP_plain _ _ _ _) fun k => ?_
    split
    · trivial
    · exact BP.Plain.seq (permBP_plain n _) fun _ => trivial

theorem huffBodyBP_plain (dc : Bool) : (huffBodyBP dc).Plain := by
  refine BP.Plain.seq (p := BP.readb) (fun _ => trivial) fun _ => BP.Plain.ite (BP.Plain.seq (p := BP.read 1) (fun _ => trivial) fun _ => trivial) ?_
  exact BP.Plain.seq (p := BP.bits 4) (fun _ => trivial) fun _ => BP.Plain.seq (huffCountsBP_plain _ _ _ _ _) fun _ => BP.Plain.seq (permBP_plain _ _) fun _ => trivial

theorem huffCodeBP_plain (last : Bool) : (huffCodeBP last).Plain := by
  unfold huffCodeBP
  refine BP.Plain.seq (p := BP.read 2) (fun _ => trivial) fun _ => BP.Plain.seq (p := BP.read 1) (fun _ => trivial) fun _ => ?_
  refine BP.Plain.seq ?_ fun _ => BP.Plain.seq (huffBodyBP_plain _) fun _ => trivial
  cases last
  · exact fun _ => trivial
  · trivial

theorem huffCodesBP_plain : ∀ f, (huffCodesBP f).Plain
  | 0 => trivial
  | f + 1 => BP.Plain.seq (p := BP.bit) (fun _ => trivial) fun last => BP.Plain.seq (huffCodeBP_plain last) fun _ => BP.Plain.ite trivial
      (BP.Plain.seq (huffCodesBP_plain f) fun _ => trivial)

theorem huffCodesBP_post (f : Nat) : (huffCodesBP f).Post fun hs => ∀ h ∈ hs, h.Sane := by
  refine (huffCodesBP_plain f).post 0 fun bs hs rest _ h => ?_
  rw [huffCodesBP_run] at h
  exact fun x hx => ((readHuffCodes_safe f h).2.2 x hx).sane

/-! ## The sections made of bits -/

/-- What the writer may assume of the internals. -/
structure Internals.Sane (n : Nat) (x : Internals) : Prop where
  count : x.scans.length = x.markers.count 0xda
  scans : ∀ s ∈ x.scans, s.Sane
  huffman : ∀ h ∈ x.huffman, h.Sane
  ids : x.ids.length = n

theorem scanCompBP_post : scanCompBP.Post fun c => c.dcTbl < 4 ∧ c.acTbl < 4 := fun _ _ _ hd _ ha => ⟨hd, ha⟩

theorem scanInfoBP_post (f : Nat) : (scanInfoBP f).Post ScanInfo.Sane := by
  refine fun ss _ se hse ah _ al _ n _ => ?_
  refine BP.Post.seq (p := BP.rep (n + 1) scanCompBP) (BP.Post.rep scanCompBP_post (n + 1)) fun comps hc => BP.Post.then fun resets => BP.Post.then fun runs => ?_
  refine ⟨fun h => ?_, hc.2, Nat.le_of_lt_succ (show (se : Nat) < 2 ^ 6 from hse)⟩
  have : comps = [] := h
  rw [this] at hc
  cases hc.1

theorem idsBP_post (n : Nat) : (idsBP n).Post fun l => l.length = n := by
  refine BP.Post.then fun k => ?_
  split
  · exact (BP.Post.rep (BP.Post.any _) n).mono fun l h => h.1
  · refine BP.Post.seq (BP.Within.check (b := 0)).post fun _ h => ?_
    show List.length _ = n
    rw [List.length_append, List.length_replicate]
    exact Nat.add_sub_cancel' h

theorem quantHeadsBP_post {α : Type} {q : α → Prop} {k : List (Nat × Bool × Nat) → BP α} (hk : ∀ l, (k l).Post q) : ∀ n acc, (quantHeadsBP k n acc).Post q
  | 0, acc => hk acc
  | n + 1, acc => by
    rw [quantHeadsBP]
    exact BP.Post.then (p := BP.read 2) fun i => BP.Post.then fun l => BP.Post.then (p := BP.read 4) fun p => BP.Post.then fun _ => quantHeadsBP_post hk n _

theorem internalsBP_post (fuel limit ncomp : Nat) : (internalsBP fuel limit ncomp).Post (Internals.Sane ncomp) := by
  refine BP.Post.then fun markers => BP.Post.then fun dri => BP.Post.seq (huffCodesBP_post _) fun huffman hh => BP.Post.then fun _ => ?_
  refine BP.Post.seq (BP.Post.rep (scanInfoBP_post fuel) _) fun scans hs => BP.Post.then fun n => ?_
  refine quantHeadsBP_post (fun quant => ?_) _ _
  refine BP.Post.seq (idsBP_post ncomp) fun ids hi => BP.Post.then fun np => BP.Post.then fun _ => BP.Post.then fun padding => ?_
  exact ⟨hs.1, hs.2, hh, hi⟩

/-- What is known of the quantisation tables read from any input. -/
structure QuantSane (ncomp : Nat) (q : List (List Nat) × List Nat) : Prop where
  count : q.2.length = ncomp
  index : ∀ i ∈ q.2, i < q.1.length
  tables : ∀ t ∈ q.1, t.length = 64 ∧ ∀ v ∈ t, 1 ≤ v ∧ v ≤ 65535

theorem varintBP_plain : ∀ l i v, (varintBP l i v).Plain
  | 0, _, _ => trivial
  | l + 1, i, v => by
    rw [varintBP]
    refine BP.Plain.seq (BP.Plain.ite trivial fun _ => trivial) fun go => BP.Plain.ite ?_ trivial
    exact BP.Plain.seq (p := BP.bit) (fun _ => trivial) fun b => varintBP_plain l _ _

theorem quantDiffsBP_plain (pred : List Nat) : ∀ js delta t, (quantDiffsBP pred js delta t).Plain
  | [], _, _ => trivial
  | j :: js, delta, t => by
    rw [quantDiffsBP]
    refine BP.Plain.seq ?_ fun d => BP.Plain.seq BP.Plain.check fun _ => BP.Plain.seq BP.Plain.check fun _ => quantDiffsBP_plain pred js _ _
    exact BP.Plain.seq (p := BP.bit) (fun _ => trivial) fun b => BP.Plain.ite
      (BP.Plain.seq (p := BP.bit) (fun _ => trivial) fun _ => BP.Plain.seq (varintBP_plain _ _ _) fun _ => trivial) trivial

theorem quantTableBP_plain (chroma : Bool) (precision : Nat) : (quantTableBP chroma precision).Plain := by
  refine BP.Plain.seq (p := BP.readb) (fun _ => trivial) fun b => BP.Plain.ite ?_ (BP.Plain.seq (p := BP.read 3) (fun _ => trivial) fun _ => trivial)
  exact BP.Plain.seq (p := BP.bits 6) (fun _ => trivial) fun q => BP.Plain.seq (quantDiffsBP_plain _ _ _ _) fun _ => BP.Plain.seq BP.Plain.check fun _ => trivial

theorem quantTableBP_post (chroma : Bool) (precision : Nat) : (quantTableBP chroma precision).Post fun t => t.length = 64 ∧ ∀ v ∈ t, 1 ≤ v ∧ v ≤ 65535 := by
  refine (quantTableBP_plain chroma precision).post 0 fun bs t rest _ h => ?_
  rw [quantTableBP_run] at h
  obtain ⟨h1, h2⟩ := readQuantTable_safe h
  exact ⟨h1, fun v hv => ⟨(h2 v hv).1, Nat.le_of_lt_succ (h2 v hv).2.1⟩⟩

theorem quantTabsBP_post : ∀ (ps : List Nat) (i : Nat), (quantTabsBP i ps).Post fun ts => ts.length = ps.length ∧ ∀ t ∈ ts, t.length = 64 ∧ ∀ v ∈ t, 1 ≤ v ∧ v ≤ 65535
  | [], _ => ⟨rfl, by simp⟩
  | p :: ps, i => by
    rw [quantTabsBP]
    refine BP.Post.seq (quantTableBP_post _ _) fun t ht => BP.Post.seq (quantTabsBP_post ps _) fun ts hts => ?_
    exact ⟨by simp [hts.1], fun x hx => (List.mem_cons.mp hx).elim (fun h => h ▸ ht) (hts.2 x)⟩

theorem quantIdxBP_post (n : Nat) : (quantIdxBP n).Post fun i => i < n :=
  BP.Post.then fun i => BP.Post.seq (BP.Within.check (b := 0)).post fun _ h => h

theorem quantBP_post (precs : List Nat) (ncomp : Nat) : (quantBP precs ncomp).Post (QuantSane ncomp) :=
  BP.Post.then fun _ => BP.Post.then fun _ => BP.Post.seq (quantTabsBP_post precs 0) fun ts hts =>
    BP.Post.seq (BP.Post.rep (quantIdxBP_post _) ncomp) fun _ h => ⟨h.1, fun i hi => by rw [hts.1]; exact h.2 i hi, hts.2⟩

theorem histBP_post {ncomp : Nat} (h1 : 1 ≤ ncomp) (h4 : ncomp ≤ 4) : (histBP ncomp).Post (HistogramData.Sane ncomp) := (histBP_sane h1 h4).post

/-- A step of a section of bits. -/
theorem bitBody_post {α : Type} {opt : Bool} {w q : α → Prop} {t : List Bool × BP α} {rem : Nat} {bs : List Nat} (hi : bitInv w t rem) (hq : t.2.Post q) :
    (∀ t' n, (bitBody opt t rem bs = .more t' n ∨ bitBody opt t rem bs = .wait t' n) → t'.2.Post q) ∧ ∀ a n, bitBody opt t rem bs = .done a n → q a := by
  obtain ⟨acc, p⟩ := t
  obtain ⟨_, h2, h3⟩ := hi
  cases p with
  | ret a =>
    simp only [bitBody]
    split
    · exact ⟨(fun _ _ h => by rcases h with h | h <;> cases h), fun _ _ h => by cases h⟩
    · exact ⟨(fun _ _ h => by rcases h with h | h <;> cases h), fun _ _ h => by cases h; exact hq⟩
  | fail => exact ⟨(fun _ _ h => by rcases h with h | h <;> cases h), fun _ _ h => by cases h⟩
  | prim r k => exact h2.elim
  | need n k =>
    simp only [bitBody]
    split
    · cases he : k.exec (acc ++ bytesBits (bs.take rem)) with
      | none => exact ⟨(fun _ _ h => by rcases h with h | h <;> cases h), fun _ _ h => by cases h⟩
      | some y =>
        refine ⟨fun _ _ h => ?_, fun _ _ h => by cases h⟩
        rcases h with h | h
        · cases h
          exact BP.exec_post k (w := w) (b := n) h3.2 he hq
        · cases h
    · split
      · exact ⟨(fun _ _ h => by rcases h with h | h <;> cases h), fun _ _ h => by cases h⟩
      · refine ⟨fun _ _ h => ?_, fun _ _ h => by cases h⟩
        rcases h with h | h
        · cases h
        · cases h; exact hq

/-- The conditions in the section of internals. -/
def internalsSane (n : Nat) : (List Bool × BP Internals) ⊕ InterSt → Prop
  | .inl t => t.2.Post (Internals.Sane n)
  | .inr t => t.base.Sane n

theorem interBody_sane {n : Nat} {t : InterSt} {rem : Nat} {bs : List Nat} (h : t.base.Sane n) :
    (∀ t' k, (interBody t rem bs = .more t' k ∨ interBody t rem bs = .wait t' k) → t'.base.Sane n) ∧ ∀ a k, interBody t rem bs = .done a k → a.Sane n := by
  obtain ⟨x, todo, acc, cur⟩ := t
  cases cur with
  | some lc =>
    simp only [interBody]
    split
    · exact ⟨(fun _ _ h' => by rcases h' with h' | h' <;> cases h'; exact h), fun _ _ h' => by cases h'⟩
    · exact ⟨(fun _ _ h' => by rcases h' with h' | h' <;> cases h'; exact h), fun _ _ h' => by cases h'⟩
  | none =>
    cases todo with
    | zero =>
      simp only [interBody]
      exact ⟨(fun _ _ h' => by rcases h' with h' | h' <;> cases h'), fun _ _ h' => by cases h'; exact ⟨h.count, h.scans, h.huffman, h.ids⟩⟩
    | succ todo =>
      simp only [interBody]
      split
      · split
        · exact ⟨(fun _ _ h' => by rcases h' with h' | h' <;> cases h'), fun _ _ h' => by cases h'⟩
        · exact ⟨(fun _ _ h' => by rcases h' with h' | h' <;> cases h'; exact h), fun _ _ h' => by cases h'⟩
      · exact ⟨(fun _ _ h' => by rcases h' with h' | h' <;> cases h'), fun _ _ h' => by cases h'⟩
      · split
        · exact ⟨(fun _ _ h' => by rcases h' with h' | h' <;> cases h'), fun _ _ h' => by cases h'⟩
        · exact ⟨(fun _ _ h' => by rcases h' with h' | h' <;> cases h'; exact h), fun _ _ h' => by cases h'⟩

theorem internalsBody_sane {n : Nat} {t : (List Bool × BP Internals) ⊕ InterSt} {rem : Nat} {bs : List Nat} (hi : internalsInv t rem) (h : internalsSane n t) :
    (∀ t' k, (internalsBody t rem bs = .more t' k ∨ internalsBody t rem bs = .wait t' k) → internalsSane n t') ∧
      ∀ a k, internalsBody t rem bs = .done a k → a.Sane n := by
  cases t with
  | inl t =>
    have hb := bitBody_post (opt := false) (bs := bs) (w := fun _ => True) (t := t) (rem := rem) hi h
    simp only [internalsBody, seqBody]
    cases e : bitBody false t rem bs with
    | more t' k => exact ⟨(fun _ _ h' => by rcases h' with h' | h' <;> cases h'; exact hb.1 _ _ (.inl e)), fun _ _ h' => by cases h'⟩
    | wait t' k => exact ⟨(fun _ _ h' => by rcases h' with h' | h' <;> cases h'; exact hb.1 _ _ (.inr e)), fun _ _ h' => by cases h'⟩
    | done a k => exact ⟨(fun _ _ h' => by rcases h' with h' | h' <;> cases h'; exact hb.2 _ _ e), fun _ _ h' => by cases h'⟩
    | bad => exact ⟨(fun _ _ h' => by rcases h' with h' | h' <;> cases h'), fun _ _ h' => by cases h'⟩
  | inr t =>
    have hb := interBody_sane (rem := rem) (bs := bs) (t := t) (n := n) h
    simp only [internalsBody, seqBody]
    cases e : interBody t rem bs with
    | more t' k => exact ⟨(fun _ _ h' => by rcases h' with h' | h' <;> cases h'; exact hb.1 _ _ (.inl e)), fun _ _ h' => by cases h'⟩
    | wait t' k => exact ⟨(fun _ _ h' => by rcases h' with h' | h' <;> cases h'; exact hb.1 _ _ (.inr e)), fun _ _ h' => by cases h'⟩
    | done a k => exact ⟨fun _ _ h' => (by rcases h' with h' | h' <;> cases h'), fun _ _ h' => by cases h'; exact hb.2 _ _ e⟩
    | bad => exact ⟨(fun _ _ h' => by rcases h' with h' | h' <;> cases h'), fun _ _ h' => by cases h'⟩

end Brunsli
