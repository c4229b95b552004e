import Verif.StreamPlanes
/-!
# No index out of range while coefficients arrive

The programs of `DecodeDC` and `DecodeAC` never leave a table, and ask for symbols of existing contexts only.
-/

namespace Brunsli

namespace Prog
variable {α β : Type}

/-- Symbols are read with the tables of the first `N` contexts only. -/
def Codes (N : Nat) : Prog α → Prop
  | .ret _ => True
  | .fail => True
  | .ub => True
  | .code c k => c < N ∧ ∀ s, Codes N (k s)
  | .bits _ k => ∀ v, Codes N (k v)
  | .bit _ k => ∀ b, Codes N (k b)

theorem Codes.then {N : Nat} {p : Prog α} {f : α → Prog β} (hp : p.Codes N) (hf : ∀ a, (f a).Codes N) : (p >>= f).Codes N := by
  show (p.bind f).Codes N
  induction p with
  | ret a => exact hf a
  | fail => trivial
  | ub => trivial
  | code c k ih => exact ⟨hp.1, fun s => ih s (hp.2 s)⟩
  | bits n k ih => exact fun s => ih s (hp s)
  | bit n k ih => exact fun s => ih s (hp s)

theorem Codes.pure {N : Nat} (a : α) : (Pure.pure a : Prog α).Codes N := trivial

theorem Codes.lift {N : Nat} (o : Option α) : (Prog.lift o).Codes N := by cases o <;> trivial

theorem Codes.lift' {N : Nat} {o : Option α} {f : α → Prog β} (hf : ∀ a, (f a).Codes N) : (Prog.lift o >>= f).Codes N := (Codes.lift o).then hf

theorem Codes.bitAt {N : Nat} (l : List Prob) (i : Nat) : (Prog.bitAt l i).Codes N := by
  unfold Prog.bitAt
  cases l[i]? with
  | none => trivial
  | some p =>
    intro x
    show Prog.Codes N (match p.add x with | none => .ub | some p' => .ret (x, l.set i p'))
    cases p.add x <;> trivial

theorem Codes.codeAt (n c : Nat) : (Prog.codeAt n c).Codes n := by
  unfold Prog.codeAt
  split
  · exact ⟨by assumption, fun _ => trivial⟩
  · trivial

theorem Codes.decExtra {N : Nat} (n : Nat) : (decExtra n).Codes N := by
  unfold Brunsli.decExtra
  split
  · exact fun _ => trivial
  · trivial

theorem Codes.decAbs (n ctx : Nat) (extra : List Prob) (base : Nat) : (decAbs n ctx extra base).Codes n := by
  unfold Brunsli.decAbs
  refine (Codes.codeAt n ctx).then fun code => ?_
  split
  · exact trivial
  · exact (Codes.bitAt _ _).then fun _ => (Codes.decExtra _).then fun _ => trivial

end Prog

open Prog

theorem decDcStep_codes (n : Nat) (ms : List Meta) (s : List DcDec) (p : Nat × Nat × Nat) : (decDcStep n ms s p).Codes n := by
  unfold decDcStep
  refine Codes.lift' fun m => Codes.lift' fun d => Codes.then ?_ fun r => Codes.lift' fun _ => Codes.lift' fun _ => Codes.lift' fun _ => Codes.lift' fun _ => Codes.lift _
  unfold decDcBlock
  refine Codes.lift' fun _ => (Codes.bitAt _ _).then fun pe => Codes.lift' fun _ => Codes.then ?_ fun _ => Codes.lift' fun _ => Codes.lift' fun _ => trivial
  split
  · unfold decDcValue
    refine (Codes.bitAt _ _).then fun z => ?_
    split
    · trivial
    · unfold decDcNonzero
      exact Codes.lift' fun _ => Codes.lift' fun _ => (Codes.bitAt _ _).then fun _ => (Codes.decAbs _ _ _ _).then fun _ => trivial
  · trivial

theorem decDigits_codes {N : Nat} (v : Nat) : (decDigits v).Codes N := by
  induction v using decDigits.induct with
  | case1 v hv ih =>
    rw [decDigits, dif_pos hv]
    intro b
    show Prog.Codes N (if _hb : b < 7 then if v + b > 64 then .fail else .ret (v + b) else decDigits (v + b))
    split
    · split <;> trivial
    · exact ih b (by assumption)
  | case2 v hv => rw [decDigits, dif_neg hv]; exact trivial

theorem decEntries_codes {N : Nat} : ∀ n : Nat, (decEntries n).Codes N
  | 0 => trivial
  | n + 1 => (decDigits_codes 0).then fun _ => (decEntries_codes n).then fun _ => trivial

theorem decSpan_codes {N : Nat} (n : Nat) : (decSpan n).Codes N := by
  unfold decSpan
  refine Codes.then (p := Prog.readBits 1) (fun _ => trivial) fun f => ?_
  split
  · exact trivial
  · exact decEntries_codes n

theorem decodeCoeffOrder_codes {N : Nat} : decodeCoeffOrder.Codes N := by
  unfold decodeCoeffOrder
  refine (decSpan_codes 15).then fun _ => (decSpan_codes 16).then fun _ => (decSpan_codes 16).then fun _ => (decSpan_codes 16).then fun _ => ?_
  split <;> exact trivial

theorem decNnz_codes {N : Nat} (base : Nat) : ∀ (b ctx : Nat) (l : List Prob), (decNnz base b ctx l).Codes N
  | 0, _, _ => trivial
  | b + 1, _, _ => by
    unfold decNnz
    exact (Codes.bitAt _ _).then fun _ => decNnz_codes base b _ _

theorem decAcCoeff_codes (v : AcEnv) (last k : Nat) (s : AcDecBlk) : (decAcCoeff v last k s).Codes v.n := by
  unfold decAcCoeff
  refine Codes.then ?_ fun z => Codes.lift' fun kn => ?_
  · unfold decIsZero
    split
    · exact Codes.lift' fun _ => Codes.bitAt _ _
    · trivial
  split
  · unfold decAcZero
    exact Codes.lift' fun _ => Codes.lift' fun _ => Codes.lift' fun _ => trivial
  · unfold decAcNonzero
    exact Codes.lift' fun _ => (Codes.bitAt _ _).then fun _ => Codes.lift' fun _ => Codes.lift' fun _ =>
      (Codes.decAbs _ _ _ _).then fun _ => Codes.lift' fun _ => Codes.lift' fun _ => trivial

theorem decAcCoeffs_codes (v : AcEnv) (last : Nat) : ∀ (k : Nat) (s : AcDecBlk), (decAcCoeffs v last k s).Codes v.n
  | 0, _ => trivial
  | k + 1, _ => by
    unfold decAcCoeffs
    exact (decAcCoeff_codes v last _ _).then fun s => decAcCoeffs_codes v last k s

theorem decAcStep_codes (n : Nat) (modes : List Nat) (ms : List Meta) (prs : List AcParam) (flags : List (List Bool)) (s : List AcDec)
    (p : Nat × Nat × Nat) : (decAcStep n modes ms prs flags s p).Codes n := by
  unfold decAcStep
  refine Codes.lift' fun m => Codes.lift' fun pr => Codes.lift' fun fl => Codes.lift' fun d => Codes.lift' fun empty => Codes.then ?_ fun _ => Codes.lift _
  unfold decAcBlock
  refine Codes.then ?_ fun r => Codes.lift' fun _ => Codes.lift' fun _ => Codes.then (decAcCoeffs_codes ⟨n, modes, m, pr, p.2.1, p.2.2⟩ _ _ _) fun _ => Codes.lift' fun _ => trivial
  split
  · trivial
  · unfold decLast
    exact Codes.lift' fun _ => (decNnz_codes _ _ _ _).then fun _ => trivial

/-! ## The programs with their tests -/

/-- Reading a symbol in a context without a table: an index beyond the context map or the histograms. -/
def WOp.undefined (maps : Nat → Option (List SymInfo)) : WOp → Bool
  | .code c => (maps c).isNone
  | _ => false

namespace WP
variable {α β : Type}

/-- Whatever is read, no table is left, and the results satisfy `q`. -/
def Clean (maps : Nat → Option (List SymInfo)) (q : α → Prop) : WP α → Prop
  | ret a => q a
  | fail => True
  | ub => False
  | need _ _ k => Clean maps q k
  | op o k => o.undefined maps = false ∧ ∀ a, o.post a → Clean maps q (k a)

/-- Whether the program leaves a table when it continues with the words `ws`.  (`WordSource::GetNextWord` yields zeros after the last word,
c/dec/brunsli_input.h:27-36: the claims are made for all `ws`.) -/
def hitsUb (maps : Nat → Option (List SymInfo)) : WP α → DecSt → List Nat → Bool
  | ret _, _, _ => false
  | fail, _, _ => false
  | ub, _, _ => true
  | need _ _ k, d, ws => hitsUb maps k d ws
  | op q k, d, ws => q.undefined maps || match q.run maps d ws with
    | none => false
    | some (a, d, ws) => hitsUb maps (k a) d ws

variable {maps : Nat → Option (List SymInfo)} {q : α → Prop} {r : β → Prop}

theorem Clean.ofProg {N : Nat} (hN : ∀ c < N, (maps c).isSome) : ∀ {p : Prog α}, p.All q → p.Codes N → Clean maps q (WP.ofProg p)
  | .ret _, h, _ => h
  | .fail, _, _ => trivial
  | .ub, h, _ => h
  | .code _ _, h, hc => ⟨by have := hN _ hc.1; simp only [WOp.undefined]; simpa using this, fun s hs => Clean.ofProg hN (h s hs) (hc.2 s)⟩
  | .bits _ _, h, hc => ⟨rfl, fun s hs => Clean.ofProg hN (h s hs) (hc s)⟩
  | .bit _ _, h, hc => ⟨rfl, fun s _ => Clean.ofProg hN (h s) (hc s)⟩

theorem Clean.bind {f : α → WP β} (hf : ∀ a, q a → Clean maps r (f a)) : ∀ {p : WP α}, Clean maps q p → Clean maps r (WP.bind p f)
  | ret _, h => hf _ h
  | fail, _ => trivial
  | ub, h => h
  | need _ _ k, h => Clean.bind hf (p := k) h
  | op _ _, h => ⟨h.1, fun a ha => Clean.bind hf (h.2 a ha)⟩

theorem Clean.loop {ι : Type} {f : α → ι → WP α} : ∀ (l : List ι) {a : α}, (∀ i ∈ l, ∀ a, q a → Clean maps q (f a i)) → q a → Clean maps q (WP.loop f a l)
  | [], _, _, ha => ha
  | i :: l, a, h, ha => Clean.bind (fun b hb => Clean.loop l (fun j hj => h j (List.mem_cons_of_mem _ hj)) hb) (h i List.mem_cons_self a ha)

theorem Clean.framed {e : Seen} {p : WP α} (h : Clean maps q p) : Clean maps q (framed e p) :=
  ⟨rfl, fun _ _ => Clean.bind (q := q) (r := q) (f := fun a => op .fin fun _ => ret a) (fun _ ha => ⟨rfl, fun _ _ => ha⟩) h⟩

/-- What a run leaves is as clean. -/
theorem exec_clean (hm : Prog.MapsOk maps) {w : α → Prop} (p : WP α) :
    ∀ {b r : Nat} {d : DecSt} {ws : List Nat} {p' : WP α} {d' : DecSt} {ws' : List Nat}, Within w p b r → d.bpos ≤ 16 →
      exec maps p d ws = some (p', d', ws') → Clean maps q p → Clean maps q p' := by
  induction p with
  | ret a => intro b r d ws p' d' ws' hw hd h hp; cases h; exact hp
  | fail => intro b r d ws p' d' ws' hw hd h; cases h
  | ub => intro b r d ws p' d' ws' hw hd h; cases h
  | need n e k ih => intro b r d ws p' d' ws' hw hd h hp; cases h; exact hp
  | op o k ih =>
    intro b r d ws p' d' ws' hw hd h hp
    simp only [exec] at h
    split at h
    · cases h
    · rename_i y hq
      obtain ⟨a, d1, ws1⟩ := y
      obtain ⟨pa, _, hd1, _⟩ := WOp.res hm o hw.1 hq hd
      exact ih a (hw.2.2.2 a pa) hd1 h (hp.2 a pa)

/-- A clean program does not leave a table. -/
theorem Clean.no_ub (hm : Prog.MapsOk maps) {w : α → Prop} (p : WP α) : ∀ {b r : Nat} {d : DecSt} (ws : List Nat), Within w p b r → d.bpos ≤ 16 → Clean maps q p →
    hitsUb maps p d ws = false := by
  induction p with
  | ret a => intros; rfl
  | fail => intros; rfl
  | ub => intro b r d ws _ _ h; exact h.elim
  | need n e k ih =>
    intro b r d ws hw hd h
    obtain ⟨_, b', r', _, hk⟩ := hw
    exact ih ws hk hd h
  | op o k ih =>
    intro b r d ws hw hd h
    have next : (match o.run maps d ws with | none => false | some (a, d, ws) => hitsUb maps (k a) d ws) = false := by
      cases hq : o.run maps d ws with
      | none => rfl
      | some y =>
        obtain ⟨a, d1, ws1⟩ := y
        obtain ⟨pa, _, hd1, _⟩ := WOp.res hm o hw.1 hq hd
        exact ih a ws1 (hw.2.2.2 a pa) hd1 (h.2 a pa)
    simp only [hitsUb]
    rw [h.1, Bool.false_or]
    exact next

end WP

/-- A step of a section of words. -/
theorem wordBody_clean {α : Type} {w q : α → Prop} {t : WordSt α} {rem : Nat} {bs : List Nat} (hi : wordInv w t rem) (hq : t.prog.Clean t.maps q) :
    (∀ t' n, (wordBody t rem bs = .more t' n ∨ wordBody t rem bs = .wait t' n) → t'.prog.Clean t'.maps q ∧ t'.maps = t.maps) ∧ ∀ a n, wordBody t rem bs = .done a n → q a := by
  obtain ⟨maps, dec, prog⟩ := t
  obtain ⟨hm, hd, _, hst, hw⟩ := hi
  simp only at hm hd hst hw hq
  cases prog with
  | ret a => exact ⟨(fun t' n h => by simp only [wordBody] at h; rcases h with h | h <;> cases h), fun a n h => by cases h; exact hq⟩
  | fail => exact ⟨(fun t' n h => by simp only [wordBody] at h; rcases h with h | h <;> cases h), fun a n h => by cases h⟩
  | ub => exact hq.elim
  | op q k => exact hst.elim
  | need n e k =>
    obtain ⟨_, b, r, _, hk⟩ := hw
    simp only [wordBody]
    split
    · cases he : k.exec maps dec (bytesWords (bs.take rem)) with
      | none => exact ⟨(fun t' n h => by rcases h with h | h <;> cases h), fun a n h => by cases h⟩
      | some x =>
        obtain ⟨p', d', ws'⟩ := x
        refine ⟨fun t' n h => ?_, fun a n h => by cases h⟩
        rcases h with h | h
        · cases h
          exact ⟨WP.exec_clean hm k hk hd he hq, rfl⟩
        · cases h
    · refine ⟨fun t' n h => ?_, fun a n h => by cases h⟩
      rcases h with h | h
      · cases h
      · cases h; exact ⟨hq, rfl⟩

/-! ## DC and AC data -/

/-- What has been read of the DC section: 16-bit values, and a flag for each block. -/
def DcRead (rows : Nat) (ms : List Meta) (dc : List (List Int × List Bool)) : Prop :=
  dc.length = ms.length ∧ ∀ (c : Nat) (m : Meta) (p : List Int × List Bool), ms[c]? = some m → dc[c]? = some p →
    Arr (m.w * (rows * m.vs) * 64) (fun v => -32768 ≤ v ∧ v < 32768) p.1 ∧ p.2.length = m.w * (rows * m.vs)

theorem dcWP_clean {maps : Nat → Option (List SymInfo)} {n rows : Nat} {ms : List Meta} {e : Seen} (hn : ∀ c < n, (maps c).isSome) (hd : ms.length * 9 ≤ n) :
    (WP.framed e (dcWP n rows ms)).Clean maps (DcRead rows ms) := by
  refine WP.Clean.framed (WP.Clean.bind (q := DcSafes rows ms) (f := fun s : List DcDec => .ret (s.map fun d => (d.coeffs, d.empty))) (fun s hs => ?_) ?_)
  · refine ⟨by rw [List.length_map]; exact hs.1, fun c m p hm hp => ?_⟩
    obtain ⟨d, h1, h2⟩ := hs.2 c m hm
    rw [List.getElem?_map, h1] at hp
    cases hp
    exact ⟨h2.coeffs, h2.empty⟩
  · refine WP.Clean.loop _ (fun i hi s hs => ?_) ⟨by simp [dcDecInit], fun c m hm => ?_⟩
    · obtain ⟨m, h1, h2, h3⟩ := sched_all.mem i hi
      exact WP.Clean.ofProg hn (decDcStep_all hd h1 h2 h3 s hs) (decDcStep_codes n ms s i)
    · refine ⟨_, by unfold dcDecInit; rw [List.getElem?_map, hm]; rfl, dcInv_init _, ?_, by simp⟩
      exact Arr.replicate (q := fun v : Int => -32768 ≤ v ∧ v < 32768) (by decide)

theorem ordersWP_clean {maps : Nat → Option (List SymInfo)} (e : Seen) : ∀ n : Nat, (ordersWP e n).Clean maps fun os => os.length = n ∧ ∀ o ∈ os, CoeffOrder o
  | 0 => ⟨rfl, by simp⟩
  | n + 1 => by
    refine WP.Clean.bind (q := CoeffOrder) (f := fun o => WP.bind (ordersWP e n) fun os => .ret (o :: os)) (fun o ho => ?_)
      (WP.Clean.ofProg (N := 0) (fun c hc => absurd hc (Nat.not_lt_zero c)) decodeCoeffOrder_all decodeCoeffOrder_codes)
    refine WP.Clean.bind (f := fun os => .ret (o :: os)) (fun os hos => ?_) (ordersWP_clean e n)
    exact ⟨by simp [hos.1], by simpa using ⟨ho, hos.2⟩⟩

theorem acWP_clean {maps : Nat → Option (List SymInfo)} {n rows : Nat} {legacy : Bool} {ms : List Meta} {quants : List (List Nat)} {dc : List (List Int × List Bool)} {e : Seen}
    (hn : ∀ c < n, (maps c).isSome) (hms : ∀ m ∈ ms, MetaOk n m) (hlq : quants.length = ms.length) (hq : ∀ q ∈ quants, QuantOk q) (hdc : DcRead rows ms dc) :
    (WP.framed e (acWP n legacy rows ms quants (dc.map Prod.fst) (dc.map Prod.snd))).Clean maps fun _ => True := by
  have hget : ∀ (c : Nat) (m : Meta), ms[c]? = some m → ∃ p, dc[c]? = some p := fun c m hm => by
    have hc : c < ms.length := by
      apply Decidable.byContradiction; intro h; rw [List.getElem?_eq_none (by omega)] at hm; cases hm
    exact ⟨dc[c]'(by rw [hdc.1]; exact hc), List.getElem?_eq_getElem _⟩
  refine WP.Clean.framed (WP.Clean.bind (fun os hos => ?_) (ordersWP_clean _ ms.length))
  obtain ⟨prs, e1, h1, h2⟩ := acParams_some os quants (by omega) hos.2 hq
  refine WP.Clean.bind (q := fun prs => prs.length = ms.length ∧ ∀ pr ∈ prs, ParamOk pr) (fun prs hprs => ?_)
    (WP.Clean.ofProg hn (Prog.lift_all ⟨prs, e1, by omega, h2⟩) (Prog.Codes.lift _))
  refine WP.Clean.bind (q := AcSafes rows ms) (r := fun _ => True) (f := fun s : List AcDec => .ret (s.map AcDec.coeffs)) (fun _ _ => trivial) ?_
  refine WP.Clean.loop _ (fun i hi s hs => ?_) ⟨?_, fun c m hm => ?_⟩
  · obtain ⟨m, h1, h2, h3⟩ := sched_all.mem i hi
    have := WP.Clean.ofProg hn (decAcStep_all (flags := dc.map Prod.snd) (contextModes_length legacy) hms hprs.1 hprs.2 (fun c m hm => by
      obtain ⟨p, hp⟩ := hget c m hm
      exact ⟨p.2, by rw [List.getElem?_map, hp]; rfl, (hdc.2 c m p hm hp).2⟩) h1 h2 h3 s hs) (decAcStep_codes n _ ms prs _ s i)
    show WP.Clean maps (AcSafes rows ms) (acStepWP n (contextModes legacy) ms prs (dc.map Prod.snd) s i)
    unfold acStepWP
    split
    · exact this
    · exact this
  · rw [(acDecInit_get ms _).1, List.length_map, hdc.1]; omega
  · obtain ⟨p, hp⟩ := hget c m hm
    have hcc : (dc.map Prod.fst)[c]? = some p.1 := by rw [List.getElem?_map, hp]; rfl
    exact ⟨_, (acDecInit_get ms _).2 c m _ hm hcc, acInv_init _, (hdc.2 c m p hm hp).1⟩

/-! ## The tables of contexts -/

theorem histMaps_some {ncomp : Nat} {d : HistogramData} (h : d.Sane ncomp) {header : Header} (hc : header.comps.length = ncomp) :
    ∀ c < contextCount (metas header d.schemes), (histMaps d.contextMap d.histograms c).isSome := by
  intro c hlt
  have e : contextCount (metas header d.schemes) = d.contextMap.length := by
    unfold contextCount
    rw [metas_bits (by rw [h.count, hc]), h.contexts]
  rw [e] at hlt
  have hx := h.map _ (List.getElem_mem hlt)
  unfold histMaps
  rw [List.getElem?_eq_getElem hlt]
  simp only [Option.bind_some]
  rw [List.getElem?_eq_getElem hx]
  simp only [Option.bind_some]
  unfold ansMap
  simp only
  rw [if_pos (by rw [ansMapFrom_length]; exact (h.histograms _ (List.getElem_mem hx)).2)]
  rfl

/-! ## The section of histograms -/

/-- Whether reading this leaves a table: one of the tables of a code being built, or that of a code in use, or the counts of a histogram. -/
def Prim.undefined : Prim → List Bool → Bool
  | .bits _, _ => false
  | .code n, bs => match readCode n bs with
    | some (none, _) => true
    | _ => false
  | .sym m, bs => (lookup m 8 (ofBits (bs.take 15))).isNone
  | .hist, bs => match readHistogram bs with
    | some (none, _) => true
    | _ => false

namespace BP
variable {α β : Type}

/-- Whether the program leaves a table when it continues with the bits `bs`. -/
def hitsUb : BP α → List Bool → Bool
  | ret _, _ => false
  | fail, _ => false
  | need _ k, bs => hitsUb k bs
  | prim q k, bs => q.undefined bs || match q.run bs with
    | none => false
    | some (a, bs) => hitsUb (k a) bs

/-- Whatever is read, no table is left. -/
def Clean : BP α → Prop
  | ret _ => True
  | fail => True
  | need _ k => Clean k
  | prim q k => (∀ bs, q.undefined bs = false) ∧ ∀ a, q.post a → Clean (k a)

theorem Clean.bind {r : α → Prop} {f : α → BP β} (hf : ∀ a, r a → Clean (f a)) : ∀ {p : BP α}, Clean p → Post r p → Clean (BP.bind p f)
  | ret _, _, h => hf _ h
  | fail, _, _ => trivial
  | need _ k, h1, h2 => Clean.bind hf (p := k) h1 h2
  | prim _ _, h1, h2 => ⟨h1.1, fun a ha => Clean.bind hf (h1.2 a ha) (h2 a ha)⟩

theorem Clean.seq {r : α → Prop} {f : α → BP β} {p : BP α} (h1 : Clean p) (h2 : Post r p) (hf : ∀ a, r a → Clean (f a)) : Clean (p >>= f) := Clean.bind hf h1 h2

theorem Clean.then {f : α → BP β} {p : BP α} (h : Clean p) (hf : ∀ a, Clean (f a)) : Clean (p >>= f) :=
  Clean.seq (r := fun _ => True) h (Post.any _) fun a _ => hf a

theorem Clean.ite {c : Prop} [Decidable c] {p q : BP α} (h1 : c → Clean p) (h2 : ¬c → Clean q) : Clean (if c then p else q) := by
  split
  · exact h1 (by assumption)
  · exact h2 (by assumption)

theorem Clean.read (n : Nat) : Clean (BP.read n) := ⟨fun _ => rfl, fun _ _ => trivial⟩

theorem Clean.check {c : Prop} [Decidable c] : Clean (BP.check c) := by unfold BP.check; split <;> trivial

theorem exec_clean {w : α → Prop} (p : BP α) : ∀ {b : Nat} {bs : List Bool} {p' : BP α} {bs' : List Bool}, Within w p b → exec p bs = some (p', bs') → Clean p → Clean p' := by
  induction p with
  | ret a => intro b bs p' bs' _ h hp; cases h; exact hp
  | fail => intro b bs p' bs' _ h; cases h
  | need n k ih => intro b bs p' bs' _ h hp; cases h; exact hp
  | prim r k ih =>
    intro b bs p' bs' hw h hp
    simp only [exec] at h
    split at h
    · cases h
    · rename_i a mid hq
      obtain ⟨pa, _⟩ := hw.1.res _ _ _ hq
      exact ih a (hw.2.2 a pa) h (hp.2 a pa)

theorem Clean.no_ub {w : α → Prop} (p : BP α) : ∀ {b : Nat} (bs : List Bool), Within w p b → Clean p → hitsUb p bs = false := by
  induction p with
  | ret a => intros; rfl
  | fail => intros; rfl
  | need n k ih => intro b bs hw h; exact ih bs hw.2 h
  | prim q k ih =>
    intro b bs hw h
    simp only [hitsUb]
    rw [h.1, Bool.false_or]
    cases hq : q.run bs with
    | none => rfl
    | some y =>
      obtain ⟨a, rest⟩ := y
      obtain ⟨pa, _⟩ := hw.1.res _ _ _ hq
      exact ih a rest (hw.2.2 a pa) (h.2 a pa)

end BP

theorem undefined_code (n : Nat) (bs : List Bool) : (Prim.code n).undefined bs = false := by
  simp only [Prim.undefined]
  split
  · rename_i h
    obtain ⟨m, e, _⟩ := readCode_safe h
    cases e
  · rfl

theorem undefined_hist (bs : List Bool) : Prim.hist.undefined bs = false := by
  simp only [Prim.undefined]
  split
  · rename_i h
    obtain ⟨m, e, _⟩ := readHistogram_safe h
    cases e
  · rfl

theorem undefined_sym {m : Mem} {n : Nat} (h : Total m 8 n) (bs : List Bool) : (Prim.sym m).undefined bs = false := by
  obtain ⟨l, s, e, _⟩ := h (ofBits (bs.take 15))
  simp only [Prim.undefined]
  rw [e]
  rfl

theorem mapBP_clean {m : Mem} {p n k : Nat} (hm : Total m 8 k) : ∀ fuel acc, (mapBP m p n fuel acc).Clean := by
  intro fuel
  induction fuel with
  | zero =>
    intro acc
    rw [mapBP]
    exact BP.Clean.ite (fun _ => trivial) fun _ => (BP.Clean.read 1).then fun _ => trivial
  | succ fuel ih =>
    intro acc
    rw [mapBP]
    refine BP.Clean.ite (fun _ => ?_) fun _ => (BP.Clean.read 1).then fun _ => trivial
    refine ⟨undefined_sym hm, fun code _ => ?_⟩
    exact BP.Clean.ite (fun _ => ih _) fun _ => BP.Clean.ite (fun _ => (BP.Clean.read _).then fun _ => BP.Clean.check.then fun _ => ih _) fun _ => ih _

theorem codeMapBP_clean (k p n : Nat) : (codeMapBP k p n).Clean :=
  ⟨undefined_code k, fun t ht => by obtain ⟨m, rfl, hm⟩ := ht; exact mapBP_clean hm n []⟩

theorem contextMapBP_clean (nh n : Nat) : (contextMapBP nh n).Clean := by
  refine BP.Clean.then (p := BP.read 1) (BP.Clean.read 1) fun rle => BP.Clean.ite (fun _ => ?_) fun _ => codeMapBP_clean _ _ _
  exact (BP.Clean.read 4).then fun x => codeMapBP_clean _ _ _

theorem histogramsBP_clean : ∀ n, (histogramsBP n).Clean
  | 0 => trivial
  | n + 1 => by
    rw [histogramsBP]
    refine ⟨undefined_hist, fun h hh => ?_⟩
    obtain ⟨h, rfl, _⟩ := hh
    exact BP.Clean.check.then fun _ => (histogramsBP_clean n).then fun _ => trivial

theorem schemesBP_clean : ∀ n, (schemesBP n).Clean
  | 0 => trivial
  | n + 1 => (BP.Clean.read 3).then fun _ => BP.Clean.check.then fun _ => (schemesBP_clean n).then fun _ => trivial

theorem histBP_clean (ncomp : Nat) : (histBP ncomp).Clean := by
  refine BP.Clean.then (p := schemesBP ncomp) (schemesBP_clean ncomp) fun schemes => BP.Clean.then (p := BP.need 11 varLenBP) ?_ fun x =>
    BP.Clean.then (BP.Clean.ite (fun _ => contextMapBP_clean _ _) fun _ => trivial) fun map => (histogramsBP_clean _).then fun _ => trivial
  refine BP.Clean.then (p := BP.read 1) (BP.Clean.read 1) fun f => BP.Clean.ite (fun _ => ?_) fun _ => trivial
  exact (BP.Clean.read 3).then fun nbits => BP.Clean.ite (fun _ => trivial) fun _ => (BP.Clean.read _).then fun _ => trivial

theorem bitBody_clean {α : Type} {opt : Bool} {w : α → Prop} {t : List Bool × BP α} {rem : Nat} {bs : List Nat} (hi : bitInv w t rem) (hq : t.2.Clean) :
    ∀ t' n, (bitBody opt t rem bs = .more t' n ∨ bitBody opt t rem bs = .wait t' n) → t'.2.Clean := by
  obtain ⟨acc, p⟩ := t
  obtain ⟨_, h2, h3⟩ := hi
  cases p with
  | ret a =>
    simp only [bitBody]
    split
    · exact fun _ _ h => by rcases h with h | h <;> cases h
    · exact fun _ _ h => by rcases h with h | h <;> cases h
  | fail => exact fun _ _ h => by rcases h with h | h <;> cases h
  | prim r k => exact h2.elim
  | need n k =>
    simp only [bitBody]
    split
    · cases he : k.exec (acc ++ bytesBits (bs.take rem)) with
      | none => exact fun _ _ h => by rcases h with h | h <;> cases h
      | some y =>
        intro _ _ h
        rcases h with h | h
        · cases h
          exact BP.exec_clean k (w := w) (b := n) h3.2 he hq
        · cases h
    · split
      · exact fun _ _ h => by rcases h with h | h <;> cases h
      · intro _ _ h
        rcases h with h | h
        · cases h
        · cases h; exact hq

end Brunsli
