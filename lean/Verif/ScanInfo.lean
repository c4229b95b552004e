import Verif.JHuff
/-!
# Scan parameters

`EncodeScanInfo` (c/enc/brunsli_encode.cc:380-415) and `DecodeScanInfo` (c/dec/brunsli_decode.cc:436-541).
-/

namespace Brunsli

open P

/-- The reset points (c/enc/brunsli_encode.cc:392-399); `next` is `last_block_idx + 1`. -/
def encResets : (next : Nat) → List Nat → List Bool
  | _, [] => [false]
  | next, i :: is => true :: (encodeVarint 28 (i - next) ++ encResets (i + 1) is)

/-- The positions of the extra zero runs, each repeated (c/enc/brunsli_encode.cc:403-408). -/
def expandRuns (runs : List (Nat × Nat)) : List Nat := runs.flatMap fun r => List.replicate r.2 r.1

/-- The extra zero runs (c/enc/brunsli_encode.cc:401-412). -/
def encRuns : (last : Nat) → List Nat → List Bool
  | _, [] => [false]
  | last, i :: is => true :: (encodeVarint 28 (i - last) ++ encRuns i is)

/-- One component of a scan (c/enc/brunsli_encode.cc:386-391). -/
def encScanComp (c : ScanComp) : List Bool := bitsOf 2 c.compIdx ++ (bitsOf 2 c.dcTbl ++ bitsOf 2 c.acTbl)

/-- `EncodeScanInfo` (c/enc/brunsli_encode.cc:380-415). -/
def encScanInfo (s : ScanInfo) : List Bool :=
  bitsOf 6 s.ss ++ (bitsOf 6 s.se ++ (bitsOf 4 s.ah ++ (bitsOf 4 s.al ++ (bitsOf 2 (s.comps.length - 1) ++
    (s.comps.flatMap encScanComp ++ (encResets 0 s.resetPoints ++ encRuns 0 (expandRuns s.extraZeroRuns)))))))

/-- The reset points (c/dec/brunsli_decode.cc:479-509); every round takes a bit, so `fuel` is the number of bits. -/
def readResetsLoop : (fuel next : Nat) → P Bool (List Nat)
  | 0, _ => P.fail
  | fuel + 1, next => do
    let b ← readBit
    if b then do
      let v ← decodeVarint 28
      P.guard (next + v ≤ 2 ^ 30)
      let is ← readResetsLoop fuel (next + v + 1)
      Pure.pure ((next + v) :: is)
    else Pure.pure []

/-- `maybe_add_zero_run` (c/dec/brunsli_decode.cc:441-449). -/
def pendingRun (last num : Nat) : List (Nat × Nat) := if num > 0 then [(last, num)] else []

/-- The extra zero runs (c/dec/brunsli_decode.cc:510-536). -/
def readRunsLoop : (fuel last num : Nat) → P Bool (List (Nat × Nat))
  | 0, _, _ => P.fail
  | fuel + 1, last, num => do
    let b ← readBit
    if b then do
      let v ← decodeVarint 28
      P.guard (last + v ≤ 2 ^ 30)
      if v > 0 then do
        let rs ← readRunsLoop fuel (last + v) 1
        Pure.pure (pendingRun last num ++ rs)
      else readRunsLoop fuel (last + v) (num + 1)
    else Pure.pure (pendingRun last num)

/-- A loop each round of which takes a bit. -/
def whileBits {α : Type} (f : Nat → P Bool α) : P Bool α := fun bs => f bs.length bs

/-- One component of a scan (c/dec/brunsli_decode.cc:466-473). -/
def readScanComp : P Bool ScanComp := do
  let c ← readBits 2
  let d ← readBits 2
  let a ← readBits 2
  Pure.pure ⟨c, d, a⟩

/-- `DecodeScanInfo` (c/dec/brunsli_decode.cc:436-541), for one scan. -/
def readScanInfo : P Bool ScanInfo := do
  let ss ← readBits 6
  let se ← readBits 6
  let ah ← readBits 4
  let al ← readBits 4
  let n ← readBits 2
  let comps ← P.replicate (n + 1) readScanComp
  let resets ← whileBits fun fuel => readResetsLoop fuel 0
  let runs ← whileBits fun fuel => readRunsLoop fuel 0 0
  Pure.pure ⟨ss, se, ah, al, comps, resets, runs⟩

/-! ## Round trip -/

theorem whileBits_reads {α : Type} {f : Nat → P Bool α} {bs : List Bool} {a : α} (h : ∀ fuel, bs.length ≤ fuel → Reads (f fuel) bs a) :
    Reads (whileBits f) bs a := by
  intro rest
  unfold whileBits
  exact h _ (by rw [List.length_append]; omega) rest

/-- Strictly increasing, from `next` on. -/
def Increasing : (next : Nat) → List Nat → Prop
  | _, [] => True
  | next, i :: is => next ≤ i ∧ Increasing (i + 1) is

theorem resets_reads (is : List Nat) : ∀ {next fuel : Nat}, Increasing next is → (∀ i ∈ is, i < 2 ^ 28) → (encResets next is).length ≤ fuel →
    Reads (readResetsLoop fuel next) (encResets next is) is := by
  induction is with
  | nil =>
    intro next fuel _ _ hf
    cases fuel with
    | zero => simp [encResets] at hf
    | succ fuel => exact Reads.bind' (e₁ := [false]) (readBit_reads false) (Reads.pure _) rfl
  | cons i is ih =>
    intro next fuel hi hb hf
    cases fuel with
    | zero => simp [encResets] at hf
    | succ fuel =>
      have hlt := hb i List.mem_cons_self
      have hle := hi.1
      rw [encResets] at hf ⊢
      simp only [List.length_cons, List.length_append] at hf
      refine Reads.bind' (e₁ := [true]) (readBit_reads true) ?_ rfl
      simp only [↓reduceIte]
      refine Reads.bind (decodeVarint_reads (by omega)) (Reads.seqGuard (by omega) ?_)
      rw [show next + (i - next) = i by omega]
      exact Reads.bind' (ih hi.2 (fun x hx => hb x (List.mem_cons_of_mem _ hx)) (by omega)) (Reads.pure _) (List.append_nil _).symm

/-- Positions strictly increasing, each with at least one run. -/
def RunsOk : (next : Nat) → List (Nat × Nat) → Prop
  | _, [] => True
  | next, r :: rs => next ≤ r.1 ∧ 0 < r.2 ∧ RunsOk (r.1 + 1) rs

/-- More runs at the same position. -/
theorem runs_more {last k : Nat} (is : List Nat) {r : List (Nat × Nat)} (hl : last < 2 ^ 28)
    (h : ∀ fuel, (encRuns last is).length ≤ fuel → ∀ num, 0 < num → Reads (readRunsLoop fuel last num) (encRuns last is) (pendingRun last num ++ r)) :
    ∀ fuel, (encRuns last (List.replicate k last ++ is)).length ≤ fuel → ∀ num, 0 < num →
      Reads (readRunsLoop fuel last num) (encRuns last (List.replicate k last ++ is)) (pendingRun last (num + k) ++ r) := by
  induction k with
  | zero => exact h
  | succ k ih =>
    intro fuel hf num hn
    rw [List.replicate_succ, List.cons_append, encRuns] at hf ⊢
    cases fuel with
    | zero => simp at hf
    | succ fuel =>
      simp only [List.length_cons, List.length_append] at hf
      refine Reads.bind' (e₁ := [true]) (readBit_reads true) ?_ rfl
      simp only [↓reduceIte]
      refine Reads.bind (decodeVarint_reads (by omega)) (Reads.seqGuard (by omega) ?_)
      rw [Nat.sub_self, if_neg (by omega), Nat.add_zero]
      have := ih fuel (by omega) (num + 1) (by omega)
      rw [show num + (k + 1) = num + 1 + k by omega]
      exact this

theorem runs_reads (rs : List (Nat × Nat)) : ∀ {last num : Nat}, RunsOk (if num = 0 then last else last + 1) rs → (∀ r ∈ rs, r.1 < 2 ^ 28) →
    ∀ fuel, (encRuns last (expandRuns rs)).length ≤ fuel →
    Reads (readRunsLoop fuel last num) (encRuns last (expandRuns rs)) (pendingRun last num ++ rs) := by
  induction rs with
  | nil =>
    intro last num _ _ fuel hf
    cases fuel with
    | zero => simp [encRuns, expandRuns] at hf
    | succ fuel =>
      rw [List.append_nil]
      exact Reads.bind' (e₁ := [false]) (readBit_reads false) (Reads.pure _) rfl
  | cons r rs ih =>
    obtain ⟨i, n⟩ := r
    intro last num hr hb fuel hf
    obtain ⟨h1, h2, h3⟩ := hr
    simp only at h1 h2 h3
    have hi := hb (i, n) List.mem_cons_self
    simp only at hi
    obtain ⟨n, rfl⟩ : ∃ m, n = m + 1 := ⟨n - 1, by omega⟩
    have e : expandRuns ((i, n + 1) :: rs) = i :: (List.replicate n i ++ expandRuns rs) := by
      unfold expandRuns
      rw [List.flatMap_cons, List.replicate_succ]; rfl
    rw [e, encRuns] at hf ⊢
    cases fuel with
    | zero => simp at hf
    | succ fuel =>
      simp only [List.length_cons, List.length_append] at hf
      have hle : last ≤ i := by split at h1 <;> omega
      have more : ∀ num, 0 < num → Reads (readRunsLoop fuel i num) (encRuns i (List.replicate n i ++ expandRuns rs)) (pendingRun i (num + n) ++ rs) :=
        fun num hn => runs_more (expandRuns rs) hi (fun fuel hf num hn => ih (by rw [if_neg (by omega)]; exact h3)
          (fun x hx => hb x (List.mem_cons_of_mem _ hx)) fuel hf) fuel (by omega) num hn
      refine Reads.bind' (e₁ := [true]) (readBit_reads true) ?_ rfl
      simp only [↓reduceIte]
      refine Reads.bind (decodeVarint_reads (by omega)) (Reads.seqGuard (by omega) ?_)
      rw [show last + (i - last) = i by omega]
      have e1 : pendingRun i (1 + n) = [(i, n + 1)] := by
        unfold pendingRun; rw [if_pos (by omega), Nat.add_comm]
      split
      · have := more 1 (by omega)
        rw [e1] at this
        exact Reads.bind' this (Reads.pure _) (List.append_nil _).symm
      · have h0 : num = 0 := by
          by_contra hc
          rw [if_neg hc] at h1
          omega
        subst h0
        have := more 1 (by omega)
        rw [e1] at this
        exact this

/-- A scan as `ProcessSOS` and `ProcessScan` (c/enc/jpeg_data_reader.cc:155-244, 827-978) leave it. -/
structure ScanInfo.Ok (s : ScanInfo) : Prop where
  ss : s.ss < 64
  se : s.se < 64
  ah : s.ah < 16
  al : s.al < 16
  ncomp : 1 ≤ s.comps.length ∧ s.comps.length ≤ 4
  comps : ∀ c ∈ s.comps, c.compIdx < 4 ∧ c.dcTbl < 4 ∧ c.acTbl < 4
  resets : Increasing 0 s.resetPoints ∧ ∀ i ∈ s.resetPoints, i < 2 ^ 28
  runs : RunsOk 0 s.extraZeroRuns ∧ ∀ r ∈ s.extraZeroRuns, r.1 < 2 ^ 28

theorem scanInfo_reads {s : ScanInfo} (ok : s.Ok) : Reads readScanInfo (encScanInfo s) s := by
  unfold readScanInfo encScanInfo
  refine Reads.bind (readBits_reads ok.ss) (Reads.bind (readBits_reads ok.se) (Reads.bind (readBits_reads ok.ah) (Reads.bind (readBits_reads ok.al) ?_)))
  obtain ⟨n1, n2⟩ := ok.ncomp
  refine Reads.bind (readBits_reads (by omega)) ?_
  rw [show s.comps.length - 1 + 1 = s.comps.length by omega]
  refine Reads.bind (Reads.replicate encScanComp s.comps fun c hc => ?_) ?_
  · obtain ⟨c1, c2, c3⟩ := ok.comps c hc
    exact Reads.bind (readBits_reads c1) (Reads.bind (readBits_reads c2) (Reads.bind' (readBits_reads c3) (Reads.pure _) (List.append_nil _).symm))
  · refine Reads.bind (whileBits_reads fun fuel hf => resets_reads _ ok.resets.1 ok.resets.2 hf) ?_
    refine Reads.bind' (a := s.extraZeroRuns) (whileBits_reads fun fuel hf => ?_) (Reads.pure _) (List.append_nil _).symm
    exact runs_reads s.extraZeroRuns (last := 0) (num := 0) ok.runs.1 ok.runs.2 fuel hf

end Brunsli
