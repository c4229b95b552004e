import Verif.BitTables
import Verif.StreamCode
/-!
# The functions that read prefix codes and histograms, as users of the bit reader
-/

namespace Brunsli

open P

namespace BC

variable {α β : Type}

/-- The program reads what `r` says, and uses the bit reader properly. -/
structure Meets (p : BC α) (r : P Bool α) : Prop where
  sem : sem p = r
  safe : Safe p

theorem Meets.bind {p : BC α} {r : P Bool α} {f : α → BC β} {g : α → P Bool β} (hp : Meets p r)
    (hf : ∀ a, (∃ bs rest, r bs = some (a, rest)) → Meets (f a) (g a)) : Meets (p >>= f) (r >>= g) where
  sem := by
    rw [sem_bind, hp.sem]
    funext bs
    rw [bind_apply, bind_apply]
    cases h : r bs with
    | none => rfl
    | some y => exact congrFun (hf y.1 ⟨bs, y.2, h⟩).sem y.2
  safe := hp.safe.bind fun a ha => (hf a (hp.sem ▸ ha)).safe

theorem Meets.ret (a : α) : Meets (BC.ret a) (Pure.pure a) := ⟨sem_ret a, Safe.ret a⟩
theorem Meets.pure (a : α) : Meets (Pure.pure a) (Pure.pure a) := ⟨sem_ret a, Safe.ret a⟩
theorem Meets.fail : Meets (BC.fail : BC α) P.fail := ⟨sem_fail, Safe.fail⟩
theorem Meets.check {c : Prop} [Decidable c] : Meets (BC.check c) (P.guard c) := ⟨sem_check c, Safe.check⟩
theorem Meets.bits {n : Nat} (h : n ≤ 24) : Meets (BC.bits n) (readBits n) := ⟨sem_bits n, Safe.bits h⟩

theorem Meets.ite {c : Prop} [Decidable c] {p q : BC α} {r s : P Bool α} (h1 : c → Meets p r) (h2 : ¬c → Meets q s) :
    Meets (if c then p else q) (if c then r else s) := by
  split
  · exact h1 (by assumption)
  · exact h2 (by assumption)

theorem Meets.replicate {p : BC α} {r : P Bool α} (h : Meets p r) (n : Nat) : Meets (BC.replicate n p) (P.replicate n r) :=
  ⟨by rw [sem_replicate, h.sem], h.safe.replicate n⟩

/-- Return, if the reader is healthy. -/
def done (a : α) : BC α := healthy (BC.ret a)

theorem Meets.done (a : α) : Meets (BC.done a) (Pure.pure a) where
  sem := by funext bs; simp [BC.done, BC.sem, count]
  safe := fun _ => trivial

theorem Meets.checked {p : BC α} {r : P Bool α} (h : Meets p r) : Meets (BC.checked p) r := ⟨by rw [sem_checked, h.sem], h.safe.checked⟩

/-! ## Words of a prefix code -/

/-- A word of a code with a table of one level (c/dec/huffman_decode.cc:49-51). -/
def entry (m : Mem) (root : Nat) : BC Nat :=
  get root fun i =>
    match m i with
    | none => ub
    | some e => drop e.bits (BC.ret e.value)

/-- `HuffmanDecodingData::ReadSymbol` (c/dec/huffman_decode.cc:246-261). -/
def sym (m : Mem) (root : Nat) : BC Nat :=
  get root fun i =>
    match m i with
    | none => ub
    | some e =>
      if root < e.bits then
        drop root (get (e.bits - root) fun j =>
          match m (i + e.value + j) with
          | none => ub
          | some e2 => drop e2.bits (BC.ret e2.value))
      else drop e.bits (BC.ret e.value)

end BC

theorem ofBits_take_lt (bs : List Bool) (n : Nat) : ofBits (bs.take n) < 2 ^ n :=
  Nat.lt_of_lt_of_le (ofBits_lt _) (Nat.pow_le_pow_right (by decide) (by rw [List.length_take]; omega))

theorem ofBits_take_mod (bs : List Bool) {n k : Nat} (h : n ≤ k) : ofBits (bs.take k) % 2 ^ n = ofBits (bs.take n) := by
  by_cases hl : n ≤ bs.length
  · have e : bs.take k = bs.take n ++ (bs.drop n).take (k - n) := by
      have := List.take_append_drop n (bs.take k)
      rw [List.take_take, Nat.min_eq_left h, List.drop_take] at this
      exact this.symm
    rw [e, ofBits_append, List.length_take, Nat.min_eq_left hl, Nat.add_mul_mod_self_left, Nat.mod_eq_of_lt (ofBits_take_lt _ _)]
  · rw [List.take_of_length_le (by omega), List.take_of_length_le (by omega : bs.length ≤ n)]
    exact Nat.mod_eq_of_lt (Nat.lt_of_lt_of_le (ofBits_lt _) (Nat.pow_le_pow_right (by decide) (by omega)))

theorem ofBits_take_div (bs : List Bool) {n k : Nat} (h : n ≤ k) : ofBits (bs.take k) / 2 ^ n = ofBits ((bs.drop n).take (k - n)) := by
  by_cases hl : n ≤ bs.length
  · have e : bs.take k = bs.take n ++ (bs.drop n).take (k - n) := by
      have := List.take_append_drop n (bs.take k)
      rw [List.take_take, Nat.min_eq_left h, List.drop_take] at this
      exact this.symm
    rw [e, ofBits_append, List.length_take, Nat.min_eq_left hl, Nat.add_mul_div_left _ _ (Nat.two_pow_pos _),
      Nat.div_eq_of_lt (ofBits_take_lt _ _), Nat.zero_add]
  · rw [List.drop_eq_nil_of_le (by omega), List.take_nil, List.take_of_length_le (by omega)]
    exact Nat.div_eq_of_lt (Nat.lt_of_lt_of_le (ofBits_lt _) (Nat.pow_le_pow_right (by decide) (by omega)))

namespace BC

theorem Meets.entry {m : Mem} {root : Nat} (hr : root ≤ 15) (h : ∀ i < 2 ^ root, ∃ e, m i = some e ∧ e.bits ≤ root) :
    Meets (BC.entry m root) (readHuff m root) where
  sem := by
    funext bs
    obtain ⟨e, h1, h2⟩ := h _ (ofBits_take_lt bs root)
    unfold readHuff lookup
    rw [ofBits_take_mod bs hr, h1]
    simp only [BC.sem, BC.entry, count, h1]
    rw [if_neg (by omega)]
    rfl
  safe := fun bs => by
    obtain ⟨e, h1, h2⟩ := h _ (ofBits_take_lt bs root)
    refine ⟨by omega, ?_⟩
    simp only [h1]
    exact ⟨by omega, trivial⟩

theorem Meets.sym {m : Mem} {root : Nat} (hr : root ≤ 15) (h : Snug m root) : Meets (BC.sym m root) (readHuff m root) where
  sem := by
    funext bs
    obtain ⟨e, h1, h2⟩ := h _ (ofBits_take_lt bs root)
    unfold readHuff lookup
    rw [ofBits_take_mod bs hr, h1]
    simp only [BC.sem, BC.sym, count, h1]
    by_cases hb : root < e.bits
    · obtain ⟨h3, h4⟩ := h2 hb
      obtain ⟨e2, h5, h6⟩ := h4 _ (ofBits_take_lt (bs.drop root) (e.bits - root))
      rw [if_pos hb, if_pos hb]
      simp only [count, h5]
      rw [ofBits_take_div bs hr, ofBits_take_mod _ (by omega), h5]
      simp
    · rw [if_neg hb, if_neg hb]
      rfl
  safe := fun bs => by
    obtain ⟨e, h1, h2⟩ := h _ (ofBits_take_lt bs root)
    refine ⟨by omega, ?_⟩
    simp only [h1]
    by_cases hb : root < e.bits
    · obtain ⟨h3, h4⟩ := h2 hb
      obtain ⟨e2, h5, h6⟩ := h4 _ (ofBits_take_lt (bs.drop root) (e.bits - root))
      rw [if_pos hb]
      refine ⟨by omega, by omega, ?_⟩
      simp only [h5]
      exact ⟨by omega, trivial⟩
    · rw [if_neg hb]
      exact ⟨by omega, trivial⟩

/-! ## Descriptions of prefix codes -/

/-- A code length of the code length code (c/dec/huffman_decode.cc:216-220). -/
def clcWord : BC Nat :=
  get 4 fun i =>
    match clcTable[i]? with
    | none => ub
    | some e => drop e.1 (BC.ret e.2)

theorem clcTable_entry : ∀ i < 16, ∃ e, clcTable[i]? = some e ∧ e.1 ≤ 4 := by
  intro i hi
  have : ∀ i < 16, (match clcTable[i]? with | none => false | some e => decide (e.1 ≤ 4)) = true := by decide
  have := this i hi
  cases h : clcTable[i]? with
  | none => rw [h] at this; cases this
  | some e => rw [h] at this; exact ⟨e, rfl, by simpa using this⟩

theorem Meets.clcWord : Meets BC.clcWord readClcWord where
  sem := by
    funext bs
    obtain ⟨e, h1, h2⟩ := clcTable_entry _ (ofBits_take_lt bs 4)
    unfold readClcWord
    simp only [BC.sem, BC.clcWord, count, h1, List.getD_eq_getElem?_getD, Option.getD_some]
    rfl
  safe := fun bs => by
    obtain ⟨e, h1, h2⟩ := clcTable_entry _ (ofBits_take_lt bs 4)
    refine ⟨by omega, ?_⟩
    simp only [h1]
    exact ⟨by omega, trivial⟩

/-- The loop over the code length code (c/dec/huffman_decode.cc:214-226). -/
def clc : List Nat → List Nat → Nat → Nat → BC (List Nat × Nat × Nat)
  | [], cl, used, num => Pure.pure (cl, used, num)
  | o :: os, cl, used, num =>
    if used < 32 then do
      let v ← clcWord
      if v ≠ 0 then clc os (cl.set o v) (used + 32 / 2 ^ v) (num + 1) else clc os (cl.set o v) used num
    else Pure.pure (cl, used, num)

theorem Meets.clc : ∀ (os cl : List Nat) (used num : Nat), Meets (BC.clc os cl used num) (readClc os cl used num)
  | [], cl, used, num => Meets.pure _
  | o :: os, cl, used, num => by
    rw [BC.clc, readClc]
    exact Meets.ite (fun _ => Meets.clcWord.bind fun v _ => Meets.ite (fun _ => Meets.clc os _ _ _) fun _ => Meets.clc os _ _ _) fun _ => Meets.pure _

/-- The main loop of `ReadHuffmanCodeLengths` (c/dec/huffman_decode.cc:46-88). -/
def lens (m : Mem) (n : Nat) (st : CL) : BC CL :=
  if _h : st.lens.length < n ∧ st.used < 2 ^ 15 then
    entry m 5 >>= fun c =>
      if _hc : c < 16 then lens m n (st.lit c)
      else bits (c - 14) >>= fun b =>
        if _hn : (st.repeat c b).lens.length > n then BC.fail else lens m n (st.repeat c b)
  else BC.ret st
termination_by n - st.lens.length
decreasing_by
  · simp only [CL.lit, List.length_append, List.length_singleton]; omega
  · have := st.repeat_lens (c := c) (b := b) (by omega)
    omega

theorem Meets.lens {m : Mem} {n : Nat} (hm : Meets (BC.entry m 5) (readHuff m 5)) (h18 : ∀ bs c rest, readHuff m 5 bs = some (c, rest) → c < 18) :
    ∀ (k : Nat) (st : CL), n - st.lens.length = k → Meets (BC.lens m n st) (lensP m n st) := by
  intro k
  induction k using Nat.strongRecOn with
  | _ k ih =>
    intro st hk
    rw [readLens_eq, BC.lens]
    by_cases h : st.lens.length < n ∧ st.used < 2 ^ 15
    · rw [dif_pos h, if_pos h]
      refine hm.bind fun c hc => ?_
      obtain ⟨bs, rest, hc⟩ := hc
      have hc := h18 _ _ _ hc
      by_cases h16 : c < 16
      · rw [dif_pos h16, if_pos h16]
        refine ih _ ?_ _ rfl
        simp only [CL.lit, List.length_append, List.length_singleton]; omega
      · rw [dif_neg h16, if_neg h16]
        refine (Meets.bits (by omega)).bind fun b _ => ?_
        have := st.repeat_lens (c := c) (b := b) (by omega)
        by_cases hn : (st.repeat c b).lens.length > n
        · rw [dif_pos hn]
          refine ⟨?_, Safe.fail⟩
          rw [sem_fail]
          funext bs
          rw [bind_apply, guard_apply, if_neg (by omega)]; rfl
        · rw [dif_neg hn]
          have e : (P.guard (¬(st.repeat c b).lens.length > n) >>= fun _ => lensP m n (st.repeat c b)) = lensP m n (st.repeat c b) := by
            funext bs
            rw [bind_apply, guard_apply, if_pos hn]
          rw [e]
          exact ih _ (by omega) _ rfl
    · rw [dif_neg h, if_neg h]
      exact Meets.pure _

/-- `ReadHuffmanCodeLengths` (c/dec/huffman_decode.cc:27-94). -/
def codeLengths (cl : List Nat) (n : Nat) : BC (Option (List Nat)) :=
  match buildTable 32 5 cl with
  | none => BC.ret none
  | some (m, _) => do
    let st ← lens m n CL.init
    if st.used ≠ 2 ^ 15 then BC.fail else BC.done (some (st.lens ++ List.replicate (n - st.lens.length) 0))

theorem Meets.codeLengths {cl : List Nat} (n : Nat) (h1 : cl.length = 18) (h2 : ∀ l ∈ cl, l ≤ 5)
    (h : cl.countP (· ≠ 0) = 1 ∨ kraftLens 5 cl = 32) : Meets (BC.codeLengths cl n) (readCodeLengths cl n) := by
  obtain ⟨m, total, hb, _⟩ := clc_takes h1 h2 h
  obtain ⟨hs, ht⟩ := clc_snug h1 h2 h hb
  have hflat := buildTable_flat h2 hb
  have e : readCodeLengths cl n = (lensP m n CL.init >>= fun st => if st.used ≠ 2 ^ 15 then P.fail
      else Pure.pure (some (st.lens ++ List.replicate (n - st.lens.length) 0))) := by
    funext bs
    unfold readCodeLengths
    rw [hb, bind_apply]
    simp only [lensP]
    cases readLens m n CL.init bs with
    | none => rfl
    | some y =>
      obtain ⟨st, bs1⟩ := y
      simp only
      split <;> rfl
  rw [e, BC.codeLengths, hb]
  refine Meets.bind (Meets.lens (Meets.entry (by decide) fun i hi => ?_) (fun bs c rest hr => by
    obtain ⟨l, s, e1, _, e2⟩ := ht (ofBits (bs.take 15))
    unfold readHuff at hr
    rw [e1] at hr
    simp only at hr
    split at hr
    · cases hr; exact e2
    · cases hr) _ _ rfl) fun st _ => ?_
  · obtain ⟨e, he, _⟩ := hs i hi
    exact ⟨e, he, hflat i e he⟩
  · exact Meets.ite (fun _ => Meets.fail) fun _ => Meets.done _

/-- The part of `ReadFromBitStream` for codes that are not simple (c/dec/huffman_decode.cc:206-243). -/
def complex (n skip : Nat) : BC (Option Mem) :=
  clc (clcOrder.drop skip) (List.replicate 18 0) 0 0 >>= fun r =>
    check (r.2.2 = 1 ∨ r.2.1 = 32) >>= fun _ =>
      checked (codeLengths r.1 n) >>= fun l =>
        match l with
        | none => BC.ret none
        | some lens =>
          match buildTable (n + 376) 8 lens with
          | none => BC.ret none
          | some (m, total) => check (total > 0) >>= fun _ => BC.ret (some (copyTable m total))

theorem Meets.complex (n skip : Nat) : Meets (BC.complex n skip) (readComplex n skip) := by
  have hfacts : (clcOrder.drop skip).Nodup ∧ ∀ o ∈ clcOrder.drop skip, o < 18 := by
    have h1 : clcOrder.Nodup ∧ ∀ o ∈ clcOrder, o < 18 := by decide
    exact ⟨h1.1.sublist (List.drop_sublist _ _), fun o ho => h1.2 o (List.mem_of_mem_drop ho)⟩
  unfold BC.complex readComplex
  refine (Meets.clc _ _ _ _).bind fun r hr => ?_
  obtain ⟨bs, rest, hr⟩ := hr
  obtain ⟨a1, a2, a3, a4⟩ := readClc_ok _ _ _ _ _ _ _ hfacts.1 hfacts.2 (by
    intro o ho; rw [List.getD_eq_getElem?_getD, List.getElem?_replicate]; split <;> rfl) (by simp) (by simp) (by decide) (by decide) hr
  obtain ⟨cl, used, num⟩ := r
  simp only at a1 a2 a3 a4 ⊢
  refine Meets.check.bind fun _ hgo => ?_
  obtain ⟨bs2, rest2, hgo⟩ := hgo
  have hgo := (guard_some hgo).1
  refine (Meets.codeLengths n a1 a2 (by rw [← a4, ← a3]; exact hgo)).checked.bind fun l _ => ?_
  cases l with
  | none => exact Meets.ret _
  | some lens =>
    simp only
    cases buildTable (n + 376) 8 lens with
    | none => exact Meets.ret _
    | some y => exact Meets.check.bind fun _ _ => Meets.ret _

/-- The number of symbols of a simple code (c/dec/huffman_decode.cc:121-122). -/
def simpleCount (k : Nat) : BC Nat := if k + 1 = 4 then bits 1 >>= fun b => Pure.pure (4 + b) else Pure.pure (k + 1)

/-- `ReadSimpleCode` (c/dec/huffman_decode.cc:96-187). -/
def simple (n : Nat) : BC (Option Mem) := do
  let k ← bits 2
  let syms ← replicate (k + 1) (do
    let s ← bits (decMaxBits n)
    check (s < n)
    Pure.pure s)
  check syms.Nodup
  let num ← simpleCount k
  match simpleTable num syms with
  | none => BC.fail
  | some t => BC.done (doubleTable t)

theorem Meets.simple {n : Nat} (hn : n ≤ 2 ^ 15) : Meets (BC.simple n) (readSimple n) := by
  have hd := decMaxBits_le hn
  unfold BC.simple readSimple
  refine (Meets.bits (by decide)).bind fun k _ => ?_
  refine (Meets.replicate ((Meets.bits (by omega)).bind fun s _ => Meets.check.bind fun _ _ => Meets.pure _) _).bind fun syms _ => ?_
  refine Meets.check.bind fun _ _ => ?_
  refine Meets.bind ?_ fun num _ => ?_
  · unfold simpleCount simpleNum
    exact Meets.ite (fun _ => (Meets.bits (by decide)).bind fun b _ => Meets.pure _) fun _ => Meets.pure _
  · cases simpleTable num syms with
    | none => exact Meets.fail
    | some t => exact Meets.done _

/-- `HuffmanDecodingData::ReadFromBitStream` (c/dec/huffman_decode.cc:189-244). -/
def code (n : Nat) : BC (Option Mem) :=
  check (n ≤ 2 ^ 15) >>= fun _ => bits 2 >>= fun skip => if skip = 1 then simple n else complex n skip

theorem Meets.code (n : Nat) : Meets (BC.code n) (readCode n) := by
  unfold BC.code readCode
  refine Meets.check.bind fun _ hn => (Meets.bits (by decide)).bind fun skip _ => Meets.ite (fun _ => ?_) fun _ => Meets.complex n skip
  obtain ⟨_, _, hn⟩ := hn
  exact Meets.simple (guard_some hn).1

/-! ## Histograms -/

/-- `ReadShortHuffmanCode` (c/dec/histogram_decode.cc:28-36). -/
def walk (tree : List Int) : Nat → Nat → Nat → BC (Option Nat)
  | 0, _, _ => Pure.pure none
  | fuel + 1, pos, delta => bits 1 >>= fun b =>
    match tree[pos + (delta + b)]? with
    | none => Pure.pure none
    | some d => if d > 0 then walk tree fuel (pos + (delta + b)) d.toNat else Pure.pure (some (-d).toNat)

theorem Meets.walk (tree : List Int) : ∀ fuel pos delta, Meets (BC.walk tree fuel pos delta) (walkTree tree fuel pos delta)
  | 0, _, _ => Meets.pure _
  | fuel + 1, pos, delta => by
    rw [BC.walk, walkTree]
    refine (Meets.bits (by decide)).bind fun b _ => ?_
    cases tree[pos + (delta + b)]? with
    | none => exact Meets.pure _
    | some d => exact Meets.ite (fun _ => Meets.walk tree fuel _ _) fun _ => Meets.pure _

/-- The same from the root. -/
def short (tree : List Int) : BC (Option Nat) := walk tree tree.length 0 1

/-- `log_counts` (c/dec/histogram_decode.cc:74-76). -/
def logs : Nat → BC (Option (List Nat))
  | 0 => Pure.pure (some [])
  | n + 1 => short logTree >>= fun l =>
    match l with
    | none => Pure.pure none
    | some l => logs n >>= fun r =>
      match r with
      | none => Pure.pure none
      | some r => Pure.pure (some (l :: r))

theorem Meets.logs : ∀ n, Meets (BC.logs n) (readLogs n)
  | 0 => Meets.pure _
  | n + 1 => by
    rw [BC.logs, readLogs]
    refine (Meets.walk logTree _ _ _).bind fun l _ => ?_
    cases l with
    | none => exact Meets.pure _
    | some l =>
      refine (Meets.logs n).bind fun r _ => ?_
      cases r <;> exact Meets.pure _

/-- One count (c/dec/histogram_decode.cc:84-92). -/
def oneCount (code : Nat) : BC Nat :=
  if code = 0 then Pure.pure 0
  else if code = 1 then Pure.pure 1
  else bits (precision (code - 1)) >>= fun b => Pure.pure (2 ^ (code - 1) + b * 2 ^ (code - 1 - precision (code - 1)))

/-- One count, except for that at `om` (c/dec/histogram_decode.cc:81-84). -/
def countAt (om i code : Nat) : BC Nat := if i = om then Pure.pure 0 else oneCount code

/-- The counts (c/dec/histogram_decode.cc:80-94). -/
def counts (om : Nat) : Nat → List Nat → BC (List Nat)
  | _, [] => Pure.pure []
  | i, code :: codes => do
    let c ← countAt om i code
    let r ← counts om (i + 1) codes
    Pure.pure (c :: r)

theorem Meets.counts (om : Nat) : ∀ (i : Nat) (codes : List Nat), (∀ c ∈ codes, c ≤ 10) → Meets (BC.counts om i codes) (readCounts om i codes)
  | _, [], _ => Meets.pure _
  | i, code :: codes, h => by
    rw [BC.counts, readCounts]
    have hc := h code List.mem_cons_self
    refine Meets.bind ?_ fun c _ => (Meets.counts om (i + 1) codes fun c hc => h c (List.mem_cons_of_mem _ hc)).bind fun r _ => Meets.pure _
    unfold readCountAt readCount countAt oneCount
    refine Meets.ite (fun _ => Meets.pure _) fun _ => Meets.ite (fun _ => Meets.pure _) fun _ => Meets.ite (fun _ => Meets.pure _) fun _ => ?_
    refine (Meets.bits ?_).bind fun b _ => Meets.pure _
    unfold precision; omega

/-- The general form (c/dec/histogram_decode.cc:68-101). -/
def longHist : BC (Option (List Nat)) :=
  short lengthTree >>= fun len =>
    match len with
    | none => Pure.pure none
    | some len => logs len >>= fun ls =>
      match ls with
      | none => Pure.pure none
      | some ls => do
        let cs ← counts (omitPos ls) 0 ls
        check (cs.sum < 1024)
        if len ≤ 18 then Pure.pure (some (cs.set (omitPos ls) (1024 - cs.sum) ++ List.replicate (18 - len) 0)) else Pure.pure none

theorem Meets.longHist : Meets BC.longHist readLongHistogram := by
  unfold BC.longHist readLongHistogram
  refine (Meets.walk lengthTree _ _ _).bind fun len _ => ?_
  cases len with
  | none => exact Meets.pure _
  | some len =>
    refine (Meets.logs len).bind fun ls hls => ?_
    obtain ⟨bs, rest, hls⟩ := hls
    obtain ⟨⟨logs, e, _, h10⟩, _⟩ := (readLogs_takes len).res _ _ _ hls
    cases e
    exact (Meets.counts _ _ _ h10).bind fun cs _ => Meets.check.bind fun _ _ => Meets.ite (fun _ => Meets.pure _) fun _ => Meets.pure _

/-- The form for at most two symbols (c/dec/histogram_decode.cc:48-67). -/
def shortHist : BC (List Nat) := do
  let k ← bits 1
  if k = 0 then do
    let a ← bits 5
    Pure.pure ((List.replicate 18 0).set (a % 18) 1024)
  else do
    let a ← bits 5
    let b ← bits 5
    check (a % 18 ≠ b % 18)
    let v ← bits 10
    Pure.pure (((List.replicate 18 0).set (a % 18) v).set (b % 18) (1024 - v))

theorem Meets.shortHist : Meets BC.shortHist readShortHistogram := by
  unfold BC.shortHist readShortHistogram
  refine (Meets.bits (by decide)).bind fun k _ => Meets.ite (fun _ => (Meets.bits (by decide)).bind fun a _ => Meets.pure _) fun _ => ?_
  exact (Meets.bits (by decide)).bind fun a _ => (Meets.bits (by decide)).bind fun b _ => Meets.check.bind fun _ _ =>
    (Meets.bits (by decide)).bind fun v _ => Meets.pure _

/-- `ReadHistogram` (c/dec/histogram_decode.cc:40-104). -/
def hist : BC (Option (List Nat)) := checked (bits 1 >>= fun s => if s = 1 then shortHist >>= fun h => Pure.pure (some h) else longHist)

theorem Meets.hist : Meets BC.hist readHistogram := by
  unfold BC.hist readHistogram
  exact ((Meets.bits (by decide)).bind fun s _ => Meets.ite (fun _ => Meets.shortHist.bind fun h _ => Meets.pure _) fun _ => Meets.longHist).checked

end BC

/-- What is read between two tests, as a user of the bit reader. -/
def Prim.client : (q : Prim) → BC q.Out
  | .bits n => BC.bits n
  | .code n => BC.code n
  | .sym m => BC.sym m 8
  | .hist => BC.hist

/-- Reads that the bit reader can serve: not too many bits at once, and only tables that were built. -/
def Prim.Sound : Prim → Prop
  | .bits n => n ≤ 24
  | .sym m => Snug m 8
  | _ => True

theorem Prim.client_meets {q : Prim} (h : q.Sound) : BC.Meets q.client q.run := by
  cases q with
  | bits n => exact BC.Meets.bits h
  | code n => exact BC.Meets.code n
  | sym m => exact BC.Meets.sym (by decide) h
  | hist => exact BC.Meets.hist

end Brunsli
