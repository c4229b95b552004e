import Verif.DataStream
import Verif.Prob
import Verif.BitIO
import Verif.Section
import Verif.Varint
/-!
# Properties C01 - C07: the low-level coders
-/

namespace Brunsli

/-! ## C01: the multiplexed stream -/

/-- What a decoder asks for: a symbol in a context, a group of bits, a bit of given probability. -/
inductive Req where
  | code (ctx : Nat)
  | bits (n : Nat)
  | bit (prob : Nat)
deriving DecidableEq, Repr

/-- The request that matches an encoder call. -/
def Op.req : Op → Req
  | .code c _ => .code c
  | .bits n _ => .bits n
  | .bit p _ => .bit p

/-- The value carried by an encoder call. -/
def Op.val : Op → Nat
  | .code _ s => s
  | .bits _ v => v
  | .bit _ b => b.toNat

/-- The decoder that makes the given requests and returns the answers. -/
def ask : List Req → Prog (List Nat)
  | [] => .ret []
  | .code c :: rs => .code c fun s => (ask rs).bind fun l => .ret (s :: l)
  | .bits n :: rs => .bits n fun v => (ask rs).bind fun l => .ret (v :: l)
  | .bit p :: rs => .bit p fun b => (ask rs).bind fun l => .ret (b.toNat :: l)

/-- A call the encoder makes: a symbol with a positive count in a histogram normalised to 1024; at
most 16 bits of value; an 8-bit probability. -/
def Op.Legal (tabs : Nat → List Nat) : Op → Prop
  | .code c s => (tabs c).sum = 1024 ∧ 0 < (tabs c).getD s 0
  | .bits n v => n ≤ 16 ∧ v < 2 ^ n
  | .bit p _ => p < 256

/-- 16-bit words as bytes, low byte first (`BRUNSLI_UNALIGNED_STORE16LE`, c/enc/brunsli_encode.cc:711-718). -/
def wordBytes : List Nat → List Nat
  | [] => []
  | w :: ws => w % 256 :: w / 256 % 256 :: wordBytes ws

/-- `WordSource` (c/dec/brunsli_input.h:21-36): the words of a byte string; an odd last byte is ignored. -/
def bytesWords : List Nat → List Nat
  | a :: b :: bs => (a + 256 * b) :: bytesWords bs
  | _ => []

theorem bytesWords_wordBytes {ws : List Nat} (h : ∀ w ∈ ws, w < 65536) :
    bytesWords (wordBytes ws) = ws := by
  induction ws with
  | nil => rfl
  | cons w ws ih =>
    have hw := h w (by simp)
    simp only [wordBytes, bytesWords, ih (fun w hw => h w (by simp [hw]))]
    congr 1
    omega

theorem Op.Legal.ok {tabs : Nat → List Nat} {op : Op} (h : op.Legal tabs) :
    op.Ok (fun c => ansMap (tabs c)) tabs := by
  cases op with
  | code c s =>
    obtain ⟨h1, h2⟩ := h
    refine ⟨h2, rfl, ?_⟩
    unfold ansMap
    simp [ansMapFrom_length, h1]
  | bits n v => exact h
  | bit p b => exact h

theorem ask_feed (ops rest : List Op) : (ask (ops.map Op.req)).feed (ops ++ rest) = some (ops.map Op.val, rest) := by
  induction ops with
  | nil => rfl
  | cons op ops ih =>
    have hb : ∀ (f : List Nat → List Nat),
        ((ask (ops.map Op.req)).bind fun l => Prog.ret (f l)).feed (ops ++ rest) = some (f (ops.map Op.val), rest) := by
      intro f
      have := Prog.feed_bind (ask (ops.map Op.req)) (fun l => Prog.ret (f l)) (ops ++ rest)
      rw [ih] at this
      exact this
    cases op with
    | code c s => simp [Op.req, ask, Prog.feed, Op.val, hb]
    | bits n v => simp [Op.req, ask, Prog.feed, Op.val, hb]
    | bit p b => simp [Op.req, ask, Prog.feed, Op.val, hb]

/-- **C01.** For every sequence of legal calls, in any interleaving, the encoder produces a word
stream; written as bytes it is decoded, by a decoder that makes the matching requests, to exactly
the values of the calls.  `decodeWords` accepts only if all words are consumed, the ANS state has
returned to its signature value and the padding bits are zero. -/
theorem C01_stream_roundtrip (tabs : Nat → List Nat) (ops : List Op) (h : ∀ op ∈ ops, op.Legal tabs) :
    ∃ ws, encodeWords tabs ops = some ws ∧ (∀ w ∈ ws, w < 65536) ∧
      decodeWords (fun c => ansMap (tabs c)) (ask (ops.map Op.req)) (bytesWords (wordBytes ws))
        = some (ops.map Op.val) := by
  have hok : ∀ op ∈ ops, op.Ok (fun c => ansMap (tabs c)) tabs := fun op ho => (h op ho).ok
  have hf : (ask (ops.map Op.req)).feed ops = some (ops.map Op.val, []) := by
    have := ask_feed ops []
    simpa using this
  obtain ⟨ws, e1, e2⟩ := decodeWords_encodeWords hf hok
  have hlt := encodeWords_lt hok e1
  exact ⟨ws, e1, hlt, by rw [bytesWords_wordBytes hlt]; exact e2⟩

/-- C01 for decoders whose requests depend on what they have decoded (the real DC and AC decoders):
whatever such a decoder would return when answered with the values of the calls, it returns on the
bytes of the stream. -/
theorem C01_adaptive_decoder {α : Type} (tabs : Nat → List Nat) (ops : List Op) (p : Prog α) (a : α)
    (h : ∀ op ∈ ops, op.Legal tabs) (hf : p.feed ops = some (a, [])) :
    ∃ ws, encodeWords tabs ops = some ws ∧
      decodeWords (fun c => ansMap (tabs c)) p (bytesWords (wordBytes ws)) = some a := by
  have hok : ∀ op ∈ ops, op.Ok (fun c => ansMap (tabs c)) tabs := fun op ho => (h op ho).ok
  obtain ⟨ws, e1, e2⟩ := decodeWords_encodeWords hf hok
  exact ⟨ws, e1, by rw [bytesWords_wordBytes (encodeWords_lt hok e1)]; exact e2⟩

/-- Non-vacuity: an interleaving of the three kinds with a three-symbol histogram. -/
example : ∀ op ∈ [Op.code 0 2, .bit 134 true, .bits 5 19, .code 1 0, .bits 16 65535, .bit 0 false, .bit 255 true],
    op.Legal (fun _ => [1000, 0, 24]) := by
  intro op hop
  simp only [List.mem_cons, List.not_mem_nil, or_false] at hop
  rcases hop with h | h | h | h | h | h | h <;> subst h <;> simp [Op.Legal]

/-! ## C02: ANS alone -/

/-- The decoder that reads `n` symbols in context 0. -/
def askSymbols : Nat → Prog (List Nat)
  | 0 => .ret []
  | n + 1 => .code 0 fun s => (askSymbols n).bind fun l => .ret (s :: l)

theorem askSymbols_eq (syms : List Nat) :
    askSymbols syms.length = ask ((syms.map (Op.code 0)).map Op.req) := by
  induction syms with
  | nil => rfl
  | cons s syms ih => simp only [List.length_cons, askSymbols, ih, List.map_cons, Op.req, ask]

/-- **C02.** Any list of symbols, each with a positive count in a histogram summing to 1024, is
decoded from the words the encoder produced; the decoder's final check is that its state is the
signature value again. -/
theorem C02_ans_roundtrip (counts syms : List Nat) (hsum : counts.sum = 1024)
    (hpos : ∀ s ∈ syms, 0 < counts.getD s 0) :
    ∃ ws, encodeWords (fun _ => counts) (syms.map (Op.code 0)) = some ws ∧
      decodeWords (fun _ => ansMap counts) (askSymbols syms.length) ws = some syms := by
  have hleg : ∀ op ∈ syms.map (Op.code 0), op.Legal (fun _ => counts) := by
    intro op hop
    obtain ⟨s, hs, rfl⟩ := List.mem_map.1 hop
    exact ⟨hsum, hpos s hs⟩
  obtain ⟨ws, e1, e2, e3⟩ := C01_stream_roundtrip (fun _ => counts) (syms.map (Op.code 0)) hleg
  refine ⟨ws, e1, ?_⟩
  rw [bytesWords_wordBytes e2, ← askSymbols_eq] at e3
  rw [e3]
  simp [List.map_map, Function.comp_def, Op.val]

/-- The slots of a stream of symbols only. -/
theorem slotsRest_codes (e : ESt) (syms : List Nat) :
    slotsRest e (syms.map (Op.code 0)) = ⟨e.bwVal % 65536, e.high / 65536, e.high % 65536, syms.map (Slot.sym 0)⟩ := by
  induction syms with
  | nil => rfl
  | cons s syms ih => simp [slotsRest, ih]

theorem askSymbols_run (counts : List Nat) (map : List SymInfo) (hmap : ansMap counts = some map) (n : Nat) : ∀ (d d' : DecSt) (ws : List Nat)
    (syms : List Nat), AnsOk d.ans → (∀ w ∈ ws, w < 65536) →
    (askSymbols n).run (fun _ => some map) d ws = some (syms, d', []) →
    d' = { d with ans := d'.ans } ∧ syms.length = n ∧ (d'.ans = ansInitState → ansPass (fun _ => counts) (syms.map (Slot.sym 0)) = some (d.ans, ws)) := by
  induction n with
  | zero =>
    intro d d' ws syms _ _ h
    simp only [askSymbols, Prog.run, Option.some.injEq, Prod.mk.injEq] at h
    obtain ⟨rfl, rfl, rfl⟩ := h
    exact ⟨rfl, rfl, fun h => by simp [ansPass, h]⟩
  | succ n ih =>
    intro d d' ws syms hd hws h
    simp only [askSymbols, Prog.run, decCode] at h
    rcases hr : readSymbol map d.ans ws with _ | ⟨s, x, ws'⟩
    · rw [hr] at h; simp at h
    rw [hr] at h
    simp only at h
    obtain ⟨h1, hf, w, h2, h3⟩ := ans_inverse' hmap hd hws hr
    have hrb := Prog.run_bind (fun _ => some map) (askSymbols n) (fun l => Prog.ret (s :: l)) { d with ans := x } ws'
    have hrb' : ((askSymbols n).bind fun l => Prog.ret (s :: l)).run (fun _ => some map) { d with ans := x } ws' = _ := hrb
    rw [hrb'] at h
    rcases hq : (askSymbols n).run (fun _ => some map) { d with ans := x } ws' with _ | ⟨l, d2, ws2⟩
    · rw [hq] at h; simp at h
    rw [hq] at h
    simp only [Prog.run, Option.some.injEq, Prod.mk.injEq] at h
    obtain ⟨rfl, rfl, rfl⟩ := h
    obtain ⟨e1, e2, e3⟩ := ih { d with ans := x } d2 ws' l h1 (fun w hw => hws w (by rw [h2]; simp [hw])) hq
    refine ⟨by rw [e1], by simp [e2], fun hfin => ?_⟩
    simp only [List.map_cons, ansPass]
    rw [e3 hfin]
    simp only [h3, h2]

/-- **C02 (signature check)**: the decoder accepts no other words than those the encoder produces for the symbols it returns (of a stream of symbols
only, whose first word is not zero; the two words of the unused arithmetic coder are not looked at). -/
theorem C02_only_encoded_words (counts : List Nat) (hsum : counts.sum = 1024) (n w0 w1 w2 w3 w4 : Nat) (ws syms : List Nat) (h0 : 0 < w0)
    (hw : ∀ w ∈ w0 :: w1 :: w2 :: w3 :: w4 :: ws, w < 65536)
    (h : decodeWords (fun _ => ansMap counts) (askSymbols n) (w0 :: w1 :: w2 :: w3 :: w4 :: ws) = some syms) :
    encodeWords (fun _ => counts) (syms.map (Op.code 0)) = some (w0 :: w1 :: 0 :: 65535 :: 65535 :: ws) ∧ w2 = 0 ∧ syms.length = n := by
  have hm : ansMap counts = some (ansMapFrom 0 counts) := by
    unfold ansMap; simp [ansMapFrom_length, hsum]
  have b0 := hw w0 (by simp)
  have b1 := hw w1 (by simp)
  have b2 := hw w2 (by simp)
  rw [hm] at h
  simp only [decodeWords, decInit] at h
  split at h
  · rename_i a d' hr
    have hd : AnsOk (w0 * 65536 + w1) := ⟨by omega, by omega⟩
    obtain ⟨e1, e2, e3⟩ := askSymbols_run counts _ hm n _ d' ws a hd (fun w hx => hw w (by simp [hx])) hr
    split at h
    · rename_i hfin
      simp only [Option.some.injEq] at h
      subst h
      rw [decFinish, Bool.and_eq_true, decide_eq_true_eq, decide_eq_true_eq] at hfin
      obtain ⟨f1, f2⟩ := hfin
      rw [e1] at f2
      simp only [Nat.pow_zero, Nat.div_one, Nat.sub_zero] at f2
      refine ⟨?_, by omega, e2⟩
      rw [encodeWords, slots_eq, slotsRest_codes]
      simp only [ansPass, e3 f1, DS.init, DS.est, Option.some.injEq, List.cons.injEq]
      refine ⟨by omega, by omega, trivial⟩
    · simp at h
  · simp at h

example : decodeWords (fun _ => ansMap [1, 511, 0, 512]) (askSymbols 3) [152, 21259, 0, 65535, 65535]  = some [3, 1, 3] := by decide +kernel

/-- One step of the coder is undone by one step of the decoder, from any reachable state. -/
theorem C02_ans_step (counts : List Nat) (s state : Nat) (hsum : counts.sum = 1024)
    (hpos : 0 < counts.getD s 0) (h1 : 65536 ≤ state) (h2 : state < 2 ^ 32) :
    ∃ map x w, ansMap counts = some map ∧
      putSymbol (ansFreq counts s) (ansStart counts s) state = some (x, w) ∧
      65536 ≤ x ∧ x < 2 ^ 32 ∧ ∀ ws, readSymbol map x (w.toList ++ ws) = some (s, state, ws) := by
  have hm : ansMap counts = some (ansMapFrom 0 counts) := by
    unfold ansMap; simp [ansMapFrom_length, hsum]
  obtain ⟨x, w, e1, e2, e3⟩ := ans_inverse (s := s) (state := state) hm hpos ⟨h1, h2⟩
  exact ⟨_, x, w, hm, e1, e2.1, e2.2, e3⟩

example : ([1, 511, 0, 512] : List Nat).sum = 1024 ∧
    ∀ s ∈ [3, 0, 1, 1, 3], 0 < ([1, 511, 0, 512] : List Nat).getD s 0 := by decide

/-! ## C03: adaptive binary decisions -/

/-- The calls made for a sequence of decisions coded with one adaptive probability
(`AddBit(&prob, bit)`, c/enc/brunsli_encode.cc:673-694: the old probability is used, then updated). -/
def adaptiveOps (p : Prob) : List Bool → List Op
  | [] => []
  | b :: bs => .bit p.prob8 b :: adaptiveOps (p.upd b) bs

/-- The decoder for `n` decisions (`ReadBit(p.get_proba()); p.Add(bit)`); it also returns its final
probability state. -/
def adaptiveProg (p : Prob) : Nat → Prog (List Bool × Prob)
  | 0 => .ret ([], p)
  | n + 1 => .bit p.prob8 fun b => (adaptiveProg (p.upd b) n).bind fun r => .ret (b :: r.1, r.2)

theorem adaptive_feed (bs : List Bool) : ∀ p : Prob, ∀ rest,
    (adaptiveProg p bs.length).feed (adaptiveOps p bs ++ rest) = some ((bs, bs.foldl Prob.upd p), rest) := by
  induction bs with
  | nil => intro p rest; rfl
  | cons b bs ih =>
    intro p rest
    simp only [List.length_cons, adaptiveProg, adaptiveOps, List.cons_append, Prog.feed, if_true,
      List.foldl_cons]
    have := Prog.feed_bind (adaptiveProg (p.upd b) bs.length) (fun r => Prog.ret (b :: r.1, r.2))
      (adaptiveOps (p.upd b) bs ++ rest)
    rw [ih] at this
    exact this

theorem adaptiveOps_ok (bs : List Bool) : ∀ p : Prob, p.Ok → ∀ op ∈ adaptiveOps p bs,
    op.Legal (fun _ => []) := by
  induction bs with
  | nil => intro p _ op hop; simp [adaptiveOps] at hop
  | cons b bs ih =>
    intro p hp op hop
    simp only [adaptiveOps, List.mem_cons] at hop
    rcases hop with h | h
    · subst h; exact hp.1
    · exact ih _ (Prob.upd_ok hp b) op h

/-- **C03.** Starting from any valid probability state, any sequence of decisions is decoded to the
same decisions, and the decoder's probability state ends equal to the encoder's. -/
theorem C03_arith_roundtrip (p : Prob) (hp : p.Ok) (bs : List Bool) :
    ∃ ws, encodeWords (fun _ => []) (adaptiveOps p bs) = some ws ∧
      decodeWords (fun _ => none) (adaptiveProg p bs.length) ws = some (bs, bs.foldl Prob.upd p) := by
  have hf := adaptive_feed bs p []
  rw [List.append_nil] at hf
  refine decodeWords_encodeWords hf ?_
  intro op hop
  have h := adaptiveOps_ok bs p hp op hop
  revert h hop
  cases op with
  | code c s => intro _ h; simp [Op.Legal] at h
  | bits n v => intro _ h; exact h
  | bit q b => intro _ h; exact h

example : Prob.default.Ok ∧ (Prob.init 0).Ok ∧ (Prob.init 255).Ok := by decide

/-! ## C04: probability states -/

/-- **C04.** After any history of bits from the default state or from `Init` of any 8-bit value, the
probability is an 8-bit value; no update leaves the division table, and neither counter
overflows its type. -/
theorem C04_prob_in_range (p₀ : Prob) (h₀ : p₀ = Prob.default ∨ ∃ q < 256, p₀ = Prob.init q)
    (bs : List Bool) :
    ∃ p, p₀.addAll bs = some p ∧ p.prob8 < 256 ∧
      ∀ b, ∃ p', p.add b = some p' ∧ p.total + 1 < 2 ^ 8 ∧ p.count + (if b then 1 else 256) < 2 ^ 16 ∧
        (p.count + (if b then 1 else 256)) * (2 ^ 17 / (p.total + 1)) < 2 ^ 32 ∧
        p'.prob8 = (p.count + (if b then 1 else 256)) * (2 ^ 17 / (p.total + 1)) / 2 ^ 17 := by
  have hok : p₀.Ok := by
    rcases h₀ with h | ⟨q, hq, h⟩
    · rw [h]; exact Prob.default_ok
    · rw [h]; exact Prob.init_ok hq
  obtain ⟨p, e, o⟩ := Prob.addAll_ok bs hok
  refine ⟨p, e, o.1, fun b => ?_⟩
  obtain ⟨p', e', o', a1, a2⟩ := p.add_ok o b
  refine ⟨p', e', a1, a2, ?_⟩
  obtain ⟨o1, o2, o3, o4⟩ := o
  have hi : (p.count + if b then 1 else 256) < 256 * (p.total + 1) := by
    cases b <;> simp <;> omega
  obtain ⟨f1, f2, f3⟩ := fastDivide_spec (num := p.count + if b then 1 else 256) (den := p.total + 1)
    (by omega) (by omega) hi
  refine ⟨f3, ?_⟩
  unfold Prob.add at e'
  rw [Nat.mod_eq_of_lt (show p.total + 1 < 2 ^ 8 from a1), Nat.mod_eq_of_lt a2] at e'
  simp only [f1] at e'
  split at e' <;> (cases e'; rfl)

example : ((Prob.init 255).addAll (List.replicate 300 false)).map (·.total) = some 176 := by decide +kernel

/-! ## C05: base-128 numbers and section lengths -/

/-- **C05 (1).** A value below `2^63` in the shortest form is read back, consuming exactly its bytes. -/
theorem C05_base128_roundtrip (val : Nat) (h : val < 2 ^ 63) (rest : List Nat) :
    decodeBase128 (encodeBase128 val ++ rest) = .ok val rest := by
  have := decodeLoop_encode 9 val 0 0 rest (by simp) h (by omega)
  simpa [decodeBase128] using this

/-- **C05 (2).** The fixed-width form, for every width 1..9 that can hold the value. -/
theorem C05_base128_fix_roundtrip (val len : Nat) (h : val < 2 ^ (7 * len)) (h1 : 0 < len) (h9 : len ≤ 9)
    (rest : List Nat) : decodeBase128 (encodeBase128Fix val len ++ rest) = .ok val rest := by
  have := decodeLoop_encodeFix len 9 val 0 0 rest (by simp) h h1 h9
  simpa [decodeBase128] using this

/-- **C05 (3).** A section is written only if its length fits the reserved width; otherwise the encoder
fails. -/
theorem C05_section_too_large (tag k : Nat) (p : List Nat) :
    encodeSection tag k (some p) = none ↔ 2 ^ (7 * k) ≤ p.length := encodeSection_none

/-- **C05 (4).** A written section is found again, with exactly its payload, by the decoder and by the
section skipper. -/
theorem C05_section_frame (tag k : Nat) (p s rest met : List Nat) (hk : 0 < k) (hk9 : k ≤ 9)
    (h1 : 0 < tag) (h2 : tag ≤ 15) (h3 : tag ∉ met) (h : encodeSection tag k (some p) = some s) :
    ∃ s', readTag met (s ++ rest) = .ok (tag, true, tag :: met) s' ∧
      decodeBase128 s' = .ok p.length (p ++ rest) ∧ skipSection (s ++ rest) = some rest := by
  obtain ⟨a, b, _, d⟩ := encodeSection_frame (rest := rest) hk hk9 h1 h2 h3 h
  exact ⟨_, a, b, d⟩

/-- **C05 (5).** Nine bytes with continuation bits are rejected, whatever follows. -/
theorem C05_unterminated_rejected (bs rest : List Nat) (hl : bs.length = 9) (h : ∀ b ∈ bs, 128 ≤ b ∧ b < 256) :
    decodeBase128 (bs ++ rest) = .invalid := by
  have key : ∀ (n : Nat) (bs : List Nat) (i v : Nat), bs.length = n → (∀ b ∈ bs, 128 ≤ b ∧ b < 256) →
      decodeBase128Loop n i v (bs ++ rest) = .invalid := by
    intro n
    induction n with
    | zero => intro bs i v _ _; rfl
    | succ n ih =>
      intro bs i v hl h
      cases bs with
      | nil => simp at hl
      | cons b bs =>
        obtain ⟨hb1, hb2⟩ := h b (by simp)
        simp only [List.cons_append, decodeBase128Loop]
        rw [if_neg (by omega)]
        exact ih bs _ _ (by simpa using hl) (fun b hb => h b (by simp [hb]))
  exact key 9 bs 0 0 hl h

/-- **C05 (6).** A decoded length is below `2^63`, so it never wraps a 64-bit size. -/
theorem C05_decoded_lt (bs rest : List Nat) (v : Nat) (h : decodeBase128 bs = .ok v rest) : v < 2 ^ 63 := by
  have := decodeLoop_lt 9 0 0 bs rest v (by simp) h
  simpa using this

/-- **C05 (7).** A truncated length asks for more input; it is neither accepted nor rejected. -/
theorem C05_truncated (bs p q rest : List Nat) (v : Nat) (h : decodeBase128 bs = .ok v rest) (hb : bs = p ++ q)
    (hq : rest.length < q.length) : decodeBase128 p = .needMore := by
  subst hb
  exact decodeLoop_prefix 9 0 0 p q v rest h (by simp; omega) hq

example : encodeBase128 300 = [172, 2] ∧ encodeBase128Fix 300 3 = [172, 130, 0] ∧
    (encodeSection 4 1 (some [7, 8])) = some [34, 2, 7, 8] := by decide +kernel

/-! ## C06: bit-level variable-length integers -/

/-- **C06 (1).** `EncodeVarint` / `DecodeVarint`, any bit limit. -/
theorem C06_varint (maxBits n : Nat) (h : n < 2 ^ maxBits) (rest : List Bool) :
    decodeVarint maxBits (encodeVarint maxBits n ++ rest) = some (n, rest) :=
  decodeVarint_reads h rest

/-- **C06 (2).** `EncodeLimitedVarint` / `DecodeLimitedVarint`, any packet size and count. -/
theorem C06_limited_varint (nbits maxSymbols n : Nat) (h : n < 2 ^ (maxSymbols * nbits)) (rest : List Bool) :
    decodeLimitedVarint nbits maxSymbols (encodeLimitedVarint nbits maxSymbols n ++ rest) = some (n, rest) :=
  decodeLimitedVarint_reads h rest

/-- **C06 (3).** `StoreVarLenUint8` / `DecodeVarLenUint8`. -/
theorem C06_varlen_uint8 (n : Nat) (h : n < 256) (rest : List Bool) :
    decodeVarLenUint8 (storeVarLenUint8 n ++ rest) = some (n, rest) :=
  decodeVarLenUint8_reads h rest

example : (12345 : Nat) < 2 ^ 16 ∧ (1000000 : Nat) < 2 ^ (3 * 8) := by decide

/-! ## C07: bit writer and bit reader -/

/-- **C07 (1).** Groups of bits (each of at most 24 bits) written to a buffer with arbitrary previous
contents are read back, in order, from the used bytes; afterwards the reader is healthy, has consumed
every byte, and the padding check succeeds. -/
theorem C07_write_read (buf : List Nat) (ws : List (Nat × Nat)) (s₀ : Storage)
    (hbuf : Bytes buf) (h₀ : Storage.mk' buf = some s₀)
    (hws : ∀ w ∈ ws, w.1 ≤ 24 ∧ w.2 < 2 ^ w.1)
    (hroom : (ws.map Prod.fst).sum / 8 + 8 ≤ buf.length) :
    ∃ s, s₀.writes ws = some s ∧
      let out := s.data.take s.bytesUsed
      out.length = ((ws.map Prod.fst).sum + 7) / 8 ∧
      (BR.init.reads out (ws.map Prod.fst)).1 = ws.map Prod.snd ∧
      (BR.init.reads out (ws.map Prod.fst)).2.isHealthy = true ∧
      (BR.init.reads out (ws.map Prod.fst)).2.unused out = 0 ∧
      ((BR.init.reads out (ws.map Prod.fst)).2.unload.finish out).isHealthy = true := by
  have hlen : ∀ ws : List (Nat × Nat), writesLen ws = (ws.map Prod.fst).sum := by
    intro ws
    induction ws with
    | nil => rfl
    | cons w ws ih => simp [writesLen, ih]
  have hdl : s₀.data.length = buf.length := by
    unfold Storage.mk' at h₀
    split at h₀
    · cases h₀
    · simp only [Option.some.injEq] at h₀; subst h₀; simp
  obtain ⟨i0, p0⟩ := Storage.mk'_inv hbuf h₀
  obtain ⟨s, e1, i1, p1, l1⟩ := Storage.writes_inv ws s₀ 0 i0 (by rw [p0, hlen, hdl]; omega)
    (fun w hw => ⟨by have := (hws w hw).1; omega, (hws w hw).2⟩)
  rw [p0, Nat.zero_add] at i1
  rw [p0, Nat.zero_add] at p1
  obtain ⟨u1, u2⟩ := Storage.used_val i1
  have hbytes : Bytes (s.data.take s.bytesUsed) := fun x hx => i1.bytes x (List.mem_of_mem_take hx)
  have hlt := i1.lt
  rw [p1] at hlt
  refine ⟨s, e1, ?_⟩
  generalize hout : s.data.take s.bytesUsed = out at *
  have hol : out.length = (writesLen ws + 7) / 8 := by rw [u2, Storage.bytesUsed, p1]
  obtain ⟨r1, r2, r3⟩ := BR.reads_inv hbytes ws BR.init 0 (BR.init_inv out) hws (by
    rw [u1, Nat.pow_zero, Nat.div_one, Nat.mod_eq_of_lt hlt])
  rw [Nat.zero_add] at r2
  have hpos : writesLen ws ≤ 8 * out.length := by rw [hol]; omega
  obtain ⟨v1, v2, v3⟩ := BR.unload_inv r2
  refine ⟨by rw [hol, hlen], r1, ?_, ?_, ?_⟩
  · rw [BR.isHealthy_iff r2, r3]; simp [hpos, BR.init]
  · have hd := v1.debt
    have hc := v1.cons
    unfold BR.unused
    by_cases hd0 : (BR.init.reads out (ws.map Prod.fst)).2.unload.debt = 0
    · omega
    · have := hd hd0; omega
  · refine BR.finish_ok hbytes v1 (by rw [v3, r3]; rfl) v2 hpos ?_
    rw [u1]
    exact Nat.div_eq_of_lt hlt

/-- **C07 (1').** A write that goes through leaves the buffer's size alone, keeps every byte but the eight from the current one on, which are
all inside of the buffer, and advances the position. -/
theorem C07_write_in_bounds (s s' : Storage) (n v : Nat) (h : s.writeBits n v = some s') :
    s'.data.length = s.data.length ∧ s'.pos = s.pos + n ∧ s.pos / 8 + 7 < s.data.length ∧
      ∀ i, i < s.pos / 8 ∨ s.pos / 8 + 8 ≤ i → s'.data[i]? = s.data[i]? := by
  unfold Storage.writeBits at h
  split at h
  · rename_i hc
    split at h
    · cases h
    · simp only [Option.some.injEq] at h
      subst h
      refine ⟨?_, rfl, by omega, ?_⟩
      · simp only [List.length_append, List.length_take, leBytes_length, List.length_drop]
        omega
      · intro i hi
        simp only
        rcases hi with hi | hi
        · rw [List.append_assoc, List.getElem?_append_left (by rw [List.length_take]; omega), List.getElem?_take_of_lt hi]
        · rw [List.getElem?_append_right (by simp only [List.length_append, List.length_take, leBytes_length]; omega), List.getElem?_drop]
          congr 1
          simp only [List.length_append, List.length_take, leBytes_length]
          omega
  · cases h

example : (⟨List.replicate 9 0, 13⟩ : Storage).writeBits 5 21 = some ⟨[0, 160, 2, 0, 0, 0, 0, 0, 0], 18⟩ := by decide

/-- **C07 (2).** Reading any groups from any buffer: every value is the corresponding bits of the buffer
extended by zeros, and the reader is healthy exactly when no more bits were read than the buffer has. -/
theorem C07_overread_detected (buf ns : List Nat) (hbuf : Bytes buf) (hns : ∀ n ∈ ns, n ≤ 24) :
    (BR.init.reads buf ns).2.isHealthy = decide (ns.sum ≤ 8 * buf.length) := by
  have key : ∀ (ns : List Nat) (r : BR) (pos : Nat), r.Inv buf pos → (∀ n ∈ ns, n ≤ 24) →
      (r.reads buf ns).2.Inv buf (pos + ns.sum) ∧ (r.reads buf ns).2.healthy = r.healthy := by
    intro ns
    induction ns with
    | nil => intro r pos h _; exact ⟨by simpa [BR.reads] using h, rfl⟩
    | cons n ns ih =>
      intro r pos h hn
      obtain ⟨_, a2, a3⟩ := BR.read_inv (n := n) hbuf h (hn n (by simp))
      obtain ⟨b1, b2⟩ := ih _ _ a2 (fun n hn' => hn n (by simp [hn']))
      simp only [BR.reads, List.sum_cons]
      rw [← Nat.add_assoc]
      exact ⟨b1, by rw [b2, a3]⟩
  obtain ⟨k1, k2⟩ := key ns BR.init 0 (BR.init_inv buf) hns
  rw [Nat.zero_add] at k1
  rw [BR.isHealthy_iff k1, k2]
  simp [BR.init]

/-- **C07 (3).** `Suspend` gives back exactly the bytes no bit of which was read. -/
theorem C07_unused_bytes (buf ns : List Nat) (hbuf : Bytes buf) (hns : ∀ n ∈ ns, n ≤ 24) :
    (BR.init.reads buf ns).2.unused buf = buf.length - (ns.sum + 7) / 8 := by
  have key : ∀ (ns : List Nat) (r : BR) (pos : Nat), r.Inv buf pos → (∀ n ∈ ns, n ≤ 24) →
      (r.reads buf ns).2.Inv buf (pos + ns.sum) := by
    intro ns
    induction ns with
    | nil => intro r pos h _; simpa [BR.reads] using h
    | cons n ns ih =>
      intro r pos h hn
      obtain ⟨_, a2, a3⟩ := BR.read_inv (n := n) hbuf h (hn n (by simp))
      simp only [BR.reads, List.sum_cons]
      rw [← Nat.add_assoc]
      exact ih _ _ a2 (fun n hn' => hn n (by simp [hn']))
  have k := key ns BR.init 0 (BR.init_inv buf) hns
  rw [Nat.zero_add] at k
  obtain ⟨v1, v2, v3⟩ := BR.unload_inv k
  have hc := v1.cons
  have hl := v1.le
  unfold BR.unused
  by_cases hd0 : (BR.init.reads buf ns).2.unload.debt = 0
  · omega
  · have := v1.debt hd0; omega

/-- **C07 (4).** Non-zero padding is detected: if fewer than 8 bits remain in the current byte and they
are not all zero, `Finish` makes the reader unhealthy. -/
theorem C07_padding_detected (buf : List Nat) (r : BR) (pos : Nat) (hbuf : Bytes buf) (h : r.Inv buf pos)
    (hn : r.numBits < 8) (hz : leVal buf / 2 ^ pos % 2 ^ r.numBits ≠ 0) :
    (r.finish buf).isHealthy = false := by
  have hn0 : 0 < r.numBits := by
    rcases Nat.eq_zero_or_pos r.numBits with h0 | h0
    · rw [h0] at hz; simp [Nat.mod_one] at hz
    · exact h0
  obtain ⟨r1, r2, r3⟩ := BR.read_inv (n := r.numBits) hbuf h (by omega)
  unfold BR.finish
  rw [if_neg (by omega), if_pos hn0]
  simp only [r1]
  rw [if_pos hz]
  simp [BR.isHealthy, BR.unload]

/-- Non-vacuity of C07 (1): three groups into a dirty 16-byte buffer. -/
example : ∃ s₀ s, Storage.mk' (List.replicate 16 255) = some s₀ ∧
    s₀.writes [(3, 5), (0, 0), (24, 0xabcdef), (7, 64)] = some s ∧ s.bytesUsed = 5 := by
  refine ⟨_, _, rfl, rfl, rfl⟩

end Brunsli
