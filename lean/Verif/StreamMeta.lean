import Verif.Resume
import Verif.StreamInter
import Verif.Metadata
/-!
# The metadata section read while it arrives

`DecodeMetaDataSection` (c/dec/brunsli_decode.cc:1274-1366).  The Brotli decoder is a parameter: a machine that takes bytes
one at a time.  The library takes them in groups of any size; what is assumed of it is that, however the bytes are grouped, it goes
through the states of such a machine, takes all the bytes it is given unless the stream ends or is damaged, and delivers the
output that those bytes determine.
-/

namespace Brunsli

/-- What a decompressor does with a byte: the stream is damaged, goes on, or ends with this byte. -/
inductive Inflate (σ : Type) where
  | error
  | more (s : σ) (out : List Nat)
  | done (out : List Nat)

/-- A streaming decompressor (`BrotliDecoderDecompressStream`, `BrotliDecoderTakeOutput`, c/dec/brunsli_decode.cc:1322-1334). -/
structure Inflater where
  σ : Type
  start : σ
  byte : σ → Nat → Inflate σ

/-- What it does with a group of bytes. -/
inductive Inflated (σ : Type) where
  | error
  | more (s : σ) (out : List Nat)
  /-- The stream ends after so many of the bytes. -/
  | done (out : List Nat) (n : Nat)

/-- The same with output delivered before. -/
def Inflated.after {σ : Type} (out : List Nat) (k : Nat) : Inflated σ → Inflated σ
  | error => error
  | more s o => more s (out ++ o)
  | done o n => done (out ++ o) (k + n)

/-- A group of bytes. -/
def Inflater.feed (z : Inflater) : z.σ → List Nat → Inflated z.σ
  | s, [] => .more s []
  | s, b :: bs =>
    match z.byte s b with
    | .error => .error
    | .done out => .done out 1
    | .more s out => (z.feed s bs).after out 1

theorem Inflated.after_after {σ : Type} (o₁ o₂ : List Nat) (k₁ k₂ : Nat) (x : Inflated σ) :
    (x.after o₂ k₂).after o₁ k₁ = x.after (o₁ ++ o₂) (k₁ + k₂) := by
  cases x <;> simp [Inflated.after, Nat.add_assoc]

theorem Inflater.feed_append (z : Inflater) : ∀ (a b : List Nat) (s : z.σ), z.feed s (a ++ b) =
    match z.feed s a with
    | .error => .error
    | .done out n => .done out n
    | .more s' out => (z.feed s' b).after out a.length
  | [], b, s => by
    simp only [List.nil_append, feed, List.length_nil]
    cases z.feed s b <;> simp [Inflated.after]
  | x :: a, b, s => by
    simp only [List.cons_append, feed]
    cases z.byte s x with
    | error => rfl
    | done out => rfl
    | more s' out =>
      simp only
      rw [z.feed_append a b s']
      cases h : z.feed s' a with
      | error => rfl
      | done o n => rfl
      | more s2 o =>
        have e := Inflated.after_after out o 1 a.length (z.feed s2 b)
        rw [show (x :: a).length = 1 + a.length by rw [List.length_cons]; omega]
        exact e

theorem Inflater.feed_le (z : Inflater) : ∀ (a : List Nat) (s : z.σ) {out : List Nat} {n : Nat}, z.feed s a = .done out n → n ≤ a.length
  | [], s, out, n, h => by cases h
  | x :: a, s, out, n, h => by
    simp only [feed] at h
    cases hb : z.byte s x with
    | error => rw [hb] at h; cases h
    | done o => rw [hb] at h; cases h; simp
    | more s' o =>
      rw [hb] at h
      simp only at h
      cases hf : z.feed s' a with
      | error => rw [hf] at h; cases h
      | more s2 o2 => rw [hf] at h; cases h
      | done o2 n2 =>
        rw [hf] at h
        cases h
        have := z.feed_le a s' hf
        simp only [List.length_cons]; omega

/-- The data of a compressed stream: `none` unless it ends with its last byte. -/
def Inflater.whole (z : Inflater) (packed : List Nat) : Option (List Nat) :=
  match z.feed z.start packed with
  | .done out n => if n = packed.length then some out else none
  | _ => none

/-- `MetadataDecompressionStage` (c/dec/state_internal.h) with what belongs to it; `left` is `metadata_size - decompressed_size`. -/
inductive MetaSt (σ : Type) where
  | init
  | len
  | dec (left : Nat) (s : σ) (m : MetaState)

/-- What is done with the output of the decompressor (c/dec/brunsli_decode.cc:1335-1344); `none`: the file is rejected. -/
def takeOutput (left : Nat) (m : MetaState) (out : List Nat) : Option (Nat × MetaState) :=
  if out.length > left then none else (processMeta m out).map fun m => (left - out.length, m)

/-- `DecodeMetaDataSection` (c/dec/brunsli_decode.cc:1274-1366).  The number of bytes of the data is read without regard to the end of the
section, which is checked afterwards (:1305-1309). -/
def metaBody (z : Inflater) : Body (MetaSt z.σ) MetaState
  | .init, rem, w =>
    if rem = 0 then .done .init 0
    else if rem = 1 then
      match w with
      | [] => .wait .init 0
      | b :: _ =>
        match processMeta .init [b] with
        | none => .bad
        | some m => if m.canFinish then .done m 1 else .bad
    else .more .len 0
  | .len, rem, w =>
    match decodeBase128 w with
    | .needMore => .wait .len 0
    | .invalid => .bad
    | .ok v rest => if rem ≤ w.length - rest.length then .bad else .more (.dec v z.start .init) (w.length - rest.length)
  | .dec left s m, rem, w =>
    match z.feed s (w.take rem) with
    | .error => .bad
    | .done out n =>
      match takeOutput left m out with
      | none => .bad
      | some r => if n = rem ∧ r.1 = 0 ∧ r.2.canFinish then .done r.2 n else .bad
    | .more s out =>
      match takeOutput left m out with
      | none => .bad
      | some r => if rem ≤ w.length then .bad else .wait (.dec r.1 s r.2) w.length

/-- What is read from the whole rest of the section. -/
def metaSem (z : Inflater) : MetaSt z.σ → List Nat → Option (MetaState × List Nat)
  | .init, [] => some (.init, [])
  | .init, [b] => (processMeta .init [b]).bind fun m => if m.canFinish then some (m, []) else none
  | .init, p => lenSem p
  | .len, p => lenSem p
  | .dec left s m, p => decSem left s m p
where
  /-- The compressed data. -/
  decSem (left : Nat) (s : z.σ) (m : MetaState) (p : List Nat) : Option (MetaState × List Nat) :=
    match z.feed s p with
    | .done out n => (takeOutput left m out).bind fun r => if n = p.length ∧ r.1 = 0 ∧ r.2.canFinish then some (r.2, []) else none
    | _ => none
  /-- The number of bytes and the compressed data. -/
  lenSem (p : List Nat) : Option (MetaState × List Nat) :=
    match decodeBase128 p with
    | .ok v rest => if rest = [] then none else decSem v z.start .init rest
    | _ => none

/-- The invariant of the parser of the data. -/
def metaInv {σ : Type} : MetaSt σ → Nat → Prop
  | .dec _ _ m, _ => m.Inv
  | _, _ => True

theorem processMeta_inv {m m' : MetaState} {out : List Nat} (h : m.Inv) (e : processMeta m out = some m') : m'.Inv := by
  rw [processMeta_fold h] at e
  exact foldlM_inv h e

theorem takeOutput_inv {left : Nat} {m : MetaState} {out : List Nat} {r : Nat × MetaState} (h : m.Inv) (e : takeOutput left m out = some r) :
    r.2.Inv := by
  unfold takeOutput at e
  split at e
  · cases e
  · cases hp : processMeta m out with
    | none => rw [hp] at e; cases e
    | some m' =>
      rw [hp] at e
      cases e
      exact processMeta_inv h hp

theorem takeOutput_append {left : Nat} {m : MetaState} (h : m.Inv) (a b : List Nat) :
    takeOutput left m (a ++ b) = (takeOutput left m a).bind fun r => takeOutput r.1 r.2 b := by
  unfold takeOutput
  rw [List.length_append]
  by_cases ha : a.length > left
  · rw [if_pos ha, if_pos (by omega)]; rfl
  · rw [if_neg ha, processMeta_append h]
    cases hp : processMeta m a with
    | none => simp
    | some m' =>
      simp only [Option.map_some, Option.bind_some]
      by_cases hb : b.length > left - a.length
      · rw [if_pos hb, if_pos (by omega)]
      · rw [if_neg hb, if_neg (by omega)]
        cases processMeta m' b with
        | none => rfl
        | some m2 =>
          simp only [Option.map_some, Option.some.injEq, Prod.mk.injEq, and_true]
          omega

theorem metaBody_fits (z : Inflater) (t : MetaSt z.σ) (rem : Nat) (w : List Nat) (hi : metaInv t rem) :
    Fits (metaBody z) metaInv (fun _ => True) t rem w (metaBody z t rem w) := by
  cases t with
  | init =>
    by_cases h0 : rem = 0
    · subst h0
      exact ⟨Nat.zero_le _, Nat.zero_le _, trivial, fun x => by simp [metaBody]⟩
    by_cases h1 : rem = 1
    · subst h1
      cases w with
      | nil => exact ⟨Nat.zero_le _, Nat.zero_le _, trivial, by simp, fun x => by simp [BOut.shift_zero]⟩
      | cons b w =>
        simp only [metaBody]
        rw [if_neg (by omega), if_pos trivial]
        cases hp : processMeta .init [b] with
        | none => exact fun x => by simp [metaBody, hp]
        | some m =>
          simp only
          by_cases hf : m.canFinish = true
          · rw [if_pos hf]
            exact ⟨by simp, Nat.le_refl _, trivial, fun x => by simp [metaBody, hp, hf]⟩
          · rw [if_neg hf]
            exact fun x => by simp [metaBody, hp, hf]
    · simp only [metaBody]
      rw [if_neg h0, if_neg h1]
      exact ⟨Nat.zero_le _, Nat.zero_le _, trivial, fun x => by simp only [metaBody]; rw [if_neg h0, if_neg h1]⟩
  | len =>
    cases hd : decodeBase128 w with
    | needMore =>
      simp only [metaBody, hd]
      have := decodeBase128_short hd
      refine ⟨Nat.zero_le _, Nat.zero_le _, trivial, by omega, fun x => ?_⟩
      rw [Nat.sub_zero, List.drop_zero, BOut.shift_zero]
    | invalid =>
      simp only [metaBody, hd]
      intro x
      simp only [metaBody, Rd.Mono.decodeBase128.invalid hd x]
    | ok v rest =>
      simp only [metaBody, hd]
      have hx := Rd.Mono.decodeBase128.ok hd
      have e : ∀ x : List Nat, (w ++ x).length - (rest ++ x).length = w.length - rest.length := by
        intro x; simp only [List.length_append]; omega
      by_cases hr : rem ≤ w.length - rest.length
      · rw [if_pos hr]
        intro x
        simp only [metaBody, hx x, e]
        rw [if_pos hr]
      · rw [if_neg hr]
        refine ⟨by omega, by omega, init_inv, fun x => ?_⟩
        simp only [metaBody, hx x, e]
        rw [if_neg hr]
  | dec left s m =>
    have hm : m.Inv := hi
    -- the bytes of the section in view after `x` has arrived
    have hsplit : ∀ x, (w ++ x).take rem = w.take rem ++ x.take (rem - w.length) := fun x => by rw [List.take_append]
    cases hf : z.feed s (w.take rem) with
    | error =>
      simp only [metaBody, hf]
      intro x
      simp only [metaBody, hsplit, z.feed_append, hf]
    | done out n =>
      simp only [metaBody, hf]
      have hn := z.feed_le _ _ hf
      have hl : (w.take rem).length = min rem w.length := List.length_take
      cases ht : takeOutput left m out with
      | none =>
        intro x
        simp only [metaBody, hsplit, z.feed_append, hf, ht]
      | some r =>
        simp only
        by_cases hc : n = rem ∧ r.1 = 0 ∧ r.2.canFinish = true
        · rw [if_pos hc]
          refine ⟨by omega, by omega, trivial, fun x => ?_⟩
          simp only [metaBody, hsplit, z.feed_append, hf, ht]
          rw [if_pos hc]
        · rw [if_neg hc]
          intro x
          simp only [metaBody, hsplit, z.feed_append, hf, ht]
          rw [if_neg hc]
    | more s' out =>
      simp only [metaBody, hf]
      cases ht : takeOutput left m out with
      | none =>
        -- whatever comes later is rejected too
        intro x
        simp only [metaBody, hsplit, z.feed_append, hf]
        cases z.feed s' (x.take (rem - w.length)) with
        | error => rfl
        | done o n => simp only [Inflated.after]; rw [takeOutput_append hm, ht]; rfl
        | more s2 o => simp only [Inflated.after]; rw [takeOutput_append hm, ht]; rfl
      | some r =>
        simp only
        by_cases hr : rem ≤ w.length
        · rw [if_pos hr]
          intro x
          simp only [metaBody]
          rw [take_append_ge x hr, hf]
          simp only [ht]
          rw [if_pos (by rw [List.length_append]; omega)]
        · rw [if_neg hr]
          have hw : w.take rem = w := List.take_of_length_le (by omega)
          refine ⟨Nat.le_refl _, by omega, takeOutput_inv hm ht, by omega, fun x => ?_⟩
          rw [List.drop_length, List.nil_append]
          simp only [metaBody, hsplit, z.feed_append, hf]
          rw [hw]
          cases hx : z.feed s' (x.take (rem - w.length)) with
          | error => simp only [Inflated.after, BOut.shift]
          | done o n =>
            simp only [Inflated.after]
            rw [takeOutput_append hm, ht, Option.bind_some]
            cases takeOutput r.1 r.2 o with
            | none => rfl
            | some r2 =>
              simp only
              by_cases hc : n = rem - w.length ∧ r2.1 = 0 ∧ r2.2.canFinish = true
              · rw [if_pos hc, if_pos ⟨by omega, hc.2⟩]; rfl
              · rw [if_neg hc, if_neg (fun h => hc ⟨by omega, h.2⟩)]; rfl
          | more s2 o =>
            simp only [Inflated.after]
            rw [takeOutput_append hm, ht, Option.bind_some]
            cases takeOutput r.1 r.2 o with
            | none => rfl
            | some r2 =>
              simp only
              by_cases hc : rem - w.length ≤ x.length
              · rw [if_pos hc, if_pos (by rw [List.length_append]; omega)]; rfl
              · rw [if_neg hc, if_neg (by rw [List.length_append]; omega)]
                simp only [BOut.shift, List.length_append]

theorem metaDec_total (z : Inflater) (left : Nat) (s : z.σ) (m : MetaState) (rem : Nat) (w : List Nat) (hr : rem ≤ w.length) :
    Verdict (metaBody z) (.dec left s m) rem w (metaSem.decSem z left s m (w.take rem)) := by
  have hl : (w.take rem).length = rem := by rw [List.length_take]; omega
  unfold metaSem.decSem
  cases hf : z.feed s (w.take rem) with
  | error => exact .bad (by simp only [metaBody, hf])
  | more s' out =>
    refine .bad ?_
    simp only [metaBody, hf]
    cases takeOutput left m out with
    | none => rfl
    | some r => simp only; rw [if_pos hr]
  | done out n =>
    simp only
    cases ht : takeOutput left m out with
    | none => exact .bad (by simp only [metaBody, hf, ht])
    | some r =>
      simp only [Option.bind_some, hl]
      by_cases hc : n = rem ∧ r.1 = 0 ∧ r.2.canFinish = true
      · rw [if_pos hc]
        have : Verdict (metaBody z) (.dec left s m) rem w (some (r.2, (w.take rem).drop n)) :=
          .done (by simp only [metaBody, hf, ht]; rw [if_pos hc])
        rw [List.drop_eq_nil_of_le (by omega)] at this
        exact this
      · rw [if_neg hc]
        exact .bad (by simp only [metaBody, hf, ht]; rw [if_neg hc])

theorem metaLen_total (z : Inflater) (rem : Nat) (w : List Nat) (hr : rem ≤ w.length) :
    Verdict (metaBody z) .len rem w (metaSem.lenSem z (w.take rem)) := by
  have hl : (w.take rem).length = rem := by rw [List.length_take]; omega
  have hnone : (∀ r rest, decodeBase128 (w.take rem) ≠ .ok r rest) → metaSem.lenSem z (w.take rem) = none := by
    intro h
    unfold metaSem.lenSem
    cases hd : decodeBase128 (w.take rem) with
    | ok v rest => exact (h v rest hd).elim
    | needMore => rfl
    | invalid => rfl
  cases hd : decodeBase128 w with
  | needMore =>
    rw [hnone fun r rest => decodeBase128_take_none (fun r rest h => by rw [hd] at h; cases h) r rest]
    exact .wait (t' := .len) (n := 0) (by simp only [metaBody, hd])
  | invalid =>
    rw [hnone fun r rest => decodeBase128_take_none (fun r rest h => by rw [hd] at h; cases h) r rest]
    exact .bad (by simp only [metaBody, hd])
  | ok v rest =>
    obtain ⟨h1, h2⟩ := decodeBase128_take hd hr
    by_cases hc : rem ≤ w.length - rest.length
    · have hb : metaSem.lenSem z (w.take rem) = none := by
        rcases Nat.lt_or_ge rem (w.length - rest.length) with h | h
        · exact hnone (h2 h)
        · unfold metaSem.lenSem
          rw [h1 h]
          simp only
          rw [if_pos (List.drop_eq_nil_of_le (by omega))]
      rw [hb]
      exact .bad (by simp only [metaBody, hd]; rw [if_pos hc])
    · have hs : metaSem.lenSem z (w.take rem) = metaSem.decSem z v z.start .init ((w.take rem).drop (w.length - rest.length)) := by
        unfold metaSem.lenSem
        rw [h1 (by omega)]
        simp only
        rw [if_neg (by rw [List.drop_eq_nil_iff]; omega)]
      rw [hs]
      refine .more (t' := .dec v z.start .init) (n := w.length - rest.length) (by simp only [metaBody, hd]; rw [if_neg hc]) ?_
      have := metaDec_total z v z.start .init (rem - (w.length - rest.length)) (w.drop (w.length - rest.length)) (by rw [List.length_drop]; omega)
      rw [List.take_drop, show w.length - rest.length + (rem - (w.length - rest.length)) = rem by omega] at this
      exact this

/-- The metadata section can be read while it arrives. -/
theorem metaBody_resumes (z : Inflater) : Resumes (metaBody z) (metaSem z) metaInv (fun _ => True) where
  fits := metaBody_fits z
  total t rem w hi hr := by
    cases t with
    | len => exact metaLen_total z rem w hr
    | dec left s m => exact metaDec_total z left s m rem w hr
    | init =>
      by_cases h0 : rem = 0
      · subst h0
        exact Verdict.done (n := 0) (by simp [metaBody])
      by_cases h1 : rem = 1
      · subst h1
        cases w with
        | nil => simp at hr
        | cons b w =>
          simp only [List.take_succ_cons, List.take_zero, metaSem]
          cases hp : processMeta .init [b] with
          | none => exact .bad (by simp [metaBody, hp])
          | some m =>
            simp only [Option.bind_some]
            by_cases hf : m.canFinish = true
            · rw [if_pos hf]
              exact Verdict.done (n := 1) (w := b :: w) (rem := 1) (by simp [metaBody, hp, hf])
            · rw [if_neg hf]
              exact .bad (by simp [metaBody, hp, hf])
      · have e : metaSem z .init (w.take rem) = metaSem.lenSem z (w.take rem) := by
          have hl : (w.take rem).length = rem := by rw [List.length_take]; omega
          match h : w.take rem, hl with
          | [], hl => exact (h0 hl.symm).elim
          | [b], hl => exact (h1 hl.symm).elim
          | a :: b :: p, _ => rfl
        rw [e]
        refine .more (t' := .len) (n := 0) (by simp only [metaBody]; rw [if_neg h0, if_neg h1]) ?_
        exact metaLen_total z rem w hr

/-- It reads what `decodeMetadata` does, if `decompress` is what the decompressor does with a whole stream. -/
theorem meta_sem (z : Inflater) {decompress : List Nat → Option (List (List Nat))} (hz : ∀ p, (decompress p).map List.flatten = z.whole p)
    (payload : List Nat) : atEnd (metaSem z .init payload) = decodeMetadata decompress payload := by
  match payload with
  | [] => rfl
  | [b] =>
    simp only [metaSem, decodeMetadata]
    cases processMeta .init [b] with
    | none => rfl
    | some m =>
      simp only [Option.bind_some]
      split <;> rfl
  | a :: b :: p =>
    simp only [metaSem, decodeMetadata, metaSem.lenSem]
    cases hd : decodeBase128 (a :: b :: p) with
    | needMore => rfl
    | invalid => rfl
    | ok v rest =>
      simp only
      by_cases hr : rest = []
      · rw [if_pos hr, if_pos hr]; rfl
      · rw [if_neg hr, if_neg hr]
        have hw := hz rest
        unfold Inflater.whole at hw
        unfold metaSem.decSem
        cases hf : z.feed z.start rest with
        | error =>
          rw [hf] at hw
          cases hdc : decompress rest with
          | none => rfl
          | some cs => rw [hdc] at hw; cases hw
        | more s o =>
          rw [hf] at hw
          cases hdc : decompress rest with
          | none => rfl
          | some cs => rw [hdc] at hw; cases hw
        | done out n =>
          rw [hf] at hw
          simp only at hw ⊢
          by_cases hn : n = rest.length
          · rw [if_pos hn] at hw
            cases hdc : decompress rest with
            | none => rw [hdc] at hw; cases hw
            | some cs =>
              rw [hdc] at hw
              simp only [Option.map_some, Option.some.injEq] at hw
              rw [Option.bind_some, metaChunks_eq cs init_inv, hw]
              unfold takeOutput
              by_cases hl : out.length = v
              · rw [if_pos hl, if_neg (by omega)]
                cases processMeta .init out with
                | none => rfl
                | some m =>
                  simp only [Option.map_some, Option.bind_some]
                  by_cases hc : m.canFinish = true
                  · rw [if_pos ⟨hn, by omega, hc⟩, if_pos hc]; rfl
                  · rw [if_neg (fun h => hc h.2.2), if_neg hc]; rfl
              · rw [if_neg hl]
                by_cases hg : out.length > v
                · rw [if_pos hg]; rfl
                · rw [if_neg hg]
                  cases processMeta .init out with
                  | none => rfl
                  | some m =>
                    simp only [Option.map_some, Option.bind_some]
                    rw [if_neg (fun h => by have := h.2.1; omega)]
                    rfl
          · rw [if_neg hn] at hw
            cases hdc : decompress rest with
            | some cs => rw [hdc] at hw; cases hw
            | none =>
              cases takeOutput v .init out with
              | none => rfl
              | some r => simp only [Option.bind_some, Option.bind_none]; rw [if_neg (fun h => hn h.1)]; rfl

end Brunsli
