import Verif.PropsA
import Verif.CoeffOrder
/-!
# Property C17: the coefficient order
-/

namespace Brunsli

/-! ## C17 -/

/-- **C17 (round trip).** Every order of the 64 coefficients that fixes 0 is accepted by the encoder, and the
decoder reads the same order back from the 16-bit word stream the encoder produces. -/
theorem C17_order_roundtrip (order : List Nat) (hp : order.Perm (List.range 64)) (h0 : order.head? = some 0) :
    ∃ ops ws, encodeCoeffOrder order = some ops ∧ encodeWords (fun _ => []) ops = some ws ∧
      decodeWords (fun _ => none) decodeCoeffOrder ws = some order := by
  obtain ⟨ops, he, hr, hl⟩ := coeffOrder_roundtrip order ⟨hp, h0⟩
  obtain ⟨ws, e1, e2⟩ := decodeWords_encodeWords (maps := fun _ => none) (tabs := fun _ => []) hr.feed (by
    intro op hop
    obtain ⟨n, v, rfl, hn, hv⟩ := hl op hop
    exact ⟨hn, hv⟩)
  exact ⟨ops, ws, he, e1, e2⟩

/-- **C17 (encoder side).** The order the encoder computes from its zero counts is always one of these. -/
theorem C17_encoder_order (numZeros : Nat → Nat) (h0 : numZeros 0 = 0) :
    (computeCoeffOrder numZeros).Perm (List.range 64) ∧ (computeCoeffOrder numZeros).head? = some 0 :=
  computeCoeffOrder_ok numZeros h0

/-- **C17 (arbitrary input).** Whatever the stream contains, an order the decoder accepts is a permutation of
0..63 that fixes 0. -/
theorem C17_decoded_order (maps : Nat → Option (List SymInfo)) (hm : Prog.MapsOk maps) (ws order : List Nat)
    (h : decodeWords maps decodeCoeffOrder ws = some order) :
    order.Perm (List.range 64) ∧ order.head? = some 0 :=
  decodeWords_all hm decodeCoeffOrder_all h

/-- Non-vacuity: the reversed order, after the fixed 0. -/
example : (0 :: (List.range' 1 63).reverse).Perm (List.range 64) := by decide +kernel
example : (0 :: (List.range' 1 63).reverse).head? = some 0 := rfl
example : (encodeCoeffOrder (0 :: (List.range' 1 63).reverse)).isSome := by decide +kernel
/-- Non-vacuity: the five words that decode to the natural order; the tables are irrelevant here. -/
example : decodeWords (fun _ => none) decodeCoeffOrder [19, 0, 0, 0, 0] = some (kJPEGNaturalOrder.take 64) := by
  decide +kernel
example : Prog.MapsOk (fun _ => ansMap [1000, 0, 24]) := by
  intro c m h; exact ⟨_, by decide, h⟩
example : ¬ (List.range 64).reverse.head? = some 0 := by decide

end Brunsli
