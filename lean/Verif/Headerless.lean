import Verif.StreamSem
/-!
# Decoding without signature and header

A caller that knows the dimensions fills in `JPEGData` and `State` itself and passes only what follows the header (c/dec/state.h:93-98; c/tests/headerless_test.cc:25-58).
-/

namespace Brunsli

open Rd

/-- `tags_met` as the caller sets it: signature, header, original (c/tests/headerless_test.cc:50-51). -/
def headerlessMet : List Nat := [9, 2, 1]

/-- `UpdateSubsamplingDerivatives`, `PrepareMeta` (c/dec/brunsli_decode.cc:2201-2240) and the fields the caller sets: the state to start from; `none` if `UpdateSubsamplingDerivatives` refuses.
The version in `h` stands for `use_legacy_context_model`, which the caller sets too. -/
def headerlessInit (h : Header) : Option SectState := if h.blocksOk then some (SectState.init h) else none

/-- `ProcessJpeg` (c/dec/brunsli_decode.cc:2417-2455) on all that follows the header in one piece. -/
def headerlessContent (par : Codec) (h : Header) (bs : List Nat) : Option SectState :=
  match headerlessInit h with
  | none => none
  | some s =>
    match readSections (decBody par) 16 headerlessMet s bs with
    | .ok s [] => some s
    | _ => none

/-- The state of the parser that is to get it in pieces. -/
def headerlessStart (z : Inflater) (h : Header) : Option (FileSt z) := (headerlessInit h).map (.sectTag headerlessMet)

theorem blocksOk_of {h : Header} (hok : h.Ok) : h.blocksOk = true := by
  unfold Header.blocksOk
  rw [List.all_eq_true]
  intro b hb
  exact decide_eq_true (hok.blocks b hb)

theorem headerlessInit_ok {h : Header} (hok : h.Ok) : headerlessInit h = some (SectState.init h) := by unfold headerlessInit; rw [if_pos (blocksOk_of hok)]

theorem headerless_inv {z : Inflater} {h : Header} (hok : h.Ok) : (FileSt.sectTag headerlessMet (SectState.init h) : FileSt z).Inv := by
  refine ⟨⟨by decide, by decide⟩, hok.ncomp, ?_⟩
  intro r hr
  cases hr

/-- The whole file is read as its beginning says and then as without it. -/
theorem decodeFile_headerless {par : Codec} {h : Header} (hok : h.Ok) {s bs : List Nat} (hs : encodeHeaderSection h = some s) :
    decodeFile (fun h => some (SectState.init h)) (decBody par) (kBrunsliSignature ++ (s ++ bs)) =
      match readSections (decBody par) 16 headerlessMet (SectState.init h) bs with
      | .ok s rest => if rest = [] then .ok (.image s) [] else .invalid
      | .needMore => .needMore
      | .invalid => .invalid := by
  have hv := hok.version
  have e : readFile (fun h => some (SectState.init h)) (decBody par) (kBrunsliSignature ++ (s ++ bs)) =
      andThen (readSections (decBody par) 16 headerlessMet (SectState.init h)) (fun s => ret (.image s)) bs := by
    unfold readFile
    rw [andThen_eq readSignature_append, andThen_eq (readHeader_encoded hok (by simp) hs), if_neg (by simp only; omega)]
    simp only
    rw [andThen_eq (p := Rd.ofOption (some (SectState.init h))) rfl]
    rfl
  unfold decodeFile
  rw [e]
  cases hr : readSections (decBody par) 16 headerlessMet (SectState.init h) bs with
  | ok s' rest => rw [andThen_eq hr]; rfl
  | needMore => rw [andThen_more hr]
  | invalid => rw [andThen_bad hr]

end Brunsli
