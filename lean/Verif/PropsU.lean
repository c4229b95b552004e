import Verif.PropsT
/-!
# C49: decoding never leaves a table, whatever bytes arrive

The parser of the decoder is in a state `FileSt`; `fileStep` continues with the bytes that are there.  `FileSt.Reached` are the states it can come to, within a call or at the end of
it, whatever bytes there were.  In a section of histograms or of coefficients, `FileSt.hitsUb s bs` says whether reading the section on from `bs` would, at any time, leave a table:
* a table of prefix codes, while it is being built or when a symbol is looked up (c/dec/huffman_decode.cc, c/dec/huffman_table.cc);
* the counts of a histogram (c/dec/histogram_decode.cc);
* the map of histograms, or the table of 1024 entries of the histogram that is selected (c/dec/ans_decode.cc:28-41, c/dec/context_map_decode.h);
* the adaptive probabilities, or the tables of contexts (c/dec/brunsli_decode.cc:560-1010, c/common/context.h).
Words that are not there read as zeros (c/dec/brunsli_input.h:39-52), which is why `bs` may be anything, and as long as one likes.
-/

namespace Brunsli

/-- Whether the parser leaves a table when the current section goes on with the bytes `bs`. -/
def FileSt.hitsUb {z : Inflater} : FileSt z → List Nat → Bool
  | .sectBody _ _ (.hist t) _ _, bs => t.2.hitsUb (t.1 ++ bytesBits bs)
  | .sectBody _ _ (.dc t) _ _, bs => t.prog.hitsUb t.maps t.dec (bytesWords bs)
  | .sectBody _ _ (.ac t) _ _, bs => t.prog.hitsUb t.maps t.dec (bytesWords bs)
  | _, _ => false

/-- What the parser can come to. -/
inductive FileSt.Reached {z : Inflater} : FileSt z → Prop
  | start : Reached .signature
  | step (s : FileSt z) (w : List Nat) : Reached s → Reached (fileStep z s w).1

theorem FileSt.Reached.good {z : Inflater} {s : FileSt z} (h : s.Reached) : s.Good := by
  induction h with
  | start => exact ⟨trivial, trivial, trivial⟩
  | step s w _ ih => exact fileStep_good s w ih

theorem FileSt.Good.no_ub {z : Inflater} {s : FileSt z} (h : s.Good) (bs : List Nat) : s.hitsUb bs = false := by
  unfold FileSt.hitsUb
  split
  · obtain ⟨⟨_, _, hi⟩, _, hk⟩ := h
    exact BP.Clean.no_ub _ _ hi.2.2 hk.2.2
  · obtain ⟨⟨_, _, hi⟩, _, hk⟩ := h
    exact WP.Clean.no_ub hi.1 _ _ hi.2.2.2.2 hi.2.1 hk.2.2.2.2
  · obtain ⟨⟨_, _, hi⟩, _, hk⟩ := h
    exact WP.Clean.no_ub hi.1 _ _ hi.2.2.2.2 hi.2.1 hk.2.2.2.2
  · rfl

/-- **C49.**  Whatever bytes the parser has been given, and whatever follows: it leaves no table. -/
theorem C49_decoding_defined {z : Inflater} {s : FileSt z} (h : s.Reached) (bs : List Nat) : s.hitsUb bs = false := h.good.no_ub bs

theorem calls_reached {z : Inflater} {fuel : Nat} : ∀ (calls : List (List Nat × Nat)) (d : DecState (FileSt z) WJS) (rs : List (DResult (FileSt z) WJS)), d.parser.core.Reached →
    decodeCalls (fileParser z) (streamApi.via fileView) fuel calls d = some rs → ∀ r ∈ rs, r.state.parser.core.Reached := by
  intro calls
  induction calls with
  | nil =>
    intro d rs _ h r hr
    rw [decodeCalls] at h
    cases h
    cases hr
  | cons c calls ih =>
    intro d rs hg h r hr
    obtain ⟨piece, space⟩ := c
    rw [decodeCalls] at h
    cases hc : decodeCall (fileParser z) (streamApi.via fileView) fuel piece space d with
    | none => rw [hc] at h; cases h
    | some r0 =>
      rw [hc] at h
      dsimp only at h
      cases hrec : decodeCalls (fileParser z) (streamApi.via fileView) fuel calls r0.state with
      | none => rw [hrec] at h; cases h
      | some rs' =>
        rw [hrec] at h
        cases h
        have next : r0.state.parser.core.Reached := by
          unfold decodeCall at hc
          rcases hp : processJpeg (fileParser z) fuel d.parser d.buffer piece with _ | ⟨s', b', rest, st⟩
          · rw [hp] at hc; cases hc
          have hgood := (processJpeg_keeps (I := FileSt.Reached) FileSt.Reached.step hg hp).1
          rw [hp] at hc
          cases st with
          | bad c => cases hc; exact hgood
          | _ =>
            dsimp only at hc
            repeat' split at hc
            all_goals first | cases hc; done | (cases hc; exact hgood)
        rcases List.mem_cons.mp hr with rfl | hr
        · exact next
        · exact ih _ _ next hrec r hr

/-- **C49, calls of the decoder.**  Whatever calls of `BrunsliDecoder::Decode` have been made, with whatever bytes and output space, whether they failed or not: the decoder is in a
state that is `Reached`, and whatever it is given next, it leaves no table. -/
theorem C49_calls_defined {z : Inflater} {fuel : Nat} {T : HSlot → CodeTable} (calls : List (List Nat × Nat)) (rs : List (DResult (FileSt z) WJS))
    (h : Decoder.run z fuel T calls = some rs) : ∀ r ∈ rs, r.state.parser.core.Reached ∧ ∀ bs, r.state.parser.core.hitsUb bs = false := fun r hr =>
  have hh := calls_reached calls (Decoder.start z T) rs FileSt.Reached.start h r hr
  ⟨hh, C49_decoding_defined hh⟩

/-- The section (6, 7 or 8) in the middle of which the parser is. -/
def FileSt.within {z : Inflater} : FileSt z → Option Nat
  | .sectBody _ _ (.hist _) _ _ => some 6
  | .sectBody _ _ (.dc _) _ _ => some 7
  | .sectBody _ _ (.ac _) _ _ => some 8
  | _ => none

/-- Calls that end in the middle of the sections of histograms, of DC and of AC coefficients. -/
example : (Decoder.run spacedInflater 400 zeroTables [(lateMetadata.take 60, 0), ((lateMetadata.drop 60).take 12, 0), ((lateMetadata.drop 72).take 36, 100)]).map
    (·.map fun r => r.state.parser.core.within) = some [some 6, some 7, some 8] := by
  decide +kernel

/-- `hitsUb` sees it: with the histograms of that file forgotten, both sections of coefficients would use a table that is not there. -/
example : (Decoder.run spacedInflater 400 zeroTables [(lateMetadata.take 68, 0), ((lateMetadata.drop 68).take 38, 100)]).map
    (·.map fun r => match r.state.parser.core with
      | .sectBody _ _ (.dc t) _ _ => t.prog.hitsUb (fun _ => none) t.dec (bytesWords ((lateMetadata.drop 68).take 10))
      | .sectBody _ _ (.ac t) _ _ => t.prog.hitsUb (fun _ => none) t.dec (bytesWords ((lateMetadata.drop 106).take 10))
      | _ => false) = some [true, true] := by
  decide +kernel

/-- Also in the section of histograms: a table of prefix codes that has not been built. -/
example : (mapBP (fun _ => none) 0 1 1 []).hitsUb [true] = true := by decide +kernel

end Brunsli
