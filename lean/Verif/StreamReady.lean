import Verif.PropsR
import Verif.StreamSafe
/-!
# What a file leaves that can be decoded

What holds of everything that arrives in pieces holds of files that arrive as a whole.
-/

namespace Brunsli

/-- A file that can be decoded leaves data fit to be written. -/
theorem decodeFile_ready {z : Inflater} {par : Codec} (hz : ∀ p, (par.decompress p).map List.flatten = z.whole p) {bs rest : List Nat} {s : SectState}
    (h : decodeFile (fun h => some (SectState.init h)) (decBody par) bs = .ok (.image s) rest) : s.Ready := by
  obtain ⟨fuel, q, h1, h2⟩ := doProcess_file hz bs
  have hc : fileContent par bs = some (.image s) := by unfold fileContent; rw [h]
  rw [hc] at h2
  subst h2
  have h0 : (FileSt.signature : FileSt z).Good := ⟨trivial, trivial, trivial⟩
  have := (doProcess_keeps (I := FileSt.Good) fileStep_good fuel (.working .signature) _ _ _ _ h0 h1).1
  exact this.known

/-- All components are there. -/
theorem decodeFile_components {z : Inflater} {par : Codec} (hz : ∀ p, (par.decompress p).map List.flatten = z.whole p) {bs rest : List Nat} {s : SectState} {J : JpegData}
    (h : decodeFile (fun h => some (SectState.init h)) (decBody par) bs = .ok (.image s) rest) (hJ : s.result = some J) : J.components.length = s.header.comps.length := by
  have hr := decodeFile_ready hz h
  obtain ⟨imgs, ha, he⟩ := Ready.result hr
  obtain ⟨hk, imgs', ha', hp⟩ := hr
  rw [ha] at ha'; cases ha'
  rw [he] at hJ
  cases hJ
  exact partJpeg_count hk (by rw [hp.sized.1, metas_count hk (hk.has6 (by simp))])

end Brunsli
