import Verif.E2E
import Verif.JFile
/-!
# Files without scans

`ReadJpeg` does not ask for a scan (c/enc/jpeg_data_reader.cc:1142-1163): the coefficients are zero then.
-/

namespace Brunsli

open JM

theorem JM.bind_ok' {α β : Type} {m : JM α} {f : α → JM β} {d : List Nat} {p : Nat} {r : β × Nat} (h : (m >>= f) d p = .ok r) : ∃ a q, m d p = .ok (a, q) ∧ f a d q = .ok r := by
  have h : (m d p).bind (fun x => f x.1 d x.2) = .ok r := h
  obtain ⟨⟨a, q⟩, h1, h2⟩ := Run.bind_ok h
  exact ⟨a, q, h1, h2⟩

theorem readSegment_keeps {st st' : RJ} {m : Nat} {d : List Nat} {p q : Nat} (h : readSegment st m d p = .ok (st', q)) : st'.order = st.order ∧ (m ≠ 0xda → st'.coefs = st.coefs) := by
  unfold readSegment at h
  split at h
  · obtain ⟨a, _, -, h⟩ := JM.bind_ok' h; cases h; exact ⟨rfl, fun _ => rfl⟩
  split at h
  · obtain ⟨a, _, -, h⟩ := JM.bind_ok' h; cases h; exact ⟨rfl, fun _ => rfl⟩
  split at h
  · cases h; exact ⟨rfl, fun _ => rfl⟩
  split at h
  · cases h; exact ⟨rfl, fun _ => rfl⟩
  split at h
  · rename_i hm
    refine ⟨?_, fun h => absurd hm h⟩
    unfold processScan at h
    obtain ⟨s, _, -, h⟩ := JM.bind_ok' h
    revert h
    cases markScan (scanParams st.prog s) (s.comps.map ScanComp.compIdx) st.masks with
    | none => intro h; cases h
    | some masks =>
      intro h
      have h : scanBody st s masks d _ = _ := h
      unfold scanBody at h
      dsimp only at h
      split at h
      · cases h
      split at h
      · cases h
      · cases h; rfl
  split at h
  · obtain ⟨a, _, -, h⟩ := JM.bind_ok' h; cases h; exact ⟨rfl, fun _ => rfl⟩
  split at h
  · obtain ⟨a, _, -, h⟩ := JM.bind_ok' h; cases h; exact ⟨rfl, fun _ => rfl⟩
  split at h
  · obtain ⟨a, _, -, h⟩ := JM.bind_ok' h; cases h; exact ⟨rfl, fun _ => rfl⟩
  split at h
  · obtain ⟨a, _, -, h⟩ := JM.bind_ok' h; cases h; exact ⟨rfl, fun _ => rfl⟩
  · cases h

theorem readMarker_keeps {st : RJ} {r : RJ × Nat} {d : List Nat} {p q : Nat} (h : readMarker st d p = .ok (r, q)) :
    (∀ m ∈ st.order, m ∈ r.1.order) ∧ r.2 ∈ r.1.order ∧ (r.2 ≠ 0xda → r.1.coefs = st.coefs) := by
  unfold readMarker at h
  obtain ⟨s1, q1, h1, h⟩ := JM.bind_ok' h
  obtain ⟨m, q2, -, h⟩ := JM.bind_ok' h
  obtain ⟨s2, q3, h3, h⟩ := JM.bind_ok' h
  have e := readSegment_keeps h3
  cases h
  have e1 : (∀ m ∈ st.order, m ∈ s1.order) ∧ s1.coefs = st.coefs := by
    unfold skipData at h1
    dsimp only at h1
    split at h1 <;> cases h1
    · exact ⟨fun m hm => List.mem_append_left _ hm, rfl⟩
    · exact ⟨fun m hm => hm, rfl⟩
  refine ⟨fun x hx => ?_, ?_, fun hm => (e.2 hm).trans e1.2⟩
  · show x ∈ s2.order ++ [m]
    rw [e.1]
    exact List.mem_append_left _ (e1.1 x hx)
  · show m ∈ s2.order ++ [m]
    simp

theorem readLoop_keeps : ∀ (fuel : Nat) {st st' : RJ} {d : List Nat} {p q : Nat}, readLoop fuel st d p = .ok (st', q) →
    (∀ m ∈ st.order, m ∈ st'.order) ∧ (0xda ∉ st'.order → st'.coefs = st.coefs)
  | 0, _, _, _, _, _, h => by cases h
  | fuel + 1, st, st', d, p, q, h => by
    rw [readLoop] at h
    obtain ⟨r, q1, h1, h⟩ := JM.bind_ok' h
    obtain ⟨a1, a2, a3⟩ := readMarker_keeps h1
    split at h
    · rename_i hm
      cases h
      exact ⟨a1, fun _ => a3 (by rw [hm]; decide)⟩
    · obtain ⟨b1, b2⟩ := readLoop_keeps fuel h
      exact ⟨fun m hm => b1 _ (a1 m hm), fun hn => (b2 hn).trans (a3 fun e => hn (e ▸ b1 _ a2))⟩

/-- Without a scan all coefficients are zero. -/
theorem readJpeg_blank {data : List Nat} {jpg : JpegData} (h : readJpeg data = .ok jpg) (hs : 0xda ∉ jpg.markerOrder) : ∀ c ∈ jpg.components, ∀ v ∈ c.coeffs, v = 0 := by
  unfold readJpeg at h
  obtain ⟨⟨m, p⟩, -, h⟩ := Run.bind_ok h
  dsimp only at h
  split at h
  · cases h
  obtain ⟨⟨st, q⟩, hl, h⟩ := Run.bind_ok h
  dsimp only at h
  split at h
  · cases h
  split at h
  · cases h
  split at h
  · cases h
  split at h
  · cases h
  cases h
  have hc := (readLoop_keeps _ hl).2 hs
  intro c hm v hv
  have hm : c ∈ fillCoefs st.coefs _ := hm
  unfold fillCoefs at hm
  obtain ⟨⟨c', i⟩, -, rfl⟩ := List.mem_map.mp hm
  have hv : v ∈ coefList (st.coefs i) _ := hv
  unfold coefList at hv
  obtain ⟨j, -, rfl⟩ := List.mem_map.mp hv
  rw [hc]
  rfl

end Brunsli
