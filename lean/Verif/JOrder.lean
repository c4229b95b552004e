import Verif.JMasks
/-!
# What a scan does to the coefficients
-/

namespace Brunsli

theorem JProg.run_eats_any {α : Type} {data : List Nat} {lut : HSlot → JMem} (p : JProg α) : ∀ {b b' : JR} {a : α}, p.run data lut b = some (a, b') → ∃ as, Eats p as a := by
  induction p with
  | pure a => intro b b' a' h; rw [JProg.run] at h; cases h; exact ⟨[], .pure _⟩
  | fail => intro b b' a h; cases h
  | sym t k ih =>
    intro b b' a h
    rw [JProg.run] at h
    split at h
    · rename_i hlt
      obtain ⟨as, h1⟩ := ih _ h
      exact ⟨_, .sym hlt h1⟩
    · cases h
  | bits n k ih =>
    intro b b' a h
    rw [JProg.run] at h
    obtain ⟨as, h1⟩ := ih _ h
    refine ⟨_, .bits (bs := msb n (b.readBits data n).1) (msb_length _ _) (as := as) ?_⟩
    rw [ofMsb_msb_lt]
    · exact h1
    · exact Nat.mod_lt _ (Nat.two_pow_pos _)

/-- Each block of the scan is decoded once, from what it was before the scan. -/
def Decoded (P : SP) (v : Visit) (B B' : Blk) : Prop := ∃ last e as o, Eats (readProg P v last e B) as o ∧ B' = o.blk

theorem readMcu_decoded {data : List Nat} {lut : HSlot → JMem} {P : SP} (vs : List Visit) : ∀ {st st' : RS}, readMcu data lut P vs st = some st' → (vs.map Visit.key).Nodup →
    ∀ v ∈ vs, Decoded P v (st.coefs v.comp v.blk) (st'.coefs v.comp v.blk) := by
  induction vs with
  | nil => intro st st' _ _ v hv; cases hv
  | cons u vs ih =>
    intro st st' h hn v hv
    rw [readMcu] at h
    obtain ⟨st1, hb, h⟩ := Option.bind_eq_some_iff.mp h
    unfold readBlk at hb
    obtain ⟨q, hq, rfl⟩ := Option.map_eq_some_iff.mp hb
    rw [List.map_cons, List.nodup_cons] at hn
    obtain ⟨-, ha, -⟩ := readMcu_added _ h
    rcases List.mem_cons.mp hv with rfl | hv
    · obtain ⟨as, he⟩ := JProg.run_eats_any _ hq
      refine ⟨_, _, as, q.1, he, ?_⟩
      rw [ha _ _ hn.1]
      show (if v.comp = v.comp ∧ v.blk = v.blk then q.1.blk else _) = _
      rw [if_pos ⟨rfl, rfl⟩]
    · have := ih h hn.2 v hv
      have e : (st.after u q.1 q.2).coefs v.comp v.blk = st.coefs v.comp v.blk := by
        show (if v.comp = u.comp ∧ v.blk = u.blk then q.1.blk else _) = _
        rw [if_neg]
        rintro ⟨e1, e2⟩
        exact hn.1 (List.mem_map.mpr ⟨v, hv, by unfold Visit.key; rw [e1, e2]⟩)
      rwa [e] at this

theorem readMcus_decoded {data : List Nat} {lut : HSlot → JMem} {P : SP} {ri : Nat} (ms : List (List Visit)) : ∀ {st st' : RS}, readMcus data lut P ri ms st = some st' →
    (ms.flatten.map Visit.key).Nodup → ∀ v ∈ ms.flatten, Decoded P v (st.coefs v.comp v.blk) (st'.coefs v.comp v.blk) := by
  induction ms with
  | nil => intro st st' _ _ v hv; cases hv
  | cons m ms ih =>
    intro st st' h hn v hv
    rw [readMcus] at h
    cases hh : readMcuHead data ri st with
    | none => rw [hh] at h; cases h
    | some s1 =>
      rw [hh] at h
      dsimp only at h
      split at h
      · cases h
      · obtain ⟨s2, hm, h⟩ := Option.bind_eq_some_iff.mp h
        obtain ⟨a1, -⟩ := readMcuHead_same hh
        rw [List.flatten_cons, List.map_append] at hn
        obtain ⟨n1, n2, n3⟩ := List.nodup_append.mp hn
        obtain ⟨-, b2, -⟩ := readMcu_added _ hm
        obtain ⟨-, c2, -⟩ := readMcus_added _ h
        rw [List.flatten_cons, List.mem_append] at hv
        rw [← a1]
        rcases hv with hv | hv
        · rw [c2 _ _ (fun hx => n3 _ (List.mem_map_of_mem hv) _ hx rfl)]
          exact readMcu_decoded _ hm n1 v hv
        · have := ih h n2 v hv
          rwa [b2 _ _ (fun hx => n3 _ hx _ (List.mem_map_of_mem hv) rfl)] at this

theorem readScanData_coefs {data : List Nat} {lut : HSlot → JMem} {P : SP} {ri : Nat} {mcus : List (List Visit)} {start pos : Nat} {coefs : Coefs} {pads0 : List Bool} {st : RS}
    (h : readScanData data lut P ri mcus start coefs pads0 = some (st, pos)) (hn : (mcus.flatten.map Visit.key).Nodup) :
    (∀ v ∈ mcus.flatten, Decoded P v (coefs v.comp v.blk) (st.coefs v.comp v.blk)) ∧ ∀ c b, (c, b) ∉ mcus.flatten.map Visit.key → st.coefs c b = coefs c b := by
  unfold readScanData at h
  split at h
  · cases h
  · rename_i s1 h1
    split at h
    · cases h
    · split at h
      · cases h
      · split at h
        · cases h
        · cases h
          have h2 := readMcus_decoded _ h1 hn
          obtain ⟨-, h3, -⟩ := readMcus_added _ h1
          exact ⟨h2, h3⟩

/-- The change of each coefficient. -/
theorem Decoded.step {P : SP} {v : Visit} {B B' : Blk} (hb : P.ss ≤ P.se) (h : Decoded P v B B') :
    (∀ k, k < P.ss ∨ P.se < k → B' k = B k) ∧
    (P.ah = 0 → (∀ k, P.ss ≤ k → k ≤ P.se → B k = 0) → ∀ k, P.ss ≤ k → k ≤ P.se → FStep P.al k (B' k)) ∧
    (P.ah ≠ 0 → ∀ k, P.ss ≤ k → k ≤ P.se → GStep P.al k (B k) (B' k)) := by
  obtain ⟨last, e, as, o, h, rfl⟩ := h
  unfold readProg at h
  split at h
  · rename_i ha
    obtain ⟨h1, h2⟩ := decodeBlock_frame h
    refine ⟨fun k hk => h1 k hk (by omega), fun _ hz k k1 k2 => ⟨fun hk => ?_, fun hk => ?_⟩, fun hc => absurd ha hc⟩
    · rcases decodeBlock_vals h k (by omega) with h3 | h3
      · left; rw [h3, hz k k1 k2]
      · right; exact h3
    · subst hk
      exact h2 (by omega)
  · rename_i ha
    obtain ⟨h1, h2, h3⟩ := refineBlock_frame h
    refine ⟨fun k hk => h1 k hk (by omega), fun hc => absurd hc ha, fun _ k k1 k2 => ⟨fun hk => h2 k (by omega) k1 k2, fun hk => ?_⟩⟩
    subst hk
    exact h3 (by omega)

/-- The masks describe the coefficients. -/
def Good (m : Masks) (C : Coefs) : Prop := ∀ c b k, Val (m c k) k (C c b k)

theorem Good.init : Good (fun _ _ => 0) (fun _ _ _ => 0) := fun _ _ _ => ⟨Nat.zero_lt_succ _, fun _ => rfl, fun h => absurd rfl h⟩

/-- Masks and coefficients at a later time: the bits that the masks say are there are kept. -/
def Later (m : Masks) (C : Coefs) (m' : Masks) (C' : Coefs) : Prop :=
  ∀ c k a, (m c k).testBit a = true → (m' c k).testBit a = true ∧ ∀ b, Keeps a k (C c b k) (C' c b k)

theorem Later.refl (m : Masks) (C : Coefs) : Later m C m C := fun _ _ _ h => ⟨h, fun _ => Keeps.refl _ _ _⟩

theorem Later.trans {m m' m'' : Masks} {C C' C'' : Coefs} (h1 : Later m C m' C') (h2 : Later m' C' m'' C'') : Later m C m'' C'' := by
  intro c k a h
  obtain ⟨e1, e2⟩ := h1 c k a h
  obtain ⟨e3, e4⟩ := h2 c k a e1
  exact ⟨e3, fun b => (e2 b).trans (e4 b)⟩

/-- **A scan keeps what earlier scans provided**, and the masks go on describing the coefficients. -/
theorem scan_later {data : List Nat} {lut : HSlot → JMem} {P : SP} {ri : Nat} {mcus : List (List Visit)} {start pos : Nat} {coefs : Coefs} {pads0 : List Bool} {st : RS}
    (h : readScanData data lut P ri mcus start coefs pads0 = some (st, pos)) (hn : (mcus.flatten.map Visit.key).Nodup) (hb : P.ss ≤ P.se)
    {cs : List Nat} (hcs : cs.Nodup) (hvc : ∀ v ∈ mcus.flatten, v.comp ∈ cs) {m m' : Masks} (hm : markScan P cs m = some m') (hg : Good m coefs) :
    Good m' st.coefs ∧ Later m coefs m' st.coefs ∧ (∀ v ∈ mcus.flatten, Pre P (coefs v.comp v.blk)) ∧
      ∀ c ∈ cs, ∀ k, P.ss ≤ k → k ≤ P.se → (m' c k).testBit P.al = true := by
  obtain ⟨hd, hf⟩ := readScanData_coefs h hn
  obtain ⟨hP, hk, ho⟩ := markScan_spec hcs hm
  -- each coefficient
  have key : ∀ c b k, Val (m' c k) k (st.coefs c b k) ∧ ∀ a, (m c k).testBit a = true → (m' c k).testBit a = true ∧ Keeps a k (coefs c b k) (st.coefs c b k) := by
    intro c b k
    have hv := hg c b k
    by_cases hin : c ∈ cs ∧ P.ss ≤ k ∧ k ≤ P.se
    · have hM := hk c hin.1 k hin.2.1 hin.2.2
      have hbit : ∀ a, (m c k).testBit a = true → (m' c k).testBit a = true := by
        intro a ha; rw [hM.bit, ha, Bool.true_or]
      by_cases hvis : (c, b) ∈ mcus.flatten.map Visit.key
      · obtain ⟨v, hv1, hv2⟩ := List.mem_map.mp hvis
        have e1 : v.comp = c := congrArg Prod.fst hv2
        have e2 : v.blk = b := congrArg Prod.snd hv2
        have hs := (hd v hv1).step hb
        rw [e1, e2] at hs
        by_cases ha : P.ah = 0
        · have hz : m c k = 0 := hM.first ha hv.lt
          have hz' : ∀ j, P.ss ≤ j → j ≤ P.se → coefs c b j = 0 := by
            intro j j1 j2
            exact (hg c b j).zero ((hk c hin.1 j j1 j2).first ha (hg c b j).lt)
          refine ⟨hv.first hP hM ha (hs.2.1 ha hz' k hin.2.1 hin.2.2), fun a hb => ?_⟩
          rw [hz, Nat.zero_testBit] at hb
          exact nomatch hb
        · have hG := hs.2.2 ha k hin.2.1 hin.2.2
          exact ⟨hv.refine hP hM hG, fun a hb => ⟨hbit a hb, hv.keeps hM hb hG⟩⟩
      · rw [hf c b hvis]
        have hG : GStep P.al k (coefs c b k) (coefs c b k) := ⟨fun _ => Or.inl rfl, fun _ => Or.inl rfl⟩
        exact ⟨hv.refine hP hM hG, fun a hb => ⟨hbit a hb, Keeps.refl _ _ _⟩⟩
    · have e : m' c k = m c k := ho c k (by by_cases hc : c ∈ cs <;> simp_all <;> omega)
      have e2 : st.coefs c b k = coefs c b k := by
        by_cases hvis : (c, b) ∈ mcus.flatten.map Visit.key
        · obtain ⟨v, hv1, hv2⟩ := List.mem_map.mp hvis
          have e1 : v.comp = c := congrArg Prod.fst hv2
          have e2 : v.blk = b := congrArg Prod.snd hv2
          have hs := (hd v hv1).step hb
          rw [e1, e2] at hs
          refine hs.1 k ?_
          have := hvc v hv1
          rw [e1] at this
          by_contra hcon
          exact hin ⟨this, by omega, by omega⟩
        · rw [hf c b hvis]
      rw [e, e2]
      exact ⟨hv, fun a hb => ⟨hb, Keeps.refl _ _ _⟩⟩
  refine ⟨fun c b k => (key c b k).1, fun c k a ha => ⟨((key c 0 k).2 a ha).1, fun b => ((key c b k).2 a ha).2⟩, ?_, fun c hc k k1 k2 => (hk c hc k k1 k2).set hP⟩
  intro v hv j j1 j2
  have hM := hk v.comp (hvc v hv) j j1 j2
  have hV := hg v.comp v.blk j
  exact ⟨fun ha => hV.zero (hM.first ha hV.lt), fun _ => hV.hist hM⟩

theorem Later.same {P : SP} {cs : List Nat} {m m' : Masks} {C F : Coefs} (h : Later m C m' F) (hset : ∀ c ∈ cs, ∀ k, P.ss ≤ k → k ≤ P.se → (m c k).testBit P.al = true)
    {c b : Nat} (hc : c ∈ cs) : SameFirst P.ss P.se P.al (F c b) (C c b) := by
  constructor
  · intro h0
    have := (h c 0 P.al (hset c hc 0 (by omega) (by omega))).2 b
    exact (this.1 rfl).symm
  · intro k hk k1 k2
    have := ((h c k P.al (hset c hc k k1 k2)).2 b).2 (by omega)
    refine ⟨this.1.symm, fun hz => (this.2 ?_).symm⟩
    rwa [this.1]

theorem Good.small {m : Masks} {C : Coefs} (h : Good m C) (c b : Nat) : (C c b).Small := by
  intro k hk
  have hv := h c b k
  by_cases hz : m c k = 0
  · rw [hv.zero hz]; decide
  · have := (hv.mul hz 0 fun i hi => by omega).2
    have := this.1 (by omega)
    omega

end Brunsli
