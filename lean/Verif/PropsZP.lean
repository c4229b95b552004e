import Verif.PropsA
/-!
# C07, continued: all that a sequence of reads gives, for any buffer
-/

namespace Brunsli

/-- Specification: the numbers that groups of `ns` bits make, from bit `pos` of a number on (of its low bits first). -/
def bitGroups (S : Nat) : Nat → List Nat → List Nat
  | _, [] => []
  | pos, n :: ns => S / 2 ^ pos % 2 ^ n :: bitGroups S (pos + n) ns

theorem BR.reads_spec {buf : List Nat} (hb : Bytes buf) (ns : List Nat) : ∀ (r : BR) (pos : Nat), r.Inv buf pos → (∀ n ∈ ns, n ≤ 24) →
    (r.reads buf ns).1 = bitGroups (leVal buf) pos ns ∧ (r.reads buf ns).2.Inv buf (pos + ns.sum) ∧ (r.reads buf ns).2.healthy = r.healthy := by
  induction ns with
  | nil => intro r pos h _; exact ⟨rfl, by simpa [BR.reads] using h, rfl⟩
  | cons n ns ih =>
    intro r pos h hn
    obtain ⟨a1, a2, a3⟩ := BR.read_inv (n := n) hb h (hn n (by simp))
    obtain ⟨b0, b1, b2⟩ := ih _ _ a2 (fun n hn' => hn n (by simp [hn']))
    simp only [BR.reads, List.sum_cons, bitGroups]
    rw [← Nat.add_assoc]
    exact ⟨by rw [a1, b0], b1, by rw [b2, a3]⟩

/-- **C07 (5)**: any groups read from any buffer are its bits, as if zeros followed. -/
theorem C07_values (buf ns : List Nat) (hbuf : Bytes buf) (hns : ∀ n ∈ ns, n ≤ 24) : (BR.init.reads buf ns).1 = bitGroups (leVal buf) 0 ns :=
  (BR.reads_spec hbuf ns BR.init 0 (BR.init_inv buf) hns).1

/-- **C07 (6)**: after `Suspend` and `Finish` the reader is healthy exactly if not more was read than there is, and the rest of the last byte is zero. -/
theorem C07_finish (buf ns : List Nat) (hbuf : Bytes buf) (hns : ∀ n ∈ ns, n ≤ 24) :
    (((BR.init.reads buf ns).2.unload).finish buf).isHealthy =
      decide (ns.sum ≤ 8 * buf.length ∧ leVal buf / 2 ^ ns.sum % 2 ^ ((8 - ns.sum % 8) % 8) = 0) := by
  obtain ⟨-, k1, k2⟩ := BR.reads_spec hbuf ns BR.init 0 (BR.init_inv buf) hns
  rw [Nat.zero_add] at k1
  generalize (BR.init.reads buf ns).2 = r0 at *
  obtain ⟨v1, v2, v3⟩ := BR.unload_inv k1
  have hh : r0.unload.healthy = true := by rw [v3, k2]; rfl
  generalize r0.unload = r at *
  generalize ns.sum = pos at *
  have hc := v1.cons
  have hl := v1.le
  have hn : r.numBits = (8 - pos % 8) % 8 := by omega
  obtain ⟨r1, r2, r3⟩ := BR.read_inv (n := r.numBits) hbuf v1 (by omega)
  unfold BR.finish
  rw [if_neg (by omega), ← hn]
  by_cases h0 : r.numBits > 0
  · rw [if_pos h0]
    dsimp only
    rw [r1]
    by_cases hz : leVal buf / 2 ^ pos % 2 ^ r.numBits = 0
    · rw [if_neg (by simpa using hz), BR.isHealthy_iff r2, r3, hh, Bool.and_true, decide_eq_decide]
      constructor
      · intro h; exact ⟨by omega, hz⟩
      · intro h; omega
    · rw [if_pos hz]
      have : BR.isHealthy { (r.read buf r.numBits).2 with healthy := false } = false := by simp [BR.isHealthy, BR.unload]
      rw [this]
      symm
      rw [decide_eq_false_iff_not]
      exact fun h => hz h.2
  · rw [if_neg h0, BR.isHealthy_iff v1, hh, Bool.and_true, decide_eq_decide]
    have e : r.numBits = 0 := by omega
    rw [e]
    constructor
    · intro h; exact ⟨h, by simp [Nat.mod_one]⟩
    · exact fun h => h.1

/-- Two groups of two bytes; the last five bits are not all zero in the second case. -/
example : Bytes [0x35, 0x05] ∧ (BR.init.reads [0x35, 0x05] [3, 8]).1 = [5, 0xA6] ∧ ((BR.init.reads [0x35, 0x05] [3, 8]).2.unload.finish [0x35, 0x05]).isHealthy = true ∧
    ((BR.init.reads [0x35, 0x45] [3, 8]).2.unload.finish [0x35, 0x45]).isHealthy = false :=
  ⟨by unfold Bytes; decide, by decide +kernel, by decide +kernel, by decide +kernel⟩

end Brunsli
