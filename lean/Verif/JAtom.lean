import Verif.JReader
import Verif.JCode
/-!
# Programs that read entropy-coded JPEG data

The block decoders only read Huffman symbols and groups of bits.  They are written as programs over these two operations.  Such a program
can be run by the bit reader, or be fed a list of atoms (symbols and single bits); the first is shown to be an instance of the second.
-/

namespace Brunsli

/-- A Huffman table: whether it is for AC coefficients, and its index. -/
abbrev HSlot := Bool × Nat

/-- What the entropy-coded data consist of. -/
inductive Atom where
  | sym (t : HSlot) (v : Nat)
  | bit (b : Bool)
deriving DecidableEq

/-- A program that reads symbols and bits; it fails on a value that is not a symbol. -/
inductive JProg (α : Type) where
  | pure (a : α)
  | fail
  | sym (t : HSlot) (k : Nat → JProg α)
  | bits (n : Nat) (k : Nat → JProg α)

def JProg.bind {α β : Type} : JProg α → (α → JProg β) → JProg β
  | .pure a, f => f a
  | .fail, _ => .fail
  | .sym t k, f => .sym t fun v => (k v).bind f
  | .bits n k, f => .bits n fun v => (k v).bind f

/-- The program run by the bit reader with the given lookup tables. -/
def JProg.run {α : Type} (data : List Nat) (lut : HSlot → JMem) : JProg α → JR → Option (α × JR)
  | .pure a, b => some (a, b)
  | .fail, _ => none
  | .sym t k, b =>
    let r := b.readSymbol data (lut t)
    if r.1 < 256 then (k r.1).run data lut r.2 else none
  | .bits n k, b =>
    let r := b.readBits data n
    (k r.1).run data lut r.2

/-- The program succeeds on exactly these atoms. -/
inductive Eats {α : Type} : JProg α → List Atom → α → Prop where
  | pure (a : α) : Eats (.pure a) [] a
  | sym {t : HSlot} {k : Nat → JProg α} {v : Nat} {as : List Atom} {a : α} : v < 256 → Eats (k v) as a → Eats (.sym t k) (.sym t v :: as) a
  | bits {n : Nat} {k : Nat → JProg α} {bs : List Bool} {as : List Atom} {a : α} : bs.length = n → Eats (k (ofMsb bs)) as a →
      Eats (.bits n k) (bs.map .bit ++ as) a

theorem Eats.bind {α β : Type} {p : JProg α} {f : α → JProg β} {as : List Atom} {b : β} (h : Eats (p.bind f) as b) :
    ∃ a as1 as2, as = as1 ++ as2 ∧ Eats p as1 a ∧ Eats (f a) as2 b := by
  induction p generalizing as with
  | pure a => exact ⟨a, [], as, rfl, .pure a, h⟩
  | fail => cases h
  | sym t k ih =>
    cases h with
    | sym hv h =>
      obtain ⟨a, as1, as2, e, h1, h2⟩ := ih _ h
      exact ⟨a, _ :: as1, as2, by rw [e]; rfl, .sym hv h1, h2⟩
  | bits n k ih =>
    cases h with
    | bits hl h =>
      obtain ⟨a, as1, as2, e, h1, h2⟩ := ih _ h
      exact ⟨a, _ ++ as1, as2, by rw [e, List.append_assoc], .bits hl h1, h2⟩

/-- The bits of an atom, given the tables of code words. -/
def atomBits (T : HSlot → CodeTable) : Atom → List Bool
  | .sym t v => msb ((T t).word v).1 ((T t).word v).2
  | .bit b => [b]

def atomsBits (T : HSlot → CodeTable) (as : List Atom) : List Bool := as.flatMap (atomBits T)

theorem atomsBits_append (T : HSlot → CodeTable) (a b : List Atom) : atomsBits T (a ++ b) = atomsBits T a ++ atomsBits T b := List.flatMap_append

theorem atomsBits_bits (T : HSlot → CodeTable) (bs : List Bool) : atomsBits T (bs.map .bit) = bs := by
  induction bs with
  | nil => rfl
  | cons b bs ih => simp only [atomsBits, List.map_cons, List.flatMap_cons, atomBits] at *; rw [ih]; rfl

/-- Lookup tables and tables of code words for the same codes. -/
def Match (lut : HSlot → JMem) (T : HSlot → CodeTable) : Prop :=
  ∀ t, JBits (lut t) ∧ ∀ x, x < 65536 → (jlookup (lut t) x).2 < 256 →
    1 ≤ (jlookup (lut t) x).1 ∧ (jlookup (lut t) x).1 ≤ 16 ∧ (T t).depth (jlookup (lut t) x).2 = (jlookup (lut t) x).1 ∧
    (T t).code (jlookup (lut t) x).2 = x / 2 ^ (16 - (jlookup (lut t) x).1)

/-- Groups of at most 16 bits; symbols are below 256. -/
def JProg.Small {α : Type} : JProg α → Prop
  | .pure _ => True
  | .fail => True
  | .sym _ k => ∀ v, v < 256 → (k v).Small
  | .bits n k => n ≤ 16 ∧ ∀ v, (k v).Small

/-- **The bit reader decodes atoms**: whatever it accepts, the bits it consumed are those of a list of atoms on which the program succeeds. -/
theorem JProg.run_eats {α : Type} {data : List Nat} (hd : Bytes data) {lut : HSlot → JMem} {T : HSlot → CodeTable} (hm : Match lut T) {start : Nat} (p : JProg α) :
    ∀ {c : Nat} {b b' : JR} {a : α}, p.Small → b.Rep data start c → p.run data lut b = some (a, b') →
    ∃ as k, Eats p as a ∧ b'.Rep data start (c + k) ∧ window data start c k = atomsBits T as ∧
      ((∃ t f, p = .sym t f) → 1 ≤ k) ∧ ((∃ n f, p = .bits n f ∧ 1 ≤ n) → 1 ≤ k) ∧
      ∀ v t, Atom.sym t v ∈ as → 1 ≤ ((T t).word v).1 ∧ ((T t).word v).1 ≤ 16 ∧ ((T t).word v).2 < 2 ^ ((T t).word v).1 := by
  induction p with
  | pure a =>
    intro c b b' a' _ hr h
    rw [JProg.run] at h
    cases h
    refine ⟨[], 0, .pure _, hr, window_zero _ _ _, ?_, ?_, ?_⟩
    · rintro ⟨t, f, e⟩; cases e
    · rintro ⟨n, f, e, _⟩; cases e
    · intro v t hv; cases hv
  | fail => intro c b b' a _ _ h; cases h
  | sym t k ih =>
    intro c b b' a hs hr h
    rw [JProg.run] at h
    obtain ⟨e1, e2⟩ := JR.readSymbol_rep hd hr (m := lut t) (hm t).1
    have hx : ofMsb (window data start c 16) < 65536 := by
      have := ofMsb_lt (window data start c 16)
      rwa [window_length] at this
    split at h
    · rename_i hlt
      have hs' := hs _ hlt
      rw [e1] at hlt
      obtain ⟨m1, m2, m3, m4⟩ := (hm t).2 _ hx hlt
      obtain ⟨as, j, i1, i2, i3, _, _, i5⟩ := ih _ hs' (e2 m2) h
      rw [e1] at i1
      have hw : window data start c (jlookup (lut t) (ofMsb (window data start c 16))).1 =
          msb ((T t).depth (jlookup (lut t) (ofMsb (window data start c 16))).2) ((T t).code (jlookup (lut t) (ofMsb (window data start c 16))).2) ∧
          (T t).code (jlookup (lut t) (ofMsb (window data start c 16))).2 < 2 ^ (T t).depth (jlookup (lut t) (ofMsb (window data start c 16))).2 := by
        rw [m3, m4]
        generalize (jlookup (lut t) (ofMsb (window data start c 16))).1 = l at *
        have hsplit : window data start c 16 = window data start c l ++ window data start (c + l) (16 - l) := by
          rw [← window_add, show l + (16 - l) = 16 by omega]
        have hv : ofMsb (window data start c 16) / 2 ^ (16 - l) = ofMsb (window data start c l) := by
          rw [hsplit, ofMsb_append, window_length, Nat.mul_comm, Nat.mul_add_div (Nat.two_pow_pos _)]
          have := ofMsb_lt (window data start (c + l) (16 - l))
          rw [window_length] at this
          rw [Nat.div_eq_of_lt this, Nat.add_zero]
        have h1 := msb_ofMsb (window data start c l)
        have h2 := ofMsb_lt (window data start c l)
        rw [window_length] at h1 h2
        rw [hv]
        exact ⟨h1.symm, h2⟩
      have hword : (T t).word (jlookup (lut t) (ofMsb (window data start c 16))).2 =
          ((T t).depth (jlookup (lut t) (ofMsb (window data start c 16))).2, (T t).code (jlookup (lut t) (ofMsb (window data start c 16))).2) := if_pos hlt
      refine ⟨.sym t _ :: as, (jlookup (lut t) (ofMsb (window data start c 16))).1 + j, .sym hlt i1, ?_, ?_, fun _ => by omega, fun _ => by omega, ?_⟩
      · rw [← Nat.add_assoc]; exact i2
      · rw [window_add, i3, hw.1]
        show _ = msb _ _ ++ _
        rw [hword]; rfl
      · intro v u hv
        rcases List.mem_cons.mp hv with hv | hv
        · cases hv
          rw [hword]
          exact ⟨by omega, by omega, hw.2⟩
        · exact i5 v u hv
    · cases h
  | bits n k ih =>
    intro c b b' a hs hr h
    rw [JProg.run] at h
    obtain ⟨e1, e2⟩ := JR.readBits_rep hd hr (n := n) hs.1
    obtain ⟨as, j, i1, i2, i3, _, _, i5⟩ := ih _ (hs.2 _) e2 h
    rw [e1] at i1
    refine ⟨(window data start c n).map .bit ++ as, n + j, .bits (window_length _ _ _ _) i1, ?_, ?_, ?_, ?_, ?_⟩
    · rw [← Nat.add_assoc]; exact i2
    · rw [window_add, i3, atomsBits_append, atomsBits_bits]
    · rintro ⟨t, f, e⟩; cases e
    · rintro ⟨n', f, e, h1⟩; cases e; omega
    · intro v u hv
      rcases List.mem_append.mp hv with hv | hv
      · obtain ⟨_, _, e⟩ := List.mem_map.mp hv
        cases e
      · exact i5 v u hv

end Brunsli
