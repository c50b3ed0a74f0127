import Verif.Spec.Allocator
/-
Words used to state when keys can be allocated.
-/

namespace Pacman.Alloc

/-- The fixed keys of a partition agree: none is fixed; or the key of the application vertex is fixed, and so are those of all
its machine vertices, which have its key in the bits of its mask; or it has one machine vertex only, whose key is not fixed. -/
def Agreed (p : Part) : Prop :=
  (p.fixed = none ∧ ∀ v ∈ p.outgoing, v.fixed = none) ∨
  ∃ akm, p.fixed = some akm ∧
    ((∀ v ∈ p.outgoing, ∃ km, v.fixed = some km ∧ km.1 &&& akm.2 = akm.1) ∨ ∃ v, p.outgoing = [v] ∧ v.fixed = none)

/-- Some vertex has this key and mask fixed. -/
def IsFixed (ps : List Part) (km : Word × Word) : Prop :=
  ∃ p ∈ ps, p.fixed = some km ∨ ∃ v ∈ p.outgoing, v.fixed = some km

/-- Blocks of `2 ^ w` keys are large enough for each partition without a fixed key: each of its machine vertices may have
`2 ^ a` keys of its own, and there are `2 ^ m` numbers for them. -/
def Wide (ps : List Part) (w : Nat) : Prop :=
  ∀ p ∈ ps, p.fixed = none →
    ∃ a m, (∀ v ∈ p.outgoing, v.nKeys ≤ 2 ^ a) ∧ p.outgoing.length ≤ 2 ^ m ∧ a + m ≤ w

/-- Some key in the `i`-th block of `2 ^ w` keys is fixed. -/
def Hit (ps : List Part) (w i : Nat) : Prop :=
  ∃ km, IsFixed ps km ∧ ∃ x : Word, x &&& km.2 = km.1 ∧ x.toNat / 2 ^ w = i

/-- Of the `2 ^ (32 - w)` blocks of `2 ^ w` keys, enough have no fixed key for each partition that sends to get one. -/
def Room (ps : List Part) (w : Nat) : Prop :=
  ∃ L : List Nat, (∀ i, Hit ps w i → i ∈ L) ∧
    (ps.filter (fun p => decide (p.outgoing ≠ []))).length + L.length ≤ 2 ^ (32 - w)

end Pacman.Alloc
