import Verif.Spec.Splitters
import Verif.Spec.Slices
/-
What the partitioner needs of a vertex.
-/

namespace Pacman.Split

/-- The vertex has a splitter, and
* for a `SplitterFixedLegacy` the vertex is not an `AbstractOneAppOneMachineVertex`, has atoms, and the numbers of atoms
  per core fit its shape;
* a `SplitterOneToOneLegacy` has a machine vertex;
* the machine vertices of a `SplitterExternalDevice` are the one of the vertex, if that is an
  `AbstractOneAppOneMachineVertex`. -/
def CanSplit (E : Env) (W : World) (v : Nat) : Prop :=
  ∃ s, (W.app v).splitter = some s ∧
    match E.kind s with
    | .fixed => (E.app v).single = none ∧ Slices.Vertex.Valid ⟨(E.app v).shape, (W.app v).maxPer⟩
    | .oneToOne => ∃ l, outVerts E W s = .ok l
    | .oneApp => True
    | .external => ∀ m l, (E.app v).single = some m → outVerts E W s = .ok l ∨ inVerts E W s = .ok l → ∀ k ∈ l, k = m

end Pacman.Split
