import Verif.Spec.Mapping
import Verif.Spec.RouterSucceeds
/-
Where the vertices of a graph have to be so that it can be routed.
-/

namespace Pacman.Split

open Router (Ctx)
open Plc (Placement)

/-- The links that the placer knows are links of the machine. -/
def SameLinks (M : Placer.Machine) (T : RPath.Topo) : Prop :=
  ∀ c, M.has c = true → ∀ d ∈ M.links c, ∃ l, l < 6 ∧ T.linkAt ((c.1 : Int), (c.2 : Int)) l = true ∧
    T.over ((c.1 : Int), (c.2 : Int)) l = ((d.1 : Int), (d.2 : Int))

/-- An application vertex is no device and has no fixed location, or all its machine vertices are on one chip. -/
def Settled (E : Env) (W : World) (l : List Placement) (links : Nat → RPath.XY × Nat) (fixedApp : Nat → Bool) (v : Nat) :
    Prop :=
  (fixedApp v = false ∧ (∀ t, (W.app v).splitter = some t → E.kind t ≠ .external) ∧
    ∀ m ∈ (W.app v).machines, (W.mv m).dev = none) ∨
  ∃ c, ∀ m ∈ (W.app v).machines, ∃ q k, Sits W l links m c q k

end Pacman.Split
