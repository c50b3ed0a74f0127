import Verif.Model.Mapping
import Verif.Spec.SplitterNet
import Verif.Spec.Placer
/-
Where machine vertices are, and what is taken for granted of the machine, for the whole of the mapping.
-/

namespace Pacman.Split

open Router (Ctx)
open Plc (Placement)

/-- Where a machine vertex gets packets: a core of the chip where it is placed, or, for one of a device, a link of the chip
to which the device is connected. -/
inductive Sits (W : World) (l : List Placement) (links : Nat → RPath.XY × Nat) (m : Nat) :
    RPath.XY → Option Nat → Option Nat → Prop
  | core {a : Placement} : (W.mv m).dev = none → a ∈ l → a.vertex = m →
      Sits W l links m ((a.x : Int), (a.y : Int)) (some a.p) none
  | link {i : Nat} {b : Bool} : (W.mv m).dev = some (i, b) → Sits W l links m (links i).1 none (some (links i).2)

/-- What is taken for granted of the machine: merging entries joins their routes, sets are gone through in some
order, vectors lead to their ends, chips are those that the placer knows, devices are connected to links that do
not go to another chip. -/
structure Site (M : Placer.Machine) (C : Ctx) (W : World) (links : Nat → RPath.XY × Nat) : Prop where
  merges : ∀ a b c, C.merge a b = .ok c → c.route = a.route ||| b.route
  iter : ∀ l, (C.iter l).Perm l
  vector : ∀ a b, a ∈ C.T.chips → b ∈ C.T.chips →
    RPath.Chain C.T a (RPath.longestFirst C.T (C.vector a b).1 (C.vector a b).2.1 (C.vector a b).2.2 a) b
  some_ : C.T.chips ≠ []
  agree : ∀ c, M.has c = true → ((c.1 : Int), (c.2 : Int)) ∈ C.T.chips
  grid : ∀ c, M.has c = true → c.1 < M.width ∧ c.2 < M.height
  cores : ∀ l : List Nat, (M.iter l).Perm l
  links : ∀ m i b, (W.mv m).dev = some (i, b) →
    (links i).1 ∈ C.T.chips ∧ (links i).2 < 6 ∧ C.T.linkAt (links i).1 (links i).2 = false

end Pacman.Split
