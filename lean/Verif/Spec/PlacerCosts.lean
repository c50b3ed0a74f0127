import Verif.Spec.Sdram
import Verif.Spec.Placer
/-
What a collection of SDRAM costs comes to: specification, and the costs of the placer made from it.
-/

namespace Pacman.Sdram

/-- The first block under each key. -/
def firsts : List ((Nat × String) × Cost) → List ((Nat × String) × Cost)
  | [] => []
  | q :: l => q :: (firsts l).filter (fun r => decide (r.1 ≠ q.1))

/-- A total that is known not to fail and not to be negative. -/
def amount : Except PyErr Int → Nat
  | .ok x => x.toNat
  | .error _ => 0

/-- What costs come to: their own parts, and each shared block once. -/
def tally (t : Option Nat) (l : List Cost) : Nat :=
  amount (varTotal (l.map (fun a => (own a).1)).sum (sumQ (l.map (fun a => (own a).2))) t) +
    ((firsts (l.flatMap blocks)).map (fun q => amount (total t q.2))).sum

/-- Costs that may be put together: shared blocks under the same key are equal, nothing is negative, and there is a total for
the given number of timesteps. -/
structure Good (cost : Nat → Cost) (t : Option Nat) : Prop where
  wf : ∀ i, WF (cost i)
  agree : ∀ i j k v w, (k, v) ∈ blocks (cost i) → (k, w) ∈ blocks (cost j) → eq v w = true
  fixed : ∀ i, 0 ≤ (own (cost i)).1
  per : ∀ i, 0 ≤ (own (cost i)).2
  known : ∀ i, t = none → (own (cost i)).2 = 0
  shared : ∀ i, ∀ q ∈ blocks (cost i), ∃ x : Nat, total t q.2 = .ok (x : Int)

end Pacman.Sdram
