import Verif.Spec.RouterPath
import Verif.Model.RouterTree
/-
What the routes lead to.
-/

namespace Pacman.RPath

/-- The chip has a route. -/
def Routed (R : Routes) (c : XY) : Prop := ∃ ch, R.get? c = some ch

/-- Chip `b` is a child of chip `a` over link `l`. -/
def Edge (R : Routes) (a : XY) (l : Nat) (b : XY) : Prop := ∃ ch, R.get? a = some ch ∧ (l, b) ∈ ch

/-- Following the children from `a` one comes to `b`. -/
inductive Leads (R : Routes) : XY → XY → Prop
  | refl {a : XY} : Leads R a a
  | step {a b c : XY} {l : Nat} : Leads R a b → Edge R b l c → Leads R a c

/-- `R` keeps everything of `R0`: each chip keeps its children, with others after them. -/
def Extends (R0 R : Routes) : Prop :=
  ∀ c ch, R0.get? c = some ch → ∃ more, R.get? c = some (ch ++ more)

/-- The edge goes over a working link to an existing chip. -/
def Wired (T : Topo) (a : XY) (l : Nat) (b : XY) : Prop :=
  l < 6 ∧ T.linkAt a l = true ∧ T.over a l = b ∧ b ∈ T.chips

/-- The routes form trees: children have routes, no chip has two parents, and there are no cycles.
(A child may be listed more than once.) -/
structure Forest (R : Routes) : Prop where
  closed : ∀ a l b, Edge R a l b → Routed R b
  oneParent : ∀ a l a' l' b, Edge R a l b → Edge R a' l' b → a = a' ∧ l = l'
  acyclic : ∀ a l b, Edge R a l b → ¬ Leads R b a

end Pacman.RPath
