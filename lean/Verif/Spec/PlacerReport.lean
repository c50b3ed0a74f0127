import Verif.Model.PlacerReport
import Verif.Spec.Placer
/-
What the report on a graph that is not placed is to say.
-/

namespace Pacman.Placer

open Plc (Placement)

/-- No vertex has virtual machine vertices and others. -/
def Unmixed (M : Machine) (v : AppV) : Prop :=
  (∀ u ∈ v.groups.flatMap (·.1), M.virtual u = true) ∨ ∀ u ∈ v.groups.flatMap (·.1), M.virtual u = false

/-- Some machine vertex of the vertex is to be on a core and is on none. -/
def Lacks (M : Machine) (l : List Placement) (v : AppV) : Prop :=
  ∃ u ∈ v.groups.flatMap (·.1), M.virtual u = false ∧ u ∉ l.map (·.vertex)

/-- What a report is to say where `l0` were given and `l` are there: the vertices that are not placed, that some of the machine vertices
of the last one are not, where the placer has put vertices, and on which chips it has put none and how many cores are free there. -/
structure Tells (M : Machine) (vs : List AppV) (l0 l : List Placement) (R : Report) : Prop where
  unplaced : ∀ v, v ∈ R.unplaced ↔ v ∈ vs ∧ Lacks M l v
  total : R.total = vs.length
  counted : 0 < R.count
  chips : ∀ (c : XY) (p u : Nat), (∃ ps, (c, ps) ∈ R.chips ∧ (p, u) ∈ ps) ↔
    (⟨u, c.1, c.2, p⟩ : Placement) ∈ l ∧ u ∉ l0.map (·.vertex)
  unused : ∀ (c : XY) (n : Int), (c, n) ∈ R.unused ↔ c ∈ M.chips ∧
    (∀ a ∈ l, (a.x, a.y) = c → a.vertex ∈ l0.map (·.vertex)) ∧ n = ((M.cores c).length : Int) - (at_ l c).length

end Pacman.Placer
