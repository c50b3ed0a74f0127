import Verif.Model.AppGraph
/-
What users expect of an application graph.
-/

namespace Pacman.AppGraph

open Parts (Edge)

/-- The vertices whose addition did not raise, in order. -/
def accepted (s : Graph × Objs) : List Op → List Nat
  | [] => []
  | .addVertex v :: os =>
    match (step s (.addVertex v)).2 with
    | .ok () => v :: accepted (step s (.addVertex v)).1 os
    | .error _ => accepted (step s (.addVertex v)).1 os
  | o :: os => accepted (step s o).1 os

/-- The edges whose addition did not raise, with the names of their partitions, in order. -/
def acceptedEdges (s : Graph × Objs) : List Op → List (Edge × String)
  | [] => []
  | .addEdge e n :: os =>
    match (step s (.addEdge e n)).2 with
    | .ok () => (e, n) :: acceptedEdges (step s (.addEdge e n)).1 os
    | .error _ => acceptedEdges (step s (.addEdge e n)).1 os
  | o :: os => acceptedEdges (step s o).1 os

/-- The label does not end in a digit. -/
def NoDigit (l : Label) : Prop := ∀ c, l.getLast? = some c → c.isDigit = false

/-- The labels that users set do not end in a digit. -/
def OpsOk (ops : List Op) : Prop := ∀ v l, Op.setLabel v l ∈ ops → NoDigit l

/-- The edges of a partition, among those accepted. -/
def part (acc : List (Edge × String)) (v : Nat) (n : String) : List Edge :=
  (acc.filter (fun x => decide (x.1.pre = v ∧ x.2 = n))).map (·.1)

/-- No vertex outside the graph has the label of one in it. -/
def NoDouble (s : Graph × Objs) : Prop :=
  ∀ v w l, v ∈ s.1.vertices → s.2.label v = some l → s.2.label w = some l → w = v

end Pacman.AppGraph
