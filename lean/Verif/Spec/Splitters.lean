import Verif.Model.Splitters
/-
What is claimed of splitters.
-/

namespace Pacman.Split

/-- A splitter governs the application vertex whose splitter it is, and no other. -/
def Linked (W : World) : Prop :=
  ∀ v s, (W.app v).splitter = some s ↔ (W.spl s).governed = some v

/-- What the constructors of user classes have to see to: the machine vertices of
`AbstractOneAppOneMachineVertex`es exist, know their application vertex and have index 0 (as set by `remember_machine_vertex`). -/
structure Built (E : Env) (mv : Nat → MV) (next : Nat) : Prop where
  old : ∀ v m, (E.app v).single = some m → m < next
  index : ∀ v m, (E.app v).single = some m → (mv m).index = 0
  app : ∀ v m, (E.app v).single = some m → (mv m).app = v

/-- The index of each machine vertex is its place among those of its application vertex. -/
def Indexed (W : World) : Prop :=
  ∀ v i m, (W.app v).machines[i]? = some m → (W.mv m).index = i

/-- Calls of the partitioner are for different vertices, and machine vertices of devices have been forgotten (by
`reset`) before. -/
def Careful (E : Env) : World → List Op → Prop
  | _, [] => True
  | W, o :: os =>
    (∀ vs, o = .partition vs → vs.Nodup ∧ ∀ v ∈ vs, ∀ s, (W.app v).splitter = some s → E.kind s = .external →
      (W.app v).machines = []) ∧ Careful E (step E W o).1 os

/-- The splitter of a vertex is not `SplitterOneToOneLegacy`, and `SplitterOneAppOneMachine` if the vertex is an
`AbstractOneAppOneMachineVertex`. -/
def Usual (E : Env) (W : World) (v : Nat) : Prop :=
  ∀ s, (W.app v).splitter = some s → E.kind s ≠ .oneToOne ∧ ((E.app v).single ≠ none → E.kind s = .oneApp)

/-- Nothing is left of an earlier run of the partitioner: the vertex has no machine vertices, or just that of its
`SplitterOneToOneLegacy`, or that of an `AbstractOneAppOneMachineVertex`; its `SplitterFixedLegacy` keeps no slices. So it
is when the splitter has just been set (`anew_set`), and after a reset of the graph if the vertex is `Usual`
(`anew_reset`). -/
def Anew (E : Env) (W : World) (v : Nat) : Prop :=
  ∀ s, (W.app v).splitter = some s →
    match E.kind s with
    | .fixed => (E.app v).single = none ∧ (W.app v).machines = [] ∧ (W.spl s).slices = none
    | .oneToOne => (E.app v).single = none ∧ ∃ m, (W.app v).machines = [m] ∧ outVerts E W s = .ok [m]
    | .oneApp => True
    | .external => (E.app v).single = none ∧ (W.app v).machines = []

end Pacman.Split
