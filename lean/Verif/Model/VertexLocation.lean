import Verif.Model.Base
/-
Model of the fixed locations and labels of vertices: `model/graphs/abstract_vertex.py`,
`model/graphs/machine/machine_vertex.py`, `model/graphs/application/application_vertex.py` and
`model/graphs/common/chip_and_core.py`.
-/

namespace Pacman.VLoc

/-- `ChipAndCore`, chip_and_core.py:17-40; two are equal if x, y and p are (75-78). `int` of the arguments is left out. -/
structure Loc where
  x : Int
  y : Int
  p : Option Int
  deriving DecidableEq, Repr

/-- `_label`, `_added_to_graph` and `_fixed_location`, abstract_vertex.py:24-38. -/
structure Vertex where
  label : Option Nat
  added : Bool
  fixed : Option Loc
  deriving DecidableEq, Repr

/-- Application vertices, machine vertices, and for the latter `_app_vertex` (machine_vertex.py:38-66). -/
structure World where
  app : Nat → Vertex
  mach : Nat → Vertex
  appOf : Nat → Option Nat

/-- `set_fixed_location`, abstract_vertex.py:93-112. -/
def setFixed (v : Vertex) (l : Loc) : Vertex × Except PyErr Unit :=
  match v.fixed with
  | some k => if l = k then (v, .ok ()) else (v, .error .configuration)
  | none => ({ v with fixed := some l }, .ok ())

/-- `set_label`, abstract_vertex.py:51-63. -/
def setLabel (v : Vertex) (l : Nat) : Vertex × Except PyErr Unit :=
  if v.added then (v, .error .configuration) else ({ v with label := some l }, .ok ())

/-- `set_added_to_graph`, abstract_vertex.py:65-72. -/
def setAdded (v : Vertex) : Vertex := { v with added := true }

/-- `get_fixed_location` of an application vertex, abstract_vertex.py:81-91. -/
def appLocation (W : World) (v : Nat) : Option Loc := (W.app v).fixed

/-- `get_fixed_location` of a machine vertex, machine_vertex.py:160-172. -/
def machLocation (W : World) (m : Nat) : Option Loc :=
  match (W.mach m).fixed with
  | some l => some l
  | none =>
    match W.appOf m with
    | some v => appLocation W v
    | none => none

/-- `has_fixed_location` with the machine vertices, application_vertex.py:444-458. -/
def hasFixed (W : World) (v : Nat) (machines : List Nat) : Bool :=
  (appLocation W v).isSome || machines.any (fun m => (machLocation W m).isSome)

/-- A call on an application vertex (`false`) or a machine vertex (`true`). -/
inductive Op where
  | setFixed (machine : Bool) (v : Nat) (l : Loc)
  | setLabel (machine : Bool) (v : Nat) (l : Nat)
  | setAdded (machine : Bool) (v : Nat)

/-- A vertex changed (not code). -/
def World.set (W : World) (machine : Bool) (v : Nat) (x : Vertex) : World :=
  if machine then { W with mach := fun u => if u = v then x else W.mach u }
  else { W with app := fun u => if u = v then x else W.app u }

/-- A vertex (not code). -/
def World.get (W : World) (machine : Bool) (v : Nat) : Vertex := if machine then W.mach v else W.app v

/-- The state after a call, and whether it raised. -/
def step (W : World) : Op → World × Except PyErr Unit
  | .setFixed k v l => (W.set k v (setFixed (W.get k v) l).1, (setFixed (W.get k v) l).2)
  | .setLabel k v l => (W.set k v (setLabel (W.get k v) l).1, (setLabel (W.get k v) l).2)
  | .setAdded k v => (W.set k v (setAdded (W.get k v)), .ok ())

/-- The state after some calls, exceptions caught. -/
def run (W : World) : List Op → World
  | [] => W
  | o :: os => run (step W o).1 os

end Pacman.VLoc
