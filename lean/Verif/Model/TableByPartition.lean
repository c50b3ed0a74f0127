import Verif.Model.Allocator
/-
Model of `model/routing_table_by_partition/multicast_routing_table_by_partition.py`.
-/

namespace Pacman.ByPart

open Alloc (VId)

/-- `spinn_machine.RoutingEntry`: route word (processors and links) and the defaultable flag. -/
structure REntry where
  route : Nat
  defaultable : Bool
  deriving DecidableEq, Repr

/-- What is known of the vertices: the application vertex of a machine vertex
(`MachineVertex.app_vertex`) and the machine vertices of an application vertex
(`ApplicationVertex.machine_vertices`); and `RoutingEntry.merge`. -/
structure World where
  appOf : Nat → Option Nat
  machines : Nat → List Nat
  merge : REntry → REntry → Except PyErr REntry

/-- The entries of one router. -/
abbrev Entries := Dict (VId × Nat) REntry

/-- `_router_to_entries_map`. -/
abbrev State := Dict (Int × Int) Entries

/-- The check of `add_path_entry`, multicast_routing_table_by_partition.py:61-76. -/
def check (w : World) (entries : Entries) (src : VId) (part : Nat) : Except PyErr Unit :=
  match src with
  | .app a =>
    forE (fun m => if (entries.get? (.mach m, part)).isSome then .error .invalidParameter else .ok ())
      (w.machines a)
  | .mach m =>
    match w.appOf m with
    | none => .ok ()
    | some a => if (entries.get? (.app a, part)).isSome then .error .invalidParameter else .ok ()

/-- The store into the entries of the router, multicast_routing_table_by_partition.py:78-87. -/
def store (w : World) (entries : Entries) (e : REntry) (src : VId) (part : Nat) :
    Except PyErr Entries :=
  match entries.get? (src, part) with
  | none => .ok (entries.set (src, part) e)
  | some old =>
    match w.merge e old with
    | .ok m => .ok (entries.set (src, part) m)
    | .error err => .error err

/-- `add_path_entry`, multicast_routing_table_by_partition.py:42-87: the state afterwards (also when an
exception is raised: a new router stays with no entries) and the outcome. -/
def addPath (w : World) (s : State) (e : REntry) (x y : Int) (src : VId) (part : Nat) :
    State × Except PyErr Unit :=
  let entries := (s.get? (x, y)).getD []
  let s := s.set (x, y) entries
  match check w entries src part with
  | .error err => (s, .error err)
  | .ok () =>
    match store w entries e src part with
    | .error err => (s, .error err)
    | .ok entries => (s.set (x, y) entries, .ok ())

/-- `get_entries_for_router`, multicast_routing_table_by_partition.py:105-117. -/
def entriesFor (s : State) (x y : Int) : Option Entries := s.get? (x, y)

/-- `get_entry_on_coords_for_edge`, multicast_routing_table_by_partition.py:119-136. -/
def entryOn (s : State) (src : VId) (part : Nat) (x y : Int) : Option REntry :=
  match entriesFor s x y with
  | none => none
  | some entries => entries.get? (src, part)

/-- One call of `add_path_entry`. -/
structure Call where
  entry : REntry
  x : Int
  y : Int
  src : VId
  part : Nat

/-- A sequence of calls, exceptions caught: the state and the calls that succeeded. -/
def run (w : World) : List Call → State × List Call
  | [] => ([], [])
  | c :: cs =>
    let r := run w cs
    match addPath w r.1 c.entry c.x c.y c.src c.part with
    | (s, .ok ()) => (s, c :: r.2)
    | (s, .error _) => (s, r.2)

end Pacman.ByPart
