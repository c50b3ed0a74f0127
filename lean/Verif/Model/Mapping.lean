import Verif.Model.SplitterNet
import Verif.Model.Placer
/-
The placer and the router on a graph that has been partitioned.
-/

namespace Pacman.Split

open Router (Net Ctx AppPart)
open Plc (Store)
open Placer (AppV)

/-- What the placer asks of machine vertices: whether they are virtual, and their SDRAM. Only
`SplitterExternalDevice` makes virtual ones (splitter_external_device.py:76-121). SDRAM is taken not to be negative. -/
def machineFor (M : Placer.Machine) (W : World) : Placer.Machine :=
  { M with
    virtual := fun m => (W.mv m).dev.isSome
    need := fun m => (W.mv m).sdram.toNat
    costs := Placer.Costs.bytes }

/-- `app_vertex.splitter.get_same_chip_groups()` of all vertices, application_placer.py:161-170, 188 and 378;
`splitter` raises if there is none, application_vertex.py:108-117. `fixedApp` is `has_fixed_location()`. -/
def appsOf (W : World) (fixedApp : Nat → Bool) : List Nat → Except PyErr (List AppV)
  | [] => .ok []
  | v :: vs =>
    match (W.app v).splitter with
    | none => .error .configuration
    | some s =>
      match groups W s with
      | .error e => .error e
      | .ok gs =>
        match appsOf W fixedApp vs with
        | .error e => .error e
        | .ok as => .ok (⟨gs.map (fun g => (g.1, g.2.toNat)), fixedApp v⟩ :: as)

/-- `place_application_graph`, application_placer.py:37-50. Simplified: splitters are asked first, as nothing
changes what they answer. -/
def placeFor (M : Placer.Machine) (W : World) (fixedApp : Nat → Bool) (vs : List Nat) (fuel : Nat) (s : Store) :
    Except PyErr Store :=
  match appsOf W fixedApp vs with
  | .error e => .error e
  | .ok as => Placer.place (machineFor M W) fuel as s

/-- `vertex_xy_and_route`, routing_algorithm_utilities.py:166-185. `links` is `get_link_data` of the machine:
chip and link. A vertex that is not placed raises there, see `lookUp`; here it is on the first chip. -/
def located (C : Ctx) (W : World) (s : Store) (links : Nat → RPath.XY × Nat) : Ctx :=
  { C with
    locate := fun m =>
      match (W.mv m).dev with
      | some l => ((links l.1).1, none, some (links l.1).2)
      | none =>
        match Plc.getOfVertex s m with
        | .ok a => (((a.x : Int), (a.y : Int)), some a.p, none)
        | .error _ => (C.T.chips.headD (0, 0), none, none) }

/-- `PacmanDataView.get_placement_of_vertex`, pacman_data_view.py:419-438, of these vertices, unless they are
virtual: routing_algorithm_utilities.py:141-185. -/
def lookUp (W : World) (s : Store) : List Nat → Except PyErr Unit
  | [] => .ok ()
  | m :: ms =>
    match (W.mv m).dev, Plc.getOfVertex s m with
    | none, .error e => .error e
    | _, _ => lookUp W s ms

/-- The machine vertices whose places the router asks for: those of sources (application_router.py:205-207), and those
that send or receive (301-307, 325, 450-453, 639-640). -/
def lookedUp (E : Env) (W : World) (p : AppPart) : List Nat :=
  let out := fun v => match (W.app v).splitter with
    | none => []
    | some s => (outVerts E W s).toOption.getD []
  let inc := fun v => match (W.app v).splitter with
    | none => []
    | some s => (inVerts E W s).toOption.getD []
  (W.app p.pre).machines ++ out p.pre ++ p.edges.flatMap inc

/-- `route_application_graph` after the placer, application_router.py:181-261. Simplified: places are looked up
first. -/
def routePlaced (E : Env) (W : World) (C : Ctx) (s : Store) (links : Nat → RPath.XY × Nat) (parts : List AppPart)
    (vs : List Nat) (fuel : Nat) : Except PyErr ByPart.State :=
  match lookUp W s (parts.flatMap (lookedUp E W)) with
  | .error e => .error e
  | .ok () => routeFor E W (located C W s links) parts vs fuel

end Pacman.Split
