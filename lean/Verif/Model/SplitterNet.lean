import Verif.Model.Splitters
import Verif.Model.Pipeline
/-
What the routing and the allocation of keys get from the built-in splitters.
-/

namespace Pacman.Split

open Router (Net Ctx AppPart)

/-- The answers of the splitters to the router. `base` gives the machine and the places of machine vertices; `app_vertex`
and `machine_vertices` are from the state. Simplified: `app_vertex` of a machine vertex that its application vertex has
forgotten is left out, as nothing asks for it. No built-in splitter overrides `get_internal_multicast_partitions`
(abstract_splitter_common.py:212-221). A vertex that cannot receive has no targets here; see `routeFor`. -/
def netOf (E : Env) (W : World) (base : Ctx) (parts : List AppPart) (verts : List Nat) : Net where
  base := { base with
    appOf := fun m => if m ∈ (W.app (W.mv m).app).machines then some (W.mv m).app else none
    machines := fun a => (W.app a).machines }
  parts := parts
  verts := verts
  internals := fun v => (W.app v).splitter.map (fun _ => [])
  outgoing := fun _ a =>
    match (W.app a).splitter with
    | none => none
    | some s =>
      match outVerts E W s with
      | .error _ => none
      | .ok ms => some ms
  incoming := fun d a _ =>
    match (W.app d).splitter with
    | none => []
    | some s =>
      match inFor E W s a with
      | .error _ => []
      | .ok l => l

/-- `target.splitter.get_source_specific_in_coming_vertices` for the targets, application_router.py:301-302 and
450-451. -/
def askTargets (E : Env) (W : World) (a : Nat) : List Nat → Except PyErr Unit
  | [] => .ok ()
  | d :: ds =>
    match (W.app d).splitter with
    | none => .error .configuration
    | some s =>
      match inFor E W s a with
      | .error e => .error e
      | .ok _ => askTargets E W a ds

/-- The calls of splitters for all partitions: `splitter.get_out_going_vertices` of application_router.py:639 and
`askTargets`. -/
def askAll (E : Env) (W : World) : List AppPart → Except PyErr Unit
  | [] => .ok ()
  | p :: ps =>
    match (W.app p.pre).splitter with
    | none => .error .configuration
    | some s =>
      match outVerts E W s with
      | .error e => .error e
      | .ok _ =>
        match askTargets E W p.pre p.edges with
        | .error e => .error e
        | .ok () => askAll E W ps

/-- `route_application_graph` with these splitters, application_router.py:181-261. Simplified: splitters that raise do so
before anything is routed. -/
def routeFor (E : Env) (W : World) (base : Ctx) (parts : List AppPart) (verts : List Nat) (fuel : Nat) :
    Except PyErr ByPart.State :=
  match askAll E W parts with
  | .error e => .error e
  | .ok () => Router.routeGraph (netOf E W base parts verts) fuel

end Pacman.Split
