import Verif.Model.Router
/-
Model of `get_app_partitions` of `utilities/algorithm_utilities/routing_algorithm_utilities.py` and of
`route_application_graph` of `operations/router_algorithms/application_router.py`.
-/

namespace Pacman.Router

open Alloc (VId)

/-- An `ApplicationEdgePartition`: `pre_vertex`, `identifier` and the `post_vertex`es of its edges. -/
structure AppPart where
  pre : Nat
  ident : Nat
  edges : List Nat
  deriving DecidableEq, Repr

/-- What `route_application_graph` asks of the application graph and of the splitters.
* `base`: see `Ctx`, without `outgoing`;
* `parts`, `verts`: `PacmanDataView.iterate_partitions` and `iterate_vertices`; all vertices are
  `ApplicationVertex`es;
* `internals`: `v.splitter.get_internal_multicast_partitions()`: for each the identifier, the
  `pre_vertex` and the `post_vertex`es of its edges; `none` if there is no splitter, where
  `v.splitter` raises (application_vertex.py:108-117);
* `outgoing`: for each identifier, see `Targets.Env`;
* `incoming`: what the splitter of the first vertex answers to
  `get_source_specific_in_coming_vertices(source, identifier)`: vertices with their sources. -/
structure Net where
  base : Ctx
  parts : List AppPart
  verts : List Nat
  internals : Nat → Option (List (Nat × Nat × List Nat))
  outgoing : Nat → Nat → Option (List Nat)
  incoming : Nat → Nat → Nat → List (Nat × List VId)

/-- The inner loop of `get_app_partitions`, routing_algorithm_utilities.py:57-61: `partitions` and
`sources` afterwards. -/
def addInternals (v : Nat) : List (Nat × Nat × List Nat) → List AppPart → List (Nat × Nat) →
    List AppPart × List (Nat × Nat)
  | [], ps, ss => (ps, ss)
  | i :: is, ps, ss =>
    if (v, i.1) ∈ ss then addInternals v is ps ss
    else addInternals v is (ps ++ [⟨v, i.1, []⟩]) (ss ++ [(v, i.1)])

/-- The outer loop of `get_app_partitions`, routing_algorithm_utilities.py:53-61. A splitter is never
false. -/
def addVertices (N : Net) : List Nat → List AppPart → List (Nat × Nat) → Except PyErr (List AppPart)
  | [], ps, _ => .ok ps
  | v :: vs, ps, ss =>
    match N.internals v with
    | none => .error .configuration
    | some is => addVertices N vs (addInternals v is ps ss).1 (addInternals v is ps ss).2

/-- `get_app_partitions`, routing_algorithm_utilities.py:27-62. -/
def appPartitions (N : Net) : Except PyErr (List AppPart) :=
  addVertices N N.verts N.parts (N.parts.map (fun p => (p.pre, p.ident)))

/-- What the routing of a partition with this identifier asks. -/
def Net.ctx (N : Net) (ident : Nat) : Ctx := { N.base with outgoing := N.outgoing ident }

/-- The partition with what the splitters say about it; `is` are the internal partitions of the
source, of which application_router.py:264-267 takes those with the same identifier. -/
def Net.partition (N : Net) (p : AppPart) (is : List (Nat × Nat × List Nat)) : Partition :=
  ⟨p.pre, p.ident, p.edges.map (fun t => (t, N.incoming t p.pre p.ident)),
    (is.filter (fun i => decide (i.1 = p.ident))).map (·.2)⟩

/-- The loop of `route_application_graph`, application_router.py:191-259. Without a splitter the
source raises in either `_get_outgoing_mapping` or `_get_filtered_internal_partitions`. -/
def routeAll (N : Net) (fuel : Nat) : List AppPart → ByPart.State → Except PyErr ByPart.State
  | [], S => .ok S
  | p :: ps, S =>
    match N.internals p.pre with
    | none => .error .configuration
    | some is =>
      match routePartition (N.ctx p.ident) (N.partition p is) fuel S with
      | .error err => .error err
      | .ok S => routeAll N fuel ps S

/-- `route_application_graph`, application_router.py:180-262. -/
def routeGraph (N : Net) (fuel : Nat) : Except PyErr ByPart.State :=
  match appPartitions N with
  | .error err => .error err
  | .ok ps => routeAll N fuel ps []

end Pacman.Router
