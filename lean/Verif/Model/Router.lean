import Verif.Model.RouterTree
import Verif.Model.Targets
import Verif.Model.TableByPartition
/-
Model of the rest of `operations/router_algorithms/application_router.py`: the conversion of routes to
entries and the routing of one partition.
-/

namespace Pacman.Router

open Alloc (VId)
open RPath (XY Node Topo Routes)

/-- What the routing of one partition asks of the machine, of `RoutingEntry` and of the vertices; the
identifier of the partition is fixed.
* `T`, `vector`: the machine and `machine.get_vector`;
* `appOf`, `machines`, `merge`: see `ByPart.World`;
* `outgoing`: see `Targets.Env`;
* `locate`: `vertex_xy_and_route`, routing_algorithm_utilities.py:166-185 (chip, core, link); every
  machine vertex is placed or virtual, so that it does not fail;
* `iter`: the order in which Python goes through a set; a set is a list without repetitions. -/
structure Ctx where
  T : Topo
  vector : XY → XY → Int × Int × Int
  appOf : Nat → Option Nat
  machines : Nat → List Nat
  merge : ByPart.REntry → ByPart.REntry → Except PyErr ByPart.REntry
  outgoing : Nat → Option (List Nat)
  locate : Nat → XY × Option Nat × Option Nat
  iter : List XY → List XY

/-- What the routing tables ask of the vertices. -/
def Ctx.world (C : Ctx) : ByPart.World := ⟨C.appOf, C.machines, C.merge⟩

/-- What `_Targets` asks of the vertices. -/
def Ctx.env (C : Ctx) : Targets.Env := ⟨C.appOf, C.outgoing⟩

/-- The partition to route:
* `source`: `partition.pre_vertex`, `ident`: `partition.identifier`;
* `edges`: for each of `partition.edges` the `post_vertex` and what its splitter answers to
  `get_source_specific_in_coming_vertices(source, identifier)`: vertices with their sources;
* `internal`: `_get_filtered_internal_partitions(source, identifier)`,
  application_router.py:264-267: for each the `pre_vertex` and the `post_vertex`es of its edges. -/
structure Partition where
  source : Nat
  ident : Nat
  edges : List (Nat × List (Nat × List VId))
  internal : List (Nat × List Nat)

/-! ### Entries -/

/-- The route word of `spinn_machine.RoutingEntry`: bit `l` for link `l`, bit `6 + p` for
processor `p`. -/
def routeWord (links cores : List Nat) : Nat :=
  cores.foldr (fun p r => 2 ^ (6 + p) ||| r) (links.foldr (fun l r => 2 ^ l ||| r) 0)

/-- The constructor of `spinn_machine.RoutingEntry` (external, by contract). The entry is defaultable
if the packet comes from a link and goes out only on the opposite one. -/
def mkEntry (links cores : List Nat) (inProc inLink : Option Nat) : ByPart.REntry where
  route := routeWord links cores
  defaultable :=
    match inProc, inLink, links, cores with
    | none, some i, l :: ls, [] => decide ((i + 3) % 6 = l) && ls.all (fun k => decide (k = l))
    | _, _, _, _ => false

/-- `_add_routing_entry`, application_router.py:1019-1029. The exception is raised again after
printing. -/
def addEntry (C : Ctx) (ident : Nat) (S : ByPart.State) (e : ByPart.REntry) (xy : XY) (src : VId) :
    Except PyErr ByPart.State :=
  match ByPart.addPath C.world S e xy.1 xy.2 src ident with
  | (S, .ok ()) => .ok S
  | (_, .error err) => .error err

/-- The loop over `targets_by_source`, application_router.py:980-992. -/
def addFor (C : Ctx) (ident : Nat) (links : List Nat) (inProc inLink : Option Nat) (xy : XY) :
    List (VId × List Nat × List Nat) → ByPart.State → Except PyErr ByPart.State
  | [], S => .ok S
  | (v, cores, ls) :: rest, S =>
    match addEntry C ident S (mkEntry (links ++ ls) cores inProc inLink) xy v with
    | .error err => .error err
    | .ok S => addFor C ident links inProc inLink xy rest S

/-- The loop over the out-going vertices, application_router.py:999-1008; `have_` is
`machine_vertex_sources`. -/
def addMissing (C : Ctx) (ident : Nat) (links : List Nat) (inProc inLink : Option Nat) (xy : XY)
    (have_ : List VId) : List Nat → ByPart.State → Except PyErr ByPart.State
  | [], S => .ok S
  | m :: ms, S =>
    if VId.mach m ∈ have_ then addMissing C ident links inProc inLink xy have_ ms S
    else
      match addEntry C ident S (mkEntry links [] inProc inLink) xy (.mach m) with
      | .error err => .error err
      | .ok S => addMissing C ident links inProc inLink xy have_ ms S

/-- `isinstance(source, ApplicationVertex)`. -/
def isApp : VId → Bool
  | .app _ => true
  | .mach _ => false

/-- "Now check the coverage", application_router.py:981-986 and 996-1008. -/
def cover (C : Ctx) (ident : Nat) (src : VId) (ensureAll : Bool) (links : List Nat)
    (inProc inLink : Option Nat) (xy : XY) (items : List (VId × List Nat × List Nat))
    (S : ByPart.State) : Except PyErr ByPart.State :=
  if ensureAll && !items.any (fun i => isApp i.1) then
    match src with
    | .mach _ => .error .assertion
    | .app a =>
      match C.outgoing a with
      | none => .error .configuration
      | some ms => addMissing C ident links inProc inLink xy (items.map (·.1)) ms S
  else .ok S

/-- `targets_by_source` as a list, application_router.py:159-168 and 976. -/
def itemsOf (s : Targets.State) : List (VId × List Nat × List Nat) :=
  s.at_.map (fun p => (p.1, (s.heap[p.2]?).getD ([], [])))

/-- Lines 969-976 of application_router.py: the `_Targets` afterwards (asking for a source inserts it)
and `targets_by_source`. -/
def sourcesAt (src : VId) (useSource : Bool) (t : Targets.State) :
    Targets.State × List (VId × List Nat × List Nat) :=
  if useSource then
    ((Targets.getTargets t src).1, [(src, ((Targets.getTargets t src).2).getD ([], []))])
  else (t, itemsOf t)

/-- Lines 968-1016 of application_router.py: the entries of one chip. -/
def convertChip (C : Ctx) (ident : Nat) (src : VId) (useSource ensureAll : Bool) (links : List Nat)
    (inProc inLink : Option Nat) (xy : XY) (S : ByPart.State) (tg : Dict XY Targets.State) :
    Except PyErr (ByPart.State × Dict XY Targets.State) :=
  match tg.get? xy with
  | some t =>
    let a := sourcesAt src useSource t
    match addFor C ident links inProc inLink xy a.2 S with
    | .error err => .error err
    | .ok S =>
      match cover C ident src ensureAll links inProc inLink xy a.2 S with
      | .error err => .error err
      | .ok S => .ok (S, tg.set xy a.1)
  | none =>
    match addEntry C ident S (mkEntry links [] inProc inLink) xy src with
    | .error err => .error err
    | .ok S => .ok (S, tg)

/-- The loop of `_convert_a_route`, application_router.py:951-966. The stack has its top, the right
end of `to_process`, first. A child made by the router always has a link and a next hop
(`append_child((link, tree))`, application_router.py:685 and 810), so the cases without are left out.
The loop ends because the routes are trees (proved below); a child listed several times is processed
each time. -/
def convertLoop (C : Ctx) (ident : Nat) (src : VId) (useSource ensureAll : Bool) (R : Routes) :
    Nat → List (Option Nat × Option Nat × XY) → ByPart.State → Dict XY Targets.State →
      Except PyErr (ByPart.State × Dict XY Targets.State)
  | _, [], S, tg => .ok (S, tg)
  | 0, _ :: _, _, _ => .error .outOfFuel
  | fuel + 1, (inProc, inLink, xy) :: st, S, tg =>
    let ch := (R.get? xy).getD []
    match convertChip C ident src useSource ensureAll (ch.map (·.1)) inProc inLink xy S tg with
    | .error err => .error err
    | .ok (S, tg) =>
      convertLoop C ident src useSource ensureAll R fuel
        (ch.reverse.map (fun n => (none, some ((n.1 + 3) % 6), n.2)) ++ st) S tg

/-- `_convert_a_route`, application_router.py:921-1016, called with `routes[first]`. -/
def convert (C : Ctx) (fuel : Nat) (ident : Nat) (src : VId) (useSource ensureAll : Bool) (R : Routes)
    (inProc inLink : Option Nat) (first : XY) (S : ByPart.State) (tg : Dict XY Targets.State) :
    Except PyErr (ByPart.State × Dict XY Targets.State) :=
  if (R.get? first).isSome then
    convertLoop C ident src useSource ensureAll R fuel [(inProc, inLink, first)] S tg
  else .error .keyError

/-! ### One partition -/

/-- `s.add(x)` on a set. -/
def addTo (l : List XY) (x : XY) : List XY := if x ∈ l then l else l ++ [x]

/-- `source_mappings`: for each chip the vertices with processor and link. -/
abbrev Mapping := Dict XY (List (Nat × Option Nat × Option Nat))

/-- `outgoing_mapping[xy].append(route)`, application_router.py:640-641. -/
def mapAdd (C : Ctx) (M : Mapping) (m : Nat) : Mapping :=
  M.set (C.locate m).1 ((M.get? (C.locate m).1).getD [] ++ [(m, (C.locate m).2)])

/-- `_get_outgoing_mapping`, application_router.py:623-646. -/
def mapping (C : Ctx) (P : Partition) : Except PyErr Mapping :=
  match C.outgoing P.source with
  | none => .error .configuration
  | some ms => .ok ((P.internal.map (·.1)).foldl (mapAdd C) (ms.foldl (mapAdd C) []))

/-- `all_source_xys`, application_router.py:204-207. -/
def allSource (C : Ctx) (P : Partition) : List XY :=
  (C.machines P.source).foldl (fun l m => addTo l (C.locate m).1) []

/-- The variables of the loop over the edges, application_router.py:209-221:
`source_edge_xys`, `routes`, `targets`, `self_connected`, `self_xys`. -/
structure Work where
  edges : List XY
  routes : Routes
  targets : Dict XY Targets.State
  selfConnected : Bool
  selfXys : List XY
  deriving DecidableEq

/-- `targets[xy].add_..._for_target(...)`: the `defaultdict` makes a new `_Targets`. -/
def ask (C : Ctx) (tg : Dict XY Targets.State) (xy : XY) (o : Targets.Op) :
    Except PyErr (Dict XY Targets.State) :=
  match Targets.step C.env ((tg.get? xy).getD Targets.State.empty) o with
  | .error err => .error err
  | .ok t => .ok (tg.set xy t)

/-- The call made for one target vertex, application_router.py:307-313. -/
def opFor (C : Ctx) (M : Mapping) (v : Nat × List VId) : Targets.Op :=
  if (M.get? (C.locate v.1).1).isSome then .addMachine (C.locate v.1).2.1 (C.locate v.1).2.2 v.2
  else .add (C.locate v.1).2.1 (C.locate v.1).2.2 v.2

/-- The loop over the target vertices, application_router.py:306-315. -/
def askAll (C : Ctx) (M : Mapping) : List (Nat × List VId) → Dict XY Targets.State →
    Except PyErr (Dict XY Targets.State)
  | [], tg => .ok tg
  | v :: vs, tg =>
    match ask C tg (C.locate v.1).1 (opFor C M v) with
    | .error err => .error err
    | .ok tg => askAll C M vs tg

/-- `real_target_xys`, and also `target_xys`, application_router.py:304-315 and 319-326: the chips of
the target vertices. -/
def chipsOf (C : Ctx) (vs : List (Nat × List VId)) : List XY :=
  vs.foldl (fun l v => addTo l (C.locate v.1).1) []

/-- `_find_target_xy`, application_router.py:588-620. With no targets at all `xy` is unbound. -/
def findTarget (C : Ctx) (targets : List XY) (R : Routes) (M : Mapping) :
    Except PyErr (XY × Option (List XY)) :=
  let overlaps := C.iter (targets.filter (fun c => (M.get? c).isSome))
  match overlaps with
  | c :: d :: r => .ok (c, some (c :: d :: r))
  | [c] => .ok (c, none)
  | [] =>
    match (C.iter targets).find? (fun c => (R.get? c).isSome) with
    | some c => .ok (c, none)
    | none =>
      match (C.iter targets).getLast? with
      | some c => .ok (c, none)
      | none => .error .unboundLocal

/-- Lines 317-330 of application_router.py. -/
def chooseTarget (C : Ctx) (targets : List XY) (R : Routes) (M : Mapping) :
    Except PyErr (XY × Option (List XY)) :=
  match targets with
  | [c] => .ok (c, none)
  | _ => findTarget C targets R M

/-- The loop over the overlaps in `_route_multiple_source_to_target`, application_router.py:411-429:
`source_edge_xys`, the remaining `real_target_xys` and `target_xys`, and `routes`. -/
def overlapLoop (C : Ctx) : List XY → List XY → List XY → List XY → List XY → Routes →
    Except PyErr (List XY × List XY × List XY × Routes)
  | [], _, E, real, tgt, R => .ok (E, real, tgt, R)
  | o :: os, reached, E, real, tgt, R =>
    match RPath.findReachable C.T o tgt reached with
    | .error err => .error err
    | .ok found =>
      let this := real.filter (fun c => decide (c ∈ found))
      match RPath.routeToXys C.T o found R this with
      | .error err => .error err
      | .ok R =>
        if this.all (fun c => decide (c ∈ tgt)) then
          overlapLoop C os (reached ++ found) (addTo E o)
            (real.filter (fun c => !decide (c ∈ this))) (tgt.filter (fun c => !decide (c ∈ this))) R
        else .error .keyError

/-- `_route_source_to_target` after the targets are recorded, application_router.py:317-346, with
`_route_single_source_to_target` (349-383) and `_route_multiple_source_to_target` (387-434). -/
def routeTo (C : Ctx) (sourceXy : XY) (all : List XY) (M : Mapping) (targets : List XY) (E : List XY)
    (R : Routes) : Except PyErr (List XY × Routes) :=
  match chooseTarget C targets R M with
  | .error err => .error err
  | .ok (t, overlaps) =>
    match RPath.preToPost C.T sourceXy t R (C.vector sourceXy t) all targets with
    | .error err => .error err
    | .ok (R, pre, post) =>
      match overlaps with
      | none =>
        match RPath.routeToXys C.T post targets R targets with
        | .error err => .error err
        | .ok R => .ok (if (M.get? pre).isSome then addTo E pre else E, R)
      | some os =>
        match overlapLoop C os os E targets targets R with
        | .error err => .error err
        | .ok (E, real, tgt, R) =>
          match RPath.routeToXys C.T post tgt R real with
          | .error err => .error err
          | .ok R => .ok (E, R)

/-- `_route_source_to_source`, application_router.py:437-456. -/
def askSelf (C : Ctx) : List (Nat × List VId) → Work → Except PyErr Work
  | [], W => .ok W
  | v :: vs, W =>
    match ask C W.targets (C.locate v.1).1
        (.addMachine (C.locate v.1).2.1 (C.locate v.1).2.2 v.2) with
    | .error err => .error err
    | .ok tg => askSelf C vs { W with targets := tg, selfXys := addTo W.selfXys (C.locate v.1).1 }

/-- One round of the loop over the edges, application_router.py:223-236. -/
def routeEdge (C : Ctx) (P : Partition) (sourceXy : XY) (all : List XY) (M : Mapping)
    (e : Nat × List (Nat × List VId)) (W : Work) : Except PyErr Work :=
  if P.source ≠ e.1 then
    match askAll C M e.2 W.targets with
    | .error err => .error err
    | .ok tg =>
      match routeTo C sourceXy all M (chipsOf C e.2) W.edges W.routes with
      | .error err => .error err
      | .ok (E, R) => .ok { W with edges := E, routes := R, targets := tg }
  else askSelf C e.2 { W with selfConnected := true }

/-- The loop over the edges, application_router.py:223-236. -/
def routeEdges (C : Ctx) (P : Partition) (sourceXy : XY) (all : List XY) (M : Mapping) :
    List (Nat × List (Nat × List VId)) → Work → Except PyErr Work
  | [], W => .ok W
  | e :: es, W =>
    match routeEdge C P sourceXy all M e W with
    | .error err => .error err
    | .ok W => routeEdges C P sourceXy all M es W

/-- `_route_internal`, application_router.py:459-478: the targets of an internal partition are asked
for its `pre_vertex`. -/
def internalAsks (P : Partition) : List (Nat × List VId) :=
  P.internal.flatMap (fun p => p.2.map (fun t => (t, [VId.mach p.1])))

/-- Lines 238-243 of application_router.py. -/
def routeInternal (C : Ctx) (P : Partition) (W : Work) : Except PyErr Work :=
  match P.internal with
  | [] => .ok W
  | _ :: _ => askSelf C (internalAsks P) { W with selfConnected := true }

/-- The `_Targets` made for a source edge chip, application_router.py:506-511. -/
def edgeTargets (M : Mapping) : Targets.State :=
  (M.flatMap (fun p => p.2)).foldl (fun s v => Targets.ensure s (.mach v.1)) Targets.State.empty

/-- `_make_source_to_target_routes`, application_router.py:481-516. -/
def toTargets (C : Ctx) (P : Partition) (fuel : Nat) (M : Mapping) (R : Routes) :
    List XY → ByPart.State → Dict XY Targets.State → Except PyErr (ByPart.State × Dict XY Targets.State)
  | [], S, tg => .ok (S, tg)
  | e :: es, S, tg =>
    let tg := if (tg.get? e).isSome then tg else tg.set e (edgeTargets M)
    match convert C fuel P.ident (.app P.source) false true R none none e S tg with
    | .error err => .error err
    | .ok (S, tg) => toTargets C P fuel M R es S tg

/-- The loop over the vertices of one source chip, application_router.py:550-554 and 582-585. -/
def fromVertices (C : Ctx) (P : Partition) (fuel : Nat) (useSource : Bool) (R : Routes) (xy : XY) :
    List (Nat × Option Nat × Option Nat) → ByPart.State → Dict XY Targets.State →
      Except PyErr (ByPart.State × Dict XY Targets.State)
  | [], S, tg => .ok (S, tg)
  | (m, p, l) :: vs, S, tg =>
    match convert C fuel P.ident (.mach m) useSource false R p l xy S tg with
    | .error err => .error err
    | .ok (S, tg) => fromVertices C P fuel useSource R xy vs S tg

/-- `_make_source_to_source_routes`, application_router.py:519-554, and
`_make_source_to_source_edge_routes`, application_router.py:557-585: the two differ in the chips to go
to and in the `targets`, and whether these are asked by source. -/
def fromSources (C : Ctx) (P : Partition) (fuel : Nat) (useSource : Bool) (all goals : List XY) :
    Mapping → ByPart.State → Dict XY Targets.State → Except PyErr (ByPart.State × Dict XY Targets.State)
  | [], S, tg => .ok (S, tg)
  | (xy, vs) :: M, S, tg =>
    match RPath.routeToXys C.T xy all [] goals with
    | .error err => .error err
    | .ok R =>
      match fromVertices C P fuel useSource R xy vs S tg with
      | .error err => .error err
      | .ok (S, tg) => fromSources C P fuel useSource all goals M S tg

/-- Lines 245-259 of application_router.py. -/
def makeRoutes (C : Ctx) (P : Partition) (fuel : Nat) (all : List XY) (M : Mapping) (W : Work)
    (S : ByPart.State) : Except PyErr ByPart.State :=
  match toTargets C P fuel M W.routes (C.iter W.edges) S W.targets with
  | .error err => .error err
  | .ok (S, tg) =>
    if W.selfConnected then
      match fromSources C P fuel true all (W.selfXys.foldl addTo W.edges) M S tg with
      | .error err => .error err
      | .ok (S, _) => .ok S
    else
      match fromSources C P fuel false all W.edges M S [] with
      | .error err => .error err
      | .ok (S, _) => .ok S

/-- One round of the loop of `route_application_graph`, application_router.py:191-259: the routing
tables after this partition. -/
def routePartition (C : Ctx) (P : Partition) (fuel : Nat) (S : ByPart.State) :
    Except PyErr ByPart.State :=
  match mapping C P with
  | .error err => .error err
  | .ok [] => .ok S
  | .ok (s :: M) =>
    match routeEdges C P s.1 (allSource C P) (s :: M) P.edges ⟨[], [], [], false, []⟩ with
    | .error err => .error err
    | .ok W =>
      match routeInternal C P W with
      | .error err => .error err
      | .ok W => makeRoutes C P fuel (allSource C P) (s :: M) W S

end Pacman.Router
