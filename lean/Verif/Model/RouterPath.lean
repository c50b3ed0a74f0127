import Verif.Model.Base
/-
Model of the path functions of `operations/router_algorithms/application_router.py` and of
`utilities/algorithm_utilities/routing_algorithm_utilities.py`.
-/

namespace Pacman.RPath

/-- The coordinates of a chip. Without wrap-around `xy_over_link` gives coordinates off the machine
too, so they are integers. -/
abbrev XY := Int × Int

/-- `_Node`, application_router.py: a link and the chip it leads to. -/
abbrev Node := Nat × XY

/-- What the router reads of `spinn_machine.Machine`: the chips (`is_chip_at`), the working links
(`is_link_at`) and `xy_over_link`, defined also where no link is. -/
structure Topo where
  chips : List XY
  linkAt : XY → Nat → Bool
  over : XY → Nat → XY

/-- `machine.is_chip_at`. -/
def Topo.chipAt (T : Topo) (c : XY) : Bool := decide (c ∈ T.chips)

/-- `_is_open_chip`, application_router.py:738-749. -/
def isOpen (T : Topo) (c : XY) (allowed visited : List XY) : Bool :=
  decide (c ∈ allowed) && !decide (c ∈ visited) && T.chipAt c

/-- The loop over the links in `_find_path`, application_router.py:910-917: what is appended to the
queue. -/
def expand (T : Topo) (visited : List XY) (xy : XY) (path : List Node) : List (XY × List Node) :=
  (List.range 6).filterMap (fun l =>
    if T.linkAt xy l then
      if isOpen T (T.over xy l) [T.over xy l] visited then
        some (T.over xy l, path ++ [(l, T.over xy l)])
      else none
    else none)

/-- The loop of `_find_path`, application_router.py:900-918. -/
def findLoop (T : Topo) (target : XY) :
    Nat → List (XY × List Node) → List XY → Except PyErr (List Node)
  | _, [], _ => .error .routing
  | 0, _ :: _, _ => .error .outOfFuel
  | fuel + 1, (xy, path) :: q, visited =>
    if xy ∈ visited then findLoop T target fuel q visited
    else if xy = target then .ok path
    else findLoop T target fuel (q ++ expand T (xy :: visited) xy path) (xy :: visited)

/-- `_find_path`, application_router.py:889-918. The number of rounds is enough: proved below. -/
def findPath (T : Topo) (source target : XY) : Except PyErr (List Node) :=
  findLoop T target (6 * (T.chips.length + 1) + 1) [(source, [])] []

/-- The loop over the links in `_find_reachable`, application_router.py:728-734. -/
def reachExpand (T : Topo) (allowed disallowed visited : List XY) (xy : XY) : List XY :=
  (List.range 6).filterMap (fun l =>
    if T.linkAt xy l then
      if isOpen T (T.over xy l) allowed visited && !decide (T.over xy l ∈ disallowed) then
        some (T.over xy l)
      else none
    else none)

/-- The loop of `_find_reachable`, application_router.py:723-735. The stack has its top, the right
end of the Python deque, first. -/
def reachLoop (T : Topo) (allowed disallowed : List XY) :
    Nat → List XY → List XY → Except PyErr (List XY)
  | _, [], visited => .ok visited
  | 0, _ :: _, _ => .error .outOfFuel
  | fuel + 1, xy :: st, visited =>
    if xy ∈ visited then reachLoop T allowed disallowed fuel st visited
    else reachLoop T allowed disallowed fuel
      ((reachExpand T allowed disallowed (xy :: visited) xy).reverse ++ st) (xy :: visited)

/-- `_find_reachable`, application_router.py:706-735. -/
def findReachable (T : Topo) (source : XY) (allowed disallowed : List XY) :
    Except PyErr (List XY) :=
  reachLoop T allowed disallowed (6 * (T.chips.length + 1) + 1) [source] []

/-- `_is_ok`, application_router.py:871-881. -/
def isOk (T : Topo) (c : XY) (n : Node) : Bool := T.linkAt c n.1 && T.chipAt n.2

/-- The loop "while the route is working", application_router.py:829-833: what is copied, the chip
then reached, and the remaining nodes. -/
def takeOk (T : Topo) : XY → List Node → List Node × XY × List Node
  | c, [] => ([], c, [])
  | c, n :: ns =>
    if isOk T c n then
      let r := takeOk T n.2 ns
      (n :: r.1, r.2.1, r.2.2)
    else ([], c, n :: ns)

/-- The loop "while the route is broken", application_router.py:835-841: the chip then reached and
the remaining nodes. -/
def skipBad (T : Topo) : XY → List Node → XY × List Node
  | c, [] => (c, [])
  | c, n :: ns => if isOk T c n then (c, n :: ns) else skipBad T n.2 ns

/-- The outer loop of `_path_without_errors`, application_router.py:825-847, on the nodes from
`pos` on; `acc` is `new_nodes`. -/
def fixLoop (T : Topo) : Nat → XY → List Node → List Node → Except PyErr (List Node)
  | _, _, [], acc => .ok acc
  | 0, _, _ :: _, _ => .error .outOfFuel
  | fuel + 1, c, n :: ns, acc =>
    let a := takeOk T c (n :: ns)
    let b := skipBad T a.2.1 a.2.2
    if b.2.length ≠ a.2.2.length then
      match findPath T a.2.1 b.1 with
      | .error e => .error e
      | .ok p => fixLoop T fuel b.1 b.2 (acc ++ a.1 ++ p)
    else fixLoop T fuel b.1 b.2 (acc ++ a.1)

/-- `_path_without_errors` up to its last line, application_router.py:825-847: `new_nodes`. -/
def fixErrors (T : Topo) (source : XY) (nodes : List Node) : Except PyErr (List Node) :=
  fixLoop T nodes.length source nodes []

/-- The loop of `_path_without_loops`, application_router.py:858-868. `del nodes[k:i + 1]` removes
nothing if `k > i`. -/
def loopsLoop : Nat → List Node → Nat → Dict XY Nat → Except PyErr (List Node)
  | fuel, nodes, i, seen =>
    match nodes[i]? with
    | none => .ok nodes
    | some n =>
      match fuel with
      | 0 => .error .outOfFuel
      | fuel + 1 =>
        match seen.get? n.2 with
        | some k => loopsLoop fuel (nodes.take k ++ nodes.drop (max k (i + 1))) k seen
        | none => loopsLoop fuel nodes (i + 1) (seen.set n.2 (i + 1))

/-- `_path_without_loops`, application_router.py:851-868. -/
def withoutLoops (start : XY) (nodes : List Node) : Except PyErr (List Node) :=
  loopsLoop nodes.length nodes 0 [(start, 0)]

/-- `_path_without_errors`, application_router.py:816-848. -/
def withoutErrors (T : Topo) (source : XY) (nodes : List Node) : Except PyErr (List Node) :=
  match fixErrors T source nodes with
  | .error e => .error e
  | .ok ns => withoutLoops source ns

/-- One run of moves over one link, e.g. routing_algorithm_utilities.py:108-110: the chip reached
and the nodes. -/
def move (T : Topo) (l : Nat) : Nat → XY → XY × List Node
  | 0, c => (c, [])
  | n + 1, c =>
    let r := move T l n (T.over c l)
    (r.1, (l, T.over c l) :: r.2)

/-- The link for a dimension and the sign of the magnitude, routing_algorithm_utilities.py:105-137.
-/
def linkFor (dimension : Nat) (magnitude : Int) : Nat :=
  if dimension = 0 then if magnitude > 0 then 0 else 3
  else if dimension = 1 then if magnitude > 0 then 2 else 5
  else if magnitude > 0 then 4 else 1

/-- `vector_to_nodes`, routing_algorithm_utilities.py:85-138. -/
def vectorToNodes (T : Topo) : List (Nat × Int) → XY → List Node
  | [], _ => []
  | (dimension, magnitude) :: v, c =>
    if magnitude = 0 then vectorToNodes T v c
    else
      let r := move T (linkFor dimension magnitude) magnitude.natAbs c
      r.2 ++ vectorToNodes T v r.1

/-- `longest_dimension_first`, routing_algorithm_utilities.py:65-82: `sorted` with `reverse=True`
keeps the order of equal elements. -/
def longestFirst (T : Topo) (x y z : Int) (start : XY) : List Node :=
  vectorToNodes T
    (stableSort (fun a b => decide (b.2.natAbs ≤ a.2.natAbs)) [(0, x), (1, y), (2, z)]) start

end Pacman.RPath
