import Verif.Model.Base
/-
Model of `operations/fixed_route_router/fixed_route_router.py`.
-/

namespace Pacman.FixedRoute

/-- The coordinates of a chip. -/
abbrev XY := Nat × Nat

/-- What the router reads of the machine and of the placements.
`eths`: `machine.ethernet_connected_chips`, in the order of iteration.
`board`: `machine.get_existing_xys_by_ethernet`, fixed_route_router.py:94.
`over`: `machine.xy_over_link`, fixed_route_router.py:104 (defined also where there is no link).
`linkAt`: `machine.is_link_at`, fixed_route_router.py:108.
`dests`: the cores of `iterate_placements_by_xy_and_type(chip, destination_class)`,
fixed_route_router.py:152-153.
`order`: the order in which Python goes through the set `to_route` in the given round of
fixed_route_router.py:100; the code does not determine it. -/
structure Mach where
  eths : List XY
  board : XY → List XY
  over : XY → Nat → XY
  linkAt : XY → Nat → Bool
  dests : XY → List Nat
  order : Nat → List XY → List XY

/-- `RoutingEntry(link_ids=..., processor_ids=...)`, fixed_route_router.py:139-140. -/
structure FEntry where
  links : List Nat
  procs : List Nat
  deriving DecidableEq, Repr

/-- `_fixed_route_tables`, fixed_route_router.py:59. -/
abbrev FTable := Dict XY FEntry

/-- `__add_fixed_route_entry`, fixed_route_router.py:127-140. -/
def addEntry (t : FTable) (key : XY) (links procs : List Nat) : Except PyErr FTable :=
  if (t.get? key).isSome then .error .alreadyExists
  else .ok (t.set key ⟨links, procs⟩)

/-- The links in the order they are tried, fixed_route_router.py:102. -/
def linkOrder : List Nat := [4, 3, 5, 2, 0, 1]

/-- The link at which the inner loop breaks, if it does, fixed_route_router.py:102-113. -/
def firstLink (m : Mach) (routed : List XY) (c : XY) : Option Nat :=
  linkOrder.find? (fun l => decide (m.over c l ∈ routed) && m.linkAt c l)

/-- The loop over `to_route`, fixed_route_router.py:99-113: the table and `found`. -/
def round (m : Mach) (routed : List XY) :
    List XY → FTable → List XY → Except PyErr (FTable × List XY)
  | [], t, found => .ok (t, found)
  | c :: cs, t, found =>
    match firstLink m routed c with
    | none => round m routed cs t found
    | some l =>
      match addEntry t c [l] [] with
      | .error e => .error e
      | .ok t' => round m routed cs t' (found ++ [c])

/-- The loop `while len(to_route) > 0`, fixed_route_router.py:98-119. `n` counts the rounds (only
for `order`); `fuel` bounds them. -/
def rounds (m : Mach) : Nat → Nat → List XY → List XY → FTable → Except PyErr FTable
  | _, _, [], _, t => .ok t
  | 0, _, _ :: _, _, _ => .error .outOfFuel
  | fuel + 1, n, c :: cs, routed, t =>
    match round m routed (m.order n (c :: cs)) t [] with
    | .error e => .error e
    | .ok (t', found) =>
      if found.length = 0 then .error .routing
      else rounds m fuel (n + 1) ((c :: cs).filter (fun x => decide (x ∉ found)))
        (routed ++ found) t'

/-- `set(...)`: the elements once each. -/
def toSet (l : List XY) : List XY :=
  l.foldl (fun s x => if x ∈ s then s else s ++ [x]) []

/-- `__locate_destination`, fixed_route_router.py:142-156. -/
def locate (m : Mach) (e : XY) : Except PyErr Nat :=
  match m.dests e with
  | p :: _ => .ok p
  | [] => .error .configuration

/-- `_route_board`, fixed_route_router.py:80-125. -/
def routeBoard (m : Mach) (t : FTable) (e : XY) : Except PyErr FTable :=
  let s := toSet (m.board e)
  if e ∉ s then .error .keyError
  else
    let toRoute := s.filter (fun x => decide (x ≠ e))
    match rounds m toRoute.length 0 toRoute [e] t with
    | .error x => .error x
    | .ok t' =>
      match locate m e with
      | .error x => .error x
      | .ok p => addEntry t' e [] [p]

/-- The loop of `build_fixed_routes`, fixed_route_router.py:73-78. -/
def buildFrom (m : Mach) : FTable → List XY → Except PyErr FTable
  | t, [] => .ok t
  | t, e :: es =>
    match routeBoard m t e with
    | .error x => .error x
    | .ok t' => buildFrom m t' es

/-- `fixed_route_router`, fixed_route_router.py:24-38, 62-78. -/
def build (m : Mach) : Except PyErr FTable := buildFrom m [] m.eths

end Pacman.FixedRoute
