import Verif.Model.Placements
/-
Model of `operations/placer_algorithms/application_placer.py`. Chips are represented by their
coordinates, machine vertices by numbers. The SDRAM of a vertex or a group is a number too: either the
bytes it needs, or the name of an object whose totals do not simply add up, such as one with shared blocks.
-/

namespace Pacman.Placer

open Plc (Placement Store)

/-- Chip coordinates. -/
abbrev XY := Nat × Nat

/-- SDRAM costs as the placer sees them: `total` is `get_total_sdram` (for the planned number of time steps)
of the sum of some costs, model/resources/abstract_sdram.py:24-95. It is asked that the order in which costs
are added does not matter and that no cost is negative; that this holds of the classes of model/resources
is proved in `Props/PlacerCosts.lean`. Costs that cannot be added up, which make the placer raise, are left
out. -/
structure Costs where
  total : List Nat → Nat
  perm : ∀ {l l' : List Nat}, l.Perm l' → total l = total l'
  mono : ∀ l l' : List Nat, total l ≤ total (l ++ l')

/-- Costs that are numbers of bytes (`ConstantSDRAM`, constant_sdram.py:31-63). -/
def Costs.bytes : Costs where
  total := List.sum
  perm := fun h => h.sum_nat
  mono := fun l l' => by rw [List.sum_append]; exact Nat.le_add_right _ _

/-- What the placer asks of the machine and of the vertices.
* `width`, `height`, `has`: `machine.width`, `machine.height`, `machine.get_chip_at(x, y) is not None`;
* `cores`, `sdram`, `board`: `chip.placable_processors_ids`, `chip.sdram`, and `chip.nearest_ethernet_x`
  with `chip.nearest_ethernet_y`;
* `links`: the destinations of `chip.router.links`;
* `maxSdram`, `maxCores`: `__max_sdram` and `__max_cores`;
* `virtual`, `need`: `isinstance(vertex, AbstractVirtual)` and `vertex.sdram_required`;
* `fixed`: `vertex.get_fixed_location()`;
* `costs`: what the SDRAM of vertices and groups amounts to;
* `iter`: the order in which Python goes through a set of processor identifiers. -/
structure Machine where
  width : Nat
  height : Nat
  has : XY → Bool
  cores : XY → List Nat
  sdram : XY → Nat
  board : XY → XY
  links : XY → List XY
  maxSdram : Int
  maxCores : Int
  virtual : Nat → Bool
  need : Nat → Nat
  fixed : Nat → Option (XY × Option Nat)
  iter : List Nat → List Nat
  costs : Costs := Costs.bytes

/-- An application vertex: `app_vertex.splitter.get_same_chip_groups()`, the vertices and the SDRAM of
each group, and `app_vertex.has_fixed_location()`. The graph has been partitioned, so that each has a
splitter. -/
structure AppV where
  groups : List (List Nat × Nat)
  isFixed : Bool
  deriving DecidableEq, Repr

/-- `__cap_sdram`, application_placer.py:119-120; `__max_cores` is not 0. Python's `//` rounds down. -/
def Machine.cap (M : Machine) : Int := M.maxSdram - Int.fdiv M.maxSdram M.maxCores

/-- `_chip_order`, application_placer.py:438-448. -/
def Machine.chips (M : Machine) : List XY :=
  ((List.range M.width).flatMap (fun x => (List.range M.height).map (fun y => (x, y)))).filter M.has

/-- The fields of the placer, application_placer.py:122-139. `chips` are those that the generator has not
yet returned. `eth` is `none` for the values set in `__init__`. The dictionaries of neighbours are lists
of their keys. `used` are the costs that have been added up in `__current_sdram_used`. -/
structure State where
  store : Store
  chips : List XY
  full : List XY
  prepared : List XY
  restored : List XY
  tried : List XY
  cur : Option XY
  free : List Nat
  used : List Nat
  eth : Option XY
  same : List XY
  other : List XY
  deriving DecidableEq, Repr

/-- `__init__`, application_placer.py:103-139. -/
def initial (M : Machine) (s : Store) : Except PyErr State :=
  if M.maxCores = 0 then .error .zeroDivision
  else .ok ⟨s, M.chips, [], [], [], [], none, [], [], none, [], []⟩

/-- `s.add(x)` on a set, or `d[x] = x` on a dictionary. -/
def addKey (l : List XY) (x : XY) : List XY := if x ∈ l then l else l ++ [x]

/-- `cores_free.remove(p)` for each of the placements, application_placer.py:486-487. -/
def removeAll : List Nat → List Placement → Except PyErr (List Nat)
  | free, [] => .ok free
  | free, a :: as => if a.p ∈ free then removeAll (free.erase a.p) as else .error .valueError

/-- What is added up in `sdram_used` for the placements, application_placer.py:488. -/
def usedBy (M : Machine) (on : List Placement) : List Nat := on.map (fun a => M.need a.vertex)

/-- `_check_could_fit`, application_placer.py:517-560. -/
def couldFit (M : Machine) (n sdram : Nat) : Except PyErr Unit :=
  if (M.costs.total [sdram] : Int) ≤ M.maxSdram ∧ (n : Int) ≤ M.maxCores then .ok () else .error .tooBig

/-- `_add_neighbours`, application_placer.py:671-686. -/
def addNeighbours (M : Machine) : List XY → State → Except PyErr State
  | [], st => .ok st
  | d :: ds, st =>
    if M.has d = false then .error .keyError
    else if d ∉ st.full ∧ d ∉ st.prepared then
      if some (M.board d) = st.eth then addNeighbours M ds { st with same := addKey st.same d }
      else addNeighbours M ds { st with other := addKey st.other d }
    else addNeighbours M ds st

/-- `_space_on_chip`, application_placer.py:450-515. -/
def spaceOn (M : Machine) (c : XY) (n sdram : Nat) (st : State) : Except PyErr (State × Bool) :=
  let on := (Plc.placementsOnChip st.store c).2
  let st := { st with store := (Plc.placementsOnChip st.store c).1 }
  if on.length = (M.cores c).length then .ok ({ st with full := addKey st.full c }, false)
  else
    match removeAll (M.cores c) on with
    | .error err => .error err
    | .ok free =>
      if (M.costs.total (usedBy M on) : Int) > M.cap then .ok ({ st with full := addKey st.full c }, false)
      else
        let st := { st with prepared := addKey st.prepared c }
        if free.length < n ∨ M.costs.total (usedBy M on ++ [sdram]) > M.sdram c then
          match couldFit M n sdram with
          | .error err => .error err
          | .ok () => .ok (st, false)
        else
          match addNeighbours M (M.links c)
              { st with cur := some c, free := free, used := usedBy M on ++ [sdram] } with
          | .error err => .error err
          | .ok st => .ok (st, true)

/-- `_pop_start_chip`, application_placer.py:594-618. -/
def popStart (st : State) : Except PyErr (XY × State) :=
  match st.restored.dropWhile (fun c => decide (c ∈ st.full)) with
  | c :: r => .ok (c, { st with restored := r })
  | [] =>
    match st.chips.dropWhile (fun c => decide (c ∈ st.full)) with
    | c :: r => .ok (c, { st with restored := [], chips := r })
    | [] => .error .place

/-- The loop of `_get_next_start`, application_placer.py:581-589. It ends (proved). -/
def startLoop (M : Machine) (n sdram : Nat) : Nat → State → Except PyErr (XY × State)
  | 0, _ => .error .outOfFuel
  | fuel + 1, st =>
    match popStart st with
    | .error err => .error err
    | .ok (c, st) =>
      match spaceOn M c n sdram { st with tried := st.tried ++ [c], eth := some (M.board c) } with
      | .error err => .error err
      | .ok (st, true) => .ok (c, st)
      | .ok (st, false) => startLoop M n sdram fuel st

/-- `_get_next_start`, application_placer.py:562-592. -/
def nextStart (M : Machine) (n sdram fuel : Nat) (st : State) : Except PyErr (XY × State) :=
  startLoop M n sdram fuel { st with same := [], other := [] }

/-- `_pop_neighbour`, application_placer.py:688-715. -/
def popNeighbour (M : Machine) (st : State) : Option (XY × State) :=
  match st.same with
  | c :: r => some (c, { st with same := r })
  | [] =>
    match st.other with
    | c :: r => some (c, { st with
        eth := some (M.board c)
        same := r.filter (fun d => decide (M.board d = M.board c))
        other := r.filter (fun d => decide (M.board d ≠ M.board c)) })
    | [] => none

/-- `_get_next_neighbour`, application_placer.py:620-641. It ends (proved). -/
def nextNeighbour (M : Machine) (n sdram : Nat) : Nat → State → Except PyErr (Option XY × State)
  | 0, _ => .error .outOfFuel
  | fuel + 1, st =>
    match popNeighbour M st with
    | none => .ok (none, st)
    | some (c, st) =>
      match spaceOn M c n sdram st with
      | .error err => .error err
      | .ok (st, true) => .ok (some c, st)
      | .ok (st, false) => nextNeighbour M n sdram fuel st

/-- `_get_next_chip_with_space`, application_placer.py:643-669. -/
def nextChip (M : Machine) (n sdram fuel : Nat) (st : State) : Except PyErr (Option XY × State) :=
  match st.cur with
  | none =>
    match nextStart M n sdram fuel st with
    | .error err => .error err
    | .ok (c, st) => .ok (some c, st)
  | some c =>
    if n ≤ st.free.length ∧ M.costs.total (sdram :: st.used) ≤ M.sdram c then
      .ok (some c, { st with used := sdram :: st.used })
    else nextNeighbour M n sdram fuel st

/-- `_filter_vertices`, application_placer.py:257-279. -/
def filterVertices (M : Machine) (s : Store) (vs : List Nat) : Except PyErr (List Nat) :=
  let open_ := vs.filter (fun v => !Plc.isPlaced s v)
  if open_.length ≠ vs.length ∧ open_.length > 0 then .error .notImplemented
  else .ok (open_.filter (fun v => !M.virtual v))

/-- The loop that takes the cores for a group, application_placer.py:251-254: what is left of
`__current_cores_free`, and the placements. -/
def takeCores (c : XY) : List Nat → List Nat → Except PyErr (List Nat × List Placement)
  | [], free => .ok (free, [])
  | _ :: _, [] => .error .indexError
  | v :: vs, p :: free =>
    match takeCores c vs free with
    | .error err => .error err
    | .ok (rest, as) => .ok (rest, ⟨v, c.1, c.2, p⟩ :: as)

/-- The loop over the groups in `_prepare_placements`, application_placer.py:238-255. -/
def prepareLoop (M : Machine) (fuel : Nat) : List (List Nat × Nat) → State → List Placement →
    Except PyErr (Option (List Placement) × State)
  | [], st, acc => .ok (some acc, st)
  | g :: gs, st, acc =>
    match filterVertices M st.store g.1 with
    | .error err => .error err
    | .ok [] => prepareLoop M fuel gs st acc
    | .ok (v :: vs) =>
      match nextChip M (v :: vs).length g.2 fuel st with
      | .error err => .error err
      | .ok (none, st) => .ok (none, st)
      | .ok (some c, st) =>
        match takeCores c g.1 st.free with
        | .error err => .error err
        | .ok (free, as) => prepareLoop M fuel gs { st with free := free } (acc ++ as)

/-- `_prepare_placements`, application_placer.py:209-255. -/
def prepare (M : Machine) (fuel : Nat) (gs : List (List Nat × Nat)) (st : State) :
    Except PyErr (Option (List Placement) × State) :=
  prepareLoop M fuel gs { st with prepared := [], cur := none } []

/-- The loop of `_place_vertex`, application_placer.py:201-204. It ends (proved). -/
def attempts (M : Machine) (fuel : Nat) (gs : List (List Nat × Nat)) : Nat → State →
    Except PyErr (List Placement × State)
  | 0, _ => .error .outOfFuel
  | k + 1, st =>
    match prepare M fuel gs st with
    | .error err => .error err
    | .ok (some as, st) => .ok (as, st)
    | .ok (none, st) => attempts M fuel gs k st

/-- `_place_vertex`, application_placer.py:179-207. -/
def placeVertex (M : Machine) (fuel : Nat) (v : AppV) (st : State) : Except PyErr State :=
  if v.groups = [] then .ok st
  else
    match attempts M fuel v.groups fuel { st with restored := st.restored ++ st.tried, tried := [] } with
    | .error err => .error err
    | .ok (as, st) =>
      match Plc.addAll st.store as with
      | (_, .error err) => .error err
      | (s, .ok ()) => .ok { st with store := s }

/-! ### Fixed locations -/

/-- The chip of the first vertex with a fixed location, application_placer.py:396-406. -/
def firstLoc (M : Machine) : List Nat → Option XY
  | [] => none
  | v :: vs =>
    match M.fixed v with
    | some l => some l.1
    | none => firstLoc M vs

/-- `p in it`, on an iterator: what is left of it; `none` if `p` did not come. -/
def consume (p : Nat) : List Nat → Option (List Nat)
  | [] => none
  | q :: qs => if q = p then some qs else consume p qs

/-- The core to which a vertex is fixed: `fixed.p`, if there is one. -/
def Machine.core (M : Machine) (v : Nat) : Option Nat := (M.fixed v).bind (·.2)

/-- The loop over the vertices with a fixed core, application_placer.py:417-425: the placements, and what is
left of `next_cores`. -/
def fixedCores (M : Machine) (c : XY) : List Nat → Store → List Nat → Except PyErr (Store × List Nat)
  | [], s, it => .ok (s, it)
  | v :: vs, s, it =>
    match M.core v with
    | none => fixedCores M c vs s it
    | some p =>
      match consume p it with
      | none => .error .configuration
      | some it =>
        match Plc.add s ⟨v, c.1, c.2, p⟩ with
        | (_, .error err) => .error err
        | (s, .ok ()) => fixedCores M c vs s it

/-- The loop over the other vertices, application_placer.py:427-436. -/
def anyCores (M : Machine) (c : XY) : List Nat → Store → List Nat → Except PyErr Store
  | [], s, _ => .ok s
  | v :: vs, s, it =>
    match M.core v with
    | some _ => anyCores M c vs s it
    | none =>
      match it with
      | [] => .error .configuration
      | p :: it =>
        match Plc.add s ⟨v, c.1, c.2, p⟩ with
        | (_, .error err) => .error err
        | (s, .ok ()) => anyCores M c vs s it

/-- The cores of the chip that are free, application_placer.py:412-415. -/
def freeCores (M : Machine) (s : Store) (c : XY) : List Nat :=
  M.iter ((M.cores c).filter (fun p => decide (p ∉ (Plc.placementsOnChip s c).2.map (·.p))))

/-- `_do_fixed_location`, application_placer.py:386-436. -/
def doFixed (M : Machine) (vs : List Nat) (s : Store) : Except PyErr Store :=
  match firstLoc M vs with
  | none => .error .notImplemented
  | some c =>
    if M.has c = false then .error .configuration
    else
      match fixedCores M c vs (Plc.placementsOnChip s c).1 (freeCores M s c) with
      | .error err => .error err
      | .ok (s, it) => anyCores M c vs s it

/-- The loop of `_place_fixed_vertex`, application_placer.py:382-384. -/
def fixedGroups (M : Machine) : List (List Nat × Nat) → Store → Except PyErr Store
  | [], s => .ok s
  | g :: gs, s =>
    match filterVertices M s g.1 with
    | .error err => .error err
    | .ok vs =>
      match doFixed M vs s with
      | .error err => .error err
      | .ok s => fixedGroups M gs s

/-- `_place_fixed_vertex`, application_placer.py:370-384. -/
def placeFixed (M : Machine) (v : AppV) (s : Store) : Except PyErr Store :=
  if v.groups = [] then .error .notImplemented else fixedGroups M v.groups s

/-! ### All vertices -/

/-- The first loop of `do_placements`, application_placer.py:161-164. -/
def fixedAll (M : Machine) : List AppV → Store → Except PyErr Store
  | [], s => .ok s
  | v :: vs, s =>
    if v.isFixed then
      match placeFixed M v s with
      | .error err => .error err
      | .ok s => fixedAll M vs s
    else fixedAll M vs s

/-- The loop over the groups in `_place_error`, application_placer.py:295-307. -/
def errorGroups (M : Machine) (s : Store) : List (List Nat × Nat) → Except PyErr Unit
  | [] => .ok ()
  | g :: gs =>
    match g.1 with
    | [] => .error .indexError
    | v :: _ =>
      if M.virtual v then .ok ()
      else if Plc.isPlaced s v then errorGroups M s gs
      else .ok ()

/-- `_place_error`, application_placer.py:281-368: the exception that is raised in place of a
PacmanPlaceException. The report that it writes is in `PlacerReport.lean`. -/
def placeError (M : Machine) (s : Store) : List AppV → PyErr
  | [] => .place
  | v :: vs =>
    match errorGroups M s v.groups with
    | .error err => err
    | .ok () => placeError M s vs

/-- The second loop of `do_placements`, application_placer.py:166-170, `all` are all the vertices. Where
`_place_vertex` raises a PacmanPlaceException it has not yet placed anything. -/
def placeAll (M : Machine) (fuel : Nat) (all : List AppV) : List AppV → State → Except PyErr State
  | [], st => .ok st
  | v :: vs, st =>
    match placeVertex M fuel v st with
    | .error err => .error (if err = .place then placeError M st.store all else err)
    | .ok st => placeAll M fuel all vs st

/-- `place_application_graph`, application_placer.py:37-50, with `do_placements`, 141-177: the placements
afterwards. -/
def place (M : Machine) (fuel : Nat) (vs : List AppV) (s : Store) : Except PyErr Store :=
  match initial M s with
  | .error err => .error err
  | .ok st =>
    match fixedAll M vs st.store with
    | .error err => .error err
    | .ok s =>
      match placeAll M fuel vs vs { st with store := s } with
      | .error err => .error err
      | .ok st => .ok st.store

end Pacman.Placer
