import Verif.Model.Allocator
/-
Model of the class `_Targets` of `operations/router_algorithms/application_router.py`. The lists of
cores and links are Python objects that several vertices can share, so they are kept in a heap.
-/

namespace Pacman.Targets

open Alloc (VId)

/-- What `_Targets` asks of the vertices: `MachineVertex.app_vertex`, and
`splitter.get_out_going_vertices(partition_id)`, `none` where `has_splitter` is false. The partition
is fixed: `route_application_graph` makes new `_Targets` for each partition and passes the identifier
of that partition in every call (application_router.py:210, 242, 264-267). -/
structure Env where
  appOf : Nat → Option Nat
  outgoing : Nat → Option (List Nat)

/-- `__targets_by_source`, application_router.py:46-49: for each vertex the address of its pair of
lists. A pair stands for the two list objects, which are always shared together. -/
structure State where
  heap : List (List Nat × List Nat)
  at_ : Dict VId Nat
  deriving DecidableEq, Repr

/-- `_Targets()`, application_router.py:46-49. -/
def State.empty : State := ⟨[], []⟩

/-- `vertex in self.__targets_by_source`. -/
def State.has (s : State) (v : VId) : Bool := (s.at_.get? v).isSome

/-- `ensure_source`, application_router.py:51-59; also what reading a missing key of the `defaultdict`
does. -/
def ensure (s : State) (v : VId) : State :=
  match s.at_.get? v with
  | some _ => s
  | none => ⟨s.heap ++ [([], [])], s.at_.set v s.heap.length⟩

/-- The appends of `__add_source`, application_router.py:154-157, to the pair of lists. -/
def push (core link : Option Nat) (p : List Nat × List Nat) : List Nat × List Nat :=
  (p.1 ++ core.toList, p.2 ++ link.toList)

/-- `__add_source`, application_router.py:147-157. -/
def addSource (s : State) (v : VId) (core link : Option Nat) : State :=
  let s := ensure s v
  match s.at_.get? v with
  | none => s
  | some a => ⟨s.heap.modify a (push core link), s.at_⟩

/-- `__is_m_vertex`, application_router.py:109-121. -/
def isM (e : Env) (s : State) (a : Nat) : Bool :=
  match e.outgoing a with
  | none => false
  | some l => l.any (fun m => s.has (.mach m))

/-- The loop of `__add_m_vertices`, application_router.py:144-145. -/
def addAll (s : State) (core link : Option Nat) : List Nat → State
  | [] => s
  | m :: l => addAll (addSource s (.mach m) core link) core link l

/-- `__add_m_vertices`, application_router.py:135-145; `vertex.splitter` raises
`PacmanConfigurationException` where there is none. -/
def addM (e : Env) (s : State) (a : Nat) (core link : Option Nat) : Except PyErr State :=
  match e.outgoing a with
  | none => .error .configuration
  | some l => .ok (addAll s core link l)

/-- The loop of `__replace_app_vertex`, application_router.py:132-133: every vertex gets the same
lists. -/
def setAll (d : Dict VId Nat) (p : Nat) : List Nat → Dict VId Nat
  | [] => d
  | m :: l => setAll (d.set (.mach m) p) p l

/-- `__replace_app_vertex`, application_router.py:123-133, called only where the vertex is in the
dictionary. What is left behind after an exception is not modelled: routing stops. -/
def replaceApp (e : Env) (s : State) (a : Nat) : Except PyErr State :=
  match s.at_.get? (.app a) with
  | none => .error .keyError
  | some p =>
    match e.outgoing a with
    | none => .error .configuration
    | some l => .ok ⟨s.heap, setAll (s.at_.erase (.app a)) p l⟩

/-- `if vertex.app_vertex in self.__targets_by_source: self.__replace_app_vertex(...)`,
application_router.py:81-82 and 105-106. -/
def replaceIf (e : Env) (s : State) (a : Option Nat) : Except PyErr State :=
  match a with
  | none => .ok s
  | some a => if s.has (.app a) then replaceApp e s a else .ok s

/-- One round of `add_sources_for_target`, application_router.py:74-83. -/
def addOne (e : Env) (s : State) (core link : Option Nat) (v : VId) : Except PyErr State :=
  match v with
  | .app a => if isM e s a then addM e s a core link else .ok (addSource s (.app a) core link)
  | .mach m =>
    match replaceIf e s (e.appOf m) with
    | .error err => .error err
    | .ok s => .ok (addSource s (.mach m) core link)

/-- One round of `add_machine_sources_for_target`, application_router.py:98-107. -/
def addOneMachine (e : Env) (s : State) (core link : Option Nat) (v : VId) : Except PyErr State :=
  match v with
  | .app a =>
    match replaceIf e s (some a) with
    | .error err => .error err
    | .ok s => addM e s a core link
  | .mach m =>
    match replaceIf e s (e.appOf m) with
    | .error err => .error err
    | .ok s => .ok (addSource s (.mach m) core link)

/-- `add_sources_for_target`, application_router.py:61-83. -/
def addSources (e : Env) (core link : Option Nat) : List VId → State → Except PyErr State
  | [], s => .ok s
  | v :: vs, s =>
    match addOne e s core link v with
    | .error err => .error err
    | .ok s => addSources e core link vs s

/-- `add_machine_sources_for_target`, application_router.py:85-107. -/
def addMachineSources (e : Env) (core link : Option Nat) : List VId → State → Except PyErr State
  | [], s => .ok s
  | v :: vs, s =>
    match addOneMachine e s core link v with
    | .error err => .error err
    | .ok s => addMachineSources e core link vs s

/-- The pair of lists of a vertex in `targets_by_source`, application_router.py:159-168. -/
def State.lists (s : State) (v : VId) : Option (List Nat × List Nat) :=
  match s.at_.get? v with
  | none => none
  | some a => s.heap[a]?

/-- `get_targets_for_source`, application_router.py:170-178, which inserts a missing vertex. -/
def getTargets (s : State) (v : VId) : State × Option (List Nat × List Nat) :=
  (ensure s v, (ensure s v).lists v)

/-- `targets_by_source`, application_router.py:159-168. -/
def State.items (s : State) : List (VId × Option (List Nat × List Nat)) :=
  s.at_.map (fun p => (p.1, s.heap[p.2]?))

/-- One call that adds to a `_Targets` object. -/
inductive Op where
  | add (core link : Option Nat) (vs : List VId)
  | addMachine (core link : Option Nat) (vs : List VId)
  deriving DecidableEq, Repr

/-- The effect of one call. -/
def step (e : Env) (s : State) : Op → Except PyErr State
  | .add core link vs => addSources e core link vs s
  | .addMachine core link vs => addMachineSources e core link vs s

/-- A sequence of calls, up to the first exception. -/
def run (e : Env) : List Op → State → Except PyErr State
  | [], s => .ok s
  | o :: os, s =>
    match step e s o with
    | .error err => .error err
    | .ok s => run e os s

end Pacman.Targets
