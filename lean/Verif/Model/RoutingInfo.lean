import Verif.Model.Base
/-
Model of `model/routing_info/routing_info.py`.
-/

namespace Pacman.RInfo

/-- `VertexRoutingInfo`, vertex_routing_info.py:28-80, as the store sees it: vertex (object identity),
partition, key and mask. -/
structure VInfo where
  vertex : Nat
  part : Nat
  key : Nat
  mask : Nat
  deriving DecidableEq, Repr

/-- `RoutingInfo._info`: a `defaultdict(dict)`, routing_info.py:30-35. -/
abbrev Store := Dict Nat (Dict Nat VInfo)

/-- `self._info[vertex]` on the `defaultdict`: a missing vertex is inserted with an empty dictionary. -/
def touch (s : Store) (v : Nat) : Store × Dict Nat VInfo :=
  match s.get? v with
  | some d => (s, d)
  | none => (s.set v [], [])

/-- `add_routing_info`, routing_info.py:37-51. -/
def add (s : Store) (i : VInfo) : Except PyErr Store :=
  let put := fun (_ : Unit) => let t := touch s i.vertex
    Except.ok (t.1.set i.vertex (t.2.set i.part i))
  match s.get? i.vertex with
  | none => put ()
  | some d => if (d.get? i.part).isSome then .error .alreadyExists else put ()

/-- `get_routing_info_from_pre_vertex`, routing_info.py:62-73: the store afterwards and the result. -/
def getPre (s : Store) (v p : Nat) : Store × Option VInfo :=
  let t := touch s v
  (t.1, t.2.get? p)

/-- `get_info_from`, routing_info.py:75-89. -/
def getInfo (s : Store) (v p : Nat) : Store × Except PyErr VInfo :=
  let t := touch s v
  (t.1, match t.2.get? p with
    | some i => .ok i
    | none => .error .keyError)

/-- `get_first_key_from_pre_vertex`, routing_info.py:100-116. -/
def firstKey (s : Store) (v p : Nat) : Option Nat :=
  match s.get? v with
  | none => none
  | some d => (d.get? p).map (·.key)

/-- `get_key_from`, routing_info.py:118-132. -/
def getKey (s : Store) (v p : Nat) : Store × Except PyErr Nat :=
  let t := touch s v
  (t.1, match t.2.get? p with
    | some i => .ok i.key
    | none => .error .keyError)

/-- `get_partitions_from`, routing_info.py:134-141. -/
def partitions (s : Store) (v : Nat) : Store × List Nat :=
  let t := touch s v
  (t.1, t.2.map (·.1))

/-- `has_info_from`, routing_info.py:143-156. -/
def hasInfo (s : Store) (v p : Nat) : Bool :=
  match s.get? v with
  | none => false
  | some d => (d.get? p).isSome

/-- `check_info_from`, routing_info.py:158-174. -/
def checkInfo (s : Store) (v : Nat) (allowed : List Nat) : Except PyErr Unit :=
  match s.get? v with
  | none => .ok ()
  | some d => forE (fun p => if p.1 ∈ allowed then .ok () else .error .keyError) d

/-- `get_single_info_from`, routing_info.py:176-192. -/
def single (s : Store) (v : Nat) : Except PyErr (Option VInfo) :=
  match s.get? v with
  | none => .ok none
  | some d => match d with
    | [(_, i)] => .ok (some i)
    | _ => .error .keyError

/-- `get_single_key_from`, routing_info.py:194-208. -/
def singleKey (s : Store) (v : Nat) : Except PyErr (Option Nat) :=
  match single s v with
  | .error e => .error e
  | .ok none => .ok none
  | .ok (some i) => .ok (some i.key)

/-- `__iter__`, routing_info.py:210-218. -/
def iter (s : Store) : List VInfo := s.flatMap (fun p => p.2.map (·.2))

/-- `__len__`, routing_info.py:220-221. -/
def len (s : Store) : Nat := s.length

/-- A call on the store. -/
inductive Op where
  | add (i : VInfo)
  | getPre (v p : Nat)
  | getInfo (v p : Nat)
  | getKey (v p : Nat)
  | partitions (v : Nat)
  | other            -- any of the calls that cannot change the store

/-- The store after one call, with an exception caught by the caller. -/
def step (s : Store) : Op → Store
  | .add i => match add s i with
    | .ok s' => s'
    | .error _ => s
  | .getPre v p => (getPre s v p).1
  | .getInfo v p => (getInfo s v p).1
  | .getKey v p => (getKey s v p).1
  | .partitions v => (partitions s v).1
  | .other => s

/-- The store after a sequence of calls. -/
def run (ops : List Op) : Store := ops.foldl step []

end Pacman.RInfo
