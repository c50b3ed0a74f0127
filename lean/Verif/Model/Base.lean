/-
Basic data shared by the models: 32-bit words, routing entries, exceptions.
-/

namespace Pacman

/-- A 32-bit key or mask. `utilities/constants.py:20-24` (`BITS_IN_KEY = 32`,
`FULL_MASK = 0xFFFFFFFF`).  Python integers are unbounded; every key and mask in the
modelled code is kept within 32 bits. -/
abbrev Word := BitVec 32

/-- The exceptions raised by the modelled code, as values.  `indexError`, `keyError`,
`valueError` and `typeError` are the Python built-ins; the others are classes of
`pacman/exceptions.py`. -/
inductive PyErr where
  | indexError
  | keyError
  | valueError
  | typeError
  | notImplemented
  | alreadyExists          -- PacmanAlreadyExistsException
  | invalidParameter       -- PacmanInvalidParameterException
  | configuration          -- PacmanConfigurationException
  | routing                -- PacmanRoutingException
  | minimisationFailed     -- MinimisationFailedError
  | elementAllocation      -- PacmanElementAllocationException
  | routeInfoAllocation    -- PacmanRouteInfoAllocationException
  | place                  -- PacmanPlaceException
  | tooBig                 -- PacmanTooBigToPlace
  | partitionMissingEdges  -- PartitionMissingEdgesException
  | notFound               -- PacmanNotFoundError
  | alreadyPlaced          -- PacmanAlreadyPlacedError
  | notPlaced              -- PacmanNotPlacedError
  | processorOccupied      -- PacmanProcessorAlreadyOccupiedError
  | processorNotOccupied   -- PacmanProcessorNotOccupiedError
  | pacmanValueError       -- PacmanValueError
  | sdramEdgeSize          -- SDRAMEdgeSizeException
  | noMoreTags             -- PacmanNoMoreTagsError / "Tags" exhaustion
  | notExist               -- PacmanNotExistException
  | attributeError         -- AttributeError (Python built-in)
  | unboundLocal           -- UnboundLocalError (Python built-in)
  | overflowError          -- OverflowError (Python built-in)
  | zeroDivision           -- ZeroDivisionError (Python built-in)
  | assertion              -- AssertionError (Python built-in)
  | unavailable            -- SpiNNUtilsException of a view: the data is not available
  | outOfFuel              -- not an exception: a loop of the code is cut off by the model
  deriving DecidableEq, Repr

/-- A routing entry: `spinn_machine.MulticastRoutingEntry` as used by
`operations/router_compressors/*.py` (`key`, `mask`, `spinnaker_route`, `defaultable`).
The route is the route word: it determines processors and links
(`utilities/algorithm_utilities/routes_format.py:23-35`). -/
structure Entry where
  key : Word
  mask : Word
  route : Nat
  defaultable : Bool
  deriving DecidableEq, Repr

/-- A Python list read `l[i]` for a non-negative `i`. -/
def getE {α : Type} (l : List α) (i : Nat) : Except PyErr α :=
  match l[i]? with
  | some a => .ok a
  | none => .error .indexError

/-- A Python list write `l[i] = a` for a non-negative `i`. -/
def setE {α : Type} (l : List α) (i : Nat) (a : α) : Except PyErr (List α) :=
  if i < l.length then .ok (l.set i a) else .error .indexError

/-- A Python `dict`: pairs in insertion order, one per key. -/
abbrev Dict (κ α : Type) := List (κ × α)

/-- `d.get(k)`. -/
def Dict.get? {κ α : Type} [DecidableEq κ] (d : Dict κ α) (k : κ) : Option α :=
  (d.find? (fun p => decide (p.1 = k))).map (·.2)

/-- `d[k] = v`: a new key goes to the end, an existing key keeps its place. -/
def Dict.set {κ α : Type} [DecidableEq κ] (d : Dict κ α) (k : κ) (v : α) : Dict κ α :=
  match d with
  | [] => [(k, v)]
  | p :: d => if p.1 = k then (k, v) :: d else p :: Dict.set d k v

/-- `del d[k]`, or `d.pop(k, ...)`: the dictionary without the key. -/
def Dict.erase {κ α : Type} [DecidableEq κ] (d : Dict κ α) (k : κ) : Dict κ α :=
  d.filter (fun p => decide (p.1 ≠ k))

/-- A `for` loop whose body may raise. -/
def forE {ε α : Type} (f : α → Except ε Unit) : List α → Except ε Unit
  | [] => .ok ()
  | a :: l =>
    match f a with
    | .error e => .error e
    | .ok () => forE f l

/-- Insert before the first element that is not smaller. -/
def insertBy {α : Type} (le : α → α → Bool) (x : α) : List α → List α
  | [] => [x]
  | y :: ys => if le x y then x :: y :: ys else y :: insertBy le x ys

/-- Python's `sorted` / `list.sort` (a stable sort; the result of a stable sort by a total
preorder is unique, so the algorithm does not matter). -/
def stableSort {α : Type} (le : α → α → Bool) : List α → List α
  | [] => []
  | x :: xs => insertBy le x (stableSort le xs)

/-- Results of calls can be compared (not code; used to evaluate the concrete examples). -/
instance decEqExcept {ε α : Type} [DecidableEq ε] [DecidableEq α] : DecidableEq (Except ε α)
  | .error a, .error b => if h : a = b then isTrue (by rw [h]) else isFalse (by intro h'; cases h'; exact h rfl)
  | .ok a, .ok b => if h : a = b then isTrue (by rw [h]) else isFalse (by intro h'; cases h'; exact h rfl)
  | .error _, .ok _ => isFalse (by intro h; cases h)
  | .ok _, .error _ => isFalse (by intro h; cases h)

end Pacman
