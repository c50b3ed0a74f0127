import Verif.Model.Base
/-
Model of `model/placements/placements.py`. Machine vertices are represented by numbers.
-/

namespace Pacman.Plc

/-- `Placement`, placement.py:21-49. -/
structure Placement where
  vertex : Nat
  x : Nat
  y : Nat
  p : Nat
  deriving DecidableEq, Repr

/-- `Placement.location`, placement.py:88-94. -/
def Placement.loc (a : Placement) : Nat × Nat × Nat := (a.x, a.y, a.p)

/-- `Placement.xy`, placement.py:97-103. -/
def Placement.xy (a : Placement) : Nat × Nat := (a.x, a.y)

/-- The fields of `Placements`, placements.py:33-40. `byChip` is a `defaultdict`. -/
structure Store where
  byChip : Dict (Nat × Nat) (Dict Nat Placement)
  byVertex : Dict Nat Placement
  deriving DecidableEq, Repr

/-- `Placements()`, placements.py:42-53. -/
def Store.empty : Store := ⟨[], []⟩

/-- `self._placements[xy]` on the `defaultdict`: the entry, and the store with the entry inserted. -/
def onChip (s : Store) (xy : Nat × Nat) : Dict Nat Placement × Store :=
  match s.byChip.get? xy with
  | some d => (d, s)
  | none => ([], { s with byChip := s.byChip.set xy [] })

/-- `is_processor_occupied`, placements.py:134-143. -/
def occupied (s : Store) (x y p : Nat) : Bool :=
  match s.byChip.get? (x, y) with
  | none => false
  | some d => (d.get? p).isSome

/-- `is_vertex_placed`, placements.py:111-118. -/
def isPlaced (s : Store) (v : Nat) : Bool := (s.byVertex.get? v).isSome

/-- `add_placement`, placements.py:73-91: the store afterwards, and whether it raised. -/
def add (s : Store) (a : Placement) : Store × Except PyErr Unit :=
  if occupied s a.x a.y a.p then (s, .error .processorOccupied)
  else if isPlaced s a.vertex then (s, .error .alreadyPlaced)
  else
    let (d, s1) := onChip s a.xy
    (⟨s1.byChip.set a.xy (d.set a.p a), s1.byVertex.set a.vertex a⟩, .ok ())

/-- `add_placements`, placements.py:64-71: stops at the first exception. -/
def addAll : Store → List Placement → Store × Except PyErr Unit
  | s, [] => (s, .ok ())
  | s, a :: as =>
    match add s a with
    | (s', .ok ()) => addAll s' as
    | (s', .error e) => (s', .error e)

/-- `get_placement_on_processor`, placements.py:93-109: it inserts an entry for an unknown chip. -/
def getOnProcessor (s : Store) (x y p : Nat) : Store × Except PyErr Placement :=
  let (d, s1) := onChip s (x, y)
  match d.get? p with
  | some a => (s1, .ok a)
  | none => (s1, .error .processorNotOccupied)

/-- `get_placement_of_vertex`, placements.py:120-132. -/
def getOfVertex (s : Store) (v : Nat) : Except PyErr Placement :=
  match s.byVertex.get? v with
  | some a => .ok a
  | none => .error .notPlaced

/-- `placements_on_chip`, placements.py:204-211, and `iterate_placements_on_core`, 145-152: they insert an
entry for an unknown chip. -/
def placementsOnChip (s : Store) (xy : Nat × Nat) : Store × List Placement :=
  let (d, s1) := onChip s xy
  (s1, d.map (·.2))

/-- `iterate_placements_by_xy_and_type`, placements.py:154-167; the class test is a parameter. -/
def onChipOfType (s : Store) (xy : Nat × Nat) (isType : Nat → Bool) : Store × List Placement :=
  let (d, s1) := onChip s xy
  (s1, (d.map (·.2)).filter (fun a => isType a.vertex))

/-- `iterate_placements_by_vertex_type`, placements.py:169-181; the class test is a parameter. -/
def ofType (s : Store) (isType : Nat → Bool) : List Placement :=
  (s.byVertex.map (·.2)).filter (fun a => isType a.vertex)

/-- `n_placements_on_chip`, placements.py:183-192. -/
def nOnChip (s : Store) (xy : Nat × Nat) : Nat :=
  match s.byChip.get? xy with
  | none => 0
  | some d => d.length

/-- `n_placements`, placements.py:55-62, and `__len__`, 231-232. -/
def nPlacements (s : Store) : Nat := s.byVertex.length

/-- `placements`, placements.py:194-202, and `__iter__`, 225-229. -/
def placements (s : Store) : List Placement := s.byVertex.map (·.2)

/-- `chips_with_placements`, placements.py:213-220. -/
def chips (s : Store) : List (Nat × Nat) := s.byChip.map (·.1)

/-- A call. -/
inductive Op where
  | add (a : Placement)
  | getOnProcessor (x y p : Nat)
  | onChip (xy : Nat × Nat)
  deriving DecidableEq, Repr

/-- The store after a call (not code: how a user may call the class, exceptions caught). -/
def step (s : Store) : Op → Store
  | .add a => (add s a).1
  | .getOnProcessor x y p => (getOnProcessor s x y p).1
  | .onChip xy => (placementsOnChip s xy).1

/-- The store after some calls. -/
def run : Store → List Op → Store
  | s, [] => s
  | s, o :: os => run (step s o) os

end Pacman.Plc
