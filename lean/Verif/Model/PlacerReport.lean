import Verif.Model.Placer
/-
Model of the report that `application_placer.py` writes where a graph is not placed.
-/

namespace Pacman.Placer

open Plc (Store)

/-- What `_place_error` writes to `placements_error.txt`, application_placer.py:311-358, in place of the text: the vertices that are
not placed and the number of all vertices (314-316), `vertex_count` and `n_vertices` (317-319), the chips with the cores and vertices on
them (320-331), of each vertex that is not placed the groups with their sizes, SDRAM, vertices, and where these are (332-349), and the
unused chips with their free cores (351-358). -/
structure Report where
  unplaced : List AppV
  total : Nat
  count : Nat
  groups : Nat
  chips : List (XY × List (Nat × Nat))
  notPlaced : List (List (Nat × Nat × List (Nat × Option (Nat × Nat × Nat))))
  unused : List (XY × Int)
  deriving Repr

/-- The loop over the groups of a vertex, application_placer.py:295-308: `app_vertex_placed`, and the number of vertices in the group at
which some are placed and others not. `found` is `found_placed_cores`. -/
def reportGroups (M : Machine) (s : Store) : Bool → List (List Nat × Nat) → Except PyErr (Bool × Option Nat)
  | _, [] => .ok (true, none)
  | found, g :: gs =>
    match g.1 with
    | [] => .error .indexError
    | v :: _ =>
      if M.virtual v then .ok (true, none)
      else if Plc.isPlaced s v then reportGroups M s true gs
      else if found then .ok (false, some g.1.length)
      else .ok (false, none)

/-- The loop over the vertices, application_placer.py:288-310: `unplaceable`, `vertex_count` and `n_vertices`. -/
def reportVertices (M : Machine) (s : Store) : List AppV → List AppV × Nat × Nat → Except PyErr (List AppV × Nat × Nat)
  | [], r => .ok r
  | v :: vs, (us, count, n) =>
    match reportGroups M s false v.groups with
    | .error err => .error err
    | .ok (true, _) => reportVertices M s vs (us, count, n)
    | .ok (false, none) => reportVertices M s vs (us ++ [v], count, n)
    | .ok (false, some k) => reportVertices M s vs (us ++ [v], count + k, v.groups.length)

/-- The lines for the chips, application_placer.py:320-331: what is on them without what is in `sys`. Looking at the chips that are in
the dictionary does not change it. -/
def reportChips (s sys : Store) : List (XY × List (Nat × Nat)) :=
  ((Plc.chips s).map (fun c => (c, ((Plc.placementsOnChip s c).2.filter (fun a => !Plc.isPlaced sys a.vertex)).map
    (fun a => (a.p, a.vertex))))).filter (fun e => !e.2.isEmpty)

/-- The lines for a vertex that is not placed, application_placer.py:334-349. -/
def reportNot (M : Machine) (s : Store) (v : AppV) : List (Nat × Nat × List (Nat × Option (Nat × Nat × Nat))) :=
  v.groups.map (fun g => (g.1.length, M.costs.total [g.2], g.1.map (fun u => (u,
    if Plc.isPlaced s u then (Plc.getOfVertex s u).toOption.map Plc.Placement.loc else none))))

/-- The lines for the unused chips, application_placer.py:351-358. The order of `machine.chip_coordinates` is taken to be the one in
which the placer goes through the chips. -/
def reportUnused (M : Machine) (s sys : Store) : List (XY × Int) :=
  (M.chips.filter (fun c => decide ((Plc.nOnChip s c : Int) - Plc.nOnChip sys c = 0))).map
    (fun c => (c, ((M.cores c).length : Int) - Plc.nOnChip sys c))

/-- The colour of a chip in `draw_placements`, draw_placements.py:66-79: that for unused chips (`some none`), the one of the application
vertex of a machine vertex, or none. The rest of the drawing is not modelled. -/
def drawChip (s sys : Store) (c : XY) : Option (Option Nat) :=
  if Plc.nOnChip s c = Plc.nOnChip sys c then some none
  else ((Plc.placementsOnChip s c).2.find? (fun a => !Plc.isPlaced sys a.vertex)).map (fun a => some a.vertex)

/-- `_place_error`, application_placer.py:281-368: the report, where `s` is `__placements` and `sys` is `system_placements`. That the
file cannot be written is not modelled, nor the drawing. -/
def report (M : Machine) (s sys : Store) (vs : List AppV) : Except PyErr Report :=
  match reportVertices M s vs ([], 0, 0) with
  | .error err => .error err
  | .ok (us, count, n) => .ok ⟨us, vs.length, count, n, reportChips s sys, us.map (reportNot M s), reportUnused M s sys⟩

/-- The second loop of `do_placements` with what it does about a PacmanPlaceException, application_placer.py:166-170: the placements at
that point and the report. Where `_place_vertex` raises it has not yet placed anything; it may have looked at chips, which leaves empty
dictionaries for them in the placements, of which the report has no lines. -/
def reportAll (M : Machine) (fuel : Nat) (all : List AppV) : List AppV → State → Option (Store × Except PyErr Report)
  | [], _ => none
  | v :: vs, st =>
    match placeVertex M fuel v st with
    | .error err => if err = .place then some (st.store, report M st.store st.store all) else none
    | .ok st => reportAll M fuel all vs st

/-- `place_application_graph`, application_placer.py:37-50, where the same object is given to `__init__` and to `do_placements`: the
placements and the report, if there is one. -/
def placeReport (M : Machine) (fuel : Nat) (vs : List AppV) (s : Store) : Option (Store × Except PyErr Report) :=
  match initial M s with
  | .error _ => none
  | .ok st =>
    match fixedAll M vs st.store with
    | .error _ => none
    | .ok s => reportAll M fuel vs vs { st with store := s }

end Pacman.Placer
