import Verif.Model.Base
/-
Model of `_reduce_route_value` in `utilities/algorithm_utilities/routes_format.py`.
-/

namespace Pacman.RouteWord

/-- The loop over the links, routes_format.py:31-32. -/
def addLinks (value : Nat) (links : List Nat) : Nat := links.foldl (fun v l => v + 1 <<< l) value

/-- The loop over the processors, routes_format.py:33-34. -/
def addProcessors (value : Nat) (ps : List Nat) : Nat := ps.foldl (fun v p => v + 1 <<< (p + 6)) value

/-- `_reduce_route_value`, routes_format.py:23-35. The arguments are sets, as lists without repetitions. -/
def reduceRoute (processors links : List Nat) : Nat := addProcessors (addLinks 0 links) processors

end Pacman.RouteWord
