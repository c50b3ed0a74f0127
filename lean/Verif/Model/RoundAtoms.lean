import Verif.Model.Base
/-
Model of `ApplicationVertex.round_n_atoms`, model/graphs/application/application_vertex.py:169-194.
-/

namespace Pacman.Round

/-- What is given as a number of atoms: an `int`, or a `float` with its exact value, or one of the floats that have none.
Simplified: other types (numpy) are left out. -/
inductive Num where
  | int (n : Int)
  | float (q : Rat)
  | nan
  | inf (negative : Bool)
  deriving DecidableEq, Repr

/-- `round` of a finite float: the nearest integer, of two equally near the even one. -/
def roundEven (q : Rat) : Int :=
  let f := q.floor
  if q - f < 1 / 2 then f
  else if 1 / 2 < q - f then f + 1
  else if f % 2 = 0 then f else f + 1

/-- The float `0.001` of application_vertex.py:186 has this exact value. -/
def near : Rat := 1152921504606847 / 1152921504606846976

/-- `round_n_atoms`, application_vertex.py:169-194: the number, and if there is a warning. Differences of a float and the nearest
integer are exact in floating point. `round` raises a `ValueError` for NaN and an `OverflowError` for infinities. -/
def roundNAtoms : Num → Except PyErr (Int × Bool)
  | .int n => .ok (n, false)
  | .nan => .error .valueError
  | .inf _ => .error .overflowError
  | .float q =>
    let temp := roundEven q
    if ((temp : Rat) - q).abs < near then .ok (temp, decide ((temp : Rat) ≠ q))
    else .error .invalidParameter

end Pacman.Round
