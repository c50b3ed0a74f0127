import Verif.Model.RoundAtoms
/-
Words used to state what `round_n_atoms` guarantees.
-/

namespace Pacman.Round

/-- The value of the float 0.001: of all fractions with the denominator `2 ^ 62` that have 53 bits the nearest one. -/
def thousandth : Rat := 4611686018427388 / 2 ^ 62

/-- `n` is less than the float 0.001 away from what was given. -/
def Close : Num → Int → Prop
  | .int m, n => n = m
  | .float q, n => q - thousandth < (n : Rat) ∧ (n : Rat) < q + thousandth
  | .nan, _ => False
  | .inf _, _ => False

/-- What was given is an integer. -/
def Whole : Num → Int → Prop
  | .int m, n => n = m
  | .float q, n => (n : Rat) = q
  | .nan, _ => False
  | .inf _, _ => False

end Pacman.Round
