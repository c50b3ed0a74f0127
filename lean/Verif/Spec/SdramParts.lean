import Verif.Spec.Sdram
/-
Specification of the parts of an SDRAM cost.
-/

namespace Pacman.Sdram

mutual
/-- The constant and variable costs that a cost is made of, each with what it needs in any case and for each timestep. -/
def parts : Cost → List (Int × Rat)
  | .const n => [(n, 0)]
  | .var f p => [(f, p)]
  | .shared sh pc => parts pc ++ partsSh sh
  | .multi c => parts c
/-- Those of shared blocks. -/
def partsSh : List (String × Cost) → List (Int × Rat)
  | [] => []
  | (_, c) :: l => parts c ++ partsSh l
end

end Pacman.Sdram
