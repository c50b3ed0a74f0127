import Verif.Model.Base
/-
Model of `model/resources/constant_sdram.py`, `variable_sdram.py`, `shared_sdram.py` and
`multi_region_sdram.py`: addition and totals. The regions of a `MultiRegionSDRAM` are in `Model/MultiRegion.lean`.

Costs per timestep are exact fractions here; in the code they are floating point numbers, whose sums are exact
only up to rounding.
-/

namespace Pacman.Sdram

/-- The classes: `ConstantSDRAM` (constant_sdram.py:31-36), `VariableSDRAM` (variable_sdram.py:43-54),
`SharedSDRAM` (shared_sdram.py:45-65, the dictionary and the cost per core), and `MultiRegionSDRAM` by its
`_total` (multi_region_sdram.py:55-57). -/
inductive Cost where
  | const (n : Int)
  | var (fixed : Int) (per : Rat)
  | shared (sh : List (String × Cost)) (perCore : Cost)
  | multi (total : Cost)

/-- The total of a `VariableSDRAM`, variable_sdram.py:57-64. -/
def varTotal (fixed : Int) (per : Rat) : Option Nat → Except PyErr Int
  | some n => .ok ((fixed : Rat) + per * (n : Rat)).ceil
  | none => if per = 0 then .ok fixed else .error .configuration

mutual
/-- `get_total_sdram`, constant_sdram.py:39-40, variable_sdram.py:57-64, shared_sdram.py:68-72,
multi_region_sdram.py:139-146. -/
def total (t : Option Nat) : Cost → Except PyErr Int
  | .const n => .ok n
  | .var f p => varTotal f p t
  | .shared sh pc =>
    match total t pc with
    | .error e => .error e
    | .ok running => totalSh t running sh
  | .multi c => total t c
/-- The loop of `SharedSDRAM.get_total_sdram`, shared_sdram.py:70-71. -/
def totalSh (t : Option Nat) (running : Int) : List (String × Cost) → Except PyErr Int
  | [] => .ok running
  | (_, c) :: l =>
    match total t c with
    | .error e => .error e
    | .ok n => totalSh t (running + n) l
end

mutual
/-- `fixed`, constant_sdram.py:43-45, variable_sdram.py:66-69, shared_sdram.py:74-80, multi_region_sdram.py:162-167. -/
def fixed : Cost → Int
  | .const n => n
  | .var f _ => f
  | .shared sh pc => fixedSh (fixed pc) sh
  | .multi c => fixed c
/-- The loop of `SharedSDRAM.fixed`, shared_sdram.py:78-79. -/
def fixedSh (running : Int) : List (String × Cost) → Int
  | [] => running
  | (_, c) :: l => fixedSh (running + fixed c) l
end

mutual
/-- `per_timestep`, constant_sdram.py:47-50, variable_sdram.py:71-74, shared_sdram.py:82-88, multi_region_sdram.py:169-177. -/
def perTimestep : Cost → Rat
  | .const _ => 0
  | .var _ p => p
  | .shared sh pc => perSh (perTimestep pc) sh
  | .multi c => perTimestep c
/-- The loop of `SharedSDRAM.per_timestep`, shared_sdram.py:86-87. -/
def perSh (running : Rat) : List (String × Cost) → Rat
  | [] => running
  | (_, c) :: l => perSh (running + perTimestep c) l
end

/-- `ConstantSDRAM.__eq__` and `VariableSDRAM.__eq__`, constant_sdram.py:52-55, variable_sdram.py:76-88. -/
def eqPlain : Cost → Cost → Bool
  | .const a, .const b => decide (b = a)
  | .var f p, .var f' p' => decide (f' = f) && decide (p' = p)
  | .var f p, .const b => decide (p = 0) && decide (b = f)
  | _, _ => false

/-- The total of a `MultiRegionSDRAM`; other costs as they are (multi_region_sdram.py:148-151). -/
def other : Cost → Cost
  | .multi c => c
  | c => c

mutual
/-- `a == b`, shared_sdram.py:91-96, multi_region_sdram.py:148-151, and `eqPlain`. None of the methods returns
`NotImplemented`, so that of the left operand decides. -/
def eq : Cost → Cost → Bool
  | .shared sh pc, b =>
    match b with
    | .shared sh' pc' => eq pc pc' && (sh.length == sh'.length) && eqSh sh sh'
    | _ => false
  | .multi c, b => eq c (other b)
  | a, b => eqPlain a b
/-- The values in the first dictionary equal those in the second (`dict.__eq__`). -/
def eqSh : List (String × Cost) → List (String × Cost) → Bool
  | [], _ => true
  | (k, c) :: l, sh' =>
    (match Dict.get? sh' k with
      | some c' => eq c c'
      | none => false) && eqSh l sh'
end

/-- `self + other` for a constant or variable other, constant_sdram.py:57-63, variable_sdram.py:90-100,
shared_sdram.py:99-101, multi_region_sdram.py:153-160. -/
def addPlain : Cost → (fixed : Int) → (per : Option Rat) → Cost
  | .const a, f, none => .const (a + f)
  | .const a, f, some p => .var (f + a) p
  | .var g q, f, none => .var (g + f) q
  | .var g q, f, some p => .var (g + f) (q + p)
  | .shared sh pc, f, p => .shared sh (addPlain pc f p)
  | .multi c, f, p => addPlain c f p

/-- The loop of `SharedSDRAM.__add__`, shared_sdram.py:103-110. -/
def mergeSh (sh : List (String × Cost)) : List (String × Cost) → Except PyErr (List (String × Cost))
  | [] => .ok sh
  | (k, v) :: l =>
    match Dict.get? sh k with
    | some w => if eq v w then mergeSh sh l else .error .configuration
    | none => mergeSh (Dict.set sh k v) l

/-- `a + b`, constant_sdram.py:57-63, variable_sdram.py:90-100, shared_sdram.py:99-114,
multi_region_sdram.py:153-160, with the delegation to the other operand followed: a constant or variable cost is
added to the other operand (which gives the same as the direct sum when both are such). -/
def add : Cost → Cost → Except PyErr Cost
  | a, .const n => .ok (addPlain a n none)
  | a, .var f p => .ok (addPlain a f (some p))
  | .const n, b => .ok (addPlain b n none)
  | .var f p, b => .ok (addPlain b f (some p))
  | .multi c, b => add c b
  | .shared sh pc, .multi c => add c (.shared sh pc)
  | .shared sh pc, .shared sh' pc' =>
    match mergeSh sh sh' with
    | .error e => .error e
    | .ok m =>
      match add pc pc' with
      | .error e => .error e
      | .ok pc'' => .ok (.shared m pc'')
termination_by a b => sizeOf a + sizeOf b

/-- `a + b + c + ...`, as costs are added up (`reduce(operator.add, ...)`). -/
def addAll : Cost → List Cost → Except PyErr Cost
  | a, [] => .ok a
  | a, b :: l =>
    match add a b with
    | .error e => .error e
    | .ok c => addAll c l

end Pacman.Sdram
