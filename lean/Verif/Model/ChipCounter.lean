import Verif.Model.Base
/-
Model of `utilities/utility_objs/chip_counter.py`.
-/

namespace Pacman.Counter

/-- The fields of `ChipCounter`, chip_counter.py:27-41. The limits are read from the machine version and the
monitors (43-51); both, and the cores that are free, may be any integers. -/
structure Counter where
  coresPer : Int
  sdramPer : Int
  coresFree : Int
  sdramFree : Int
  nChips : Nat
  deriving DecidableEq, Repr

/-- `ChipCounter()`, chip_counter.py:43-54. -/
def Counter.new (coresPer sdramPer : Int) : Counter := ⟨coresPer, sdramPer, 0, 0, 0⟩

/-- A new chip is started, chip_counter.py:64-67. -/
def Counter.open (c : Counter) : Counter :=
  { c with nChips := c.nChips + 1, coresFree := c.coresPer, sdramFree := c.sdramPer }

/-- `add_core`, chip_counter.py:56-69, with the total SDRAM of the resources. -/
def Counter.add (c : Counter) (sdram : Int) : Counter :=
  let c := if c.coresFree = 0 ∨ c.sdramFree < sdram then c.open else c
  { c with coresFree := c.coresFree - 1, sdramFree := c.sdramFree - sdram }

/-- Calls of `add_core` in turn (not code: how the class is used). -/
def Counter.addAll (c : Counter) (l : List Int) : Counter := l.foldl Counter.add c

end Pacman.Counter
