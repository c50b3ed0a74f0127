import Verif.Model.Base
/-
Model of `model/resources/multi_region_sdram.py`: objects with regions, on a heap, so that regions may hold other
objects and several objects may hold the same one.

Costs other than `MultiRegionSDRAM` are a fixed amount, an amount per timestep, and a set of blocks shared by the
cores of a chip (`ConstantSDRAM`, `VariableSDRAM` and `SharedSDRAM`, see `Model/Sdram.lean` for their sums). Simplified:
a key of a shared block stands for the same block everywhere, as the documentation of `SharedSDRAM` requires
(shared_sdram.py:52-54), so that sums never raise; where it does not, see C49. Blocks are all on one level, the cost of each core has none.
-/

namespace Pacman.Regions

/-- A `ConstantSDRAM` (constant_sdram.py:31-36; nothing per timestep, nothing shared), `VariableSDRAM`
(variable_sdram.py:43-54; nothing shared) or `SharedSDRAM` (shared_sdram.py:45-65): the costs of each core, and the
keys of the shared blocks, key number i being there if bit i is set. -/
structure Amount where
  fixed : Int
  per : Rat
  shared : Nat := 0
  deriving DecidableEq, Repr

/-- The sum of two, constant_sdram.py:57-63, variable_sdram.py:90-100, shared_sdram.py:99-114: the costs of each core
add up, shared blocks are those of both. -/
def Amount.add (a b : Amount) : Amount := ⟨a.fixed + b.fixed, a.per + b.per, a.shared ||| b.shared⟩

/-- `ConstantSDRAM(0)`. -/
def Amount.zero : Amount := ⟨0, 0, 0⟩

/-- A cost: a `ConstantSDRAM`, `VariableSDRAM` or `SharedSDRAM`, or a reference to a `MultiRegionSDRAM`. -/
inductive Val where
  | plain (a : Amount)
  | ref (i : Nat)
  deriving DecidableEq, Repr

/-- The fields of a `MultiRegionSDRAM`, multi_region_sdram.py:48-57. -/
structure Obj where
  regions : Dict String Val
  total : Amount
  deriving DecidableEq, Repr

/-- All `MultiRegionSDRAM` objects there are or will be. -/
abbrev Heap := Nat → Obj

/-- The constructor, multi_region_sdram.py:55-57: what an object is before any call. -/
def Obj.new : Obj := ⟨[], .zero⟩

/-- Objects not called yet. -/
def Heap.new : Heap := fun _ => .new

/-- Assignment to the fields of an object. -/
def Heap.put (h : Heap) (i : Nat) (o : Obj) : Heap := fun j => if j = i then o else h j

/-- A cost as an operand of `+`: that of a `MultiRegionSDRAM` is its total, multi_region_sdram.py:153-160. -/
def amount (h : Heap) : Val → Amount
  | .plain a => a
  | .ref i => (h i).total

/-- `self._total += other`, multi_region_sdram.py:99 and 123. -/
def addTotal (h : Heap) (self : Nat) (other : Val) : Heap :=
  h.put self { h self with total := (h self).total.add (amount h other) }

/-- `self.__regions[region] = v`. -/
def setRegion (h : Heap) (self : Nat) (region : String) (v : Val) : Heap :=
  h.put self { h self with regions := (h self).regions.set region v }

/-- The loop of `merge`, multi_region_sdram.py:124-128. Simplified: it follows the regions `other` had at its
start, which is the same, also if `other` is `self`, as each round changes the region of that round only. -/
def mergeLoop (h : Heap) (self : Nat) : List (String × Val) → Heap
  | [] => h
  | (region, v) :: l =>
    match (h self).regions.get? region with
    | some r => mergeLoop (setRegion h self region (.plain ((amount h r).add (amount h v)))) self l
    | none => mergeLoop (setRegion h self region v) self l

/-- `merge`, multi_region_sdram.py:113-128. -/
def merge (h : Heap) (self other : Nat) : Heap :=
  let h1 := addTotal h self (.ref other)
  mergeLoop h1 self (h1 other).regions

/-- `nest` with a cost that is not a `MultiRegionSDRAM`, multi_region_sdram.py:85-111. -/
def nestPlain (h : Heap) (self : Nat) (region : String) (a : Amount) : Heap :=
  let h1 := addTotal h self (.plain a)
  match (h1 self).regions.get? region with
  | some r => setRegion h1 self region (.plain ((amount h1 r).add a))
  | none => setRegion h1 self region (.plain a)

/-- `nest` with a `MultiRegionSDRAM`, multi_region_sdram.py:85-111. -/
def nestMulti (h : Heap) (self : Nat) (region : String) (other : Nat) : Heap :=
  let h1 := addTotal h self (.ref other)
  match (h1 self).regions.get? region with
  | some (.ref i) => merge h1 i other
  | some (.plain a) => setRegion (nestPlain h1 other region a) self region (.ref other)
  | none => setRegion h1 self region (.ref other)

/-- `add_cost`, multi_region_sdram.py:66-83. -/
def addCost (h : Heap) (self : Nat) (region : String) (fixed per : Rat) : Heap :=
  if per ≠ 0 then nestPlain h self region ⟨fixed.ceil, (per.ceil : Rat), 0⟩
  else nestPlain h self region ⟨fixed.ceil, 0, 0⟩

/-- The shared blocks of a set of keys, each once, `bytes i` being what block i needs: the loop of
`SharedSDRAM.get_total_sdram`, shared_sdram.py:70-71. Simplified: in the order of the numbers of the keys. -/
def blockBytes (bytes : Nat → Int) (keys : Nat) : Int :=
  (((List.range (keys.log2 + 1)).filter keys.testBit).map bytes).sum

/-- `get_total_sdram` of a cost for `n` timesteps, constant_sdram.py:39-40, variable_sdram.py:57-64,
shared_sdram.py:68-72; that of a `MultiRegionSDRAM` is that of its total, multi_region_sdram.py:139-146. -/
def totalBytes (bytes : Nat → Int) (n : Nat) (a : Amount) : Int :=
  ((a.fixed : Rat) + a.per * (n : Rat)).ceil + blockBytes bytes a.shared

/-- A call. -/
inductive Op where
  | addCost (self : Nat) (region : String) (fixed per : Rat)
  | nestPlain (self : Nat) (region : String) (a : Amount)
  | nest (self : Nat) (region : String) (other : Nat)
  | merge (self other : Nat)

/-- The objects after a call. -/
def step (h : Heap) : Op → Heap
  | .addCost i r f p => addCost h i r f p
  | .nestPlain i r a => nestPlain h i r a
  | .nest i r o => nestMulti h i r o
  | .merge i o => merge h i o

/-- The objects after some calls. -/
def run : Heap → List Op → Heap
  | h, [] => h
  | h, o :: os => run (step h o) os

end Pacman.Regions
