import Verif.Model.MultiRegion
/-
What users expect of the totals of regions.
-/

namespace Pacman.Regions

/-- The costs of all regions added up. -/
def sumRegions (h : Heap) : List (String × Val) → Amount
  | [] => .zero
  | q :: l => (amount h q.2).add (sumRegions h l)

/-- The total is that of the regions. -/
def Adds (h : Heap) (i : Nat) : Prop := (h i).total = sumRegions h (h i).regions

/-- The bytes that the regions say they need, added up. -/
def regionBytes (bytes : Nat → Int) (n : Nat) (h : Heap) (l : List (String × Val)) : Int :=
  (l.map fun q => totalBytes bytes n (amount h q.2)).sum

/-- No shared block is in two of the regions. -/
def Apart (h : Heap) (l : List (String × Val)) : Prop :=
  l.Pairwise fun q q' => ∀ i, ¬ ((amount h q.2).shared.testBit i = true ∧ (amount h q'.2).shared.testBit i = true)

/-- Costs per timestep are whole numbers, as all are that come from `add_cost`. -/
def Whole (a : Amount) : Prop := ∃ z : Int, a.per = z

/-- What has been given to the objects: each call adds its cost to that of its object; a whole object adds what it
has been given. -/
def given : (Nat → Amount) → List Op → Nat → Amount
  | g, [] => g
  | g, .addCost i _ f p :: os => given (fun j => if j = i then (g i).add ⟨f.ceil, (p.ceil : Rat), 0⟩ else g j) os
  | g, .nestPlain i _ a :: os => given (fun j => if j = i then (g i).add a else g j) os
  | g, .nest i _ o :: os => given (fun j => if j = i then (g i).add (g o) else g j) os
  | g, .merge i o :: os => given (fun j => if j = i then (g i).add (g o) else g j) os

/-- Objects that have been passed to another one. -/
def passed : List Op → List Nat
  | [] => []
  | .addCost .. :: os => passed os
  | .nestPlain .. :: os => passed os
  | .nest _ _ o :: os => o :: passed os
  | .merge _ o :: os => o :: passed os

/-- The object called, and that passed. -/
def Op.self : Op → Nat
  | .addCost i .. => i
  | .nestPlain i .. => i
  | .nest i .. => i
  | .merge i _ => i

def Op.other : Op → Option Nat
  | .addCost .. => none
  | .nestPlain .. => none
  | .nest _ _ o => some o
  | .merge _ o => some o

/-- An object that is passed to another one is not used again by itself; `gone` have been passed already. -/
def Once : List Nat → List Op → Prop
  | _, [] => True
  | gone, o :: os => o.self ∉ gone ∧ (∀ j ∈ o.other, j ∉ gone ∧ j ≠ o.self) ∧ Once (o.other.toList ++ gone) os

/-- Objects reached from an object by regions. -/
inductive Within (h : Heap) (i : Nat) : Nat → Prop
  | self : Within h i i
  | region {j k : Nat} {r : String} (hj : Within h i j) (hr : (r, .ref k) ∈ (h j).regions) : Within h i k

end Pacman.Regions
