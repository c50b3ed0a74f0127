import Verif.Model.Sdram
/-
Specification for SDRAM costs.
-/

namespace Pacman.Sdram

/-- The dictionaries have each key once. -/
inductive WF : Cost → Prop
  | const (n : Int) : WF (.const n)
  | var (f : Int) (p : Rat) : WF (.var f p)
  | shared (sh : List (String × Cost)) (pc : Cost) : WF pc → (sh.map (·.1)).Nodup → (∀ q ∈ sh, WF q.2) →
      WF (.shared sh pc)
  | multi (c : Cost) : WF c → WF (.multi c)

/-- No shared block inside. -/
def Plain : Cost → Prop
  | .const _ => True
  | .var _ _ => True
  | .shared _ _ => False
  | .multi c => Plain c

/-- Fixed cost and cost per timestep without shared blocks. -/
def own : Cost → Int × Rat
  | .const n => (n, 0)
  | .var f p => (f, p)
  | .shared _ pc => own pc
  | .multi c => own c

/-- A block of the cost per core: one level deeper. -/
def deeper (q : (Nat × String) × Cost) : (Nat × String) × Cost := ((q.1.1 + 1, q.1.2), q.2)

/-- The shared blocks, by level and key: the cost per core of a shared cost may itself have shared blocks, which are
one level deeper. -/
def blocks : Cost → List ((Nat × String) × Cost)
  | .const _ => []
  | .var _ _ => []
  | .shared sh pc => sh.map (fun q => ((0, q.1), q.2)) ++ (blocks pc).map deeper
  | .multi c => blocks c

/-- The sum of two totals; it fails if one of them does. -/
def addE : Except PyErr Int → Except PyErr Int → Except PyErr Int
  | .ok a, .ok b => .ok (a + b)
  | _, _ => .error .configuration

/-- The sum of totals; it fails if one of them does. -/
def sumE : List (Except PyErr Int) → Except PyErr Int
  | [] => .ok 0
  | x :: l => addE x (sumE l)

/-- The sum of fractions. -/
def sumQ : List Rat → Rat
  | [] => 0
  | a :: l => a + sumQ l

/-- Costs that use the same key on the same level have equal blocks under it, as the documentation of `SharedSDRAM` requires. -/
def Agree (l : List Cost) : Prop :=
  ∀ a ∈ l, ∀ b ∈ l, ∀ k v w, (k, v) ∈ blocks a → (k, w) ∈ blocks b → eq v w = true

/-- One block for each level and key of the costs. -/
structure OnePerKey (l : List Cost) (bs : List ((Nat × String) × Cost)) : Prop where
  nodup : (bs.map (·.1)).Nodup
  mem : ∀ q ∈ bs, ∃ a ∈ l, q ∈ blocks a
  all : ∀ a ∈ l, ∀ q ∈ blocks a, q.1 ∈ bs.map (·.1)

end Pacman.Sdram
