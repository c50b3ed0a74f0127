import Verif.Model.Placer
/-
What a user of the placer relies on, in terms of the placements, the machine and the groups.
-/

namespace Pacman.Placer

open Plc (Placement Store)

/-- The placements on a chip. -/
def at_ (l : List Placement) (c : XY) : List Placement :=
  l.filter (fun a => decide ((a.x, a.y) = c))

/-- The costs of the vertices on a chip. -/
def needs (M : Machine) (l : List Placement) (c : XY) : List Nat := (at_ l c).map (fun a => M.need a.vertex)

/-- The SDRAM that the vertices on a chip need together. -/
def load (M : Machine) (l : List Placement) (c : XY) : Nat := M.costs.total (needs M l c)

/-- A vertex has been placed on a chip. -/
def On (l : List Placement) (v : Nat) (c : XY) : Prop := ∃ a ∈ l, a.vertex = v ∧ (a.x, a.y) = c

/-- The first costs, whatever else is on the chip, amount to no more than the second. -/
def Costs.Le (C : Costs) (xs ys : List Nat) : Prop := ∀ zs, C.total (xs ++ zs) ≤ C.total (ys ++ zs)

/-- Each group asks for at least the SDRAM of its vertices. -/
def Covered (M : Machine) (gs : List (List Nat × Nat)) : Prop := ∀ g ∈ gs, M.costs.Le (g.1.map M.need) [g.2]

/-- A way over links from one chip to another, that only goes over chips of which `U` holds. -/
inductive Way (M : Machine) (U : XY → Prop) (s : XY) : XY → Prop
  | here : U s → Way M U s s
  | step {c d : XY} : Way M U s c → d ∈ M.links c → U d → Way M U s d

/-- The machine and the placements fit each other: links lead to chips, processors are offered once, all
placements are on processors that are offered. -/
structure Sane (M : Machine) (l : List Placement) : Prop where
  links : ∀ c, M.has c = true → ∀ d ∈ M.links c, M.has d = true
  cores : ∀ c, (M.cores c).Nodup
  offered : ∀ a ∈ l, a.p ∈ M.cores (a.x, a.y)

/-- The chips are within the width and height of the machine. -/
def Grid (M : Machine) : Prop := ∀ c, M.has c = true → c.1 < M.width ∧ c.2 < M.height

/-- No group mixes virtual vertices with others, or vertices that are in `l` with others. -/
def Uniform (M : Machine) (l : List Placement) (gs : List (List Nat × Nat)) : Prop :=
  ∀ g ∈ gs, ((∀ v ∈ g.1, M.virtual v = true) ∨ (∀ v ∈ g.1, M.virtual v = false)) ∧
    ((∀ v ∈ g.1, v ∈ l.map (·.vertex)) ∨ (∀ v ∈ g.1, v ∉ l.map (·.vertex)))

end Pacman.Placer
