import Verif.Spec.Placer
/-
Where a vertex that is spread over several chips can go.
-/

namespace Pacman.Placer

open Plc (Placement Store)

/-- The number of cores of a chip that are free. -/
def freeOn (M : Machine) (l : List Placement) (c : XY) : Nat := (M.cores c).length - (at_ l c).length

/-- A chip with a free core. -/
def Spare (M : Machine) (l : List Placement) (c : XY) : Prop := M.has c = true ∧ 0 < freeOn M l c

/-- `n` cores are free on chips that can be reached from one another: from one chip there is a way to each of them that only
goes over chips with free cores. -/
def Linked (M : Machine) (l : List Placement) (n : Nat) : Prop :=
  ∃ (s : XY) (cs : List XY), cs.Nodup ∧ (∀ c ∈ cs, Way M (Spare M l) s c) ∧ n ≤ (cs.map (freeOn M l)).sum

/-- SDRAM is not what limits the placement of a vertex whose groups cost `xs`: on a chip with free cores no more than the cap is
used, and for each of the free cores there is room for any of the groups. -/
def Ample (M : Machine) (l : List Placement) (xs : List Nat) : Prop :=
  ∀ c, Spare M l c → (load M l c : Int) ≤ M.maxSdram - Int.fdiv M.maxSdram M.maxCores ∧
    ∀ ys : List Nat, (∀ y ∈ ys, y ∈ xs) → ys.length ≤ freeOn M l c → M.costs.total (needs M l c ++ ys) ≤ M.sdram c

/-- However `t` cores are taken on a machine whose chips have `k` cores, `n` cores are left on chips that can be reached from one
another over chips with free cores. -/
def Finds (M : Machine) (k t n : Nat) : Prop :=
  ∀ u : XY → Nat, (M.chips.map u).sum ≤ t → ∃ (s : XY) (cs : List XY), cs.Nodup ∧
    (∀ c ∈ cs, Way M (fun d => M.has d = true ∧ u d < k) s c) ∧ n ≤ (cs.map (fun c => k - u c)).sum

/-- Vertices with these numbers of machine vertices find their cores one after the other, once `t` cores are taken. -/
def AllFind (M : Machine) (k : Nat) : Nat → List Nat → Prop
  | _, [] => True
  | t, n :: ns => Finds M k t n ∧ AllFind M k (t + n) ns

end Pacman.Placer
