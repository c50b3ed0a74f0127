import Verif.Spec.PlacerSpread
/-
What is left on the chips beside what is already there.
-/

namespace Pacman.Placer

open Plc (Placement)

/-- What is on the chips leaves at most `k` cores free on each. If each of these takes a machine vertex of at most `b` bytes then the
SDRAM of the chip suffices, and without one of them the chip is not taken to be full. -/
structure Leaves (M : Machine) (k b : Nat) (l : List Placement) : Prop where
  cores : ∀ c, M.has c = true → freeOn M l c ≤ k
  cap : ∀ c, Spare M l c → ((load M l c + (freeOn M l c - 1) * b : Nat) : Int) ≤ M.maxSdram - Int.fdiv M.maxSdram M.maxCores
  sdram : ∀ c, Spare M l c → load M l c + freeOn M l c * b ≤ M.sdram c

/-- How many of the `k` cores of the chips are not free. -/
def taken (M : Machine) (k : Nat) (l : List Placement) : Nat := (M.chips.map (fun c => k - freeOn M l c)).sum

end Pacman.Placer
