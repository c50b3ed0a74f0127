import Verif.Spec.MappingGraph
/-
What is asked of graphs with devices, and with vertices of one machine vertex each, for the whole of the mapping to succeed.
-/

namespace Pacman.Split

/-- From how many machine vertices a device sends. -/
def DevKind.senders : DevKind → Nat
  | .fpga k links _ _ => k * links.length
  | .link n _ inc _ _ => if inc then n else 0

/-- Whether packets can be sent to the device. -/
def DevKind.receives : DevKind → Bool
  | .fpga _ _ out _ => out.isSome
  | .link _ _ _ out _ => out

/-- The links of a device. -/
def DevKind.uses : DevKind → List Nat
  | .fpga _ links out _ => links ++ out.toList
  | .link _ id _ _ _ => [id]

/-- The vertex has a `SplitterOneAppOneMachine`, and its machine vertex, which is not one of a device, needs at most the share of a
core of the SDRAM of a chip with `k` cores. -/
structure Lone (E : Env) (W : World) (k : Nat) (bytes : Int) (v : Nat) : Prop where
  splitter : ∃ t, (W.app v).splitter = some t ∧ E.kind t = .oneApp
  share : ∃ m, (E.app v).single = some m ∧ (W.mv m).dev = none ∧ 0 ≤ (W.mv m).sdram ∧ (W.mv m).sdram * k ≤ bytes

/-- The vertex has a `SplitterExternalDevice`, and is no `AbstractOneAppOneMachineVertex`. -/
structure External (E : Env) (W : World) (v : Nat) : Prop where
  splitter : ∃ t, (W.app v).splitter = some t ∧ E.kind t = .external
  many : (E.app v).single = none

/-- How many machine vertices send for a vertex. -/
def sendersFor (E : Env) (W : World) (v : Nat) : Nat :=
  match (W.app v).splitter.map E.kind with
  | some .fixed => coresFor E W v
  | some .external =>
    match (E.app v).device with
    | some d => d.senders
    | none => 0
  | _ => 1

/-- How many cores a vertex needs. -/
def coresOn (E : Env) (W : World) (v : Nat) : Nat :=
  match (W.app v).splitter.map E.kind with
  | some .fixed => coresFor E W v
  | some .external => 0
  | _ => 1

/-- All links of the device are on one chip. -/
def OneChip (E : Env) (links : Nat → RPath.XY × Nat) (v : Nat) : Prop :=
  ∃ d, (E.app v).device = some d ∧ ∃ c, ∀ l ∈ d.uses, (links l).1 = c

/-- The most atoms of a machine vertex that sends for a device. -/
def DevKind.perSender (atoms : Nat) : DevKind → Nat
  | .fpga _ _ _ (some t) => t.sw * t.sh
  | .link _ _ _ _ (some t) => t.sw * t.sh
  | .fpga k _ _ none => atoms / k
  | .link n _ _ _ none => (atoms + n - 1) / n

/-- The most atoms of a machine vertex that sends for a vertex. -/
def mostAtoms (E : Env) (W : World) (v : Nat) : Nat :=
  match (W.app v).splitter.map E.kind with
  | some .fixed => perCore E W v
  | some .external =>
    match (E.app v).device with
    | some d => d.perSender (E.app v).nAtoms
    | none => 0
  | _ =>
    match (E.app v).single with
    | some m => (W.mv m).slice.n
    | none => 0

end Pacman.Split
