import Verif.Spec.SplitterNet
import Verif.Spec.RouterSucceeds
import Verif.Spec.RouterWhole
/-
When the keys that a graph asks for fit into 32 bits, and when ways are found on a machine.
-/

namespace Pacman.Split

open Router (AppPart Ctx Connected Mutual NoReturns)
open RPath (Intact ShortVector)
open Pipe (Keys Alone)

/-- The vertices that send for the source of a pair. -/
def Sends (E : Env) (W : World) (x : Nat × Nat) (ms : List Nat) : Prop :=
  ∃ t, (W.app x.1).splitter = some t ∧ outVerts E W t = .ok ms

/-- The pairs that get keys. -/
abbrev pairs (parts : List AppPart) (K : Keys) : List (Nat × Nat) := parts.map (fun p => (p.pre, p.ident)) ++ K.extra

/-- The keys asked for fit, and so do the fixed ones. -/
structure KeysFit (E : Env) (W : World) (parts : List AppPart) (K : Keys) : Prop where
  /-- Keys have no bits outside of their masks. -/
  valid : ∀ a ident km, K.fixed a ident = some km → km.1 &&& km.2 = km.1
  validM : ∀ m ident km, K.machFixed m ident = some km → km.1 &&& km.2 = km.1
  /-- The splitter of each vertex for which more keys are asked says which vertices send. -/
  asked : ∀ x ∈ K.extra, ∃ ms, Sends E W x ms
  /-- Where no key is fixed for the application vertex, none is for its machine vertices, -/
  freeM : ∀ x ∈ pairs parts K, K.fixed x.1 x.2 = none → ∀ ms, Sends E W x ms → ∀ m ∈ ms, K.machFixed m x.2 = none
  /-- and several vertices do not all ask for no keys (C17). -/
  counted : ∀ x ∈ pairs parts K, K.fixed x.1 x.2 = none → ∀ ms, Sends E W x ms → (∀ m ∈ ms, K.nKeys m x.2 = 0) → ms.length ≤ 1
  /-- Where one is, some machine vertices send; if several, their keys are fixed too, with holes in the masks or in line; fixed
  keys of machine vertices are among those of the application vertex, -/
  single : ∀ x ∈ pairs parts K, ∀ akm, K.fixed x.1 x.2 = some akm → ∀ ms, Sends E W x ms → ms ≠ [] ∧ Alone K x.1 x.2 ms ∧
    ∀ m ∈ ms, ∀ km, K.machFixed m x.2 = some km → km.1 &&& akm.2 = akm.1 ∧ km.2 &&& akm.2 = akm.2
  /-- and no two share a key. -/
  apart : ∀ x ∈ pairs parts K, ∀ y ∈ pairs parts K, x ≠ y → ∀ a b, K.fixed x.1 x.2 = some a → K.fixed y.1 y.2 = some b →
    ∀ k : Word, ¬ (k &&& a.2 = a.1 ∧ k &&& b.2 = b.1)
  /-- There are enough blocks of `2 ^ w` keys for all pairs besides the blocks `L`, in which the fixed keys are; with `i` bits the
  vertices that send for a pair are told apart, with `j` bits the keys of each of them. -/
  room : ∃ (w : Nat) (L : List Nat), w ≤ 32 ∧ parts.length + K.extra.length + L.length ≤ 2 ^ (32 - w) ∧
    (∀ x ∈ pairs parts K, ∀ km, K.fixed x.1 x.2 = some km → ∀ k : Word, k &&& km.2 = km.1 → k.toNat / 2 ^ w ∈ L) ∧
    ∀ x ∈ pairs parts K, K.fixed x.1 x.2 = none → ∀ ms, Sends E W x ms →
      ∃ i j, i + j ≤ w ∧ ms.length ≤ 2 ^ i ∧ ∀ m ∈ ms, K.nKeys m x.2 ≤ 2 ^ j

/-- The blocks keep clear of fixed keys (C18): the flexible mode; no fixed keys at all; or some pair without a fixed key needs as
large a block for each vertex, and as many of them, as any such pair. -/
def KeysClear (flexible : Bool) (E : Env) (W : World) (parts : List AppPart) (K : Keys) : Prop :=
  flexible = true ∨ (∀ x ∈ pairs parts K, K.fixed x.1 x.2 = none) ∨
  ∃ x ∈ pairs parts K, K.fixed x.1 x.2 = none ∧ ∃ ms, Sends E W x ms ∧
    ∀ y ∈ pairs parts K, K.fixed y.1 y.2 = none → ∀ ms', Sends E W y ms' →
      (∀ e : Nat, (∀ m ∈ ms, K.nKeys m x.2 ≤ 2 ^ e) → ∀ m ∈ ms', K.nKeys m y.2 ≤ 2 ^ e) ∧
      ∀ e : Nat, ms.length ≤ 2 ^ e → ms'.length ≤ 2 ^ e

/-- Ways are found on the machine: it has no faults and vectors are shortest; or, with faults, all its chips can be reached from
each other, over links that work both ways, and no repaired way returns to a chip of a removed loop (C68). -/
inductive Passable (C : Ctx) : Prop
  | whole : Intact C.T → (∀ a b, a ∈ C.T.chips → b ∈ C.T.chips → ShortVector C.T a b (C.vector a b)) → Passable C
  | faulty : Connected C.T → Mutual C.T → NoReturns C → Passable C

end Pacman.Split
