import Verif.Spec.MappingSucceeds
import Verif.Spec.Slices
/-
What is asked of a graph, before it is partitioned, for the whole of the mapping to succeed.
-/

namespace Pacman.Split

open Slices (Slice)

/-- The most atoms of a vertex on a core. -/
def perCore (E : Env) (W : World) (v : Nat) : Nat := Slices.prod ((W.app v).maxPer.getD (E.app v).shape)

/-- The fewest cores for the atoms of a vertex. -/
def coresFor (E : Env) (W : World) (v : Nat) : Nat := ((E.app v).nAtoms + perCore E W v - 1) / perCore E W v

/-- The vertex has a `SplitterFixedLegacy`, its numbers of atoms per core fit its shape, at most `a` cores are enough for it, and
whatever part of its atoms is on a core, this needs at most the share of a core of the SDRAM of a chip with `k` cores. -/
structure Plain (E : Env) (W : World) (k a : Nat) (bytes : Int) (v : Nat) : Prop where
  splitter : ∃ t, (W.app v).splitter = some t ∧ E.kind t = .fixed
  many : (E.app v).single = none
  valid : Slices.Vertex.Valid ⟨(E.app v).shape, (W.app v).maxPer⟩
  few : (E.app v).nAtoms ≤ a * perCore E W v
  share : ∀ sl : Slice, sl.n ≤ perCore E W v → 0 ≤ (E.app v).sdramOf sl ∧ (E.app v).sdramOf sl * k ≤ bytes

/-- What is asked of the keys, where application vertices send from `cnt` machine vertices: every machine vertex asks for at least one and at most `2 ^ j`; there are `2 ^ c` blocks of
`2 ^ (i + j)` keys for all pairs besides those in which fixed keys are; keys are fixed for application vertices that send from one only,
not twice, and in the global mode only if a vertex without needs most of everything. -/
structure Modest (fl : Bool) (cnt : Nat → Nat) (vs : List Nat) (parts : List Router.AppPart) (K : Pipe.Keys) (i j c : Nat) :
    Prop where
  valid : ∀ a ident km, K.fixed a ident = some km → km.1 &&& km.2 = km.1
  freeM : ∀ m ident, K.machFixed m ident = none
  asked : ∀ x ∈ K.extra, x.1 ∈ vs
  some_ : ∀ m ident, 1 ≤ K.nKeys m ident
  most : ∀ m ident, K.nKeys m ident ≤ 2 ^ j
  one : ∀ x ∈ pairs parts K, K.fixed x.1 x.2 ≠ none → cnt x.1 = 1
  apart : ∀ x ∈ pairs parts K, ∀ y ∈ pairs parts K, x ≠ y → ∀ a b, K.fixed x.1 x.2 = some a → K.fixed y.1 y.2 = some b →
    ∀ k : Word, ¬ (k &&& a.2 = a.1 ∧ k &&& b.2 = b.1)
  room : ∃ L : List Nat, parts.length + K.extra.length + L.length ≤ 2 ^ c ∧
    ∀ x ∈ pairs parts K, ∀ km, K.fixed x.1 x.2 = some km → ∀ k : Word, k &&& km.2 = km.1 → k.toNat / 2 ^ (i + j) ∈ L
  clear : fl = true ∨ (∀ x ∈ pairs parts K, K.fixed x.1 x.2 = none) ∨
    ∃ x ∈ pairs parts K, K.fixed x.1 x.2 = none ∧ ∀ y ∈ pairs parts K, K.fixed y.1 y.2 = none →
      cnt y.1 ≤ cnt x.1 ∧ ∀ m m', K.nKeys m' y.2 ≤ K.nKeys m x.2

end Pacman.Split
