import Verif.Spec.Trips
/-
Which targets ask for a source as a whole, and which for single machine vertices of it.
-/

namespace Pacman.Router

open RPath (XY)

/-- A target on chip `c` asks for the packets of `a` with this identifier as a whole. -/
def AsksWhole (N : Net) (a ident : Nat) (c : XY) : Prop :=
  ∃ p ∈ N.parts, p.pre = a ∧ p.ident = ident ∧ ∃ d ∈ p.edges, d ≠ a ∧ ∃ v ∈ N.incoming d a ident,
    (N.base.locate v.1).1 = c ∧ .app a ∈ v.2

/-- A target on chip `c` asks for the packets of single machine vertices of `a`, or `a` sends to
itself there. -/
def AsksParts (N : Net) (a ident : Nat) (c : XY) : Prop :=
  (∃ p ∈ N.parts, p.pre = a ∧ p.ident = ident ∧ ∃ d ∈ p.edges, ∃ v ∈ N.incoming d a ident,
    (N.base.locate v.1).1 = c ∧ (d = a ∨ ∃ m, .mach m ∈ v.2)) ∨
  (∃ is, N.internals a = some is ∧ ∃ i ∈ is, i.1 = ident ∧ ∃ t ∈ i.2.2, (N.base.locate t).1 = c)

/-- On a chip where nothing sends them, the targets ask for the packets of an application vertex all as
a whole, or all by machine vertices. -/
def Even (N : Net) : Prop :=
  ∀ a ident c, Leaves N a ident → (∀ m, NetSends N a ident m → (N.base.locate m).1 ≠ c) →
    AsksWhole N a ident c → ¬ AsksParts N a ident c

/-- The sources of partitions are vertices of the graph. -/
def Listed (N : Net) : Prop := ∀ p ∈ N.parts, p.pre ∈ N.verts

end Pacman.Router
