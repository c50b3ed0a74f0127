import Verif.Spec.Routing
import Verif.Spec.RouterGraph
import Verif.Model.Validation
/-
What packets do on a machine whose routers hold given tables, with default routing.
-/

namespace Pacman.Valid

open Alloc (VId)
open RPath (XY)

/-- The entries of the router of a chip; a router without a table has none. -/
def Scene.entries (V : Scene) (c : XY) : List Entry := (V.tables.get? c).getD []

/-- A packet with key `k` that leaves a core of `src` gets to a chip by these links, the last one first:
over each link of the route of the first entry that matches the key, or, where no entry matches,
straight on over the link by which it came. -/
inductive Way (V : Scene) (k : Word) (src : XY) : List Nat → XY → Prop
  | start : Way V k src [] src
  | hop {w : List Nat} {c d : XY} {e : Entry} {l : Nat} : Way V k src w c →
      lookup (V.entries c) k = some e → l < 6 → e.route.testBit l = true → V.link c l = some d →
      Way V k src (l :: w) d
  | straight {w : List Nat} {c d : XY} {l : Nat} : Way V k src (l :: w) c →
      lookup (V.entries c) k = none → V.link c l = some d → Way V k src (l :: l :: w) d

/-- The packet gets to core `p` of chip `c`. -/
def Reaches (V : Scene) (k : Word) (src c : XY) (p : Nat) : Prop :=
  ∃ w e, Way V k src w c ∧ lookup (V.entries c) k = some e ∧ e.route.testBit (6 + p) = true

/-- Links take the packet only to chips with a table. -/
def Within (V : Scene) (k : Word) (src : XY) : Prop :=
  ∀ l w c, Way V k src (l :: w) c → (V.tables.get? c).isSome = true

/-- A block of keys: all that agree with the key on all but the last bits. -/
def BlockMask (m : Word) : Prop := ∃ p, p ≤ 32 ∧ m.toNat = 2 ^ 32 - 2 ^ p

/-- Every entry whose keys are not a block treats both keys alike. -/
def Alike (V : Scene) (k k' : Word) : Prop :=
  ∀ c, ∀ e ∈ V.entries c, ¬ BlockMask e.mask → (e.Matches k ↔ e.Matches k')

/-- Every entry of the chip whose keys are a block matches all of the `n` keys from `key` on, or none of
the `n + 1` keys from `key` on. -/
def Clear (V : Scene) (key : Word) (n : Nat) (c : XY) : Prop :=
  ∀ e ∈ V.entries c, BlockMask e.mask →
    (e.Matches key ∧ ∀ i, i < n → e.Matches (key + BitVec.ofNat 32 i)) ∨
    ∀ k : Word, key.toNat ≤ k.toNat → k.toNat ≤ key.toNat + n → ¬ e.Matches k

/-- Packets of machine vertex `m` with this identifier should get to `t`: an edge of the graph leads from
`a` to a vertex whose splitter names `t` with `m`, or with an application vertex that sends with `m`;
or an internal partition leads from `m` to `t`. -/
def Wants (W : World) (a ident m t : Nat) : Prop :=
  (∃ p ∈ W.net.parts, p.pre = a ∧ p.ident = ident ∧ ∃ d ∈ p.edges,
    ∃ v ∈ W.net.incoming d a ident, v.1 = t ∧
    ∃ s ∈ v.2, s = .mach m ∨ ∃ b ms, s = .app b ∧ W.net.outgoing ident b = some ms ∧ m ∈ ms) ∨
  (∃ is, W.net.internals a = some is ∧ ∃ i ∈ is, i.1 = ident ∧ i.2.1 = m ∧ t ∈ i.2.2)

end Pacman.Valid
