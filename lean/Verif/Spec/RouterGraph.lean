import Verif.Spec.Router
import Verif.Model.RouterGraph
/-
What has to be routed for a whole graph.
-/

namespace Pacman.Router

open Alloc (VId)
open RPath (XY)

/-- Packets with this identifier leave application vertex `a`: there is a partition of the graph, or an
internal one. -/
def Leaves (N : Net) (a ident : Nat) : Prop :=
  (∃ p ∈ N.parts, p.pre = a ∧ p.ident = ident) ∨
  (a ∈ N.verts ∧ ∃ is, N.internals a = some is ∧ ∃ i ∈ is, i.1 = ident)

/-- Machine vertex `m` of `a` sends packets with this identifier. -/
def NetSends (N : Net) (a ident m : Nat) : Prop :=
  (∃ ms, N.outgoing ident a = some ms ∧ m ∈ ms) ∨
  (∃ is, N.internals a = some is ∧ ∃ i ∈ is, i.1 = ident ∧ i.2.1 = m)

/-- `t` is a target of the packets of `a` with this identifier. -/
def NetAsked (N : Net) (a ident t : Nat) : Prop :=
  (∃ p ∈ N.parts, p.pre = a ∧ p.ident = ident ∧ ∃ d ∈ p.edges, ∃ v ∈ N.incoming d a ident, v.1 = t) ∨
  (∃ is, N.internals a = some is ∧ ∃ i ∈ is, i.1 = ident ∧ t ∈ i.2.2)

/-- Packets of machine vertex `m` of `a` with this identifier should get to `t`: an edge of the graph
leads to a vertex whose splitter names `t` with `m`, or with the application vertex sending with `m`;
or an internal partition leads from `m` to `t`. -/
def NetWants (N : Net) (a ident m t : Nat) : Prop :=
  (∃ p ∈ N.parts, p.pre = a ∧ p.ident = ident ∧ ∃ d ∈ p.edges, ∃ v ∈ N.incoming d a ident, v.1 = t ∧
    ∃ s ∈ v.2, s = .mach m ∨ (s = .app a ∧ ∃ ms, N.outgoing ident a = some ms ∧ m ∈ ms)) ∨
  (a ∈ N.verts ∧ ∃ is, N.internals a = some is ∧ ∃ i ∈ is, i.1 = ident ∧ i.2.1 = m ∧ t ∈ i.2.2)

/-- What is taken for granted of the machine, the graph and the splitters; see `Contract`. -/
structure NetContract (N : Net) : Prop where
  merges : ∀ a b c, N.base.merge a b = .ok c → c.route = a.route ||| b.route
  owns : ∀ a m, m ∈ N.base.machines a ↔ N.base.appOf m = some a
  sends : ∀ ident a l m, N.outgoing ident a = some l → m ∈ l → N.base.appOf m = some a
  within : ∀ a is, N.internals a = some is → ∀ i ∈ is, N.base.appOf i.2.1 = some a
  iter : ∀ l, (N.base.iter l).Perm l
  placed : ∀ m, (N.base.locate m).1 ∈ N.base.T.chips
  vector : ∀ a b, a ∈ N.base.T.chips → b ∈ N.base.T.chips →
    RPath.Chain N.base.T a (RPath.longestFirst N.base.T (N.base.vector a b).1 (N.base.vector a b).2.1
      (N.base.vector a b).2.2 a) b
  sources : ∀ p ∈ N.parts, ∀ d ∈ p.edges, ∀ v ∈ N.incoming d p.pre p.ident, ∀ s ∈ v.2, s = .app p.pre ∨
    ∃ l m, N.outgoing p.ident p.pre = some l ∧ m ∈ l ∧ s = .mach m
  /-- An application graph has one partition for each vertex and identifier (C62). -/
  distinct : (N.parts.map (fun p => (p.pre, p.ident))).Nodup

/-- Every chip of a source has a vertex that sends. -/
def NetAllSend (N : Net) : Prop :=
  ∀ a ident, Leaves N a ident → ∀ m ∈ N.base.machines a, ∃ k, NetSends N a ident k ∧
    (N.base.locate k).1 = (N.base.locate m).1

/-- The links of targets are not links of the machine. -/
def NetOutside (N : Net) : Prop :=
  ∀ a ident t l, NetAsked N a ident t → (N.base.locate t).2.2 = some l →
    N.base.T.linkAt (N.base.locate t).1 l = false

end Pacman.Router
