import Verif.Spec.RouterGraph
/-
When the routing of a partition can succeed.
-/

namespace Pacman.Router

open Alloc (VId)
open RPath (XY Topo Walk WalkIn)

/-- Links belong to chips, and every chip can be reached from every other over working links. -/
structure Connected (T : Topo) : Prop where
  owned : ∀ c l, T.linkAt c l = true → c ∈ T.chips
  reach : ∀ a b, a ∈ T.chips → b ∈ T.chips → ∃ ns, Walk T a ns b

/-- Each of the chips can be reached from each other one over working links without leaving them. -/
def Together (T : Topo) (on : XY → Prop) : Prop := ∀ a b, on a → on b → WalkIn T on a b

/-- `RoutingEntry.merge` raises nothing. -/
def Merges (C : Ctx) : Prop := ∀ a b, ∃ c, C.merge a b = .ok c

/-- There is no entry of the source of the partition or of any of its machine vertices. -/
def Untouched (C : Ctx) (P : Partition) (S : ByPart.State) : Prop :=
  ∀ v, (v = .app P.source ∨ ∃ m, v = .mach m ∧ C.appOf m = some P.source) →
    ∀ c : XY, ByPart.entryOn S v P.ident c.1 c.2 = none

/-- What the placement and the splitters have to give for a partition:
* the source has a splitter;
* the chips of the source are together, and so are the chips that an edge to another vertex names, of
  which there is at least one;
* edges from the source to itself and internal partitions lead to machine vertices of the source;
* if any vertex sends then there is a target. -/
structure Routable (C : Ctx) (P : Partition) : Prop where
  splitter : (C.outgoing P.source).isSome = true
  sources : Together C.T (fun c => ∃ m ∈ C.machines P.source, (C.locate m).1 = c)
  named : ∀ e ∈ P.edges, e.1 ≠ P.source → e.2 ≠ []
  targets : ∀ e ∈ P.edges, e.1 ≠ P.source → Together C.T (fun c => ∃ v ∈ e.2, (C.locate v.1).1 = c)
  itself : ∀ e ∈ P.edges, e.1 = P.source → ∀ v ∈ e.2, C.appOf v.1 = some P.source
  inside : ∀ p ∈ P.internal, ∀ t ∈ p.2, C.appOf t = some P.source
  asked : (∃ m, Sends C P m) → ∃ t, Asked P t

/-- What the placement and the splitters have to give for a graph; see `Routable`. -/
structure NetRoutable (N : Net) : Prop where
  splitters : ∀ v ∈ N.verts, (N.internals v).isSome = true
  pres : ∀ p ∈ N.parts, (N.internals p.pre).isSome = true
  sends : ∀ a ident, Leaves N a ident → (N.outgoing ident a).isSome = true
  sources : ∀ a ident, Leaves N a ident →
    Together N.base.T (fun c => ∃ m ∈ N.base.machines a, (N.base.locate m).1 = c)
  named : ∀ p ∈ N.parts, ∀ d ∈ p.edges, d ≠ p.pre → N.incoming d p.pre p.ident ≠ []
  targets : ∀ p ∈ N.parts, ∀ d ∈ p.edges, d ≠ p.pre →
    Together N.base.T (fun c => ∃ v ∈ N.incoming d p.pre p.ident, (N.base.locate v.1).1 = c)
  itself : ∀ p ∈ N.parts, p.pre ∈ p.edges → ∀ v ∈ N.incoming p.pre p.pre p.ident,
    N.base.appOf v.1 = some p.pre
  inside : ∀ a is, N.internals a = some is → ∀ i ∈ is, ∀ t ∈ i.2.2, N.base.appOf t = some a
  asked : ∀ a ident, Leaves N a ident → (∃ m, NetSends N a ident m) → ∃ t, NetAsked N a ident t

/-- Where a link works, so does one back. -/
def Mutual (T : Topo) : Prop := ∀ c l, c ∈ T.chips → l < 6 → T.linkAt c l = true → T.over c l ∈ T.chips →
  ∃ l', l' < 6 ∧ T.linkAt (T.over c l) l' = true ∧ T.over (T.over c l) l' = c

end Pacman.Router
