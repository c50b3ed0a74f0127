import Verif.Spec.RouterTree
import Verif.Spec.Targets
import Verif.Model.Router
/-
Where the packets of a machine vertex go under given routing tables, and where they should go.
-/

namespace Pacman.Router

open Alloc (VId)
open RPath (XY Node Topo Routes)

/-- The entry of `v` on chip `c` has bit `b`. -/
def Bit (S : ByPart.State) (ident : Nat) (v : VId) (c : XY) (b : Nat) : Prop :=
  ∃ e, ByPart.entryOn S v ident c.1 c.2 = some e ∧ e.route.testBit b = true

/-- There is an entry of `v` on chip `c`. -/
def Present (S : ByPart.State) (ident : Nat) (v : VId) (c : XY) : Prop :=
  (ByPart.entryOn S v ident c.1 c.2).isSome = true

/-- The link `b` leads to a child of chip `c`. -/
def ToChild (R : Routes) (c : XY) (b : Nat) : Prop := ∃ d, RPath.Edge R c b d

/-- Bit `b` stands for one of the cores or links. -/
def InLists (L : List Nat × List Nat) (b : Nat) : Prop := b ∈ L.2 ∨ ∃ p ∈ L.1, b = 6 + p

/-- No vertex of `t` is an application vertex, and `v` is a machine vertex that the source `src` sends
with and that is not in `t`. -/
def Uncovered (C : Ctx) (src : VId) (t : Targets.State) (v : VId) : Prop :=
  (∀ a, t.lists (.app a) = none) ∧ t.lists v = none ∧
    ∃ a ms m, src = .app a ∧ C.outgoing a = some ms ∧ m ∈ ms ∧ v = .mach m

/-- `_convert_a_route` is to make an entry for `v` on chip `c`, a chip that the routes lead to: for the
source where nothing is asked for, or where the source itself is to be looked up; for each vertex
something is asked for; and, if everything is to be covered, for each machine vertex not covered. -/
def Writes (C : Ctx) (src : VId) (useSource ensureAll : Bool) (R : Routes) (first : XY)
    (tg : Dict XY Targets.State) (v : VId) (c : XY) : Prop :=
  RPath.Leads R first c ∧
    ((tg.get? c = none ∧ v = src) ∨ ∃ t, tg.get? c = some t ∧
      ((useSource = true ∧ v = src) ∨
       (useSource = false ∧ ((t.lists v).isSome = true ∨ (ensureAll = true ∧ Uncovered C src t v)))))

/-- Bit `b` is to be set in that entry: the links to the children, and the cores and links asked for
`v`. -/
def Names (C : Ctx) (src : VId) (useSource ensureAll : Bool) (R : Routes) (first : XY)
    (tg : Dict XY Targets.State) (v : VId) (c : XY) (b : Nat) : Prop :=
  Writes C src useSource ensureAll R first tg v c ∧
    (ToChild R c b ∨ ∃ t L, tg.get? c = some t ∧ t.lists v = some L ∧ InLists L b)

/-- The packet comes to chip `c` going in the direction of link `l`. -/
def Heads (R : Routes) (first : XY) (inProc inLink : Option Nat) (c : XY) (l : Nat) : Prop :=
  (∃ a, RPath.Leads R first a ∧ RPath.Edge R a l c) ∨
    (c = first ∧ inProc = none ∧ ∃ i, inLink = some i ∧ l = (i + 3) % 6)

/-- Every vertex is once in each `_Targets`, and has lists. -/
def Sound (tg : Dict XY Targets.State) : Prop :=
  ∀ c t, tg.get? c = some t → (t.at_.map (·.1)).Nodup ∧
    ∀ v p, t.at_.get? v = some p → p < t.heap.length

/-- `t` is a target of the partition. -/
def Asked (P : Partition) (t : Nat) : Prop :=
  (∃ e ∈ P.edges, ∃ v ∈ e.2, v.1 = t) ∨ ∃ p ∈ P.internal, t ∈ p.2

/-- Machine vertex `m` sends the packets of the partition. -/
def Sends (C : Ctx) (P : Partition) (m : Nat) : Prop :=
  (∃ ms, C.outgoing P.source = some ms ∧ m ∈ ms) ∨ ∃ p ∈ P.internal, p.1 = m

/-- `v` is the source of the partition or one of the machine vertices that send. -/
def Mine (C : Ctx) (P : Partition) (v : VId) : Prop :=
  v = .app P.source ∨ ∃ m, v = .mach m ∧ Sends C P m

/-- The entry that a router uses for the packets of machine vertex `m`: the one for the vertex, or else
the one for its application vertex. -/
def entryFor (C : Ctx) (S : ByPart.State) (ident m : Nat) (c : XY) : Option ByPart.REntry :=
  match ByPart.entryOn S (.mach m) ident c.1 c.2 with
  | some e => some e
  | none =>
    match C.appOf m with
    | none => none
    | some a => ByPart.entryOn S (.app a) ident c.1 c.2

/-- The packets of `m` come to a chip: its own, and the next one over every working link that an entry
sends them to. -/
inductive Comes (C : Ctx) (S : ByPart.State) (ident m : Nat) : XY → Prop
  | start : Comes C S ident m (C.locate m).1
  | hop {c : XY} {e : ByPart.REntry} {l : Nat} : Comes C S ident m c →
      entryFor C S ident m c = some e → l < 6 → e.route.testBit l = true →
      C.T.linkAt c l = true → Comes C S ident m (C.T.over c l)

/-- The packets of `m` are sent to bit `b` on chip `c`: a link below 6, processor `b - 6` otherwise. -/
def Sent (C : Ctx) (S : ByPart.State) (ident m : Nat) (c : XY) (b : Nat) : Prop :=
  ∃ e, entryFor C S ident m c = some e ∧ e.route.testBit b = true

/-- The packets of `m` come to the chip of `t` and are sent to its core, or its link if `t` is a
device. -/
def Delivered (C : Ctx) (S : ByPart.State) (ident m t : Nat) : Prop :=
  Comes C S ident m (C.locate t).1 ∧
    (∀ p, (C.locate t).2.1 = some p → Sent C S ident m (C.locate t).1 (6 + p)) ∧
    (∀ l, (C.locate t).2.2 = some l → Sent C S ident m (C.locate t).1 l)

/-- The packets of `m` should get to `t`: an edge of the partition leads to a vertex whose splitter
names `t` with `m`, or with the application vertex sending with `m`; or an internal partition leads
from `m` to `t`. -/
def Wants (C : Ctx) (P : Partition) (m t : Nat) : Prop :=
  (∃ e ∈ P.edges, ∃ v ∈ e.2, v.1 = t ∧ ∃ s ∈ v.2, Targets.Covers C.env s m) ∨
  (∃ p ∈ P.internal, p.1 = m ∧ t ∈ p.2)

/-- What is taken for granted of the machine, the vertices and the splitters. -/
structure Contract (C : Ctx) (P : Partition) : Prop where
  /-- `RoutingEntry.merge` joins the routes. -/
  merges : ∀ a b c, C.merge a b = .ok c → c.route = a.route ||| b.route
  /-- A machine vertex is listed by its application vertex and no other. -/
  owns : ∀ a m, m ∈ C.machines a ↔ C.appOf m = some a
  /-- An application vertex sends with its own machine vertices. -/
  sends : ∀ a l m, C.outgoing a = some l → m ∈ l → C.appOf m = some a
  /-- Internal partitions start at machine vertices of the source. -/
  within : ∀ p ∈ P.internal, C.appOf p.1 = some P.source
  /-- Going through a set meets exactly its elements. -/
  iter : ∀ l, (C.iter l).Perm l
  /-- Vertices are on chips of the machine. -/
  placed : ∀ m, (C.locate m).1 ∈ C.T.chips
  /-- The vector between two chips leads from one to the other. -/
  vector : ∀ a b, a ∈ C.T.chips → b ∈ C.T.chips →
    RPath.Chain C.T a (RPath.longestFirst C.T (C.vector a b).1 (C.vector a b).2.1 (C.vector a b).2.2 a) b
  /-- The sources that a target's splitter names are the source or machine vertices it sends with. -/
  sources : ∀ e ∈ P.edges, ∀ v ∈ e.2, ∀ s ∈ v.2, s = .app P.source ∨
    ∃ l m, C.outgoing P.source = some l ∧ m ∈ l ∧ s = .mach m

/-- `RoutingEntry.merge` joins the routes. -/
def Joins (C : Ctx) : Prop := ∀ a b c, C.merge a b = .ok c → c.route = a.route ||| b.route

/-- `RoutingEntry.merge` makes an entry defaultable only if both are. -/
def KeepsFlag (C : Ctx) : Prop :=
  ∀ a b c, C.merge a b = .ok c → c.defaultable = true → a.defaultable = true ∧ b.defaultable = true

/-- Joining two entries is no loop. -/
def NoFuel (C : Ctx) : Prop := ∀ a b, C.merge a b ≠ .error .outOfFuel

/-- How `_convert_a_route` is called: everything is to be covered only for an application vertex, and
then the source is not looked up by itself. -/
def Fits (src : VId) (useSource ensureAll : Bool) : Prop :=
  ensureAll = true → useSource = false ∧ ∃ a, src = .app a

/-- The links of targets are not links of the machine. -/
def Outside (C : Ctx) (P : Partition) : Prop :=
  ∀ t l, Asked P t → (C.locate t).2.2 = some l → C.T.linkAt (C.locate t).1 l = false

/-- There is no entry of the partition yet. -/
def Fresh (C : Ctx) (P : Partition) (S : ByPart.State) : Prop :=
  ∀ v, Mine C P v → ∀ c : XY, ByPart.entryOn S v P.ident c.1 c.2 = none

/-- No router holds both an application vertex and one of its machine vertices (C25). -/
def Unmixed (C : Ctx) (S : ByPart.State) : Prop :=
  ∀ a m part x y, C.appOf m = some a →
    ¬ ((ByPart.entryOn S (.app a) part x y).isSome ∧ (ByPart.entryOn S (.mach m) part x y).isSome)

/-- No repaired way returns to a chip of a removed loop (C68). -/
def NoReturns (C : Ctx) : Prop :=
  ∀ a b ms, a ∈ C.T.chips → b ∈ C.T.chips →
    RPath.fixErrors C.T a
      (RPath.longestFirst C.T (C.vector a b).1 (C.vector a b).2.1 (C.vector a b).2.2 a) = .ok ms →
    RPath.NoReturn (RPath.visits a ms)

/-- Every chip of the source has a vertex that sends. -/
def AllSend (C : Ctx) (P : Partition) : Prop :=
  ∀ m ∈ C.machines P.source, ∃ k, Sends C P k ∧ (C.locate k).1 = (C.locate m).1

end Pacman.Router
