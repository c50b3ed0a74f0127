import Verif.Spec.Pipeline
/-
How packets travel: over which links, and what they do where no entry matches.
-/

namespace Pacman.Router

open RPath (XY)

/-- The entries send the packets of `m` from `c` over working link `l` to `d`. -/
def Hop (C : Ctx) (S : ByPart.State) (ident m : Nat) (c : XY) (l : Nat) (d : XY) : Prop :=
  ∃ e, entryFor C S ident m c = some e ∧ l < 6 ∧ e.route.testBit l = true ∧
    C.T.linkAt c l = true ∧ C.T.over c l = d

/-- The direction in which the packets of a vertex set out: those of a device come in by its link and
head for the opposite one, those of a core have no direction. -/
def heading (loc : XY × Option Nat × Option Nat) : Option Nat :=
  match loc.2 with
  | (none, some i) => some ((i + 3) % 6)
  | _ => none

end Pacman.Router

namespace Pacman.Pipe

open RPath (XY)
open Router (Net heading)

/-- A packet with key `k` that is on chip `c`, heading in direction `h`, is sent over link or to core
`b`: by the first entry that matches, or straight on if none does. -/
def Out (V : Valid.Scene) (k : Word) (c : XY) (h : Option Nat) (b : Nat) : Prop :=
  (∃ e, lookup (V.entries c) k = some e ∧ e.route.testBit b = true) ∨
  (lookup (V.entries c) k = none ∧ h = some b)

/-- A packet with key `k` that sets out from `src` in direction `h` gets to a chip by these links, the
last one first. -/
inductive Trip (V : Valid.Scene) (k : Word) (src : XY) (h : Option Nat) : List Nat → XY → Prop
  | start : Trip V k src h [] src
  | hop {w : List Nat} {c d : XY} {l : Nat} : Trip V k src h w c → Out V k c (w.head?.or h) l → l < 6 →
      V.link c l = some d → Trip V k src h (l :: w) d

/-- A packet of machine vertex `m` gets to a chip by these links. -/
def Travels (N : Net) (V : Valid.Scene) (k : Word) (m : Nat) (w : List Nat) (c : XY) : Prop :=
  Trip V k (N.base.locate m).1 (heading (N.base.locate m)) w c

/-- A packet of machine vertex `m` gets to a chip by these links and is sent on over link, or to core,
`b`. -/
def SentOn (N : Net) (V : Valid.Scene) (k : Word) (m : Nat) (w : List Nat) (c : XY) (b : Nat) : Prop :=
  Travels N V k m w c ∧ Out V k c (w.head?.or (heading (N.base.locate m))) b

/-- A packet of machine vertex `m` gets to machine vertex `t`: to its chip, and there to its core, or to
its link if it is a device. -/
def Gets (N : Net) (V : Valid.Scene) (k : Word) (m t : Nat) (w : List Nat) : Prop :=
  Travels N V k m w (N.base.locate t).1 ∧
  (∀ p, (N.base.locate t).2.1 = some p → SentOn N V k m w (N.base.locate t).1 (6 + p)) ∧
  (∀ l, (N.base.locate t).2.2 = some l → SentOn N V k m w (N.base.locate t).1 l)

/-- Packets of `m` with key `k` do the same on two machines. -/
def SameTrips (N : Net) (V V' : Valid.Scene) (k : Word) (m : Nat) : Prop :=
  (∀ w c, Travels N V k m w c ↔ Travels N V' k m w c) ∧
  (∀ w c b, SentOn N V k m w c b ↔ SentOn N V' k m w c b)

/-- A table that stands in for another one: keys go where they went, but those of defaultable entries
may go unmatched. -/
def Stands (t t' : List Entry) : Prop :=
  ∀ k, ∀ o ∈ t, o.Matches k →
    routeOf t' k = some o.route ∨ (lookup t' k = none ∧ o.defaultable = true)

end Pacman.Pipe
