import Verif.Spec.RouterPath
/-
Machines without faults.
-/

namespace Pacman.RPath

/-- Between chips that are next to each other all links work. -/
def Whole (T : Topo) : Prop := ∀ c ∈ T.chips, ∀ l, l < 6 → T.over c l ∈ T.chips → T.linkAt c l = true

/-- All chips of a machine that wraps round in both directions. -/
structure Torus (T : Topo) (w h : Nat) : Prop where
  grid : Grid T (some w) (some h)
  all : ∀ c : XY, c ∈ T.chips ↔ (0 ≤ c.1 ∧ c.1 < w) ∧ 0 ≤ c.2 ∧ c.2 < h

/-- All chips of a board without wrap-arounds, with edges along the links: a rectangle of which two corners may be cut off,
as of the boards with 4 and with 48 chips. -/
structure Board (T : Topo) (x y d : Int × Int) : Prop where
  grid : Grid T none none
  all : ∀ c : XY, c ∈ T.chips ↔
    (x.1 ≤ c.1 ∧ c.1 ≤ x.2) ∧ (y.1 ≤ c.2 ∧ c.2 ≤ y.2) ∧ d.1 ≤ c.1 - c.2 ∧ c.1 - c.2 ≤ d.2

/-- One of these, without faults. -/
def Intact (T : Topo) : Prop := Whole T ∧ ((∃ w h, Torus T w h) ∨ ∃ x y d, Board T x y d)

/-- The vector leads from `a` to `b`, and nothing with fewer hops does. -/
def ShortVector (T : Topo) (a b : XY) (v : Int × Int × Int) : Prop :=
  Chain T a (longestFirst T v.1 v.2.1 v.2.2 a) b ∧
  ∀ ns, Chain T a ns b → v.1.natAbs + v.2.1.natAbs + v.2.2.natAbs ≤ ns.length

end Pacman.RPath
