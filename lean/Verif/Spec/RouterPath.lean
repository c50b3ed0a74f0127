import Verif.Model.RouterPath
/-
Walks over a machine.
-/

namespace Pacman.RPath

/-- The hops `ns` lead from `s` to `e`, each over a working link to an existing chip. -/
inductive Walk (T : Topo) : XY → List Node → XY → Prop
  | nil {s : XY} : Walk T s [] s
  | cons {s e : XY} {l : Nat} {ns : List Node} : l < 6 → T.linkAt s l = true →
      T.over s l ∈ T.chips → Walk T (T.over s l) ns e → Walk T s ((l, T.over s l) :: ns) e

/-- The hops `ns` lead from `s` to `e`, each to the chip position over its link, working or not. -/
inductive Chain (T : Topo) : XY → List Node → XY → Prop
  | nil {s : XY} : Chain T s [] s
  | cons {s e : XY} {l : Nat} {ns : List Node} : l < 6 → Chain T (T.over s l) ns e →
      Chain T s ((l, T.over s l) :: ns) e

/-- A walk from `s` through chips of `ok` only (`s` itself need not be in `ok`). -/
inductive WalkIn (T : Topo) (ok : XY → Prop) : XY → XY → Prop
  | nil {s : XY} : WalkIn T ok s s
  | snoc {s c : XY} {l : Nat} : WalkIn T ok s c → l < 6 → T.linkAt c l = true →
      T.over c l ∈ T.chips → ok (T.over c l) → WalkIn T ok s (T.over c l)

/-- The chips a hop list starting at `s` visits. -/
def visits (s : XY) (ns : List Node) : List XY := s :: ns.map (·.2)

/-- After a loop, no chip of the loop other than the one where it closes is visited again. -/
def NoReturn (cs : List XY) : Prop :=
  ∀ P1 P2 P3 x, cs = P1 ++ x :: P2 ++ x :: P3 → ∀ c ∈ P2, c ≠ x → c ∉ P3

/-- How far each link goes, `Machine.LINK_ADD_TABLE` of spinn_machine. -/
def linkAdd : Nat → Int × Int
  | 0 => (1, 0)
  | 1 => (1, 1)
  | 2 => (0, 1)
  | 3 => (-1, 0)
  | 4 => (-1, -1)
  | _ => (0, -1)

/-- A coordinate on an axis that wraps round at `w`, or does not wrap. -/
def wrap (w : Option Nat) (a : Int) : Int :=
  match w with
  | none => a
  | some w => a % w

/-- `xy_over_link` of spinn_machine: the sum, wrapped on each axis that wraps. -/
def Grid (T : Topo) (w h : Option Nat) : Prop :=
  ∀ c l, l < 6 → T.over c l = (wrap w (c.1 + (linkAdd l).1), wrap h (c.2 + (linkAdd l).2))

end Pacman.RPath
