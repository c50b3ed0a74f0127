import Verif.Model.FixedRoute
/-
What fixed routes are for, said of the table and of the machine only.
-/

namespace Pacman.FixedRoute

/-- A packet put at chip `c` follows the entries of `t`, always over links that exist and from chip
to chip of the board `B`, and after `n` hops is given to core `p` of chip `e`, and to nothing else.
-/
inductive Delivered (m : Mach) (t : FTable) (B : List XY) : XY → Nat → XY → Nat → Prop
  | core {e : XY} {p : Nat} : e ∈ B → t.get? e = some ⟨[], [p]⟩ → Delivered m t B e 0 e p
  | hop {c e : XY} {l n p : Nat} : c ∈ B → t.get? c = some ⟨[l], []⟩ → l < 6 →
      m.linkAt c l = true → Delivered m t B (m.over c l) n e p → Delivered m t B c (n + 1) e p

/-- There is a way of `n` hops over existing links from chip `c` to chip `e` that does not leave
the board `B`. -/
inductive Way (m : Mach) (B : List XY) (e : XY) : XY → Nat → Prop
  | here : Way m B e e 0
  | step {c : XY} {l n : Nat} : c ∈ B → l < 6 → m.linkAt c l = true → Way m B e (m.over c l) n →
      Way m B e c (n + 1)

/-- Python goes through a set in some order: each element once. -/
def SetOrder (m : Mach) : Prop := ∀ n l, (m.order n l).Perm l

/-- Every board has its Ethernet chip, no chip is on two boards, and no board is named twice. -/
def Boards (m : Mach) : Prop :=
  m.eths.Nodup ∧ (∀ e ∈ m.eths, e ∈ m.board e) ∧
  ∀ e ∈ m.eths, ∀ f ∈ m.eths, ∀ c, c ∈ m.board e → c ∈ m.board f → e = f

end Pacman.FixedRoute
