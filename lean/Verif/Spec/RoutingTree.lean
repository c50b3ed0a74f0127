import Verif.Model.RoutingTree
/-
What it means to go through a routing tree. Nodes are named by the way to them from the root: the
numbers of the children.
-/

namespace Pacman.RTree

/-- What there is at the end of a way: the direction with which the last item of children was put there
(`none` for the root), and the object. -/
def walk : Option Nat × Obj → List Nat → Option (Option Nat × Obj)
  | s, [] => some s
  | (_, .vertex _), _ :: _ => none
  | (_, .tree t), i :: p =>
    match t.kids[i]? with
    | none => none
    | some k => walk (k.dir, k.obj) p

/-- There is an object at the end of the way. -/
def IsObj (t : Tree) (p : List Nat) : Prop := ∃ d o, walk (none, .tree t) p = some (d, o)

/-- There is a tree at the end of the way. -/
def IsNode (t : Tree) (p : List Nat) : Prop := ∃ d u, walk (none, .tree t) p = some (d, .tree u)

/-- The node at the end of the way has a tree below it without direction. -/
def Undirected (t : Tree) (p : List Nat) : Prop :=
  ∃ d u, walk (none, .tree t) p = some (d, .tree u) ∧ ∃ v, Kid.tree none v ∈ u.kids

/-- `p` comes before `q` in the order of a dictionary: a node before what is below it, and children in
order. -/
inductive Before : List Nat → List Nat → Prop
  | root (i : Nat) (q : List Nat) : Before [] (i :: q)
  | child (i j : Nat) (p q : List Nat) : i < j → Before (i :: p) (j :: q)
  | same (i : Nat) (p q : List Nat) : Before p q → Before (i :: p) (i :: q)

/-- `p` comes before `q` level by level. -/
def Sooner (p q : List Nat) : Prop :=
  p.length < q.length ∨ p.length = q.length ∧ Before p q

/-- What should be yielded for the node at the end of the way. -/
def Yields (t : Tree) (p : List Nat) (it : Item) : Prop :=
  ∃ u, walk (none, .tree t) p = some (it.1, .tree u) ∧ it.2.1 = u.chip ∧
    it.2.2.Nodup ∧ ∀ d, d ∈ it.2.2 ↔ ∃ k, k ∈ u.kids ∧ k.dir = some d

/-- The items of `l` belong one by one to the ways of `ps`. -/
inductive Each {α : Type} (R : List Nat → α → Prop) : List (List Nat) → List α → Prop
  | nil : Each R [] []
  | cons (p : List Nat) (a : α) (ps : List (List Nat)) (l : List α) :
      R p a → Each R ps l → Each R (p :: ps) (a :: l)

end Pacman.RTree
