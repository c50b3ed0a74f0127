import Verif.Model.Base
/-
Model of the class `RoutingTree` of `utilities/algorithm_utilities/routing_tree.py`.
-/

namespace Pacman.RTree

mutual
/-- A `RoutingTree`: its chip and its `_children`, routing_tree.py:36-62. Trees are values: an object
that has been appended in two places stands in both; one that has been appended below itself, for which
every walk goes on for ever, is left out. The label is left out. -/
inductive Tree where
  | node (chip : Nat × Nat) (kids : List Kid)
/-- An item of `_children`, routing_tree.py:59-60: a direction, which may be `None`, and a tree or a
machine vertex (by number). -/
inductive Kid where
  | tree (dir : Option Nat) (t : Tree)
  | vertex (dir : Option Nat) (v : Nat)
end

/-- `chip`, routing_tree.py:74-81. -/
def Tree.chip : Tree → Nat × Nat
  | .node c _ => c

/-- `children`, routing_tree.py:83-109. -/
def Tree.kids : Tree → List Kid
  | .node _ ks => ks

/-- What iterating gives: the tree itself or a vertex, routing_tree.py:135. -/
inductive Obj where
  | tree (t : Tree)
  | vertex (v : Nat)

/-- The direction of an item of `_children`. -/
def Kid.dir : Kid → Option Nat
  | .tree d _ => d
  | .vertex d _ => d

/-- The object of an item of `_children`. -/
def Kid.obj : Kid → Obj
  | .tree _ t => .tree t
  | .vertex _ v => .vertex v

/-- `append_child`, routing_tree.py:111-117. -/
def Tree.append (t : Tree) (k : Kid) : Tree := .node t.chip (t.kids ++ [k])

/-- `is_leaf`, routing_tree.py:127-133. -/
def Tree.isLeaf (t : Tree) : Bool := t.kids.isEmpty

mutual
/-- `__iter__`, routing_tree.py:135-147. -/
def Tree.iter : Tree → List Obj
  | .node c ks => .tree (.node c ks) :: iterKids ks
/-- The loop of `__iter__`, routing_tree.py:143-147. -/
def iterKids : List Kid → List Obj
  | [] => []
  | k :: ks => iterKid k ++ iterKids ks
/-- One round of the loop of `__iter__`, routing_tree.py:144-147. -/
def iterKid : Kid → List Obj
  | .tree _ t => t.iter
  | .vertex _ v => [.vertex v]
end

mutual
/-- `__len__`, routing_tree.py:149-156. -/
def Tree.len : Tree → Nat
  | .node _ ks => 1 + lenKids ks
/-- The loop of `__len__`, routing_tree.py:151-155: what it adds to `count`. -/
def lenKids : List Kid → Nat
  | [] => 0
  | k :: ks => lenKid k + lenKids ks
/-- One round of the loop of `__len__`, routing_tree.py:152-155. -/
def lenKid : Kid → Nat
  | .tree _ t => t.len
  | .vertex _ _ => 1
end

/-- `out_directions.add(d)` for a set kept as a list. -/
def addDir (s : List Nat) (d : Nat) : List Nat := if d ∈ s then s else s ++ [d]

/-- The loop over the children of a node, routing_tree.py:186-195: the set of directions and what is
appended to the queue, or the `AssertionError`. -/
def kidsLoop : List Kid → List Nat → List (Option Nat × Tree) →
    Except PyErr (List Nat × List (Option Nat × Tree))
  | [], out, q => .ok (out, q)
  | .vertex none _ :: ks, out, q => kidsLoop ks out q
  | .vertex (some d) _ :: ks, out, q => kidsLoop ks (addDir out d) q
  | .tree none _ :: _, _, _ => .error .assertion
  | .tree (some d) t :: ks, out, q => kidsLoop ks (addDir out d) (q ++ [(some d, t)])

/-- What `traverse` yields: the direction taken, the chip, the directions that lead on. -/
abbrev Item := Option Nat × (Nat × Nat) × List Nat

/-- The loop of `traverse`, routing_tree.py:177-198: what has been yielded, and the exception that ended
it if there was one. The number of rounds is enough: proved in `Proofs/RoutingTree.lean`. -/
def traverseLoop : Nat → List (Option Nat × Tree) → List Item × Option PyErr
  | _, [] => ([], none)
  | 0, _ :: _ => ([], some .outOfFuel)
  | fuel + 1, (d, t) :: q =>
    match kidsLoop t.kids [] q with
    | .error e => ([], some e)
    | .ok (out, q) =>
      let r := traverseLoop fuel q
      ((d, t.chip, out) :: r.1, r.2)

/-- `traverse`, routing_tree.py:162-198. -/
def Tree.traverse (t : Tree) : List Item × Option PyErr := traverseLoop t.len [(none, t)]

end Pacman.RTree
