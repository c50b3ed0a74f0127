import Verif.Proofs.RoutingTree
/-
C120: iterating over a routing tree gives each object in it once, `len` counts them, and `traverse`
gives each node once, level by level, with how it is reached and what leads on.
-/

namespace Pacman.RTree

/-- C120: `__iter__` gives the objects at all ways from the root, each once, each node before what is
below it and children in order. -/
theorem C120_iter (t : Tree) : ∃ ps : List (List Nat), ps.Pairwise Before ∧
    (∀ p, p ∈ ps ↔ IsObj t p) ∧
    Each (fun p o => ∃ d, walk (none, .tree t) p = some (d, o)) ps t.iter :=
  ⟨posTree t, sorted_posTree t, mem_posTree t none, each_tree t none⟩

/-- C120: `__len__` is the number of objects that iterating gives. -/
theorem C120_len (t : Tree) : t.len = t.iter.length := len_tree t

/-- C120: `traverse` ends, and yields the nodes of the tree level by level, each once, with the
direction taken to it, its chip and the set of directions of its children. It raises an `AssertionError`
exactly if there is a tree without direction below a node, when it comes to the first such node; what
comes before that node has been yielded. -/
theorem C120_traverse (t : Tree) : ∃ ps : List (List Nat), ps.Pairwise Sooner ∧
    (∀ p, p ∈ ps ↔ IsNode t p ∧ ∀ b, Undirected t b → Sooner p b) ∧
    Each (Yields t) ps t.traverse.1 ∧
    (t.traverse.2 = none ∧ (¬ ∃ b, Undirected t b) ∨
     t.traverse.2 = some .assertion ∧ ∃ b, Undirected t b) := by
  have hb : ∀ p, Below [[]] p := fun p => ⟨[], List.mem_singleton.2 rfl, p, rfl⟩
  obtain ⟨rs, h1, h2, h3, h4⟩ := traverseLoop_spec t t.len [[]] [(none, t)]
    (.cons _ _ _ _ rfl .nil)
    ⟨List.pairwise_singleton _ _, by rintro h tl e p hp; cases e; cases hp⟩
    (by simp)
  refine ⟨rs, h1, fun p => ?_, h2, ?_⟩
  · rw [h3]
    exact ⟨fun ⟨_, h, g⟩ => ⟨h, fun b => g b (hb b)⟩, fun ⟨h, g⟩ => ⟨hb p, h, fun b _ => g b⟩⟩
  · refine h4.imp (And.imp_right ?_) (And.imp_right ?_)
    · rintro h ⟨b, hu⟩; exact h ⟨b, hb b, hu⟩
    · rintro ⟨b, _, hu⟩; exact ⟨b, hu⟩

/-- C120: so, if all trees have a direction, `traverse` yields exactly one item for each node, and no
more items than iterating. -/
theorem C120_all (t : Tree) (h : ¬ ∃ b, Undirected t b) : t.traverse.2 = none ∧
    ∃ ps : List (List Nat), ps.Pairwise Sooner ∧ (∀ p, p ∈ ps ↔ IsNode t p) ∧
      Each (Yields t) ps t.traverse.1 := by
  obtain ⟨ps, h1, h2, h3, h4⟩ := C120_traverse t
  refine ⟨?_, ps, h1, fun p => ?_, h3⟩
  · rcases h4 with h4 | ⟨_, h4⟩
    · exact h4.1
    · exact absurd h4 h
  · rw [h2]
    exact ⟨And.left, fun hp => ⟨hp, fun b hb => absurd ⟨b, hb⟩ h⟩⟩

/-- C120: appending a child adds what is below it and nothing else. -/
theorem C120_append (t : Tree) (k : Kid) :
    (t.append k).isLeaf = false ∧ (t.append k).chip = t.chip ∧
      (t.append k).len = t.len + lenKid k := by
  have hk : ∀ ks : List Kid, lenKids (ks ++ [k]) = lenKids ks + lenKid k := by
    intro ks
    induction ks with
    | nil => simp [lenKids]
    | cons a ks ih => simp only [List.cons_append, lenKids, ih]; omega
  obtain ⟨c, ks⟩ := t
  refine ⟨?_, rfl, ?_⟩
  · simp [Tree.append, Tree.isLeaf, Tree.kids]
  · simp only [Tree.append, Tree.len, Tree.kids, hk]
    omega

/-! ### Concrete cases -/

/-- (0,0) to (1,0) by link 0 and to (1,1) by link 1; a vertex on core 7 at (1,0), one without direction
at (1,1); from (1,0) on to (2,0). -/
def small : Tree :=
  .node (0, 0) [.tree (some 0) (.node (1, 0) [.vertex (some 7) 5, .tree (some 0) (.node (2, 0) [])]),
    .tree (some 1) (.node (1, 1) [.vertex none 6])]

example : small.traverse = ([(none, (0, 0), [0, 1]), (some 0, (1, 0), [7, 0]), (some 1, (1, 1), []),
    (some 0, (2, 0), [])], none) := by decide +kernel

example : small.len = 6 := by decide +kernel

example : ¬ ∃ b, Undirected small b := by
  obtain ⟨_, _, _, _, h⟩ := C120_traverse small
  rcases h with h | h
  · exact h.2
  · have : small.traverse.2 = none := by decide +kernel
    rw [this] at h; cases h.1

/-- A tree without direction: the root has been yielded before the exception. -/
def undirected : Tree :=
  .node (0, 0) [.tree (some 2) (.node (0, 1) [.tree none (.node (0, 2) [])])]

example : undirected.traverse = ([(none, (0, 0), [2])], some .assertion) := by decide +kernel

example : Undirected undirected [0] := ⟨some 2, _, rfl, _, List.mem_singleton.2 rfl⟩

end Pacman.RTree
