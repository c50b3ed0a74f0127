import Verif.Model.Partitions
/-
What users expect of the memory of SDRAM partitions.
-/

namespace Pacman.Parts

/-- The byte `x` is in the segment of the edge. -/
def In (a : Addrs) (e : Edge) (x : Int) : Prop := ∃ s, a e = some s ∧ s ≤ x ∧ x < s + e.size

/-- The edges share out the bytes from `v` on, `total` of them: each edge has a segment of its size among them, one
after the other in the order of the list, and each byte is in the segment of exactly one edge. -/
structure Segments (a : Addrs) (edges : List Edge) (v : Int) (total : Nat) : Prop where
  inside : ∀ e ∈ edges, ∃ s, a e = some s ∧ v ≤ s ∧ s + e.size ≤ v + total
  order : edges.Pairwise (fun e e' => ∃ s s', a e = some s ∧ a e' = some s' ∧ s + e.size ≤ s')
  cover : ∀ x, v ≤ x → x < v + total → ∃ e ∈ edges, In a e x
  one : ∀ x, ∀ e ∈ edges, ∀ e' ∈ edges, In a e x → In a e' x → e = e'

end Pacman.Parts
