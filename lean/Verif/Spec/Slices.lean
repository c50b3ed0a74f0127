import Verif.Model.Slices
/-
Specification for slices.
-/

namespace Pacman.Slices

/-- The slices follow each other without a gap, from `lo` on, and each has as many atoms as IDs. -/
def Contiguous : Nat → List Slice → Prop
  | _, [] => True
  | lo, s :: ss => s.lo = lo ∧ 0 < s.n ∧ (rasterIds s).length = s.n ∧ Contiguous (lo + s.n) ss

/-- The vertex has atoms, and atoms per core that are set fit the shape: in more than one dimension they divide it. -/
def Vertex.Valid (v : Vertex) : Prop :=
  (∀ a ∈ v.shape, 0 < a) ∧
  ∀ m, v.maxPer = some m → m.length = v.shape.length ∧ (∀ c ∈ m, 0 < c) ∧
    (v.shape.length ≠ 1 → ∀ d ∈ m.zip v.shape, d.1 ∣ d.2)

/-- The atoms per core in each dimension. -/
def Vertex.per (v : Vertex) : List Nat := v.maxPer.getD v.shape

/-- No more atoms than the limit: in number, and in each dimension. -/
def Within (per : List Nat) (s : Slice) : Prop :=
  s.n ≤ prod per ∧ ∀ ds, s.dims = some ds → ds.length = per.length ∧
    ∀ q ∈ ds.zip per, q.1.2.1 ≤ q.2

/-- A slice as the constructors make it, inside of the vertex: the size is the product of the sizes in the
dimensions. -/
def Slice.Proper (s : Slice) : Prop :=
  ∀ ds, s.dims = some ds → s.n = prod (ds.map (fun d => d.2.1)) ∧ ∀ d ∈ ds, d.1 + d.2.1 ≤ d.2.2

end Pacman.Slices
