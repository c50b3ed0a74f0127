import Verif.Model.SliceText
import Verif.Model.Slices
/-
Specification for slices as strings.
-/

namespace Pacman.SliceText

/-- A slice that the constructors can make: it has atoms, and as many sizes as starts. -/
def Made (s : S) : Prop := 0 < s.n ∧ ∀ d, s.md = some d → d.shape.length = d.start.length

/-- As many atoms as the sizes in the dimensions say. -/
def Full (s : S) : Prop := ∀ d, s.md = some d → prod d.shape = (s.n : Int)

/-- The vertex has at least two dimensions. -/
def Several (s : S) : Prop := ∀ d, s.md = some d → 2 ≤ d.atoms.length

/-- The fields of a slice that the slicing of a vertex makes. -/
def ofSlice (s : Slices.Slice) : S :=
  ⟨s.lo, s.n, s.dims.map (fun ds => ⟨ds.map (fun d => (d.2.1 : Int)), ds.map (fun d => (d.1 : Int)),
    ds.map (fun d => (d.2.2 : Int))⟩)⟩

end Pacman.SliceText
