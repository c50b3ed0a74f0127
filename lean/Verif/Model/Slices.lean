import Verif.Model.Base
/-
Model of `model/graphs/common/slice.py`, `mdslice.py`, `utilities/algorithm_utilities/partition_algorithm_utilities.py`
and the index conversions of `model/graphs/application/application_vertex.py`.

The code computes some divisions of integers in floating point; here they are exact. The two agree for all
numbers below 2^53. Conversions to 32-bit integers of results that are below 2^32 are left out.
-/

namespace Pacman.Slices

/-- The product of a list (`numpy.prod`). -/
def prod : List Nat → Nat
  | [] => 1
  | a :: l => a * prod l

/-- `Slice` and `MDSlice`: lowest atom and number of atoms (slice.py:29, 49-51); for an `MDSlice` one triple per
dimension of the offset, the size of the slice and the size of the vertex (mdslice.py:28, 54-56), `none` for a
`Slice`. -/
structure Slice where
  lo : Nat
  n : Nat
  dims : Option (List (Nat × Nat × Nat))
  deriving DecidableEq, Repr

/-- `Slice(lo, hi)` and `MDSlice(lo, hi, shape, start, atoms_shape)`, slice.py:31-51 and mdslice.py:30-56. The
second argument is `hi + 1`. The test of the number of dimensions (mdslice.py:51-53) is left out: the sizes come
in triples. -/
def mkSlice (lo stop : Nat) (dims : Option (List (Nat × Nat × Nat))) : Except PyErr Slice :=
  if stop ≤ lo then .error .pacmanValueError else .ok ⟨lo, stop - lo, dims⟩

/-- `MDSlice.get_raster_ids`, mdslice.py:108-114: the array `ids` has at index (…, i1, i0) the number
`i0 + a0 * (i1 + a1 * …)`, slices are cut off at the size of the array, and flattening runs through the last
index (the first dimension) fastest. -/
def mdIds : List (Nat × Nat × Nat) → List Nat
  | [] => [0]
  | (start, size, atoms) :: ds =>
    (mdIds ds).flatMap (fun r => (List.range' start (min (start + size) atoms - start)).map (fun i => i + atoms * r))

/-- `get_raster_ids`, slice.py:163-171 and mdslice.py:108-114. -/
def rasterIds (s : Slice) : List Nat :=
  match s.dims with
  | none => List.range' s.lo s.n
  | some ds => mdIds ds

/-- The loop of `MDSlice.get_relative_indices` for one index, mdslice.py:169-184. -/
def relLoop : List (Nat × Nat × Nat) → (rem cum : Nat) → (acc : Int) → Int
  | [], _, _, acc => acc
  | (start, size, atoms) :: ds, rem, cum, acc =>
    relLoop ds (rem / atoms) (cum * size) (acc + ((rem % atoms : Nat) - (start : Int)) * (cum : Int))

/-- `get_relative_indices` for one index, slice.py:208-220 and mdslice.py:162-186. -/
def relIndex (s : Slice) (x : Nat) : Int :=
  match s.dims with
  | none => (x : Int) - (s.lo : Int)
  | some ds => relLoop ds x 1 0

/-- The loop of `MDSlice.get_raster_indices` for one index, mdslice.py:195-209. -/
def rasterLoop : List (Nat × Nat × Nat) → (rem cum acc : Nat) → Nat
  | [], _, _, acc => acc
  | (start, size, atoms) :: ds, rem, cum, acc =>
    rasterLoop ds (rem / size) (cum * atoms) (acc + (rem % size + start) * cum)

/-- `get_raster_indices` for one index, slice.py:222-234 and mdslice.py:188-211. -/
def rasterIndex (s : Slice) (i : Nat) : Nat :=
  match s.dims with
  | none => i + s.lo
  | some ds => rasterLoop ds i 1 0

/-- What is used of an `ApplicationVertex`: `atoms_shape` and `_max_atoms_per_dimension_per_core`. `n_atoms` is
the product of the shape (a contract: it is a separate abstract property). -/
structure Vertex where
  shape : List Nat
  maxPer : Option (List Nat)
  deriving DecidableEq, Repr

/-- `n_atoms`. -/
def Vertex.nAtoms (v : Vertex) : Nat := prod v.shape

/-- The loop of `__check_atoms_per_core`, application_vertex.py:215-222. -/
def checkDims : List (Nat × Nat) → Except PyErr Unit
  | [] => .ok ()
  | (maxi, dim) :: ds =>
    if maxi = 0 then .error .zeroDivision
    else if dim % maxi ≠ 0 then .error .valueError
    else checkDims ds

/-- `__check_atoms_per_core`, application_vertex.py:205-222. -/
def checkAtoms (shape maxPer : List Nat) : Except PyErr Unit :=
  if maxPer.length ≠ shape.length then .error .valueError
  else if 1 < shape.length then checkDims (maxPer.zip shape)
  else .ok ()

/-- `get_max_atoms_per_core`, application_vertex.py:224-235. -/
def maxAtoms (v : Vertex) : Except PyErr Nat :=
  match v.maxPer with
  | none => .ok v.nAtoms
  | some m => (checkAtoms v.shape m).map (fun _ => prod m)

/-- `get_max_atoms_per_dimension_per_core`, application_vertex.py:237-248. -/
def maxPerDim (v : Vertex) : Except PyErr (List Nat) :=
  match v.maxPer with
  | none => .ok v.shape
  | some m => (checkAtoms v.shape m).map (fun _ => m)

/-- The ceiling of a quotient, `math.ceil(a / b)`. -/
def ceilDiv (a b : Nat) : Nat := (a + b - 1) / b

/-- The loop of `get_single_dimension_slices`, partition_algorithm_utilities.py:113-118; `lo` is `hi_atom + 1`. -/
def singleLoop (n total : Nat) : (k lo : Nat) → Except PyErr (List Slice)
  | 0, _ => .ok []
  | k + 1, lo =>
    match mkSlice lo (min n (lo + total)) none with
    | .error e => .error e
    | .ok s =>
      match singleLoop n total k (min n (lo + total)) with
      | .error e => .error e
      | .ok ss => .ok (s :: ss)

/-- `get_single_dimension_slices`, partition_algorithm_utilities.py:95-120. -/
def singleSlices (v : Vertex) : Except PyErr (List Slice) := do
  let m ← maxAtoms v
  if v.nAtoms < m then
    (mkSlice 0 v.nAtoms none).map (fun s => [s])
  else
    let per ← maxPerDim v
    let total ← getE per 0
    if total = 0 then .error .zeroDivision
    else singleLoop v.nAtoms total (ceilDiv v.nAtoms total) 0

/-- The first loop of `get_multidimensional_slices`, partition_algorithm_utilities.py:59-64: per dimension the
numerator, the atoms per core and the atoms; and the number of vertices. The products of lines 63 and 64 are not
used by the code. -/
def numerators : List (Nat × Nat) → (nVertices : Nat) → List (Nat × Nat × Nat) × Nat
  | [], nv => ([], nv)
  | (per, atoms) :: ds, nv =>
    let (l, nv') := numerators ds (nv * ceilDiv atoms per)
    ((nv, per, atoms) :: l, nv')

/-- The inner loop, partition_algorithm_utilities.py:77-82, from the last dimension to the first: the triples of
the slice. The size is not negative as no slice starts beyond the atoms. -/
def place : List (Nat × Nat × Nat) → (remainder : Nat) → List (Nat × Nat × Nat) → List (Nat × Nat × Nat)
  | [], _, acc => acc
  | (num, per, atoms) :: ds, rem, acc =>
    place ds (rem % num) ((rem / num * per, min (rem / num * per + per) atoms - rem / num * per, atoms) :: acc)

/-- The outer loop, partition_algorithm_utilities.py:69-90; `lo` is `hi_atom + 1`. -/
def multiLoop (nums : List (Nat × Nat × Nat)) : (vs : List Nat) → (lo : Nat) → Except PyErr (List Slice)
  | [], _ => .ok []
  | v :: vs, lo =>
    let ds := place nums.reverse v []
    match mkSlice lo (lo + prod (ds.map (fun d => d.2.1))) (some ds) with
    | .error e => .error e
    | .ok s =>
      match multiLoop nums vs (lo + prod (ds.map (fun d => d.2.1))) with
      | .error e => .error e
      | .ok ss => .ok (s :: ss)

/-- `get_multidimensional_slices`, partition_algorithm_utilities.py:25-92. -/
def multiSlices (v : Vertex) : Except PyErr (List Slice) := do
  let per ← maxPerDim v
  if per.length ≠ v.shape.length then .error .configuration
  else if v.shape.length = 1 then singleSlices v
  else
    let m ← maxAtoms v
    if v.nAtoms ≤ m then
      (mkSlice 0 v.nAtoms (some (v.shape.map (fun a => (0, a, a))))).map (fun s => [s])
    else
      let (nums, nv) := numerators (per.zip v.shape) 1
      multiLoop nums (List.range nv) 0

/-- The loop of `get_key_ordered_indices` for one index, application_vertex.py:379-401: the index of the core and
that of the atom on the core. -/
def keyLoop : List (Nat × Nat) → (rem cumPer cumCores core atom : Nat) → Nat × Nat
  | [], _, _, _, core, atom => (core, atom)
  | (per, atoms) :: ds, rem, cumPer, cumCores, core, atom =>
    keyLoop ds (rem / atoms) (cumPer * per) (cumCores * (atoms / per))
      (core + rem % atoms / per * cumCores) (atom + (rem % atoms - per * (rem % atoms / per)) * cumPer)

/-- `get_key_ordered_indices` for one index, application_vertex.py:352-404. -/
def keyIndex (v : Vertex) (x : Nat) : Except PyErr Nat :=
  if v.shape.length = 1 then .ok x
  else do
    let per ← maxPerDim v
    let m ← maxAtoms v
    let (core, atom) := keyLoop (per.zip v.shape) x 1 1 0 0
    pure (core * m + atom)

/-- The loop of `get_raster_ordered_indices` for one index, application_vertex.py:426-440. -/
def orderLoop : List (Nat × Nat) → (coreRem atomRem cum acc : Nat) → Nat
  | [], _, _, _, acc => acc
  | (per, atoms) :: ds, coreRem, atomRem, cum, acc =>
    orderLoop ds (coreRem / (atoms / per)) (atomRem / per) (cum * atoms)
      (acc + (coreRem % (atoms / per) * per + atomRem % per) * cum)

/-- `get_raster_ordered_indices` for one index, application_vertex.py:406-442. -/
def orderIndex (v : Vertex) (i : Nat) : Except PyErr Nat :=
  if v.shape.length = 1 then .ok i
  else do
    let per ← maxPerDim v
    let m ← maxAtoms v
    pure (orderLoop (per.zip v.shape) (i / m) (i % m) 1 0)

end Pacman.Slices
