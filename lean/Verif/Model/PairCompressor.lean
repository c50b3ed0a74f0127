import Verif.Model.Base
/-
Model of `operations/router_compressors/pair_compressor.py`.

The compressor works in place on the list `_all_entries`; the model passes that list along.
Reads outside the list are `IndexError`s (Python would accept a negative index; none occurs,
indices here are naturals).
-/

namespace Pacman.Pair

open Pacman

/-- `intersect`, pair_compressor.py:469-494. -/
def intersect (keyA maskA keyB maskB : Word) : Bool :=
  (keyA &&& maskB) == (keyB &&& maskA)

/-- `merge`, pair_compressor.py:496-519. -/
def merge (e1 e2 : Entry) : Word × Word × Bool :=
  let anyOnes := e1.key ||| e2.key
  let allOnes := e1.key &&& e2.key
  let allSelected := e1.mask &&& e2.mask
  let anyZeros := ~~~allOnes
  let newXs := anyOnes ^^^ anyZeros
  let mask := allSelected &&& newXs
  let key := allOnes &&& mask
  (key, mask, e1.defaultable && e2.defaultable)

/-- The fields of the compressor object that stay fixed while one route is compressed:
`_ordered`, `_previous_index`, `_remaining_index`; `_max_index` is always the last index of
the list (pair_compressor.py:452). -/
structure Ctx where
  ordered : Bool
  previousIndex : Nat
  remainingIndex : Nat

/-- `_find_merge`, pair_compressor.py:327-360. `none` is `False`; `some es` is `True` with the
list after the assignment in lines 356-359. -/
def findMerge (c : Ctx) (es : List Entry) (left index : Nat) :
    Except PyErr (Option (List Entry)) := do
  let a ← getE es left
  let b ← getE es index
  let (mKey, mMask, defaultable) := merge a b
  if !c.ordered && (es.take c.previousIndex).any
      (fun e => intersect e.key e.mask mKey mMask) then
    return none
  if (es.drop c.remainingIndex).any (fun e => intersect e.key e.mask mKey mMask) then
    return none
  let es' ← setE es left ⟨mKey, mMask, a.route, defaultable⟩
  return some es'

/-- The inner `while` of `_compress_by_route`, pair_compressor.py:370-380: looks for the first
`index` in `index..right` that merges with `left`, and fills the hole with the last entry
(line 374). `none` means `merged` stays `False`. -/
def inner (c : Ctx) (left right : Nat) (es : List Entry) (index : Nat) :
    Except PyErr (Option (List Entry)) :=
  if index ≤ right then
    match findMerge c es left index with
    | .error e => .error e
    | .ok (some es') => do
      let r ← getE es' right
      let es'' ← setE es' index r
      return some es''
    | .ok none => inner c left right es (index + 1)
  else .ok none
termination_by right + 1 - index

/-- `_compress_by_route`, pair_compressor.py:362-390. Returns the list and `_write_index`. -/
def compressByRoute (c : Ctx) (es : List Entry) (write left right : Nat) :
    Except PyErr (List Entry × Nat) :=
  if left < right then
    match inner c left right es (left + 1) with
    | .error e => .error e
    | .ok (some es') => compressByRoute c es' write left (right - 1)
    | .ok none =>
      match (do let a ← getE es left; setE es write a) with
      | .error e => .error e
      | .ok es' => compressByRoute c es' (write + 1) (left + 1) right
  else if left = right then do
    let a ← getE es left
    let es' ← setE es write a
    return (es', write + 1)
  else .ok (es, write)
termination_by right - left

/-- The scan for the last entry of the same route, pair_compressor.py:457-461. -/
def scanRight (es : List Entry) (left right : Nat) : Except PyErr Nat :=
  if right + 1 < es.length then
    match (do let a ← getE es (right + 1); let b ← getE es left; return a.route == b.route) with
    | .error e => .error e
    | .ok true => scanRight es left (right + 1)
    | .ok false => .ok right
  else .ok right
termination_by es.length - right

/-- The outer loop of `compress_table`, pair_compressor.py:456-465, with `fuel` an upper bound
on the number of iterations (`left` grows in each; the caller gives the length of the list,
running out of fuel is shown to be impossible in `Proofs/PairCompressor.lean`, it would show
as `outOfFuel`). Returns the list and `_write_index`. -/
def outer (ordered : Bool) : Nat → List Entry → Nat → Nat → Nat →
    Except PyErr (List Entry × Nat)
  | fuel, es, write, previous, left =>
    if left < es.length then
      match fuel with
      | 0 => .error .outOfFuel
      | fuel + 1 =>
        match scanRight es left left with
        | .error e => .error e
        | .ok right =>
          match compressByRoute ⟨ordered, previous, right + 1⟩ es write left right with
          | .error e => .error e
          | .ok (es', write') => outer ordered fuel es' write' write' (right + 1)
    else .ok (es, write)

/-- `compress_table` after sorting, pair_compressor.py:451-467. -/
def compressSorted (ordered : Bool) (es : List Entry) : Except PyErr (List Entry) := do
  let (es', write) ← outer ordered es.length es 0 0 0
  return es'.take write

/-- The histogram: `_routes[0:_routes_count]` zipped with `_routes_frequency`. -/
abbrev Histogram := List (Nat × Nat)

/-- `_update_frequency`, pair_compressor.py:392-403. `nRoutes` is the size of the arrays
(line 428-430); writing past the end is an `IndexError`. -/
def updateFrequency (nRoutes : Nat) (h : Histogram) (e : Entry) : Except PyErr Histogram :=
  if h.any (fun rf => rf.1 == e.route) then
    .ok (h.map (fun rf => if rf.1 == e.route then (rf.1, rf.2 + 1) else rf))
  else if h.length < nRoutes then .ok (h ++ [(e.route, 1)])
  else .error .indexError

/-- The loop at pair_compressor.py:432-434. -/
def histogram (nRoutes : Nat) (es : List Entry) : Except PyErr Histogram :=
  es.foldlM (updateFrequency nRoutes) []

/-- `_compare_routes`, pair_compressor.py:206-230: -1, 0 or 1, or "Sorting error". -/
def compareRoutes (routes : List Nat) (a b : Nat) : Except PyErr Int :=
  if a == b then .ok 0
  else match routes with
    | [] => .error .elementAllocation
    | r :: rs => if r == a then .ok 1 else if r == b then .ok (-1) else compareRoutes rs a b

/-- The built-in sorts, pair_compressor.py:443-449. Python's sort is stable, so it is modelled
by a stable sort; the unused tail of the arrays (frequency 0) sorts behind the
used part and is never read. With `nRoutes = 0` the unpacking of `zip(*[])` fails
(`ValueError`). A "Sorting error" would surface as that error. -/
def pySort (nRoutes : Nat) (h : Histogram) (es : List Entry) : Except PyErr (List Entry) :=
  if nRoutes = 0 then .error .valueError
  else
    let routes := (stableSort (fun a b => decide (b.2 ≤ a.2)) h).map (·.1)
    if es.all (fun a => es.all (fun b =>
        match compareRoutes routes a.route b.route with | .ok _ => true | .error _ => false)) then
      .ok (stableSort (fun a b =>
        match compareRoutes routes a.route b.route with
        | .ok c => decide (c ≤ 0)
        | .error _ => true) es)
    else .error .elementAllocation

/-- Exchange of two list elements (the three-line swaps of pair_compressor.py:249-251,
255-257, 282-287). -/
def swapE {α : Type} (l : List α) (i j : Nat) : Except PyErr (List α) := do
  let a ← getE l i
  let b ← getE l j
  let l' ← setE l i b
  setE l' j a

/-- The loop of `_three_way_partition_table` and `_three_way_partition_routes`,
pair_compressor.py:243-261 and 301-313, with `cmp x` the comparison of element `x` with the
pivot. -/
def partitionLoop {α : Type} (cmp : α → Except PyErr Int) (l : List α) (low check high : Nat) :
    Except PyErr (List α × Nat × Nat) :=
  if check ≤ high then
    match (do let x ← getE l check; cmp x) with
    | .error e => .error e
    | .ok c =>
      if c < 0 then
        match swapE l low check with
        | .error e => .error e
        | .ok l' => partitionLoop cmp l' (low + 1) (check + 1) high
      else if c > 0 then
        match swapE l high check with
        | .error e => .error e
        | .ok l' => if high = 0 then .ok (l', low, check) else partitionLoop cmp l' low check (high - 1)
      else partitionLoop cmp l low (check + 1) high
  else .ok (l, low, check)
termination_by high + 1 - check

/-- `_quicksort_table` / `_quicksort_routes`, pair_compressor.py:263-273 and 315-325.
`fuel` bounds the recursion depth (the caller gives the length of the list, and the
ranges shrink in each call). -/
def quicksort {α : Type} (cmp : α → α → Except PyErr Int) : Nat → List α → Nat → Nat →
    Except PyErr (List α)
  | fuel, l, low, high =>
    if low < high then
      match fuel with
      | 0 => .error .outOfFuel
      | fuel + 1 => do
        let pivot ← getE l low
        let (l', left, right) ← partitionLoop (fun x => cmp x pivot) l low (low + 1) high
        let l'' ← quicksort cmp fuel l' low (left - 1)
        quicksort cmp fuel l'' right high
    else .ok l

/-- The sorts used with `c_sort`, pair_compressor.py:436-439. -/
def cSort (h : Histogram) (es : List Entry) : Except PyErr (List Entry) := do
  let h' ← quicksort
    (fun x p => .ok (if x.2 > p.2 then -1 else if x.2 < p.2 then 1 else 0))
    h.length h 0 (h.length - 1)
  let routes := h'.map (·.1)
  quicksort (fun x p => compareRoutes routes x.route p.route) es.length es 0 (es.length - 1)

/-- `compress_table`, pair_compressor.py:405-467. `nRoutes` is
`chip.router.n_available_multicast_entries`. -/
def compressTable (ordered useCSort : Bool) (nRoutes : Nat) (t : List Entry) :
    Except PyErr (List Entry) := do
  let h ← histogram nRoutes t
  let es ← if useCSort then cSort h t else pySort nRoutes h t
  compressSorted ordered es

end Pacman.Pair
