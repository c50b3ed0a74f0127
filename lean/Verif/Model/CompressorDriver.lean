import Verif.Model.RoutingTables
import Verif.Model.PairCompressor
import Verif.Model.RangeCompressor
import Verif.Model.OrderedCovering
/-
Model of the compressor drivers: `abstract_compressor.py`, and the functions
`pair_compressor`, `range_compressor` and `ordered_covering_compressor`, all in
`operations/router_compressors/`.
-/

namespace Pacman.Driver

open Pacman.Tables

/-- What a driver reads from the machine and the configuration: the number of router entries of the
chip at a position (`none` where there is no chip; `get_chip_at` then raises a `KeyError`), and
`router_table_compress_as_far_as_possible`. -/
structure Env where
  target : XY → Option Nat
  asFar : Bool

/-- `PacmanDataView.get_chip_at(...).router.n_available_multicast_entries`,
abstract_compressor.py:101-102. -/
def Env.targetE (env : Env) (xy : XY) : Except PyErr Nat :=
  match env.target xy with
  | some n => .ok n
  | none => .error .keyError

/-- The new table made of the compressed entries, abstract_compressor.py:109-112. -/
def newTable (xy : XY) (es : List Entry) : Table :=
  .c (es.foldl CTable.add (CTable.empty xy.1 xy.2))

/-- One round of the loop: the table for the chip and the problem noted, if any,
abstract_compressor.py:100-116. -/
def compressOne (env : Env) (compress : Table → Except PyErr (List Entry)) (t : Table) :
    Except PyErr (Table × List (XY × Nat)) := do
  let target ← env.targetE t.xy
  if !env.asFar && decide (t.numberOfEntries ≤ target) then pure (t, [])
  else do
    let es ← compress t
    let nt := newTable t.xy es
    if nt.numberOfEntries > target then pure (nt, [(nt.xy, nt.numberOfEntries)])
    else pure (nt, [])

/-- The loop of `compress_tables`, abstract_compressor.py:100-118. `problems` models the string
`_problems`, which is empty exactly if the list is. -/
def compressLoop (env : Env) (compress : Table → Except PyErr (List Entry)) :
    List Table → TablesMap → List (XY × Nat) → Except PyErr (TablesMap × List (XY × Nat))
  | [], m, problems => .ok (m, problems)
  | t :: ts, m, problems => do
    let (nt, p) ← compressOne env compress t
    let m ← addTable m nt
    compressLoop env compress ts m (problems ++ p)

/-- `compress_tables`, abstract_compressor.py:81-126, on a new compressor object (whose `_problems`
is empty). A warning is not modelled. -/
def compressTables (env : Env) (ordered acceptOverflow : Bool)
    (compress : Table → Except PyErr (List Entry)) (tables : TablesMap) :
    Except PyErr TablesMap := do
  let (m, problems) ← compressLoop env compress (tablesOf tables) [] []
  if !problems.isEmpty && (ordered && !acceptOverflow) then .error .minimisationFailed
  else pure m

/-- `verify_lengths`, pair_compressor.py:45-61. -/
def verifyLengths (env : Env) (m : TablesMap) : Except PyErr Unit := do
  let sizes ← (tablesOf m).mapM (fun t => do
    let n ← env.targetE t.xy
    pure (decide (t.numberOfEntries > n)))
  if sizes.any id then .error .elementAllocation else pure ()

/-- `_PairCompressor.compress_table` with its lookup of the chip, pair_compressor.py:405-467. -/
def pairTable (env : Env) (ordered cSort : Bool) (t : Table) : Except PyErr (List Entry) := do
  let n ← env.targetE t.xy
  Pair.compressTable ordered cSort n t.entries

/-- `pair_compressor`, pair_compressor.py:25-42. -/
def pairCompressor (env : Env) (ordered acceptOverflow verify cSort : Bool) (tables : TablesMap) :
    Except PyErr TablesMap := do
  let m ← compressTables env ordered acceptOverflow (pairTable env ordered cSort) tables
  if verify then do
    let _ ← verifyLengths env m
    pure m
  else pure m

/-- `_OrderedCoveringCompressor.compress_table` with its target, ordered_covering.py:66-97. The
number of rounds given to the model is one more than the number of entries (enough by C09). -/
def ocTable (env : Env) (t : Table) : Except PyErr (List Entry) :=
  if env.asFar then OC.compressTable (t.entries.length + 1) t.entries none
  else do
    let n ← env.targetE t.xy
    OC.compressTable (t.entries.length + 1) t.entries (some n)

/-- `ordered_covering_compressor`, ordered_covering.py:46-53. -/
def ocCompressor (env : Env) (tables : TablesMap) : Except PyErr TablesMap :=
  compressTables env true false (ocTable env) tables

/-- The target read by `RangeCompressor.compress_table`, ranged_compressor.py:90-93: only without
`asFar` (0 stands for not read). -/
def rangeTarget (env : Env) (xy : XY) : Except PyErr Nat :=
  if env.asFar then .ok 0 else env.targetE xy

/-- `RangeCompressor.compress_table` as a table, ranged_compressor.py:75-122: the given table
itself if it is not to be compressed or its ranges overlap, otherwise a new one. The rounds given are the number of entries (enough by C06). -/
def rangeTable (env : Env) (t : Table) : Except PyErr Table := do
  let n ← rangeTarget env t.xy
  if env.asFar = false ∧ t.numberOfEntries < n then pure t
  else
    let es := stableSort (fun a b => decide (a.key.toNat ≤ b.key.toNat)) t.entries
    let ok ← Range.validate es es.length 0
    if ok then do
      let es' ← Range.compressTable t.entries.length env.asFar n t.entries
      pure (newTable t.xy es')
    else pure t

/-- The loop of `range_compressor`, ranged_compressor.py:47-59. -/
def rangeLoop (env : Env) (acceptOverflow : Bool) : List Table → TablesMap → Except PyErr TablesMap
  | [], m => .ok m
  | t :: ts, m => do
    let nt ← rangeTable env t
    let target ← env.targetE t.xy
    if nt.numberOfEntries > target ∧ acceptOverflow = false then .error .minimisationFailed
    else do
      let m ← addTable m nt
      rangeLoop env acceptOverflow ts m

/-- `range_compressor`, ranged_compressor.py:31-62. -/
def rangeCompressor (env : Env) (acceptOverflow : Bool) (tables : TablesMap) :
    Except PyErr TablesMap :=
  rangeLoop env acceptOverflow (tablesOf tables) []

end Pacman.Driver
