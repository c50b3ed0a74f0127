import Verif.Model.Base
/-
Model of `operations/router_compressors/ordered_covering_router_compressor/` (`utils.py` and
`ordered_covering.py`; line numbers without a file name are of `ordered_covering.py`).

Sets of table indices are modelled by increasing lists. Sets of key/masks (the values of the
aliases dictionary) are modelled by lists, as only membership in them is used.
-/

namespace Pacman.OC

/-- A key/mask pair. -/
abbrev KM := Word × Word

/-- `(entry.key, entry.mask)`. -/
def kmOf (e : Entry) : KM := (e.key, e.mask)

/-- The aliases dictionary, ordered_covering.py:37-41. -/
abbrev Aliases := Dict KM (List KM)

/-- `intersect`, utils.py:26-50. -/
def intersect (a b : KM) : Bool := decide (a.1 &&& b.2 = b.1 &&& a.2)

/-- `get_generality`, ordered_covering.py:196-218. -/
def generality (km : KM) : Nat := (List.range 32).countP (fun i => (~~~km.1 &&& ~~~km.2).getLsbD i)

/-- `_Merge`, ordered_covering.py:306-328 (the table it refers to is passed separately; the
generality is computed where needed). `goodness` may be -1. -/
structure Merge where
  entries : List Nat
  km : KM
  defaultable : Bool
  goodness : Int
  insertionIndex : Nat
  deriving DecidableEq, Repr

/-- `[table[i] for i in entries]`, ordered_covering.py:342-344. -/
def getAll (t : List Entry) : List Nat → Except PyErr (List Entry)
  | [] => .ok []
  | i :: is => do
    let e ← getE t i
    let es ← getAll t is
    pure (e :: es)

/-- `any_ones`, `all_ones`, `all_selected` and `defaultable` as computed by the loop in
`_Merge.__init__`, and the key and mask made from them, ordered_covering.py:336-361. -/
def mergeKM (es : List Entry) : KM :=
  let anyOnes := es.foldl (fun w e => w ||| e.key) 0
  let allOnes := es.foldl (fun w e => w &&& e.key) (BitVec.allOnes 32)
  let allSelected := es.foldl (fun w e => w &&& e.mask) (BitVec.allOnes 32)
  let mask := allSelected &&& (anyOnes ^^^ ~~~allOnes)
  (allOnes &&& mask, mask)

/-- The binary search of `_get_insertion_index`, ordered_covering.py:377-389, with at most `fuel`
rounds. `gen` is the generality of the merge, so `g` of the code is `gen - 1` (which may be -1;
`pg != g` is `pg + 1 ≠ gen` and `pg < g` is `pg + 1 < gen`). `pos` is a valid index. -/
def bsearch (t : List Entry) (gen : Nat) : Nat → Nat → Nat → Nat → Except PyErr Nat
  | 0, _, _, _ => .error .outOfFuel
  | fuel + 1, bottom, top, pos => do
    let e ← getE t pos
    let pg := generality (kmOf e)
    if pg + 1 ≠ gen ∧ bottom < pos ∧ pos < top then
      if pg + 1 < gen then bsearch t gen fuel pos top (pos + (top - pos) / 2)
      else bsearch t gen fuel bottom pos (bottom + (pos - bottom) / 2)
    else pure pos

/-- `_get_insertion_index`, ordered_covering.py:366-396. The linear search at the end is a
`takeWhile` on the rest of the table. -/
def insertionIndex (t : List Entry) (gen : Nat) : Except PyErr Nat := do
  let pos ← bsearch t gen (t.length + 1) 0 t.length (t.length / 2)
  pure (pos + ((t.drop pos).takeWhile (fun e => decide (generality (kmOf e) < gen))).length)

/-- `_Merge.__init__`, ordered_covering.py:330-364. -/
def mkMerge (t : List Entry) (entries : List Nat) : Except PyErr Merge := do
  let es ← getAll t entries
  let km := mergeKM es
  let ins ← insertionIndex t (generality km)
  pure { entries := entries
         km := km
         defaultable := es.all (·.defaultable)
         goodness := (entries.length : Int) - 1
         insertionIndex := ins }

/-- `aliases.get(km, {km})`, ordered_covering.py:773. -/
def aliasesOf (a : Aliases) (km : KM) : List KM := (a.get? km).getD [km]

/-- The loop of `apply`, ordered_covering.py:427-448, from index `i` on: the entries written, the
aliases collected and the aliases dictionary left. -/
def applyLoop (m : Merge) (newEntry : Entry) : Nat → List Entry → List KM → Aliases →
    List Entry × List KM × Aliases
  | _, [], ours, a => ([], ours, a)
  | i, e :: rest, ours, a =>
    let here := if i = m.insertionIndex then [newEntry] else []
    if i ∈ m.entries then
      let r := applyLoop m newEntry (i + 1) rest (ours ++ aliasesOf a (kmOf e)) (a.erase (kmOf e))
      (here ++ r.1, r.2)
    else
      let r := applyLoop m newEntry (i + 1) rest ours a
      (here ++ e :: r.1, r.2)

/-- `_Merge.apply`, ordered_covering.py:398-457. The code writes into a list of fixed size; the
model collects the entries written and fails if their number is not that size (the code would
raise an `IndexError` for more and leave `None`s in the table for less). The route is that of
the first entry merged (the code takes it from any; they all have the same). -/
def apply (t : List Entry) (a : Aliases) (m : Merge) : Except PyErr (List Entry × Aliases) := do
  let newSize := t.length - m.entries.length + 1
  match m.entries with
  | [] => .error .indexError
  | i :: _ =>
    let e ← getE t i
    let newEntry : Entry := ⟨m.km.1, m.km.2, e.route, m.defaultable⟩
    let (new, ours, a) := applyLoop m newEntry 0 t [] a
    let a := a.set m.km ours
    let new := if m.insertionIndex = t.length then new ++ [newEntry] else new
    if new.length = newSize then pure (new, a) else .error .indexError

/-- `_get_covered_keys_and_masks`, ordered_covering.py:752-777. -/
def covered (t : List Entry) (a : Aliases) (m : Merge) : List KM :=
  (t.drop m.insertionIndex).flatMap (fun e =>
    (aliasesOf a (kmOf e)).filter (fun km => intersect m.km km))

/-- The bits (as positions) set in a word, lowest first, ordered_covering.py:44, 694. -/
def bitsSet (w : Word) : List Nat := (List.range 32).filter (fun i => w.getLsbD i)

/-- One round of the loop over the covered key/masks, ordered_covering.py:684-704: the least number
of settable bits seen so far and the set of bits and values to remove. -/
def stringent (mask : Word) (s : Nat × List (Nat × Bool)) (km : KM) : Nat × List (Nat × Bool) :=
  let settable := bitsSet (km.2 &&& ~~~mask)
  let new := settable.map (fun b => (b, !km.1.getLsbD b))
  if settable.length ≤ s.1 then
    if settable.length < s.1 then (settable.length, new)
    else (s.1, s.2 ++ new)
  else s

/-- `sorted(bits_and_vals, reverse=True)`, ordered_covering.py:721: highest bit first, for one bit
`True` before `False`. -/
def sortedBits (s : List (Nat × Bool)) : List (Nat × Bool) :=
  ((List.range 32).reverse.flatMap (fun b => [(b, true), (b, false)])).filter (fun x => decide (x ∈ s))

/-- The inner loop which finds the entries to remove for one bit, ordered_covering.py:722-733. -/
def workingRemove (t : List Entry) (bit : Nat) (val : Bool) : List Nat → Except PyErr (List Nat)
  | [] => .ok []
  | i :: is => do
    let e ← getE t i
    let rest ← workingRemove t bit val is
    if !e.mask.getLsbD bit || (e.key.getLsbD bit == !val) then pure (i :: rest) else pure rest

/-- The loop over the bits, ordered_covering.py:720-741 (the merge is replaced in every round). -/
def removeLoop (t : List Entry) : List (Nat × Bool) → List Nat → Merge → Except PyErr Merge
  | [], _, m => .ok m
  | (bit, val) :: rest, remove, m => do
    let working ← workingRemove t bit val m.entries
    let remove := if remove = [] ∨ working.length < remove.length then working else remove
    let m ← mkMerge t (m.entries.filter (fun i => decide (i ∉ remove)))
    removeLoop t rest remove m

/-- `_refine_downcheck`, ordered_covering.py:547-749, with at most `fuel` rounds. -/
def downcheck (t : List Entry) (a : Aliases) (minGoodness : Int) : Nat → Merge → Except PyErr Merge
  | 0, _ => .error .outOfFuel
  | fuel + 1, m =>
    if m.goodness > minGoodness then do
      let s := (covered t a m).foldl (stringent m.km.2) (33, [])
      if s.1 = 33 then pure m
      else if s.1 = 0 then mkMerge t []
      else
        let m ← removeLoop t (sortedBits s.2) [] m
        downcheck t a minGoodness fuel m
    else mkMerge t []

/-- The loop of `_refine_upcheck`, ordered_covering.py:526-541: the merge and whether it was
changed. -/
def upcheckLoop (t : List Entry) (minGoodness : Int) : List Nat → Merge → Bool →
    Except PyErr (Merge × Bool)
  | [], m, changed => .ok (m, changed)
  | i :: is, m, changed => do
    let e ← getE t i
    if ((t.take m.insertionIndex).drop (i + 1)).any (fun o => intersect (kmOf e) (kmOf o)) then do
      let m ← mkMerge t (m.entries.filter (fun j => decide (j ≠ i)))
      if m.goodness ≤ minGoodness then do
        let m ← mkMerge t []
        pure (m, true)
      else upcheckLoop t minGoodness is m true
    else upcheckLoop t minGoodness is m changed

/-- `_refine_upcheck`, ordered_covering.py:498-544. -/
def upcheck (t : List Entry) (minGoodness : Int) (m : Merge) : Except PyErr (Merge × Bool) :=
  upcheckLoop t minGoodness m.entries.reverse m false

/-- `_refine_merge`, ordered_covering.py:460-495. -/
def refineMerge (fuel : Nat) (t : List Entry) (a : Aliases) (minGoodness : Int) (m : Merge) :
    Except PyErr Merge := do
  let m ← downcheck t a minGoodness fuel m
  if m.goodness > minGoodness then do
    let (m, changed) ← upcheck t minGoodness m
    if changed ∧ m.goodness > minGoodness then downcheck t a minGoodness fuel m
    else pure m
  else pure m

/-- The candidate with first entry `i` in `_get_all_merges`, ordered_covering.py:290-295. -/
def sameRoute (t : List Entry) (i : Nat) (e : Entry) : List Nat :=
  i :: ((List.range t.length).drop (i + 1)).filter (fun j =>
    match t[j]? with
    | some o => decide (e.route = o.route)
    | none => false)

/-- `_get_all_merges`, ordered_covering.py:274-303, from index `i` on: the sets of indices. -/
def allMerges (t : List Entry) : Nat → List Entry → List Nat → List (List Nat)
  | _, [], _ => []
  | i, e :: rest, considered =>
    if i ∈ considered then allMerges t (i + 1) rest considered
    else
      let merge := sameRoute t i e
      let rest := allMerges t (i + 1) rest (considered ++ merge)
      if merge.length > 1 then merge :: rest else rest

/-- The loop of `_get_best_merge`, ordered_covering.py:253-268. -/
def bestLoop (fuel : Nat) (t : List Entry) (a : Aliases) : List (List Nat) → Merge → Int →
    Except PyErr Merge
  | [], best, _ => .ok best
  | c :: cs, best, goodness => do
    let m ← mkMerge t c
    if m.goodness ≤ goodness then bestLoop fuel t a cs best goodness
    else do
      let m ← refineMerge fuel t a goodness m
      if m.goodness > goodness then bestLoop fuel t a cs m m.goodness
      else bestLoop fuel t a cs best goodness

/-- `_get_best_merge`, ordered_covering.py:228-271. -/
def bestMerge (fuel : Nat) (t : List Entry) (a : Aliases) : Except PyErr Merge := do
  let empty ← mkMerge t []
  bestLoop fuel t a (allMerges t 0 t []) empty 0

/-- The main loop of `ordered_covering`, ordered_covering.py:166-184, with at most `fuel` rounds.
`timeUp n` says whether the time limit is found exceeded after round `n` (always false without a
limit). -/
def mainLoop (target : Option Nat) (timeUp : Nat → Bool) : Nat → Nat → List Entry → Aliases →
    Except PyErr (List Entry × Aliases)
  | 0, _, _, _ => .error .outOfFuel
  | fuel + 1, round, t, a =>
    if target.all (fun n => decide (t.length > n)) then do
      let m ← bestMerge (t.length + 1) t a
      if m.goodness ≤ 0 then pure (t, a)
      else do
        let (t, a) ← apply t a m
        if timeUp round then .error .minimisationFailed
        else mainLoop target timeUp fuel (round + 1) t a
    else pure (t, a)

/-- `sorted(routing_table, key=_get_entry_generality)`, ordered_covering.py:164. -/
def sortGen (t : List Entry) : List Entry :=
  stableSort (fun a b => decide (generality (kmOf a) ≤ generality (kmOf b))) t

/-- `ordered_covering`, ordered_covering.py:100-193. -/
def orderedCovering (fuel : Nat) (timeUp : Nat → Bool) (t : List Entry) (target : Option Nat)
    (a : Aliases) (noRaise : Bool) : Except PyErr (List Entry × Aliases) := do
  let (t, a) ← mainLoop target timeUp fuel 0 (sortGen t) a
  if !noRaise && target.any (fun n => decide (t.length > n)) then .error .minimisationFailed
  else pure (t, a)

/-- `remove_default_routes`, utils.py:53-112. A target of 0 counts as no target. -/
def removeDefaultRoutes (t : List Entry) (target : Option Nat) (check : Bool) :
    Except PyErr (List Entry) :=
  let oneMask := (t.map (·.mask)).eraseDups.length = 1
  let keysUnique := t.length = (t.map (·.key)).eraseDups.length
  let check := check && !(decide oneMask && decide keysUnique)
  let new := if check then keep t else t.filter (fun e => !e.defaultable)
  if target.any (fun n => decide (n ≠ 0 ∧ new.length > n)) then .error .minimisationFailed
  else .ok new
where
  /-- The loop with the check, utils.py:95-105. -/
  keep : List Entry → List Entry
    | [] => []
    | e :: rest =>
      if !e.defaultable then e :: keep rest
      else if rest.any (fun d => intersect (kmOf e) (kmOf d)) then e :: keep rest
      else keep rest

/-- `_OrderedCoveringCompressor.compress_table`, ordered_covering.py:66-97. `target` is `none` for
compression as far as possible, otherwise the number of entries of the router. -/
def compressTable (fuel : Nat) (t : List Entry) (target : Option Nat) : Except PyErr (List Entry) := do
  let (t, _) ← orderedCovering fuel (fun _ => false) t target [] true
  removeDefaultRoutes t target true

end Pacman.OC
