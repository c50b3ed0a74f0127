import Verif.Model.RoutingTables
import Verif.Model.TableByPartition
/-
Model of `model/routing_info/app_vertex_routing_info.py` (`merge_machine_entries`) and of
`operations/routing_table_generators/`.
-/

namespace Pacman.Gen

open Alloc (VId clog2)
open ByPart (REntry)
open Tables (UTable)

/-- `MachineVertexRoutingInfo`, machine_vertex_routing_info.py:23-48. -/
structure MInfo where
  key : Word
  mask : Word
  index : Nat
  deriving DecidableEq, Repr

/-- `AppVertexRoutingInfo`, app_vertex_routing_info.py:29-56. -/
structure AppInfo where
  key : Word
  mask : Word
  machineMask : Word
  nBitsAtoms : Nat
  maxIndex : Int
  deriving DecidableEq, Repr

/-- `i & -i` on Python integers, for `i > 0`: the two's complement in any number of bits more than those
of `i` gives the same. -/
def lowBit (i : Nat) : Nat := i &&& (2 ^ (i.log2 + 1) - i)

/-- `__n_sequential_entries`, app_vertex_routing_info.py:99-107. Simplified: the floating point
`int(math.ceil(math.log2(n)))` is the exact ceiling, which it is for the lengths of lists in memory. -/
def nSequential (i n : Nat) : Nat := if i > 0 then lowBit i else 2 ^ clog2 n

/-- `__group_mask`, app_vertex_routing_info.py:96-97. A negative result (not possible for the callers that
are modelled, see the theorems) is an error here. -/
def groupMask (app : AppInfo) (n : Nat) : Except PyErr Word :=
  if app.machineMask.toNat < (n - 1) <<< app.nBitsAtoms then .error .valueError
  else .ok (BitVec.ofNat 32 (app.machineMask.toNat - ((n - 1) <<< app.nBitsAtoms)))

/-- The constructor of `spinn_machine.MulticastRoutingEntry`: the key may have no bit outside the mask. -/
def mkEntry (key mask : Word) (e : REntry) : Except PyErr Entry :=
  if key &&& mask = key then .ok ⟨key, mask, e.route, e.defaultable⟩ else .error .invalidParameter

/-- One `yield`, app_vertex_routing_info.py:82-83 and 91-92. -/
def yieldOne (app : AppInfo) (entries : List (REntry × MInfo)) (i n : Nat) : Except PyErr Entry := do
  let mask ← groupMask app n
  let (entry, info) ← getE entries i
  mkEntry info.key mask entry

/-- The inner `while`, app_vertex_routing_info.py:87-94, with at most `fuel` rounds. Simplified:
`int(math.log2(n))` is the exact floor. The outer loop ends after it, as `i` is then `n_entries`. -/
def splitLoop (app : AppInfo) (entries : List (REntry × MInfo)) : Nat → Nat → Nat →
    Except PyErr (List Entry)
  | 0, _, _ => .error .outOfFuel
  | fuel + 1, i, toGo =>
    if toGo = 0 then .ok []
    else do
      let n := 2 ^ toGo.log2
      let e ← yieldOne app entries i n
      let rest ← splitLoop app entries fuel (i + n) (toGo - n)
      pure (e :: rest)

/-- The outer `while`, app_vertex_routing_info.py:74-94, with at most `fuel` rounds. -/
def mergeLoop (app : AppInfo) (entries : List (REntry × MInfo)) (isLast : Bool) : Nat → Nat →
    Except PyErr (List Entry)
  | 0, _ => .error .outOfFuel
  | fuel + 1, i =>
    if i < entries.length then do
      let (_, info) ← getE entries i
      let n := nSequential info.index entries.length
      if n ≤ entries.length - i ∨ isLast then do
        let e ← yieldOne app entries i n
        let rest ← mergeLoop app entries isLast fuel (i + n)
        pure (e :: rest)
      else splitLoop app entries (entries.length + 1) i (entries.length - i)
    else .ok []

/-- `merge_machine_entries`, app_vertex_routing_info.py:58-94: all entries it yields. -/
def mergeEntries (app : AppInfo) (entries : List (REntry × MInfo)) : Except PyErr (List Entry) :=
  match entries.getLast? with
  | none => .error .indexError
  | some (_, info) =>
    mergeLoop app entries (decide ((info.index : Int) = app.maxIndex)) (entries.length + 1) 0

/-- What the generators ask: the infos of the routing info store and the application vertex of a machine
vertex. -/
structure World where
  appOf : Nat → Option Nat
  machInfo : Nat → Nat → Option MInfo
  appInfo : Nat → Nat → Option AppInfo

/-- `routing_info.get_info_from(vertex, part_id)` for a machine vertex. -/
def World.mach (w : World) (v p : Nat) : Except PyErr MInfo :=
  match w.machInfo v p with
  | some i => .ok i
  | none => .error .keyError

/-- The same for an application vertex. -/
def World.app (w : World) (v p : Nat) : Except PyErr AppInfo :=
  match w.appInfo v p with
  | some i => .ok i
  | none => .error .keyError

/-- `r_info.key_and_mask` of a source. -/
def World.keyMask (w : World) (src : VId) (p : Nat) : Except PyErr (Word × Word) :=
  match src with
  | .app a => do
    let i ← w.app a p
    pure (i.key, i.mask)
  | .mach m => do
    let i ← w.mach m p
    pure (i.key, i.mask)

/-- A source and partition with its entry. -/
abbrev Item := (VId × Nat) × REntry

/-- `sources_by_key_mask`. -/
abbrev Sources := Dict (Word × Word) (VId × Nat)

/-- The check of the key and mask, merged_routing_table_generator.py:75-84 and
basic_routing_table_generator.py:70-79. -/
def checkSource (s : Sources) (km : Word × Word) (src : VId × Nat) : Except PyErr Sources :=
  match s.get? km with
  | some other => if other ≠ src then .error .keyError else .ok s
  | none => .ok (s.set km src)

/-- The loop of `__create_routing_table`, basic_routing_table_generator.py:65-83. `same` is
`MulticastRoutingEntry.__eq__`. -/
def basicLoop (same : Entry → Entry → Bool) (w : World) : List Item → Sources → UTable →
    Except PyErr UTable
  | [], _, t => .ok t
  | (src, e) :: items, s, t => do
    let km ← w.keyMask src.1 src.2
    let s ← checkSource s km src
    let entry ← mkEntry km.1 km.2 e
    let t ← t.add same entry
    basicLoop same w items s t

/-- `__create_routing_table`, basic_routing_table_generator.py:48-83. -/
def createBasic (same : Entry → Entry → Bool) (w : World) (x y : Nat) (items : List Item) :
    Except PyErr UTable :=
  basicLoop same w items [] (UTable.empty x y)

/-- `__mask_has_holes`, merged_routing_table_generator.py:149-160. -/
def maskHasHoles (mask : Word) : Bool :=
  let inv := (~~~mask).toNat + 1
  decide (inv &&& (inv - 1) ≠ 0)

/-- `__match`, merged_routing_table_generator.py:125-146. -/
def matchNext (w : World) (v p : Nat) (info : MInfo) (e : REntry) (app : AppInfo) (items : List Item) :
    Except PyErr Bool :=
  match items with
  | [] => .ok false
  | ((next, nextPart), nextEntry) :: _ =>
    if info.mask ≠ app.machineMask then .ok false
    else match next with
      | .app _ => .ok false
      | .mach nv =>
        if p ≠ nextPart then .ok false
        else if maskHasHoles info.mask then .ok false
        else do
          let nextInfo ← w.mach nv nextPart
          if nextInfo.index ≠ info.index + 1 then pure false
          else pure (decide (w.appOf nv = w.appOf v) && decide (e.route = nextEntry.route))

/-- The `while` collecting entries to merge, merged_routing_table_generator.py:108-116: the entries after
the first, and what is left. The loop follows the list, so it ends. -/
def takeRun (w : World) (app : AppInfo) : Nat → Nat → MInfo → REntry → List Item →
    Except PyErr (List (REntry × MInfo) × List Item)
  | _, _, _, _, [] => .ok ([], [])
  | v, p, info, e, ((next, nextPart), nextEntry) :: items => do
    let m ← matchNext w v p info e app (((next, nextPart), nextEntry) :: items)
    match m, next with
    | true, .mach nv =>
      let nextInfo ← w.mach nv nextPart
      let (es, rest) ← takeRun w app nv nextPart nextInfo nextEntry items
      pure ((nextEntry, nextInfo) :: es, rest)
    | _, _ => pure ([], ((next, nextPart), nextEntry) :: items)

/-- `__merged_keys_and_masks`, merged_routing_table_generator.py:163-175. -/
def mergedKeysAndMasks (app : AppInfo) (entries : List (REntry × MInfo)) : Except PyErr (List Entry) :=
  match entries with
  | [] => .ok []
  | [(e, info)] => do
    let x ← mkEntry info.key info.mask e
    pure [x]
  | es => mergeEntries app es

/-- What one round of the loop adds to the table for its first source, and the items left,
merged_routing_table_generator.py:86-120. -/
def mergedRound (w : World) (src : VId × Nat) (e : REntry) (items : List Item) :
    Except PyErr (List Entry × List Item) :=
  match src.1 with
  | .app a => do
    let i ← w.app a src.2
    let x ← mkEntry i.key i.mask e
    pure ([x], items)
  | .mach v => do
    let i ← w.mach v src.2
    match w.appOf v with
    | none =>
      let x ← mkEntry i.key i.mask e
      pure ([x], items)
    | some a => do
      let app ← w.app a src.2
      let (es, rest) ← takeRun w app v src.2 i e items
      let xs ← mergedKeysAndMasks app ((e, i) :: es)
      pure (xs, rest)

/-- The loop of `__create_routing_table`, merged_routing_table_generator.py:70-120, with at most `fuel`
rounds. -/
def mergedLoop (same : Entry → Entry → Bool) (w : World) : Nat → List Item → Sources → UTable →
    Except PyErr UTable
  | 0, _, _, _ => .error .outOfFuel
  | _ + 1, [], _, t => .ok t
  | fuel + 1, (src, e) :: items, s, t => do
    let km ← w.keyMask src.1 src.2
    let s ← checkSource s km src
    let (xs, rest) ← mergedRound w src e items
    let t ← UTable.addAll same t xs
    mergedLoop same w fuel rest s t

/-- `__create_routing_table`, merged_routing_table_generator.py:52-122. -/
def createMerged (same : Entry → Entry → Bool) (w : World) (x y : Nat) (items : List Item) :
    Except PyErr UTable :=
  mergedLoop same w (items.length + 1) items [] (UTable.empty x y)

end Pacman.Gen
