import Verif.Model.Generators
/-
Model of `_IteratorWithNext`, operations/routing_table_generators/merged_routing_table_generator.py:182-226, and of the merged
generator as it uses it.
-/

namespace Pacman.Iter

open Gen (World MInfo AppInfo Item Sources)
open ByPart (REntry)
open Tables (UTable)

/-- The exceptions of `_IteratorWithNext`: its own ones, and those that come from the iterable or from the code that uses it. -/
inductive Exc where
  | stopIteration
  | assertion
  | raised (e : PyErr)
  deriving DecidableEq, Repr

/-- What `next(iterator)` does: it returns an item (`none` is `None`), raises `StopIteration`, or anything else. -/
inductive Out (β : Type) where
  | item (x : Option β)
  | stop
  | raise (e : PyErr)

/-- The fields of the object, merged_routing_table_generator.py:191-197: the state of the iterator, `__next` and `__has_next`. -/
structure It (σ β : Type) where
  src : σ
  nxt : Option β
  has : Bool

variable {σ β : Type}

/-- `__init__`, merged_routing_table_generator.py:187-197. `next` is that of the iterator of the iterable. -/
def init (next : σ → Out β × σ) (s : σ) : Except Exc (It σ β) :=
  match next s with
  | (.item x, s) => .ok ⟨s, x, true⟩
  | (.stop, s) => .ok ⟨s, none, false⟩
  | (.raise e, _) => .error (.raised e)

/-- `peek`, merged_routing_table_generator.py:199-203. -/
def peek (it : It σ β) : Option β := it.nxt

/-- `has_next`, merged_routing_table_generator.py:205-210. -/
def hasNext (it : It σ β) : Bool := it.has

/-- `pop`, merged_routing_table_generator.py:212-226. If the iterator raises anything but `StopIteration` the fields keep their
values. -/
def pop (next : σ → Out β × σ) (it : It σ β) : It σ β × Except Exc β :=
  if it.has = false then (it, .error .stopIteration)
  else
    match it.nxt with
    | none => (it, .error .assertion)
    | some x =>
      match next it.src with
      | (.item y, s) => (⟨s, y, true⟩, .ok x)
      | (.stop, s) => (⟨s, none, false⟩, .ok x)
      | (.raise e, s) => ({ it with src := s }, .error (.raised e))

/-- The calls that a user can make. -/
inductive Call where
  | peek
  | hasNext
  | pop
  deriving DecidableEq, Repr

/-- What they return or raise. -/
inductive Res (β : Type) where
  | peeked (x : Option β)
  | has (b : Bool)
  | popped (r : Except Exc β)

/-- Calls one after the other, exceptions being caught. -/
def run (next : σ → Out β × σ) : It σ β → List Call → It σ β × List (Res β)
  | it, [] => (it, [])
  | it, .peek :: cs => ((run next it cs).1, .peeked (peek it) :: (run next it cs).2)
  | it, .hasNext :: cs => ((run next it cs).1, .has (hasNext it) :: (run next it cs).2)
  | it, .pop :: cs => ((run next (pop next it).1 cs).1, .popped (pop next it).2 :: (run next (pop next it).1 cs).2)

/-! ### The merged generator -/

/-- An exception raised elsewhere. -/
def up {α : Type} : Except PyErr α → Except Exc α
  | .ok a => .ok a
  | .error e => .error (.raised e)

/-- `__match`, merged_routing_table_generator.py:125-146. `None` cannot be unpacked. -/
def matchIt (w : World) (v p : Nat) (info : MInfo) (e : REntry) (app : AppInfo) (it : It σ Item) : Except Exc Bool :=
  if hasNext it = false then .ok false
  else if info.mask ≠ app.machineMask then .ok false
  else
    match peek it with
    | none => .error (.raised .typeError)
    | some ((nextV, nextPart), nextEntry) =>
      match nextV with
      | .app _ => .ok false
      | .mach nv =>
        if p ≠ nextPart then .ok false
        else if Gen.maskHasHoles info.mask then .ok false
        else
          match w.mach nv nextPart with
          | .error x => .error (.raised x)
          | .ok nextInfo =>
            if nextInfo.index ≠ info.index + 1 then .ok false
            else .ok (decide (w.appOf nv = w.appOf v) && decide (e.route = nextEntry.route))

/-- The `while` collecting entries to merge, merged_routing_table_generator.py:108-116, with at most `fuel` rounds. -/
def takeIt (next : σ → Out Item × σ) (w : World) (app : AppInfo) : Nat → Nat → Nat → MInfo → REntry → It σ Item →
    Except Exc (List (REntry × MInfo) × It σ Item)
  | 0, _, _, _, _, _ => .error (.raised .outOfFuel)
  | fuel + 1, v, p, info, e, it =>
    match matchIt w v p info e app it with
    | .error x => .error x
    | .ok false => .ok ([], it)
    | .ok true =>
      match pop next it with
      | (_, .error x) => .error x
      | (it, .ok ((v, p), e)) =>
        match v with
        | .app _ => .error .assertion
        | .mach v =>
          match w.mach v p with
          | .error x => .error (.raised x)
          | .ok info =>
            match takeIt next w app fuel v p info e it with
            | .error x => .error x
            | .ok (es, it) => .ok ((e, info) :: es, it)

/-- What one round of the loop adds to the table for its first source, merged_routing_table_generator.py:86-120. -/
def roundIt (next : σ → Out Item × σ) (w : World) (fuel : Nat) (src : Alloc.VId × Nat) (e : REntry) (it : It σ Item) :
    Except Exc (List Entry × It σ Item) :=
  match src.1 with
  | .app a =>
    match w.app a src.2 with
    | .error x => .error (.raised x)
    | .ok i =>
      match Gen.mkEntry i.key i.mask e with
      | .error x => .error (.raised x)
      | .ok y => .ok ([y], it)
  | .mach v =>
    match w.mach v src.2 with
    | .error x => .error (.raised x)
    | .ok i =>
      match w.appOf v with
      | none =>
        match Gen.mkEntry i.key i.mask e with
        | .error x => .error (.raised x)
        | .ok y => .ok ([y], it)
      | some a =>
        match w.app a src.2 with
        | .error x => .error (.raised x)
        | .ok app =>
          match takeIt next w app fuel v src.2 i e it with
          | .error x => .error x
          | .ok (es, it) =>
            match Gen.mergedKeysAndMasks app ((e, i) :: es) with
            | .error x => .error (.raised x)
            | .ok ys => .ok (ys, it)

/-- `while iterator.has_next`, merged_routing_table_generator.py:70-120, with at most `fuel` rounds. -/
def loopIt (next : σ → Out Item × σ) (same : Entry → Entry → Bool) (w : World) : Nat → It σ Item → Sources → UTable →
    Except Exc UTable
  | 0, _, _, _ => .error (.raised .outOfFuel)
  | fuel + 1, it, s, t =>
    if hasNext it = false then .ok t
    else
      match pop next it with
      | (_, .error x) => .error x
      | (it, .ok (src, e)) =>
        match w.keyMask src.1 src.2 with
        | .error x => .error (.raised x)
        | .ok km =>
          match Gen.checkSource s km src with
          | .error x => .error (.raised x)
          | .ok s =>
            match roundIt next w (fuel + 1) src e it with
            | .error x => .error x
            | .ok (xs, it) =>
              match UTable.addAll same t xs with
              | .error x => .error (.raised x)
              | .ok t => loopIt next same w fuel it s t

/-- `next` of the iterator of `partitions_in_table.items()`; the dictionary is not changed meanwhile. -/
def itemsNext {β : Type} : List β → Out β × List β
  | [] => (.stop, [])
  | x :: l => (.item (some x), l)

/-- `__create_routing_table`, merged_routing_table_generator.py:52-122, with its iterator. -/
def createMergedIt (same : Entry → Entry → Bool) (w : World) (x y : Nat) (fuel : Nat) (items : List Item) : Except Exc UTable :=
  match init itemsNext items with
  | .error e => .error e
  | .ok it => loopIt itemsNext same w fuel it [] (UTable.empty x y)

end Pacman.Iter
