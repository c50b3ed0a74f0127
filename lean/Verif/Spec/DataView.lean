import Verif.Model.DataView
/-
What is meant by the properties of the data view: they speak of the calls made so far, oldest first.
-/

namespace Pacman.View

/-- The values set for others to read. -/
inductive Slot where
  | placements | routingInfos | tags | uncompressed | precompressed | byPartition
  deriving DecidableEq, Repr

/-- The class that the value must have. -/
def Slot.cls : Slot → Cls
  | .placements => .placements
  | .routingInfos => .routingInfo
  | .tags => .tags
  | .uncompressed => .tables
  | .precompressed => .tables
  | .byPartition => .byPartition

/-- The call that sets the value. -/
def Slot.set : Slot → Val → Op
  | .placements => .setPlacements
  | .routingInfos => .setRoutingInfos
  | .tags => .setTags
  | .uncompressed => .setUncompressed
  | .precompressed => .setPrecompressed
  | .byPartition => .setByPartition

/-- What is read. -/
def Slot.get (d : Data) : Slot → Except PyErr Nat
  | .placements => thePlacements d
  | .routingInfos => getRoutingInfos d
  | .tags => getTags d
  | .uncompressed => getUncompressed d
  | .precompressed => getPrecompressed d
  | .byPartition => getByPartition d

/-- A call after which a new graph or a changed one is mapped anew. -/
def Wipes (o : Op) : Prop := o = .setup ∨ o = .hardReset

/-- Among these calls, there is one that sets `a`, and none after it sets anything or forgets it. -/
def LastSince {α : Type} (ops : List Op) (sets : Op → α → Prop) (wipes : Op → Prop) (a : α) : Prop :=
  ∃ pre o post, ops = pre ++ o :: post ∧ sets o a ∧ ∀ o' ∈ post, ¬ wipes o' ∧ ∀ b, ¬ sets o' b

/-- A set-up, or the beginning. -/
def Fresh (pre : List Op) (wipes : Op → Prop) : Prop := pre = [] ∨ ∃ p o, pre = p ++ [o] ∧ wipes o

/-- Among these calls, there is one that sets `a`, the first since the last that forgets. -/
def FirstSince {α : Type} (ops : List Op) (sets : Op → α → Prop) (wipes : Op → Prop) (a : α) : Prop :=
  ∃ pre mid o post, ops = pre ++ mid ++ o :: post ∧ Fresh pre wipes ∧ sets o a ∧
    (∀ o' ∈ mid, ¬ wipes o' ∧ ∀ b, ¬ sets o' b) ∧ ∀ o' ∈ post, ¬ wipes o'

/-- What a user may ask for. -/
inductive Asked where
  | boards (n : Int) | chips (n : Int)
  deriving DecidableEq, Repr

/-- A call that asks for a positive number of boards, or of chips. -/
def Asks (o : Op) : Asked → Prop
  | .boards n => 0 < n ∧ o = .setNRequired (.int n) .none
  | .chips n => 0 < n ∧ o = .setNRequired .none (.int n)

/-- A call that gives a positive number of chips that the graph needs. -/
def Needs (o : Op) (n : Int) : Prop := 0 < n ∧ o = .setNInGraph (.int n)

/-- The monitor of a call, for Ethernet chips. -/
def ethOf : Op → Option Nat
  | .addMonitor m _ => some m
  | _ => none

/-- The monitor of a call, if it is for all chips. -/
def allOf : Op → Option Nat
  | .addMonitor m true => some m
  | _ => none

/-- A call that adds this application vertex. -/
def Adds (o : Op) (v : Nat) : Prop := o = .viewAddVertex v ∨ o = .writerAddVertex v

end Pacman.View
