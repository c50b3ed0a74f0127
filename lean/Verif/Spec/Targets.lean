import Verif.Model.Targets
/-
What was asked of a `_Targets` object, and what it answers.
-/

namespace Pacman.Targets

open Alloc (VId)

/-- The machine vertices an application vertex sends with are its own. -/
def Owned (e : Env) : Prop :=
  ∀ a l m, e.outgoing a = some l → m ∈ l → e.appOf m = some a

/-- A call asks that vertex `v` reaches core `c`. -/
def Op.asksCore (v : VId) (c : Nat) : Op → Prop
  | .add core _ vs => core = some c ∧ v ∈ vs
  | .addMachine core _ vs => core = some c ∧ v ∈ vs

/-- A call asks that vertex `v` reaches link `k`. -/
def Op.asksLink (v : VId) (k : Nat) : Op → Prop
  | .add _ link vs => link = some k ∧ v ∈ vs
  | .addMachine _ link vs => link = some k ∧ v ∈ vs

/-- `v` is machine vertex `m`, or the application vertex that sends with `m`. -/
def Covers (e : Env) (v : VId) (m : Nat) : Prop :=
  v = .mach m ∨ ∃ a l, v = .app a ∧ e.outgoing a = some l ∧ m ∈ l

/-- The cores and links that machine vertex `m` reaches: those of its own entry or else those of the
entry of the application vertex that sends with it. -/
def Serves (e : Env) (s : State) (m : Nat) (p : List Nat × List Nat) : Prop :=
  s.lists (.mach m) = some p ∨
    (s.lists (.mach m) = none ∧ ∃ a l, e.outgoing a = some l ∧ m ∈ l ∧ s.lists (.app a) = some p)

/-- The application vertex that a vertex is or belongs to; a machine vertex of no application vertex
is by itself. -/
def family (e : Env) : VId → VId
  | .app a => .app a
  | .mach m =>
    match e.appOf m with
    | some a => .app a
    | none => .mach m

/-- What a call asks for, vertex by vertex: `add_machine_sources_for_target` asks for the machine
vertices of an application vertex. -/
def requests (e : Env) : Op → List (VId × Option Nat × Option Nat)
  | .add core link vs => vs.map (fun v => (v, core, link))
  | .addMachine core link vs =>
    vs.flatMap (fun v =>
      match v with
      | .app a => ((e.outgoing a).getD []).map (fun m => (VId.mach m, core, link))
      | .mach m => [(VId.mach m, core, link)])

/-- Everything asked for vertex `v`, in order. -/
def gather (rs : List (VId × Option Nat × Option Nat)) (v : VId) : Option (List Nat × List Nat) :=
  if ∃ r ∈ rs, r.1 = v then
    some ((rs.filter (fun r => decide (r.1 = v))).filterMap (·.2.1),
      (rs.filter (fun r => decide (r.1 = v))).filterMap (·.2.2))
  else none

/-- A call names application vertex `a` as a whole. -/
def Op.whole (a : Nat) : Op → Prop
  | .add _ _ vs => VId.app a ∈ vs
  | .addMachine _ _ _ => False

/-- A call names machine vertices of application vertex `a`. -/
def Op.split (e : Env) (a : Nat) : Op → Prop
  | .add _ _ vs => ∃ m, VId.mach m ∈ vs ∧ e.appOf m = some a
  | .addMachine _ _ vs => VId.app a ∈ vs ∨ ∃ m, VId.mach m ∈ vs ∧ e.appOf m = some a

/-- Every application vertex is named either always as a whole or always by its machine vertices. -/
def Unmixed (e : Env) (os : List Op) : Prop :=
  ∀ a, (∃ o ∈ os, o.whole a) → ¬ ∃ o ∈ os, o.split e a

end Pacman.Targets
