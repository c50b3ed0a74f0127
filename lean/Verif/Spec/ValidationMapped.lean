import Verif.Spec.Compressed
import Verif.Spec.Wanted
import Verif.Spec.Generators
/-
What the check of the routes is run on when a graph has been mapped.
-/

namespace Pacman.Pipe

open Alloc (Infos)
open Router (Net Leaves NetSends NetAsked)
open Tables (TablesMap)

/-- What `validate_routes` sees of a mapped graph, valid_routes_checker.py:61-127: devices are virtual and not placed
(`get_placement_of_vertex`, pacman/data/pacman_data_view.py), all else is where `locate` says; the routing tables are
`tm` and the routing infos `infos`; `atoms` is `vertex_slice.n_atoms`. -/
def checked (N : Net) (infos : Infos) (tm : TablesMap) (atoms : Nat → Nat) : Valid.World where
  net := N
  scene := sceneOf N.base.T tm
  place := fun m => (N.base.locate m).2.1.map (fun p => ((N.base.locate m).1, p))
  virtual := fun m => (N.base.locate m).2.1.isNone
  info := fun m ident => (Gen.machIn infos m ident).map (·.key)
  atoms := atoms

/-- Each vertex that sends from a core has at least one atom, and a key for each of its atoms, from its first key on. -/
def Keyed (N : Net) (infos : Infos) (atoms : Nat → Nat) : Prop :=
  ∀ a ident m, Leaves N a ident → NetSends N a ident m → (N.base.locate m).2.1.isSome = true →
    0 < atoms m ∧ ∃ key mask index, .mach ident m key mask index ∈ infos ∧ key + atoms m ≤ 2 ^ 32 ∧
      ∀ i, i < atoms m → (key + i) &&& mask = key

/-- How many keys a machine vertex is sure to get: as many as it asks for; with a fixed key, as many as the mask leaves open, which
is ones followed by zeros. -/
def sureKeys (K : Keys) (a ident m : Nat) : Nat :=
  match K.fixed a ident with
  | none => K.nKeys m ident
  | some akm => 2 ^ 32 - ((K.machFixed m ident).getD akm).2.toNat

/-- All targets are on cores. -/
def OnCores (N : Net) : Prop :=
  ∀ a ident t, Leaves N a ident → NetAsked N a ident t → (N.base.locate t).2.1.isSome = true

/-- On no chip that packets of a vertex get to does an entry begin with the key after the last one of its atoms. -/
def NoneBeside (N : Net) (infos : Infos) (tm : TablesMap) (atoms : Nat → Nat) : Prop :=
  ∀ a ident m key mask index, Leaves N a ident → NetSends N a ident m → (N.base.locate m).2.1.isSome = true →
    .mach ident m key mask index ∈ infos →
    ∀ w c, Valid.Way (sceneOf N.base.T tm) (BitVec.ofNat 32 key) (N.base.locate m).1 w c →
    ∀ e ∈ (sceneOf N.base.T tm).entries c, e.key.toNat ≠ key + atoms m

end Pacman.Pipe
