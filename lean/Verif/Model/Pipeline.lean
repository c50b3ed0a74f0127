import Verif.Model.RouterGraph
import Verif.Model.CompressorDriver
import Verif.Spec.Generators
/-
How the steps from a graph to routing tables are put together: the input of
`ZonedRoutingInfoAllocator.allocate` and the outer loops of the routing table generators.
-/

namespace Pacman.Pipe

open Alloc (VId Part MVertex Infos)
open Router (Net AppPart)
open Tables (UTable TablesMap addTable)

/-- What the allocator asks of the vertices besides `splitter.get_out_going_vertices`.
* `fixed a i`: `a.get_fixed_key_and_mask(i)`;
* `nKeys m i`: `m.get_n_keys_for_partition(i)`;
* `machFixed m i`: `a.get_machine_fixed_key_and_mask(m, i)` for the application vertex `a` of `m`;
* `loAtom m`: `m.vertex_slice.lo_atom`; `index m`: `m.index`;
* `extra`: `extra_allocations`. -/
structure Keys where
  fixed : Nat → Nat → Option (Word × Word)
  nKeys : Nat → Nat → Nat
  machFixed : Nat → Nat → Option (Word × Word)
  loAtom : Nat → Nat
  index : Nat → Nat
  extra : List (Nat × Nat)

/-- `OrderedSet(...)` of spinn_utilities: each element once, where it comes first. -/
def orderedSet (l : List (Nat × Nat)) : List (Nat × Nat) :=
  l.foldl (fun s x => if x ∈ s then s else s ++ [x]) []

/-- A machine vertex as the allocator sees it. -/
def Keys.vertex (K : Keys) (ident m : Nat) : MVertex :=
  ⟨m, K.nKeys m ident, K.loAtom m, K.machFixed m ident, K.index m⟩

/-- What `__find_fixed` and the later loops ask for one of the pairs,
zoned_routing_info_allocator.py:161-166 and 220-221. -/
def partFor (N : Net) (K : Keys) (p : Nat × Nat) : Except PyErr Part :=
  match N.outgoing p.2 p.1 with
  | none => .error .configuration
  | some ms =>
    .ok ⟨p.1, p.2, ms.map (K.vertex p.2), K.fixed p.1 p.2, (N.base.machines p.1).length⟩

/-- The same for all pairs. -/
def partsFor (N : Net) (K : Keys) : List (Nat × Nat) → Except PyErr (List Part)
  | [] => .ok []
  | p :: ps =>
    match partFor N K p with
    | .error err => .error err
    | .ok q =>
      match partsFor N K ps with
      | .error err => .error err
      | .ok qs => .ok (q :: qs)

/-- `__vertex_partitions`, zoned_routing_info_allocator.py:137-140. -/
def vertexParts (N : Net) (K : Keys) : Except PyErr (List Part) :=
  match Router.appPartitions N with
  | .error err => .error err
  | .ok ps => partsFor N K (orderedSet (ps.map (fun p => (p.pre, p.ident)) ++ K.extra))

/-- `allocate`, zoned_routing_info_allocator.py:122-151. Simplified: a missing splitter raises before
anything else; in Python it raises in the loop of `__find_fixed`, after the checks of earlier pairs. -/
def allocateFor (flexible : Bool) (N : Net) (K : Keys) : Except PyErr Infos :=
  match vertexParts N K with
  | .error err => .error err
  | .ok ps => Alloc.allocate flexible ps

/-- Which of the two generators makes the tables. -/
inductive Generator where
  | basic
  | merged
  deriving DecidableEq, Repr

/-- `__create_routing_table` of the generator. -/
def Generator.create (g : Generator) (same : Entry → Entry → Bool) (w : Gen.World) (x y : Nat)
    (items : List Gen.Item) : Except PyErr UTable :=
  match g with
  | .basic => Gen.createBasic same w x y items
  | .merged => Gen.createMerged same w x y items

/-- The loop over the routers, merged_routing_table_generator.py:42-47 and
basic_routing_table_generator.py:37-43. `get_entries_for_router` finds what `get_routers` lists. The
coordinates of tables are natural numbers here, as those of chips are. -/
def generateLoop (g : Generator) (same : Entry → Entry → Bool) (w : Gen.World) :
    ByPart.State → TablesMap → Except PyErr TablesMap
  | [], m => .ok m
  | (c, items) :: rest, m =>
    match g.create same w c.1.toNat c.2.toNat items with
    | .error err => .error err
    | .ok t =>
      match addTable m (.u t) with
      | .error err => .error err
      | .ok m => generateLoop g same w rest m

/-- `merged_routing_table_generator`, merged_routing_table_generator.py:29-49, and
`basic_routing_table_generator`, basic_routing_table_generator.py:25-45. -/
def generate (g : Generator) (same : Entry → Entry → Bool) (w : Gen.World) (S : ByPart.State) :
    Except PyErr TablesMap := generateLoop g same w S []

end Pacman.Pipe
