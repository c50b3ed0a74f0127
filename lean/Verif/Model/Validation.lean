import Verif.Model.RouterGraph
/-
Model of `operations/multi_cast_router_check_functionality/valid_routes_checker.py`.
-/

namespace Pacman.Valid

open Alloc (VId)
open RPath (XY)
open Router (Net AppPart)

/-- `range_masks`, valid_routes_checker.py:39. -/
def rangeMasks : List Word := (List.range 33).map (fun i => BitVec.ofNat 32 (2 ^ 32 - 1 - (2 ^ i - 1)))

/-- `last_key`, valid_routes_checker.py:412 and 420. -/
def lastKey (e : Entry) : Nat := e.key.toNat + (~~~ e.mask).toNat

/-- The loop of `_locate_routing_entry`, valid_routes_checker.py:398-425. Warnings are left out; sums
are not cut off at 32 bits. -/
def locateLoop (key : Word) (n : Nat) : List Entry → Option Entry → Except PyErr (Option Entry)
  | [], found => .ok found
  | e :: es, found =>
    if e.mask &&& key = e.key then
      if decide (e.mask ∈ rangeMasks) && decide ((lastKey e : Int) < (key.toNat : Int) + n - 1) then
        .error .routing
      else locateLoop key n es (if found.isNone then some e else found)
    else if decide (e.mask ∈ rangeMasks) &&
        decide (min (lastKey e : Int) (key.toNat + n) - max (e.key.toNat : Int) key.toNat + 1 > 0) then
      .error .configuration
    else locateLoop key n es found

/-- `_locate_routing_entry`, valid_routes_checker.py:384-428. -/
def locate (t : List Entry) (key : Word) (n : Nat) : Except PyErr Entry :=
  match locateLoop key n t none with
  | .error err => .error err
  | .ok none => .error .routing
  | .ok (some e) => .ok e

/-- `_check_all_keys_hit_entry`, valid_routes_checker.py:251-267. The mask has 32 bits, so that it makes
no difference that the sum is cut off at 32 bits. -/
def badKeys (e : Entry) (n : Nat) (base : Word) : List Word :=
  ((List.range n).map (fun i => base + BitVec.ofNat 32 i)).filter (fun k => decide (e.mask &&& k ≠ e.key))

/-- `entry.link_ids` (external): the bits of the route word below 6, in the order in which Python goes
through a set of small numbers. -/
def linksOf (e : Entry) : List Nat := (List.range 6).filter (fun l => e.route.testBit l)

/-- `entry.processor_ids` (external): the bits of the route word from 6 on. -/
def procsOf (e : Entry) : List Nat :=
  (List.range (Nat.log2 e.route)).filter (fun p => e.route.testBit (6 + p))

/-- The machine and the routing tables.
* `link`: `PacmanDataView.get_chip_at(x, y).router.get_link(link_id)`, its destination; `none` if there
  is no such link;
* `tables`: the `MulticastRoutingTables`: the entries of each table. -/
structure Scene where
  link : XY → Nat → Option XY
  tables : Dict XY (List Entry)

/-- `visited_routers`, `reached_placements` and `failed_to_cover_all_keys_routers`. -/
structure Trace where
  visited : List XY
  reached : List (XY × Nat)
  failed : List (XY × List Word)
  deriving DecidableEq, Repr

/-- `_is_dest`, valid_routes_checker.py:365-381. The sets are lists. -/
def Trace.dest (st : Trace) (c : XY) (e : Entry) : Trace :=
  { st with reached := st.reached ++ (procsOf e).map (fun p => (c, p)) }

/-- Lines 325-336 of valid_routes_checker.py: `_check_visited_routers` (349-362) has added the next router; its
entry is checked. -/
def Trace.enter (st : Trace) (d : XY) (e : Entry) (n : Nat) (key : Word) : Trace :=
  { st with
    visited := st.visited ++ [d]
    failed := if badKeys e n key = [] then st.failed else st.failed ++ [(d, badKeys e n key)] }

/-- The loop over the links, valid_routes_checker.py:313-342; `rec_` is the recursive call. -/
def overLinks (V : Scene) (key : Word) (n : Nat) (rec_ : XY → Entry → Trace → Except PyErr Trace)
    (c : XY) : List Nat → Trace → Except PyErr Trace
  | [], st => .ok st
  | l :: ls, st =>
    match V.link c l with
    | none => overLinks V key n rec_ c ls st
    | some d =>
      match V.tables.get? d with
      | none => overLinks V key n rec_ c ls st
      | some t =>
        if d ∈ st.visited then .error .routing
        else
          match locate t key n with
          | .error err => .error err
          | .ok e =>
            match rec_ d e (st.enter d e n key) with
            | .error err => .error err
            | .ok st => overLinks V key n rec_ c ls st

/-- `_recursive_trace_to_destinations`, valid_routes_checker.py:271-346. The recursion ends (proved). -/
def traceFrom (V : Scene) (key : Word) (n : Nat) : Nat → XY → Entry → Trace → Except PyErr Trace
  | 0, _, _, _ => .error .outOfFuel
  | fuel + 1, c, e, st => overLinks V key n (traceFrom V key n fuel) c (linksOf e) (st.dest c e)

/-- `_start_trace_via_routing_tables`, valid_routes_checker.py:214-248. -/
def start (V : Scene) (key : Word) (n fuel : Nat) (src : XY) : Except PyErr Trace :=
  match V.tables.get? src with
  | none => .ok ⟨[], [], []⟩
  | some t =>
    match locate t key n with
    | .error err => .error err
    | .ok e => traceFrom V key n fuel src e ⟨[src], [], []⟩

/-- The loop over the destinations, valid_routes_checker.py:163-168: what remains of
`located_destinations`, and `failed_to_reach_destinations`. -/
def strike : List (XY × Nat) → List (XY × Nat) → List (XY × Nat) → List (XY × Nat) × List (XY × Nat)
  | [], located, failed => (located, failed)
  | d :: ds, located, failed =>
    if d ∈ located then strike ds (located.filter (fun x => decide (x ≠ d))) failed
    else strike ds located (failed ++ [d])

/-- `_search_route`, valid_routes_checker.py:130-211. Only the type of the exception is modelled. -/
def search (V : Scene) (fuel : Nat) (src : XY) (dests : List (XY × Nat)) (key : Word) (n : Nat) :
    Except PyErr Unit :=
  match start V key n fuel src with
  | .error err => .error err
  | .ok st =>
    let r := strike dests st.reached []
    if r.2 ≠ [] ∨ r.1 ≠ [] ∨ st.failed ≠ [] then .error .routing else .ok ()

/-! ### All partitions -/

/-- What `validate_routes` asks.
* `net`: the graph and the splitters, see `Router.Net`;
* `place`: `get_placement_of_vertex`; `none` if the vertex is not placed;
* `virtual`: `isinstance(m_vertex, AbstractVirtual)`;
* `info`: `routing_infos.get_info_from(m_vertex, identifier)`, its key; `none` if there is none;
* `atoms`: `m_vertex.vertex_slice.n_atoms`. -/
structure World where
  net : Net
  scene : Scene
  place : Nat → Option (XY × Nat)
  virtual : Nat → Bool
  info : Nat → Nat → Option Word
  atoms : Nat → Nat

/-- `destinations`. -/
abbrev Dests := Dict Nat (List (XY × Nat))

/-- `s.add(x)` on an `OrderedSet`. -/
def setAdd {α : Type} [DecidableEq α] (l : List α) (x : α) : List α := if x ∈ l then l else l ++ [x]

/-- `destinations[s].add(...)`. -/
def Dests.put (D : Dests) (s : Nat) (p : XY × Nat) : Dests := D.set s (setAdd ((D.get? s).getD []) p)

/-- The loop over `srcs`, valid_routes_checker.py:92-100. -/
def addSources (W : World) (ident : Nat) (p : XY × Nat) : List VId → Dests → Except PyErr Dests
  | [], D => .ok D
  | .app a :: vs, D =>
    match W.net.outgoing ident a with
    | none => .error .configuration
    | some ms => addSources W ident p vs (ms.foldl (fun D s => D.put s p) D)
  | .mach m :: vs, D => addSources W ident p vs (D.put m p)

/-- The loop over `target_vertices`, valid_routes_checker.py:90-100. -/
def addTargets (W : World) (ident : Nat) : List (Nat × List VId) → Dests → Except PyErr Dests
  | [], D => .ok D
  | v :: vs, D =>
    match W.place v.1 with
    | none => .error .notPlaced
    | some p =>
      match addSources W ident p v.2 D with
      | .error err => .error err
      | .ok D => addTargets W ident vs D

/-- The loop over the edges, valid_routes_checker.py:84-100. -/
def addEdges (W : World) (source ident : Nat) : List Nat → Dests → Except PyErr Dests
  | [], D => .ok D
  | d :: ds, D =>
    match addTargets W ident (W.net.incoming d source ident) D with
    | .error err => .error err
    | .ok D => addEdges W source ident ds D

/-- The loop over the edges of an internal partition, valid_routes_checker.py:108-112. -/
def addPosts (W : World) (pre : Nat) : List Nat → Dests → Except PyErr Dests
  | [], D => .ok D
  | t :: ts, D =>
    match W.place t with
    | none => .error .notPlaced
    | some p => addPosts W pre ts (D.put pre p)

/-- The loop over the internal partitions, valid_routes_checker.py:105-112: `outgoing` and
`destinations`. -/
def addInternal (W : World) (ident : Nat) : List (Nat × Nat × List Nat) → List Nat → Dests →
    Except PyErr (List Nat × Dests)
  | [], out, D => .ok (out, D)
  | i :: is, out, D =>
    if i.1 = ident then
      match addPosts W i.2.1 i.2.2 D with
      | .error err => .error err
      | .ok D => addInternal W ident is (setAdd out i.2.1) D
    else addInternal W ident is out D

/-- One round of the loop over `outgoing`, valid_routes_checker.py:117-127. -/
def checkVertex (W : World) (fuel : Nat) (ident : Nat) (D : Dests) (m : Nat) : Except PyErr Unit :=
  if W.virtual m then .ok ()
  else
    match W.place m with
    | none => .error .notPlaced
    | some p =>
      match W.info m ident with
      | none => .error .keyError
      | some key => search W.scene fuel p.1 ((D.get? m).getD []) key (W.atoms m)

/-- One round of the loop over the partitions, valid_routes_checker.py:77-127. Without a splitter the
source raises. -/
def checkPartition (W : World) (fuel : Nat) (p : AppPart) : Except PyErr Unit :=
  match addEdges W p.pre p.ident p.edges [] with
  | .error err => .error err
  | .ok D =>
    match W.net.outgoing p.ident p.pre, W.net.internals p.pre with
    | some ms, some is =>
      match addInternal W p.ident is (ms.foldl setAdd []) D with
      | .error err => .error err
      | .ok (out, D) => forE (checkVertex W fuel p.ident D) out
    | _, _ => .error .configuration

/-- `validate_routes`, valid_routes_checker.py:61-127. -/
def validate (W : World) (fuel : Nat) : Except PyErr Unit :=
  match Router.appPartitions W.net with
  | .error err => .error err
  | .ok ps => forE (checkPartition W fuel) ps

end Pacman.Valid
