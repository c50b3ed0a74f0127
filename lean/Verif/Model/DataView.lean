import Verif.Model.AppGraph
import Verif.Model.Placements
import Verif.Model.Sdram
/-
Model of `data/pacman_data_view.py` and `data/pacman_data_writer.py`.

The superclasses are of `SpiNNMachine` and `SpiNNUtilities`. Of them only `requires_mapping` is modelled (the flag:
set by `_setup`, `_mock` and `_hard_reset`, by `set_requires_mapping`, and cleared when a run has finished). A call that
is refused by a superclass (`check_valid_simulator`, a reset at the wrong time) does nothing here. The graph is never
`None` (pacman_data_view.py:93), so that test is left out. Objects are numbers.
-/

namespace Pacman.View

open AppGraph (Graph Objs Label)
open Parts (Edge)

/-- The classes that the setters test for. -/
inductive Cls where
  | placements | routingInfo | tags | tables | byPartition | other
  deriving DecidableEq, Repr

/-- An argument: `None`, an integer (or a Boolean, which is one), or another object of a class. -/
inductive Val where
  | none
  | int (i : Int)
  | obj (c : Cls) (id : Nat)
  deriving DecidableEq, Repr

/-- The fields of `_PacmanDataModel`, pacman_data_view.py:65-79, with `requires_mapping` of `UtilsDataView`. -/
structure Data where
  graph : Graph
  placements : Option Nat
  plan : Option Int
  precompressed : Option Nat
  allMonitors : List Nat
  ethMonitors : List Nat
  nBoards : Option Int
  nChips : Option Int
  nInGraph : Option Int
  routingInfos : Option Nat
  byPartition : Option Nat
  tags : Option Nat
  uncompressed : Option Nat
  mapping : Bool

/-- What is there: the data, the fields of the application vertices that their graph uses, and their machine
vertices (`_machine_vertices`, an `OrderedSet`). -/
structure World where
  data : Data
  objs : Objs
  made : Nat → List Nat

/-- `reset` of an application vertex, application_vertex.py:293-300: its machine vertices are forgotten. The splitter is
left out (see `Model/Splitters.lean`). -/
def resetVertex (made : Nat → List Nat) (v : Nat) : Nat → List Nat := fun w => if w = v then [] else made w

/-- `ApplicationGraph.reset`, application_graph.py:245-250. -/
def resetGraph (made : Nat → List Nat) (g : Graph) : Nat → List Nat := g.vertices.foldl resetVertex made

/-- `_PacmanDataModel._soft_reset`, pacman_data_view.py:118-121. -/
def softReset (w : World) : World := w

/-- `_PacmanDataModel._hard_reset`, pacman_data_view.py:100-116. A graph is always true. -/
def hardData (w : World) : World :=
  softReset { w with
    made := resetGraph w.made w.data.graph
    data := { w.data with
      placements := none, precompressed := none, allMonitors := [], ethMonitors := [], nInGraph := none,
      uncompressed := none, routingInfos := none, byPartition := none, tags := none } }

/-- `_PacmanDataModel._clear`, pacman_data_view.py:89-98. -/
def clearData (w : World) : World :=
  hardData { w with data := { w.data with graph := Graph.new, plan := none, nBoards := none, nChips := none } }

/-- `_setup` and `_mock`, pacman_data_writer.py:48-56. -/
def setup (w : World) : World :=
  clearData { w with data := { w.data with mapping := true } }

/-- `_hard_reset`, pacman_data_writer.py:58-61. -/
def hardReset (w : World) : World :=
  hardData { w with data := { w.data with mapping := true } }

/-! ### Setters -/

/-- `set_placements`, pacman_data_writer.py:68-77. -/
def setPlacements (d : Data) : Val → Data × Except PyErr Unit
  | .obj .placements i => ({ d with placements := some i }, .ok ())
  | _ => (d, .error .typeError)

/-- `set_routing_infos`, pacman_data_writer.py:79-88. -/
def setRoutingInfos (d : Data) : Val → Data × Except PyErr Unit
  | .obj .routingInfo i => ({ d with routingInfos := some i }, .ok ())
  | _ => (d, .error .typeError)

/-- `set_tags`, pacman_data_writer.py:90-99. -/
def setTags (d : Data) : Val → Data × Except PyErr Unit
  | .obj .tags i => ({ d with tags := some i }, .ok ())
  | _ => (d, .error .typeError)

/-- `set_uncompressed`, pacman_data_writer.py:101-112. -/
def setUncompressed (d : Data) : Val → Data × Except PyErr Unit
  | .obj .tables i => ({ d with uncompressed := some i }, .ok ())
  | _ => (d, .error .typeError)

/-- `set_precompressed`, pacman_data_writer.py:114-125. -/
def setPrecompressed (d : Data) : Val → Data × Except PyErr Unit
  | .obj .tables i => ({ d with precompressed := some i }, .ok ())
  | _ => (d, .error .typeError)

/-- `set_plan_n_timesteps`, pacman_data_writer.py:127-143. -/
def setPlan (d : Data) : Val → Data × Except PyErr Unit
  | .none => ({ d with plan := none }, .ok ())
  | .int i => if i < 0 then (d, .error .configuration) else ({ d with plan := some i }, .ok ())
  | .obj _ _ => (d, .error .typeError)

/-- `set_routing_table_by_partition`, pacman_data_writer.py:145-161. -/
def setByPartition (d : Data) : Val → Data × Except PyErr Unit
  | .obj .byPartition i => ({ d with byPartition := some i }, .ok ())
  | _ => (d, .error .typeError)

/-- `add_sample_monitor_vertex`, pacman_data_writer.py:182-204. `add_monitor_core` of the superclass is left out. -/
def addMonitor (d : Data) (m : Nat) (allChips : Bool) : Data :=
  let d := { d with ethMonitors := d.ethMonitors ++ [m] }
  if allChips then { d with allMonitors := d.allMonitors ++ [m] } else d

/-- The tests of the arguments of `set_n_required`, pacman_data_writer.py:217-236: the numbers, `none` for an early
return. -/
def checkRequired : Val → Val → Except PyErr (Option (Option Int × Option Int))
  | .none, .none => .ok none
  | .none, .obj _ _ => .error .typeError
  | .none, .int c => if c ≤ 0 then .error .valueError else .ok (some (none, some c))
  | .int b, .none => if b ≤ 0 then .error .valueError else .ok (some (some b, none))
  | .obj _ _, .none => .error .typeError
  | _, _ => .error .valueError

/-- `set_n_required`, pacman_data_writer.py:206-242. -/
def setNRequired (d : Data) (b c : Val) : Data × Except PyErr Unit :=
  match checkRequired b c with
  | .error e => (d, .error e)
  | .ok none => (d, .ok ())
  | .ok (some (b, c)) =>
    if d.nBoards.isSome ∨ d.nChips.isSome then (d, .error .valueError)
    else ({ d with nBoards := b, nChips := c }, .ok ())

/-- `set_n_chips_in_graph`, pacman_data_writer.py:244-256. -/
def setNInGraph (d : Data) : Val → Data × Except PyErr Unit
  | .int i => if i ≤ 0 then (d, .error .valueError) else ({ d with nInGraph := some i }, .ok ())
  | _ => (d, .error .typeError)

/-! ### The graph -/

/-- The graph's `add_vertex` on the world. -/
def graphAddVertex (w : World) (v : Nat) : World × Except PyErr Unit :=
  let r := AppGraph.addVertex w.data.graph w.objs v
  ({ w with data := { w.data with graph := r.1.1 }, objs := r.1.2 }, r.2)

/-- The graph's `add_edge` on the world. -/
def graphAddEdge (w : World) (e : Edge) (n : String) : World × Except PyErr Unit :=
  let r := AppGraph.addEdge w.data.graph w.objs e n
  ({ w with data := { w.data with graph := r.1 } }, r.2)

/-- `set_requires_mapping` of `UtilsDataView`. -/
def requireMapping (w : World) : World := { w with data := { w.data with mapping := true } }

/-- `PacmanDataView.add_vertex`, pacman_data_view.py:141-163, in a valid simulator. -/
def viewAddVertex (w : World) (v : Nat) : World × Except PyErr Unit := graphAddVertex (requireMapping w) v

/-- `PacmanDataView.add_edge`, pacman_data_view.py:165-192, in a valid simulator. -/
def viewAddEdge (w : World) (e : Edge) (n : String) : World × Except PyErr Unit := graphAddEdge (requireMapping w) e n

/-- `PacmanDataWriter.add_vertex`, pacman_data_writer.py:163-170. -/
def writerAddVertex (w : World) (v : Nat) : World × Except PyErr Unit :=
  if w.data.mapping = false then (w, .error .configuration) else graphAddVertex w v

/-- `PacmanDataWriter.add_edge`, pacman_data_writer.py:172-180. -/
def writerAddEdge (w : World) (e : Edge) (n : String) : World × Except PyErr Unit :=
  if w.data.mapping = false then (w, .error .configuration) else graphAddEdge w e n

/-- `get_outgoing_edge_partitions_starting_at_vertex`, pacman_data_view.py:283-299. -/
def startingAt (w : World) (v : Nat) : World × List AppGraph.Partition :=
  let r := w.data.graph.startingAt v
  ({ w with data := { w.data with graph := r.2 } }, r.1)

/-- `get_n_vertices`, pacman_data_view.py:238-251. -/
def getNVertices (w : World) : Nat := w.data.graph.nVertices

/-- `iterate_vertices`, pacman_data_view.py:194-208. -/
def iterateVertices (w : World) : List Nat := w.data.graph.vertices

/-- `get_vertices_by_type`, pacman_data_view.py:210-236; the class test is a parameter. -/
def getVerticesByType (w : World) (isType : Nat → Bool) : List Nat := w.data.graph.vertices.filter isType

/-- `get_n_partitions`, pacman_data_view.py:268-281. -/
def getNPartitions (w : World) : Nat := w.data.graph.nParts

/-- `iterate_partitions`, pacman_data_view.py:253-266. -/
def iteratePartitions (w : World) : List AppGraph.Partition := w.data.graph.partitions

/-- `get_edges`, pacman_data_view.py:301-312. -/
def getEdges (w : World) : List Edge := w.data.graph.edges

/-- `get_n_machine_vertices`, pacman_data_view.py:314-324. -/
def getNMachineVertices (w : World) : Nat := (w.data.graph.vertices.map (fun v => (w.made v).length)).sum

/-- `iterate_machine_vertices`, pacman_data_view.py:326-336. -/
def iterateMachineVertices (w : World) : List Nat := w.data.graph.vertices.flatMap w.made

/-- `remember_machine_vertex`, application_vertex.py:137-145, for this list only. -/
def remember (w : World) (v m : Nat) : World :=
  { w with made := fun u => if u = v then (if m ∈ w.made v then w.made v else w.made v ++ [m]) else w.made u }

/-! ### Getters -/

/-- `if ... is None: raise cls._exception(...)` and the value returned. -/
def avail {α : Type} : Option α → Except PyErr α
  | some a => .ok a
  | none => .error .unavailable

/-- `get_routing_infos`, pacman_data_view.py:464-474. -/
def getRoutingInfos (d : Data) : Except PyErr Nat := avail d.routingInfos

/-- `get_tags`, pacman_data_view.py:478-489. -/
def getTags (d : Data) : Except PyErr Nat := avail d.tags

/-- `get_uncompressed`, pacman_data_view.py:493-505. -/
def getUncompressed (d : Data) : Except PyErr Nat := avail d.uncompressed

/-- `get_precompressed`, pacman_data_view.py:507-523. -/
def getPrecompressed (d : Data) : Except PyErr Nat := avail d.precompressed

/-- `get_plan_n_timestep`, pacman_data_view.py:525-535. -/
def getPlan (d : Data) : Option Int := d.plan

/-- `get_routing_table_by_partition`, pacman_data_view.py:537-549. -/
def getByPartition (d : Data) : Except PyErr Nat := avail d.byPartition

/-- `if ..._placements is None: raise`, pacman_data_view.py:349-350 and in the other methods on placements (366, 381,
400, 414, 433, 457): the object they then use. -/
def thePlacements (d : Data) : Except PyErr Nat := avail d.placements

/-- The state of the `Placements` objects. -/
abbrev Heap := Nat → Plc.Store

/-- `iterate_placemements`, pacman_data_view.py:340-351. -/
def iteratePlacements (d : Data) (h : Heap) : Except PyErr (List Plc.Placement) :=
  match thePlacements d with
  | .error e => .error e
  | .ok i => .ok (Plc.placements (h i))

/-- `iterate_placements_by_vertex_type`, pacman_data_view.py:353-369; the class test is a parameter. -/
def iterateByType (d : Data) (h : Heap) (isType : Nat → Bool) : Except PyErr (List Plc.Placement) :=
  match thePlacements d with
  | .error e => .error e
  | .ok i => .ok (Plc.ofType (h i) isType)

/-- `iterate_placements_on_core`, pacman_data_view.py:371-383: the placements afterwards, and what is returned. -/
def iterateOnCore (d : Data) (h : Heap) (xy : Nat × Nat) : Heap × Except PyErr (List Plc.Placement) :=
  match thePlacements d with
  | .error e => (h, .error e)
  | .ok i =>
    let r := Plc.placementsOnChip (h i) xy
    (fun j => if j = i then r.1 else h j, .ok r.2)

/-- `iterate_placements_by_xy_and_type`, pacman_data_view.py:385-403; the class test is a parameter. -/
def iterateByXyType (d : Data) (h : Heap) (xy : Nat × Nat) (isType : Nat → Bool) : Heap × Except PyErr (List Plc.Placement) :=
  match thePlacements d with
  | .error e => (h, .error e)
  | .ok i =>
    let r := Plc.onChipOfType (h i) xy isType
    (fun j => if j = i then r.1 else h j, .ok r.2)

/-- `get_n_placements`, pacman_data_view.py:405-416. -/
def getNPlacements (d : Data) (h : Heap) : Except PyErr Nat :=
  match thePlacements d with
  | .error e => .error e
  | .ok i => .ok (Plc.nPlacements (h i))

/-- `get_placement_of_vertex`, pacman_data_view.py:418-438: it reads the dictionary of the `Placements` itself. -/
def getPlacementOfVertex (d : Data) (h : Heap) (v : Nat) : Except PyErr Plc.Placement :=
  match thePlacements d with
  | .error e => .error e
  | .ok i =>
    match (h i).byVertex.get? v with
    | some a => .ok a
    | none => .error .notPlaced

/-- `get_placement_on_processor`, pacman_data_view.py:440-460: the placements afterwards, and what is returned. -/
def getPlacementOnProcessor (d : Data) (h : Heap) (x y p : Nat) : Heap × Except PyErr Plc.Placement :=
  match thePlacements d with
  | .error e => (h, .error e)
  | .ok i =>
    let r := Plc.getOnProcessor (h i) x y p
    (fun j => if j = i then r.1 else h j, r.2)

/-- The loop of `get_all_monitor_sdram` and `get_ethernet_monitor_sdram`, pacman_data_view.py:565-568 and 583-586. `cost`
is `vertex.sdram_required`. -/
def sumSdram (cost : Nat → Sdram.Cost) : Sdram.Cost → List Nat → Except PyErr Sdram.Cost
  | c, [] => .ok c
  | c, m :: l =>
    match Sdram.add c (cost m) with
    | .error e => .error e
    | .ok c => sumSdram cost c l

/-- `get_all_monitor_sdram`, pacman_data_view.py:551-568. -/
def getAllMonitorSdram (d : Data) (cost : Nat → Sdram.Cost) : Except PyErr Sdram.Cost :=
  sumSdram cost (.const 0) d.allMonitors

/-- `get_ethernet_monitor_sdram`, pacman_data_view.py:570-586. -/
def getEthernetMonitorSdram (d : Data) (cost : Nat → Sdram.Cost) : Except PyErr Sdram.Cost :=
  sumSdram cost (.const 0) d.ethMonitors

/-- The SDRAM left on a chip by the monitors, chip_counter.py:48-51 and application_placer.py:112-115. `max` is
`version.max_sdram_per_chip`. The number of timesteps is never negative (see `C103_plan`). -/
def chipSdram (max : Int) (d : Data) (cost : Nat → Sdram.Cost) : Except PyErr Int :=
  match getAllMonitorSdram d cost with
  | .error e => .error e
  | .ok c =>
    match Sdram.total ((getPlan d).map Int.toNat) c with
    | .error e => .error e
    | .ok x => .ok (max - x)

/-- `has_n_boards_required`, pacman_data_view.py:590-599. -/
def hasNBoards (d : Data) : Bool := d.nBoards.isSome

/-- `get_n_boards_required`, pacman_data_view.py:601-614. -/
def getNBoards (d : Data) : Except PyErr Int := avail d.nBoards

/-- A field that is `None` or 0 is false. -/
def truthy : Option Int → Bool
  | some i => decide (i ≠ 0)
  | none => false

/-- `get_n_chips_needed`, pacman_data_view.py:616-637. -/
def getNChipsNeeded (d : Data) : Except PyErr Int :=
  if truthy d.nChips then avail d.nChips
  else if truthy d.nInGraph then avail d.nInGraph
  else .error .unavailable

/-- `has_n_chips_needed`, pacman_data_view.py:639-651. -/
def hasNChipsNeeded (d : Data) : Bool :=
  if d.nChips.isSome then true else d.nInGraph.isSome

/-- What `get_chips_boards_required_str` says, pacman_data_view.py:653-668: which of its sentences, and the number in
it. -/
inductive Requirement where
  | boards (n : Int) | chips (n : Int) | graph (n : Int) | unknown
  deriving DecidableEq, Repr

/-- `get_chips_boards_required_str`, pacman_data_view.py:653-668. -/
def requirement (d : Data) : Requirement :=
  if truthy d.nBoards then .boards (d.nBoards.getD 0)
  else if truthy d.nChips then .chips (d.nChips.getD 0)
  else if truthy d.nInGraph then .graph (d.nInGraph.getD 0)
  else .unknown

/-! ### Calls -/

/-- A call; the last three are not of the view: `vertex.set_label`, `vertex.remember_machine_vertex`, and the end of a
run, which clears `requires_mapping`. -/
inductive Op where
  | setup | hardReset | softReset
  | setPlacements (v : Val) | setRoutingInfos (v : Val) | setTags (v : Val) | setUncompressed (v : Val)
  | setPrecompressed (v : Val) | setByPartition (v : Val)
  | setPlan (v : Val) | addMonitor (m : Nat) (allChips : Bool)
  | setNRequired (b c : Val) | setNInGraph (v : Val)
  | viewAddVertex (v : Nat) | viewAddEdge (e : Edge) (n : String)
  | writerAddVertex (v : Nat) | writerAddEdge (e : Edge) (n : String)
  | startingAt (v : Nat)
  | setLabel (v : Nat) (l : Label) | remember (v m : Nat) | endRun
  deriving DecidableEq, Repr

/-- The world with other data. -/
def World.put (w : World) (r : Data × Except PyErr Unit) : World × Except PyErr Unit := ({ w with data := r.1 }, r.2)

/-- The world after a call, and whether it raised (not code: how the classes may be used). -/
def step (w : World) : Op → World × Except PyErr Unit
  | .setup => (setup w, .ok ())
  | .hardReset => (hardReset w, .ok ())
  | .softReset => (softReset w, .ok ())
  | .setPlacements v => w.put (setPlacements w.data v)
  | .setRoutingInfos v => w.put (setRoutingInfos w.data v)
  | .setTags v => w.put (setTags w.data v)
  | .setUncompressed v => w.put (setUncompressed w.data v)
  | .setPrecompressed v => w.put (setPrecompressed w.data v)
  | .setByPartition v => w.put (setByPartition w.data v)
  | .setPlan v => w.put (setPlan w.data v)
  | .addMonitor m a => w.put (addMonitor w.data m a, .ok ())
  | .setNRequired b c => w.put (setNRequired w.data b c)
  | .setNInGraph v => w.put (setNInGraph w.data v)
  | .viewAddVertex v => viewAddVertex w v
  | .viewAddEdge e n => viewAddEdge w e n
  | .writerAddVertex v => writerAddVertex w v
  | .writerAddEdge e n => writerAddEdge w e n
  | .startingAt v => ((startingAt w v).1, .ok ())
  | .setLabel v l =>
    match w.objs.setLabel v l with
    | .error e => (w, .error e)
    | .ok o => ({ w with objs := o }, .ok ())
  | .remember v m => (remember w v m, .ok ())
  | .endRun => ({ w with data := { w.data with mapping := false } }, .ok ())

/-- The world after some calls, exceptions caught. -/
def run : World → List Op → World
  | w, [] => w
  | w, o :: os => run (step w o).1 os

/-- The data as the module is loaded, pacman_data_view.py:81-87: `_clear` on a new object. -/
def Data.new : Data := ⟨Graph.new, none, none, none, [], [], none, none, none, none, none, none, none, true⟩

/-- The world as the module is loaded, with vertices that have no machine vertices yet. -/
def World.new (o : Objs) : World := ⟨Data.new, o, fun _ => []⟩

end Pacman.View
