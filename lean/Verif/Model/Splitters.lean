import Verif.Model.Device2D
import Verif.Model.ChipCounter
/-
Model of `model/partitioner_splitters/*.py`, of `operations/partition_algorithms/splitter_partitioner.py`, and of the
parts of `model/graphs/application/application_vertex.py`, `abstract/abstract_one_app_one_machine_vertex.py` and
`application_spinnaker_link_vertex.py` that they use.

Application vertices, splitters and machine vertices are numbers; what may change of them is in `World`. Functions that
may raise give the state afterwards in either case.
-/

namespace Pacman.Split

open Slices (Slice mkSlice multiSlices checkAtoms)
open Device (Dev fpgaSlice fpgaOutgoing getSlice ceilDiv)
open Counter (Counter)
open Alloc (VId)

/-- `ApplicationSpiNNakerLinkVertex.get_incoming_slice`, application_spinnaker_link_vertex.py:94-108. The division
is exact below 2^53. -/
def linkSlice (nAtoms n index : Nat) : Except PyErr Slice :=
  if n = 0 then .error .zeroDivision
  else
    let a := ceilDiv nAtoms n
    mkSlice (a * index) (min (a * (index + 1)) nAtoms) none

/-- What `SplitterExternalDevice` asks of an application vertex; links are numbers. `two` is the size of a device with
two dimensions (application_2d_fpga_vertex.py, application_2d_spinnaker_link_vertex.py), which overrides the slices.
* `fpga`: `n_machine_vertices_per_link`, `incoming_fpga_connections`, `outgoing_fpga_connection`;
* `link`: `n_machine_vertices`, `spinnaker_link_id`, `incoming`, `outgoing`. -/
inductive DevKind where
  | fpga (perLink : Nat) (links : List Nat) (out : Option Nat) (two : Option Dev)
  | link (n id : Nat) (incoming outgoing : Bool) (two : Option Dev)
  deriving DecidableEq, Repr

/-- What the class of an application vertex settles.
* `shape`: `atoms_shape`; `n_atoms` is its product;
* `legacy`: whether it is a `LegacyPartitionerAPI`; `sdramOf` is its `get_sdram_used_by_atoms`, and
  `create_machine_vertex` makes a new machine vertex with the slice and the SDRAM it is given (a contract);
* `single`: the machine vertex of an `AbstractOneAppOneMachineVertex`;
* `device`: for an `ApplicationFPGAVertex` or an `ApplicationSpiNNakerLinkVertex`. -/
structure App where
  shape : List Nat
  legacy : Bool
  sdramOf : Slice → Int
  single : Option Nat
  device : Option DevKind

/-- `n_atoms`. -/
def App.nAtoms (a : App) : Nat := Slices.prod a.shape

/-- The classes of splitters. -/
inductive Kind where
  | fixed       -- SplitterFixedLegacy
  | oneToOne    -- SplitterOneToOneLegacy
  | oneApp      -- SplitterOneAppOneMachine
  | external    -- SplitterExternalDevice
  deriving DecidableEq, Repr

/-- The classes of all application vertices and splitters. -/
structure Env where
  app : Nat → App
  kind : Nat → Kind

/-- What may change of an application vertex, application_vertex.py:45-60. -/
structure AState where
  splitter : Option Nat
  machines : List Nat
  maxPer : Option (List Nat)
  deriving DecidableEq, Repr

/-- The fields of the splitters. `one` are `_machine_vertex`, `_vertex_slice` and `_sdram` of
splitter_one_to_one_legacy.py:39-42; `inV`, `inS`, `outV`, `outS` are the fields of splitter_external_device.py:43-51;
`slices` is that of splitter_fixed_legacy.py:44. -/
structure SState where
  governed : Option Nat
  slices : Option (List Slice)
  one : Option (Nat × Slice × Int)
  inV : List Nat
  inS : List Slice
  outV : Option Nat
  outS : Option Slice
  deriving DecidableEq, Repr

/-- A new splitter. -/
def SState.new : SState := ⟨none, none, none, [], [], none, none⟩

/-- A machine vertex: slice, `sdram_required`, `app_vertex`, `index` (machine_vertex.py:38-66 and 106-114, 0 if not set), and for
one of a device its link and whether it is incoming. -/
structure MV where
  slice : Slice
  sdram : Int
  app : Nat
  index : Nat
  dev : Option (Nat × Bool)
  deriving DecidableEq, Repr

/-- All objects. Machine vertices from `next` on do not exist yet. -/
structure World where
  app : Nat → AState
  spl : Nat → SState
  mv : Nat → MV
  next : Nat

/-- An application vertex changed. -/
def World.setApp (W : World) (v : Nat) (a : AState) : World :=
  { W with app := fun u => if u = v then a else W.app u }

/-- A splitter changed. -/
def World.setSpl (W : World) (s : Nat) (x : SState) : World :=
  { W with spl := fun t => if t = s then x else W.spl t }

/-- A machine vertex changed. -/
def World.setMv (W : World) (m : Nat) (x : MV) : World :=
  { W with mv := fun k => if k = m then x else W.mv k }

/-- A new machine vertex, which is `W.next`: machine_vertex.py:38-66. -/
def World.alloc (W : World) (x : MV) : World := { W.setMv W.next x with next := W.next + 1 }

/-- `remember_machine_vertex`, application_vertex.py:137-145 and abstract_one_app_one_machine_vertex.py:42-44.
`_machine_vertices` is an ordered set. -/
def remember (E : Env) (W : World) (v m : Nat) : World × Except PyErr Unit :=
  match (E.app v).single with
  | some m0 => if m = m0 then (W, .ok ()) else (W, .error .assertion)
  | none =>
    let a := W.app v
    ((W.setMv m { W.mv m with index := a.machines.length }).setApp v
      { a with machines := if m ∈ a.machines then a.machines else a.machines ++ [m] }, .ok ())

/-! ### Setting splitters -/

/-- The rest of `SplitterOneToOneLegacy.set_governed_app_vertex`, splitter_one_to_one_legacy.py:56-63. -/
def makeOne (E : Env) (W : World) (s v : Nat) : World × Except PyErr Unit :=
  match mkSlice 0 (E.app v).nAtoms none with
  | .error e => (W, .error e)
  | .ok sl =>
    let m := W.next
    let W1 := (W.alloc ⟨sl, (E.app v).sdramOf sl, v, 0, none⟩).setSpl s
      { W.spl s with one := some (m, sl, (E.app v).sdramOf sl) }
    remember E W1 v m

/-- The rounds of the loops over machine vertices that send, with their links, splitter_external_device.py:72-73 and
104-105. -/
def DevKind.jobs : DevKind → List (Nat × Nat)
  | .fpga k links _ _ => (List.range k).flatMap (fun i => links.map (fun l => (i, l)))
  | .link n id inc _ _ => if inc then (List.range n).map (fun i => (i, id)) else []

/-- The link for packets to the device, splitter_external_device.py:87-88 and 113. -/
def DevKind.out : DevKind → Option Nat
  | .fpga _ _ o _ => o
  | .link _ id _ o _ => if o then some id else none

/-- `get_incoming_slice_for_link` and `get_incoming_slice`: application_fpga_vertex.py:81-98,
application_spinnaker_link_vertex.py:94-108, application_2d_fpga_vertex.py:99-102,
application_2d_spinnaker_link_vertex.py:97-99. -/
def DevKind.slice (d : DevKind) (nAtoms i : Nat) : Except PyErr Slice :=
  match d with
  | .fpga k _ _ none => fpgaSlice nAtoms k i
  | .fpga _ _ _ (some t) => getSlice t i
  | .link n _ _ _ none => linkSlice nAtoms n i
  | .link _ _ _ _ (some t) => getSlice t i

/-- The loops of `SplitterExternalDevice.set_governed_app_vertex`, splitter_external_device.py:72-86 and 104-112. The
SDRAM of virtual vertices is 0 (machine_fpga_vertex.py:63-66, machine_spinnaker_link_vertex.py:64-67). -/
def addIn (E : Env) (d : DevKind) (s v : Nat) : World → List (Nat × Nat) → World × Except PyErr Unit
  | W, [] => (W, .ok ())
  | W, (i, l) :: js =>
    match d.slice (E.app v).nAtoms i with
    | .error e => (W, .error e)
    | .ok sl =>
      let x := W.spl s
      addIn E d s v ((W.alloc ⟨sl, 0, v, 0, some (l, true)⟩).setSpl s
        { x with inV := x.inV ++ [W.next], inS := x.inS ++ [sl] }) js

/-- The outgoing vertex, splitter_external_device.py:87-98 and 113-119; `get_outgoing_slice` of
application_fpga_vertex.py:100-106 and application_spinnaker_link_vertex.py:110-116. -/
def addOut (E : Env) (d : DevKind) (s v : Nat) (W : World) : World × Except PyErr Unit :=
  match d.out with
  | none => (W, .ok ())
  | some l =>
    match fpgaOutgoing (E.app v).nAtoms with
    | .error e => (W, .error e)
    | .ok sl =>
      ((W.alloc ⟨sl, 0, v, 0, some (l, false)⟩).setSpl s
        { W.spl s with outV := some W.next, outS := some sl }, .ok ())

/-- The rest of `SplitterExternalDevice.set_governed_app_vertex`, splitter_external_device.py:64-122. -/
def makeDevice (E : Env) (W : World) (s v : Nat) : World × Except PyErr Unit :=
  let W0 := W.setSpl s { W.spl s with inV := [], inS := [], outV := none, outS := none }
  match (E.app v).device with
  | none => (W0, .error .configuration)
  | some d =>
    match addIn E d s v W0 d.jobs with
    | (W1, .error e) => (W1, .error e)
    | (W1, .ok ()) => addOut E d s v W1

/-- `AbstractSplitterCommon.set_governed_app_vertex`, abstract_splitter_common.py:66-83; `again` is
`app_vertex.splitter = self`. -/
def govern (again : World → World × Except PyErr Unit) (W : World) (s v : Nat) : World × Except PyErr Unit :=
  match (W.spl s).governed with
  | some u => if u = v then (W, .ok ()) else (W, .error .configuration)
  | none => again (W.setSpl s { W.spl s with governed := some v })

/-- `set_governed_app_vertex` of each class: splitter_fixed_legacy.py:50-55, splitter_one_to_one_legacy.py:50-63,
splitter_one_app_one_machine.py:39-46, splitter_external_device.py:60-122. -/
def setGovernedWith (E : Env) (again : World → World × Except PyErr Unit) (W : World) (s v : Nat) :
    World × Except PyErr Unit :=
  match E.kind s with
  | .fixed => if (E.app v).legacy then govern again W s v else (W, .error .configuration)
  | .oneToOne =>
    if (E.app v).legacy then
      match govern again W s v with
      | (W1, .error e) => (W1, .error e)
      | (W1, .ok ()) => makeOne E W1 s v
    else (W, .error .configuration)
  | .oneApp => if (E.app v).single.isSome then govern again W s v else (W, .error .configuration)
  | .external =>
    match govern again W s v with
    | (W1, .error e) => (W1, .error e)
    | (W1, .ok ()) => makeDevice E W1 s v

/-- The setter of `splitter`, application_vertex.py:119-135, with a bound on the depth to which the setters call each
other. -/
def setSplitterN (E : Env) : Nat → World → (v s : Nat) → World × Except PyErr Unit
  | 0, W, _, _ => (W, .error .outOfFuel)
  | f + 1, W, v, s =>
    match (W.app v).splitter with
    | some t => if t = s then (W, .ok ()) else (W, .error .configuration)
    | none =>
      setGovernedWith E (fun W1 => setSplitterN E f W1 v s)
        (W.setApp v { W.app v with splitter := some s }) s v

/-- `vertex.splitter = s`, application_vertex.py:119-135. -/
def setSplitter (E : Env) (W : World) (v s : Nat) : World × Except PyErr Unit := setSplitterN E 2 W v s

/-- `s.set_governed_app_vertex(v)`, see `setGovernedWith`. -/
def setGoverned (E : Env) (W : World) (s v : Nat) : World × Except PyErr Unit :=
  setGovernedWith E (fun W1 => setSplitterN E 2 W1 v s) W s v

/-! ### Resets -/

/-- `reset_called` of each class: splitter_fixed_legacy.py:100-102; the others do nothing. -/
def resetCalled (E : Env) (W : World) (s : Nat) : World :=
  match E.kind s with
  | .fixed => W.setSpl s { W.spl s with slices := none }
  | _ => W

/-- `if self._splitter is not None: self._splitter.reset_called()`, application_vertex.py:299-300,
abstract_one_app_one_machine_vertex.py:63-64 and splitter_reset.py:23-24. -/
def resetSplitter (E : Env) (W : World) (v : Nat) : World :=
  match (W.app v).splitter with
  | none => W
  | some s => resetCalled E W s

/-- `reset`, application_vertex.py:293-300 and abstract_one_app_one_machine_vertex.py:60-64. -/
def reset (E : Env) (W : World) (v : Nat) : World :=
  match (E.app v).single with
  | some _ => resetSplitter E W v
  | none => resetSplitter E (W.setApp v { W.app v with machines := [] }) v

/-- `ApplicationGraph.reset`, application_graph.py:245-250. -/
def resetGraph (E : Env) (W : World) (verts : List Nat) : World := verts.foldl (reset E) W

/-- `splitter_reset`, splitter_reset.py:18-24. -/
def splitterReset (E : Env) (W : World) (verts : List Nat) : World := verts.foldl (resetSplitter E) W

/-- `set_max_atoms_per_dimension_per_core`, application_vertex.py:275-291 and 250-273; a single number is the list of
it. `len(None)` raises `TypeError`. -/
def setMax (E : Env) (W : World) (v : Nat) (m : Option (List Nat)) : World × Except PyErr Unit :=
  (W.setApp v { W.app v with maxPer := m },
    match m with
    | none => .error .typeError
    | some l => checkAtoms (E.app v).shape l)

/-! ### Splitting -/

/-- `__fixed_slices`, splitter_fixed_legacy.py:78-83. -/
def fixedSlices (E : Env) (W : World) (s : Nat) : World × Except PyErr (List Slice) :=
  match (W.spl s).slices with
  | some ss => (W, .ok ss)
  | none =>
    match (W.spl s).governed with
    | none => (W, .error .configuration)
    | some v =>
      match multiSlices ⟨(E.app v).shape, (W.app v).maxPer⟩ with
      | .error e => (W, .error e)
      | .ok ss => (W.setSpl s { W.spl s with slices := some ss }, .ok ss)

/-- The loop of `SplitterFixedLegacy.create_machine_vertices`, splitter_fixed_legacy.py:92-98. -/
def fixedLoop (E : Env) (v : Nat) : World → Counter → List Slice → (World × Counter) × Except PyErr Unit
  | W, c, [] => ((W, c), .ok ())
  | W, c, sl :: ss =>
    let sd := (E.app v).sdramOf sl
    match remember E (W.alloc ⟨sl, sd, v, 0, none⟩) v W.next with
    | (W1, .error e) => ((W1, c.add sd), .error e)
    | (W1, .ok ()) => fixedLoop E v W1 (c.add sd) ss

/-- The loop of `SplitterExternalDevice.create_machine_vertices`, splitter_external_device.py:127-134: the incoming
vertices, and the outgoing one if there is one. -/
def deviceLoop (E : Env) (v : Nat) : World → Counter → List Nat → (World × Counter) × Except PyErr Unit
  | W, c, [] => ((W, c), .ok ())
  | W, c, m :: ms =>
    match remember E W v m with
    | (W1, .error e) => ((W1, c.add (W.mv m).sdram), .error e)
    | (W1, .ok ()) => deviceLoop E v W1 (c.add (W.mv m).sdram) ms

/-- `create_machine_vertices` of each class: splitter_fixed_legacy.py:85-98, splitter_one_to_one_legacy.py:65-68,
splitter_one_app_one_machine.py:48-51, splitter_external_device.py:124-134. A vertex governed by a
`SplitterOneAppOneMachine` has a single machine vertex. -/
def create (E : Env) (W : World) (c : Counter) (s : Nat) : (World × Counter) × Except PyErr Unit :=
  match E.kind s with
  | .fixed =>
    match (W.spl s).governed with
    | none => ((W, c), .error .configuration)
    | some v =>
      match fixedSlices E W s with
      | (W1, .error e) => ((W1, c), .error e)
      | (W1, .ok ss) => fixedLoop E v W1 c ss
  | .oneToOne =>
    match (W.spl s).one with
    | none => ((W, c), .error .assertion)
    | some x => ((W, c.add x.2.2), .ok ())
  | .oneApp =>
    match (W.spl s).governed with
    | none => ((W, c), .error .configuration)
    | some v =>
      match (E.app v).single with
      | none => ((W, c), .error .assertion)
      | some m => ((W, c.add (W.mv m).sdram), .ok ())
  | .external =>
    match (W.spl s).governed with
    | none => ((W, c), .error .configuration)
    | some v => deviceLoop E v W c ((W.spl s).inV ++ (W.spl s).outV.toList)

/-- The loop of `splitter_partitioner`, splitter_partitioner.py:34-36. -/
def partitionLoop (E : Env) : World → Counter → List Nat → (World × Counter) × Except PyErr Unit
  | W, c, [] => ((W, c), .ok ())
  | W, c, v :: vs =>
    match (W.app v).splitter with
    | none => ((W, c), .error .configuration)
    | some s =>
      match create E W c s with
      | ((W1, c1), .error e) => ((W1, c1), .error e)
      | ((W1, c1), .ok ()) => partitionLoop E W1 c1 vs

/-- `splitter_partitioner`, splitter_partitioner.py:20-38, with the limits of `ChipCounter()` and the vertices of the
graph. -/
def partition (E : Env) (W : World) (coresPer sdramPer : Int) (verts : List Nat) : World × Except PyErr Nat :=
  match partitionLoop E W (Counter.new coresPer sdramPer) verts with
  | ((W1, _), .error e) => (W1, .error e)
  | ((W1, c), .ok ()) => (W1, .ok c.nChips)

/-! ### What splitters answer -/

/-- `governed_app_vertex`, abstract_splitter_common.py:52-64. -/
def governedOf (W : World) (s : Nat) : Except PyErr Nat :=
  match (W.spl s).governed with
  | none => .error .configuration
  | some v => .ok v

/-- `self.governed_app_vertex.machine_vertex`, abstract_one_app_one_machine_vertex.py:46-53. -/
def singleOf (E : Env) (W : World) (s : Nat) : Except PyErr Nat :=
  match governedOf W s with
  | .error e => .error e
  | .ok v =>
    match (E.app v).single with
    | none => .error .assertion
    | some m => .ok m

/-- `get_out_going_vertices`: splitter_fixed_legacy.py:57-59, splitter_one_to_one_legacy.py:80-83,
splitter_one_app_one_machine.py:61-63, splitter_external_device.py:156-164. -/
def outVerts (E : Env) (W : World) (s : Nat) : Except PyErr (List Nat) :=
  match E.kind s with
  | .fixed => (governedOf W s).map (fun v => (W.app v).machines)
  | .oneToOne =>
    match (W.spl s).one with
    | none => .error .assertion
    | some x => .ok [x.1]
  | .oneApp => (singleOf E W s).map (fun m => [m])
  | .external => if (W.spl s).inV = [] then .error .notExist else .ok (W.spl s).inV

/-- `get_in_coming_vertices`: splitter_fixed_legacy.py:61-63, splitter_one_to_one_legacy.py:85-88,
splitter_one_app_one_machine.py:65-67, splitter_external_device.py:146-154. -/
def inVerts (E : Env) (W : World) (s : Nat) : Except PyErr (List Nat) :=
  match E.kind s with
  | .fixed => (governedOf W s).map (fun v => (W.app v).machines)
  | .oneToOne =>
    match (W.spl s).one with
    | none => .error .assertion
    | some x => .ok [x.1]
  | .oneApp => (singleOf E W s).map (fun m => [m])
  | .external =>
    match (W.spl s).outV with
    | none => .error .notExist
    | some m => .ok [m]

/-- `get_source_specific_in_coming_vertices`, abstract_splitter_common.py:147-176; no class overrides it. -/
def inFor (E : Env) (W : World) (s src : Nat) : Except PyErr (List (Nat × List VId)) :=
  (inVerts E W s).map (fun l => l.map (fun m => (m, [.app src])))

/-- `get_same_chip_groups`, abstract_splitter_common.py:198-210; no class overrides it. -/
def groups (W : World) (s : Nat) : Except PyErr (List (List Nat × Int)) :=
  (governedOf W s).map (fun v => (W.app v).machines.map (fun m => ([m], (W.mv m).sdram)))

/-- `get_out_going_slices`: splitter_fixed_legacy.py:70-72, splitter_one_to_one_legacy.py:70-73,
splitter_one_app_one_machine.py:53-55, splitter_external_device.py:142-144. -/
def outSlices (E : Env) (W : World) (s : Nat) : World × Except PyErr (List Slice) :=
  match E.kind s with
  | .fixed => fixedSlices E W s
  | .oneToOne =>
    match (W.spl s).one with
    | none => (W, .error .assertion)
    | some x => (W, .ok [x.2.1])
  | .oneApp => (W, (singleOf E W s).map (fun m => [(W.mv m).slice]))
  | .external => (W, .ok (W.spl s).inS)

/-- `get_in_coming_slices`: splitter_fixed_legacy.py:74-76, splitter_one_to_one_legacy.py:75-78,
splitter_one_app_one_machine.py:57-59, splitter_external_device.py:136-140. -/
def inSlices (E : Env) (W : World) (s : Nat) : World × Except PyErr (List Slice) :=
  match E.kind s with
  | .external => (W, .ok (W.spl s).outS.toList)
  | _ => outSlices E W s

/-- `machine_vertices_for_recording`: splitter_fixed_legacy.py:65-68, splitter_one_to_one_legacy.py:90-94,
splitter_one_app_one_machine.py:69-72, splitter_external_device.py:166-169. -/
def recording (E : Env) (W : World) (s : Nat) : Except PyErr (List Nat) :=
  match E.kind s with
  | .external => .ok []
  | _ => outVerts E W s

/-! ### How the classes may be used (not code) -/

/-- A call. -/
inductive Op where
  | setSplitter (v s : Nat)
  | setGoverned (s v : Nat)
  | reset (v : Nat)
  | splitterReset (verts : List Nat)
  | setMax (v : Nat) (m : Option (List Nat))
  | outSlices (s : Nat)
  | inSlices (s : Nat)
  | partition (verts : List Nat)

/-- The state after a call, and whether it raised. What the partitioner does to vertices does not depend on the limits
of the chip counter. -/
def step (E : Env) (W : World) : Op → World × Except PyErr Unit
  | .setSplitter v s => setSplitter E W v s
  | .setGoverned s v => setGoverned E W s v
  | .reset v => (reset E W v, .ok ())
  | .splitterReset vs => (splitterReset E W vs, .ok ())
  | .setMax v m => setMax E W v m
  | .outSlices s => ((outSlices E W s).1, (outSlices E W s).2.map (fun _ => ()))
  | .inSlices s => ((inSlices E W s).1, (inSlices E W s).2.map (fun _ => ()))
  | .partition vs => ((partition E W 1 1 vs).1, (partition E W 1 1 vs).2.map (fun _ => ()))

/-- The state after some calls, exceptions caught. -/
def run (E : Env) (W : World) : List Op → World
  | [] => W
  | o :: os => run E (step E W o).1 os

/-- The state after some calls if none of them raised. -/
def runOk (E : Env) (W : World) : List Op → Option World
  | [] => some W
  | o :: os =>
    match step E W o with
    | (W1, .ok ()) => runOk E W1 os
    | (_, .error _) => none

/-- Application vertices and splitters as made by their constructors, without a splitter given: an
`AbstractOneAppOneMachineVertex` remembers its machine vertex (abstract_one_app_one_machine_vertex.py:32-40). `mv` and
`next` are the machine vertices made before. -/
def World.new (E : Env) (maxPer : Nat → Option (List Nat)) (mv : Nat → MV) (next : Nat) : World where
  app := fun v => ⟨none, (E.app v).single.toList, maxPer v⟩
  spl := fun _ => SState.new
  mv := mv
  next := next

end Pacman.Split
