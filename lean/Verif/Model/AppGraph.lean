import Verif.Model.Partitions
/-
Model of `model/graphs/application/application_graph.py` and `application_edge_partition.py`, with the labels of
`model/graphs/abstract_vertex.py`. Vertices are numbers; what may change of them is in `Objs`.
-/

namespace Pacman.AppGraph

open Parts (Edge singleAdd)

/-- A label: its characters. -/
abbrev Label := List Char

/-- The fields `_label` and `_added_to_graph` of all vertices, abstract_vertex.py:24-38, and the names of their
classes. -/
structure Objs where
  label : Nat → Option Label
  added : Nat → Bool
  cls : Nat → Label

/-- `set_label`, abstract_vertex.py:51-63. -/
def Objs.setLabel (o : Objs) (v : Nat) (l : Label) : Except PyErr Objs :=
  if o.added v then .error .configuration
  else .ok { o with label := fun w => if w = v then some l else o.label w }

/-- `set_added_to_graph`, abstract_vertex.py:65-72. -/
def Objs.setAdded (o : Objs) (v : Nat) : Objs := { o with added := fun w => if w = v then true else o.added w }

/-- `ApplicationEdgePartition`, application_edge_partition.py:24-50. Its source and edges are those of
`AbstractSingleSourcePartition`. -/
structure Partition where
  ident : String
  pre : Nat
  edges : List Edge
  deriving DecidableEq, Repr

/-- The fields of `ApplicationGraph`, application_graph.py:31-48. `parts` is a `defaultdict`. -/
structure Graph where
  parts : Dict Nat (List Partition)
  nParts : Nat
  unlabelled : Nat
  byLabel : Dict Label Nat
  deriving DecidableEq, Repr

/-- `ApplicationGraph()`, application_graph.py:42-48. -/
def Graph.new : Graph := ⟨[], 0, 0, []⟩

/-- `str(n)`. -/
def digits (n : Nat) : Label := Nat.toDigits 10 n

/-- `add_vertex` after the label is settled, application_graph.py:72-73. `vertex.label` is not `None` here. -/
def enter (g : Graph) (o : Objs) (v : Nat) : Graph × Objs :=
  match o.label v with
  | some l => ({ g with byLabel := g.byLabel.set l v }, o.setAdded v)
  | none => (g, o.setAdded v)

/-- `vertex.set_label(base + self._label_postfix())` and what follows, application_graph.py:66-67, 71-73 and
252-254. -/
def relabel (g : Graph) (o : Objs) (v : Nat) (base : Label) : (Graph × Objs) × Except PyErr Unit :=
  let g1 := { g with unlabelled := g.unlabelled + 1 }
  match o.setLabel v (base ++ digits g1.unlabelled) with
  | .error e => ((g1, o), .error e)
  | .ok o1 => (enter g1 o1 v, .ok ())

/-- `add_vertex` for an `ApplicationVertex`, application_graph.py:50-73: the state afterwards, and whether it
raised. -/
def addVertex (g : Graph) (o : Objs) (v : Nat) : (Graph × Objs) × Except PyErr Unit :=
  match o.label v with
  | none => relabel g o v (o.cls v ++ ['_'])
  | some l =>
    if l = [] then relabel g o v (o.cls v ++ ['_'])
    else match g.byLabel.get? l with
      | none => (enter g o v, .ok ())
      | some w => if w = v then ((g, o), .error .alreadyExists) else relabel g o v l

/-- `vertices`, application_graph.py:75-82. -/
def Graph.vertices (g : Graph) : List Nat := g.byLabel.map (·.2)

/-- `vertex_by_label`, application_graph.py:84-91. -/
def Graph.vertexByLabel (g : Graph) (l : Label) : Except PyErr Nat :=
  match g.byLabel.get? l with
  | some v => .ok v
  | none => .error .keyError

/-- `n_vertices`, application_graph.py:93-100. -/
def Graph.nVertices (g : Graph) : Nat := g.byLabel.length

/-- `vertex.label not in self._vertex_by_label`; the label may be `None`. -/
def Graph.known (g : Graph) (o : Objs) (v : Nat) : Bool :=
  match o.label v with
  | none => false
  | some l => (g.byLabel.get? l).isSome

/-- `_check_edge`, application_graph.py:134-158. `typeOk` is `isinstance(edge, ApplicationEdge)`. -/
def checkEdge (g : Graph) (o : Objs) (e : Edge) : Except PyErr Unit :=
  if e.typeOk = false then .error .invalidParameter
  else if g.known o e.pre = false then .error .invalidParameter
  else if g.known o e.post = false then .error .invalidParameter
  else .ok ()

/-- `get_outgoing_edge_partitions_starting_at_vertex`, application_graph.py:209-219: it inserts an empty set for an
unknown vertex. -/
def Graph.startingAt (g : Graph) (v : Nat) : List Partition × Graph :=
  match g.parts.get? v with
  | some l => (l, g)
  | none => ([], { g with parts := g.parts.set v [] })

/-- The partition of a name changed, the first if there are several. -/
def updFirst (f : Partition → Partition) (name : String) : List Partition → List Partition
  | [] => []
  | p :: l => if p.ident = name then f p :: l else p :: updFirst f name l

/-- `add_edge` of an edge that is suitable, application_graph.py:124-132. `get_outgoing_edge_partition_starting_at_vertex`
(221-243) finds the first partition with the name. Adding an incoming edge to the target
(application_edge_partition.py:50) does nothing by default. -/
def putEdge (g : Graph) (e : Edge) (name : String) : Graph × Except PyErr Unit :=
  let (l, g1) := g.startingAt e.pre
  match l.find? (fun p => decide (p.ident = name)) with
  | some p =>
    ({ g1 with parts := g1.parts.set e.pre (updFirst (fun p => { p with edges := (singleAdd p.pre p.edges e).1 }) name l) },
      (singleAdd p.pre p.edges e).2)
  | none =>
    ({ g1 with parts := g1.parts.set e.pre (l ++ [⟨name, e.pre, (singleAdd e.pre [] e).1⟩]), nParts := g1.nParts + 1 },
      (singleAdd e.pre [] e).2)

/-- `add_edge`, application_graph.py:102-132. -/
def addEdge (g : Graph) (o : Objs) (e : Edge) (name : String) : Graph × Except PyErr Unit :=
  match checkEdge g o e with
  | .error x => (g, .error x)
  | .ok () => putEdge g e name

/-- `outgoing_edge_partitions`, application_graph.py:189-198. -/
def Graph.partitions (g : Graph) : List Partition := (g.parts.map (·.2)).flatten

/-- `edges`, application_graph.py:160-172. -/
def Graph.edges (g : Graph) : List Edge := (g.partitions.map (·.edges)).flatten

/-- `get_outgoing_edge_partition_starting_at_vertex`, application_graph.py:221-243, without its effect (see
`Graph.startingAt`). -/
def Graph.partition (g : Graph) (v : Nat) (name : String) : Option Partition :=
  (g.startingAt v).1.find? (fun p => decide (p.ident = name))

/-- A call. -/
inductive Op where
  | setLabel (v : Nat) (l : Label)
  | addVertex (v : Nat)
  | addEdge (e : Edge) (name : String)
  | startingAt (v : Nat)
  deriving DecidableEq, Repr

/-- `vertex.set_label(l)` called by a user. -/
def userLabel (s : Graph × Objs) (v : Nat) (l : Label) : (Graph × Objs) × Except PyErr Unit :=
  match s.2.setLabel v l with
  | .error e => (s, .error e)
  | .ok o => ((s.1, o), .ok ())

/-- The state after a call, and whether it raised (not code: how the class may be used). -/
def step (s : Graph × Objs) : Op → (Graph × Objs) × Except PyErr Unit
  | .setLabel v l => userLabel s v l
  | .addVertex v => addVertex s.1 s.2 v
  | .addEdge e n => (((addEdge s.1 s.2 e n).1, s.2), (addEdge s.1 s.2 e n).2)
  | .startingAt v => (((s.1.startingAt v).2, s.2), .ok ())

/-- The state after some calls, exceptions caught. -/
def run (s : Graph × Objs) : List Op → Graph × Objs
  | [] => s
  | o :: os => run (step s o).1 os

end Pacman.AppGraph
