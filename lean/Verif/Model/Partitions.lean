import Verif.Model.Base
/-
Model of the edge partitions: `model/graphs/abstract_edge_partition.py`, `abstract_single_source_partition.py`,
`abstract_multiple_partition.py` and, in `model/graphs/machine/`, `multicast_edge_partition.py`,
`constant_sdram_machine_partition.py`, `destination_segmented_sdram_machine_partition.py` and
`source_segmented_sdram_machine_partition.py`.

A method that may raise gives the state it leaves behind and whether it raised.
-/

namespace Pacman.Parts

/-- An edge object: `SDRAMMachineEdge`, machine_sdram_edge.py:20-42, or another edge. `id` is the identity of the
object; vertices are numbers. `typeOk` is `isinstance(edge, self._allowed_edge_types)`. Its base address, which
may be set, is in `Addrs`. -/
structure Edge where
  id : Nat
  pre : Nat
  post : Nat
  size : Nat
  typeOk : Bool
  deriving DecidableEq, Repr

/-- `edge.sdram_base_address` of all edges, machine_sdram_edge.py:53-69. -/
abbrev Addrs := Edge → Option Int

/-- `edge.sdram_base_address = v`. -/
def Addrs.put (a : Addrs) (e : Edge) (v : Int) : Addrs := fun e' => if e' = e then some v else a e'

/-- `AbstractEdgePartition.add_edge`, abstract_edge_partition.py:55-71; `_edges` is an `OrderedSet`. -/
def baseAdd (edges : List Edge) (e : Edge) : List Edge × Except PyErr Unit :=
  if e.typeOk = false then (edges, .error .invalidParameter)
  else if e ∈ edges then (edges, .error .alreadyExists)
  else (edges ++ [e], .ok ())

/-- `AbstractSingleSourcePartition.add_edge`, abstract_single_source_partition.py:46-51, which is that of
`MulticastEdgePartition`. -/
def singleAdd (pre : Nat) (edges : List Edge) (e : Edge) : List Edge × Except PyErr Unit :=
  match baseAdd edges e with
  | (es, .error x) => (es, .error x)
  | (es, .ok ()) => if e.pre ≠ pre then (es, .error .configuration) else (es, .ok ())

/-- Sum of the sizes, destination_segmented_sdram_machine_partition.py:41-43 and
source_segmented_sdram_machine_partition.py:44-48. -/
def totalSize (edges : List Edge) : Nat := (edges.map (·.size)).sum

/-- The loop of the setters of the segmented partitions, destination_segmented_sdram_machine_partition.py:59-61 and
source_segmented_sdram_machine_partition.py:69-73. -/
def assign (a : Addrs) (v : Int) : List Edge → Addrs
  | [] => a
  | e :: es => assign (a.put e v) (v + e.size) es

/-! ### ConstantSDRAMMachinePartition -/

/-- The fields, constant_sdram_machine_partition.py:41-52. -/
structure Const where
  pre : Nat
  edges : List Edge
  size : Option Nat
  base : Option Int
  deriving DecidableEq

/-- The constructor, constant_sdram_machine_partition.py:47-52. -/
def Const.new (pre : Nat) : Const := ⟨pre, [], none, none⟩

/-- `add_edge`, constant_sdram_machine_partition.py:54-66, after the check of the size. -/
def Const.addSized (s : Const) (e : Edge) : Const × Except PyErr Unit :=
  match s.base with
  | none => ({ s with edges := (singleAdd s.pre s.edges e).1 }, (singleAdd s.pre s.edges e).2)
  | some _ => (s, .error .configuration)

/-- `add_edge`, constant_sdram_machine_partition.py:54-66. -/
def Const.add (s : Const) (e : Edge) : Const × Except PyErr Unit :=
  match s.size with
  | none => Const.addSized { s with size := some e.size } e
  | some n => if n ≠ e.size then (s, .error .sdramEdgeSize) else Const.addSized s e

/-- `total_sdram_requirements`, constant_sdram_machine_partition.py:71-75, and `get_sdram_size_of_region_for`,
98-102. -/
def Const.total (s : Const) : Except PyErr Nat :=
  match s.size with
  | none => .error .partitionMissingEdges
  | some n => .ok n

/-- The setter of `sdram_base_address`, constant_sdram_machine_partition.py:84-90. -/
def Const.setBase (s : Const) (a : Addrs) (v : Int) : (Const × Addrs) × Except PyErr Unit :=
  if s.edges.length = 0 then ((s, a), .error .partitionMissingEdges)
  else (({ s with base := some v }, s.edges.foldl (fun a e => a.put e v) a), .ok ())

/-- `get_sdram_base_address_for`, constant_sdram_machine_partition.py:92-96. -/
def Const.addrFor (s : Const) (_vertex : Nat) : Except PyErr Int :=
  match s.base with
  | none => .error .partitionMissingEdges
  | some v => .ok v

/-! ### DestinationSegmentedSDRAMMachinePartition -/

/-- The fields, destination_segmented_sdram_machine_partition.py:31-39. -/
structure Dest where
  pre : Nat
  edges : List Edge
  base : Option Int
  deriving DecidableEq

/-- The constructor, destination_segmented_sdram_machine_partition.py:35-39. -/
def Dest.new (pre : Nat) : Dest := ⟨pre, [], none⟩

/-- `add_edge`, destination_segmented_sdram_machine_partition.py:63-76. -/
def Dest.add (s : Dest) (e : Edge) : Dest × Except PyErr Unit :=
  if s.base ≠ none then (s, .error .configuration)
  else if s.pre ≠ e.pre then (s, .error .configuration)
  else ({ s with edges := (singleAdd s.pre s.edges e).1 }, (singleAdd s.pre s.edges e).2)

/-- The setter of `sdram_base_address`, destination_segmented_sdram_machine_partition.py:53-61. -/
def Dest.setBase (s : Dest) (a : Addrs) (v : Int) : (Dest × Addrs) × Except PyErr Unit :=
  if s.edges.length = 0 then ((s, a), .error .partitionMissingEdges)
  else (({ s with base := some v }, assign a v s.edges), .ok ())

/-- The first edge to a vertex, destination_segmented_sdram_machine_partition.py:83-86 and 92-95. -/
def firstTo (edges : List Edge) (vertex : Nat) : Except PyErr Edge :=
  match edges.find? (fun e => decide (e.post = vertex)) with
  | some e => .ok e
  | none => .error .pacmanValueError

/-- `get_sdram_base_address_for`, destination_segmented_sdram_machine_partition.py:78-86. -/
def Dest.addrFor (s : Dest) (a : Addrs) (vertex : Nat) : Except PyErr (Option Int) :=
  if s.pre = vertex ∧ s.base ≠ none then .ok s.base
  else (firstTo s.edges vertex).map a

/-- `get_sdram_size_of_region_for`, destination_segmented_sdram_machine_partition.py:88-95. -/
def Dest.sizeFor (s : Dest) (vertex : Nat) : Except PyErr Nat :=
  if s.pre = vertex then .ok (totalSize s.edges)
  else (firstTo s.edges vertex).map (·.size)

/-! ### SourceSegmentedSDRAMMachinePartition -/

/-- The fields, source_segmented_sdram_machine_partition.py:31-42, abstract_multiple_partition.py:32-44. -/
structure Src where
  pres : Dict Nat (List Edge)
  dests : Dict Nat (List Edge)
  edges : List Edge
  base : Option Int
  deriving DecidableEq

/-- The constructor, source_segmented_sdram_machine_partition.py:33-42, abstract_multiple_partition.py:38-53. -/
def Src.new (pres : List Nat) : Except PyErr Src :=
  let d : Dict Nat (List Edge) := pres.foldl (fun d p => d.set p []) []
  if d.length ≠ pres.length then .error .configuration else .ok ⟨d, [], [], none⟩

/-- `OrderedSet.add`. -/
def addToSet (l : List Edge) (e : Edge) : List Edge := if e ∈ l then l else l ++ [e]

/-- `AbstractMultiplePartition.add_edge`, abstract_multiple_partition.py:55-66; `_destinations` is a
`defaultdict`. -/
def multiAdd (s : Src) (e : Edge) : Src × Except PyErr Unit :=
  match s.pres.get? e.pre with
  | none => (s, .error .pacmanValueError)
  | some l =>
    match baseAdd s.edges e with
    | (es, .error x) => ({ s with edges := es }, .error x)
    | (es, .ok ()) =>
      ({ s with edges := es, pres := s.pres.set e.pre (addToSet l e),
                dests := s.dests.set e.post (addToSet ((s.dests.get? e.post).getD []) e) }, .ok ())

/-- `add_edge`, source_segmented_sdram_machine_partition.py:75-92. -/
def Src.add (s : Src) (e : Edge) : Src × Except PyErr Unit :=
  if s.dests.length ≠ 0 ∧ s.dests.get? e.post = none then (s, .error .configuration)
  else match s.pres.get? e.pre with
    | none => (s, .error .configuration)
    | some l => if l.length ≠ 0 then (s, .error .configuration) else multiAdd s e

/-- `OrderedSet.peek`: the last element, `KeyError` if there is none. -/
def peek (l : List Edge) : Except PyErr Edge :=
  match l.getLast? with
  | some e => .ok e
  | none => .error .keyError

/-- The loop of the setter, source_segmented_sdram_machine_partition.py:69-73: the addresses as far as set, and
whether a `peek` failed. -/
def assignPres (a : Addrs) (v : Int) : List (Nat × List Edge) → Addrs × Except PyErr Unit
  | [] => (a, .ok ())
  | (_, l) :: ps =>
    match peek l with
    | .error x => (a, .error x)
    | .ok e => assignPres (a.put e v) (v + e.size) ps

/-- The setter of `sdram_base_address`, source_segmented_sdram_machine_partition.py:60-73. -/
def Src.setBase (s : Src) (a : Addrs) (v : Int) : (Src × Addrs) × Except PyErr Unit :=
  if s.pres.length ≠ s.edges.length then ((s, a), .error .partitionMissingEdges)
  else (({ s with base := some v }, (assignPres a v s.pres).1), (assignPres a v s.pres).2)

/-- The address of the edge of a source, source_segmented_sdram_machine_partition.py:107-112. -/
def edgeAddr (a : Addrs) (l : List Edge) : Except PyErr Int :=
  match peek l with
  | .error x => .error x
  | .ok e =>
    match a e with
    | none => .error .pacmanValueError
    | some v => .ok v

/-- `get_sdram_base_address_for`, source_segmented_sdram_machine_partition.py:103-114. -/
def Src.addrFor (s : Src) (a : Addrs) (vertex : Nat) : Except PyErr Int :=
  match s.base with
  | none => .error .pacmanValueError
  | some v =>
    match s.pres.get? vertex with
    | some l => edgeAddr a l
    | none => .ok v

/-- `get_sdram_size_of_region_for`, source_segmented_sdram_machine_partition.py:116-121. -/
def Src.sizeFor (s : Src) (vertex : Nat) : Except PyErr Nat :=
  match s.pres.get? vertex with
  | some l => (peek l).map (·.size)
  | none => .ok (totalSize s.edges)

/-! ### Histories -/

/-- A call. -/
inductive Op where
  | add (e : Edge)
  | setBase (v : Int)
  deriving DecidableEq, Repr

/-- The partition and the addresses after some calls, exceptions caught (not code: how the class may be used). -/
def Const.run : Const × Addrs → List Op → Const × Addrs
  | s, [] => s
  | (s, a), .add e :: os => Const.run ((s.add e).1, a) os
  | (s, a), .setBase v :: os => Const.run (s.setBase a v).1 os

def Dest.run : Dest × Addrs → List Op → Dest × Addrs
  | s, [] => s
  | (s, a), .add e :: os => Dest.run ((s.add e).1, a) os
  | (s, a), .setBase v :: os => Dest.run (s.setBase a v).1 os

def Src.run : Src × Addrs → List Op → Src × Addrs
  | s, [] => s
  | (s, a), .add e :: os => Src.run ((s.add e).1, a) os
  | (s, a), .setBase v :: os => Src.run (s.setBase a v).1 os

end Pacman.Parts
