import Verif.Model.Base
/-
Model of `model/tags/tags.py` and `operations/tag_allocator_algorithms/basic_tag_allocator.py`.
Board addresses, IP addresses, vertices and chips are represented by numbers.
-/

namespace Pacman.TagAlloc

/-- `spinn_machine.tags.IPTag` (external): the fields that are used. -/
structure IPTag where
  board : Nat
  tag : Nat
  ip : Nat
  port : Option Nat
  strip : Bool
  deriving DecidableEq, Repr

/-- `spinn_machine.tags.ReverseIPTag` (external): the fields that are used. -/
structure RevTag where
  board : Nat
  tag : Nat
  port : Option Nat
  deriving DecidableEq, Repr

/-- Board address and tag. -/
abbrev BT := Nat × Nat

/-- `Tags`, tags.py:25-58. The tags of the vertices are references to the objects in `_ip_tags` and
`_reverse_ip_tags`: here their keys. The two dictionaries of lists by vertex are each one list of pairs, in
the order added. -/
structure Tags where
  ip : Dict BT IPTag
  rev : Dict BT RevTag
  ipBy : List (Nat × BT)
  revBy : List (Nat × BT)
  ports : List (Nat × Nat)
  deriving DecidableEq, Repr

/-- `Tags()`, tags.py:42-58. -/
def Tags.empty : Tags := ⟨[], [], [], [], []⟩

/-- `is_equal_or_none`, utility_calls.py:63-70. -/
def equalOrNone (a b : Option Nat) : Bool := a.isNone || b.isNone || decide (a = b)

/-- The tag may be shared, tags.py:79-82. -/
def compatible (old new : IPTag) : Bool :=
  decide (old.ip = new.ip) && equalOrNone old.port new.port && decide (old.strip = new.strip)

/-- `add_ip_tag`, tags.py:60-102, for an `IPTag`. Every exception comes before the first change. -/
def addIp (s : Tags) (t : IPTag) (v : Nat) : Except PyErr Tags :=
  let k := (t.board, t.tag)
  match s.ip.get? k with
  | some old =>
    if compatible old t = false then .error .invalidParameter
    else if (s.rev.get? k).isSome then .error .invalidParameter
    else
      .ok { s with
        ip := if old.port.isNone ∧ t.port.isSome then s.ip.set k { old with port := t.port } else s.ip
        ipBy := s.ipBy ++ [(v, k)] }
  | none =>
    if (s.rev.get? k).isSome then .error .invalidParameter
    else .ok { s with ip := s.ip.set k t, ipBy := s.ipBy ++ [(v, k)] }

/-- `add_reverse_ip_tag`, tags.py:104-141, for a `ReverseIPTag`. Every exception comes before the first
change. -/
def addRev (s : Tags) (t : RevTag) (v : Nat) : Except PyErr Tags :=
  let k := (t.board, t.tag)
  if (s.ip.get? k).isSome ∨ (s.rev.get? k).isSome then .error .invalidParameter
  else match t.port with
    | none => .ok { s with rev := s.rev.set k t, revBy := s.revBy ++ [(v, k)] }
    | some p =>
      if (t.board, p) ∈ s.ports then .error .invalidParameter
      else .ok { s with
        rev := s.rev.set k t
        revBy := s.revBy ++ [(v, k)]
        ports := (t.board, p) :: s.ports }

/-- `get_ip_tags_for_vertex`, tags.py:172-181; no tags where Python gives `None`. -/
def ipTagsOf (s : Tags) (v : Nat) : List IPTag :=
  s.ipBy.filterMap (fun q => if q.1 = v then s.ip.get? q.2 else none)

/-- `get_reverse_ip_tags_for_vertex`, tags.py:183-193; no tags where Python gives `None`. -/
def revTagsOf (s : Tags) (v : Nat) : List RevTag :=
  s.revBy.filterMap (fun q => if q.1 = v then s.rev.get? q.2 else none)

/-- A call. -/
inductive Op where
  | ip (t : IPTag) (v : Nat)
  | rev (t : RevTag) (v : Nat)
  deriving DecidableEq, Repr

/-- One call. -/
def step (s : Tags) : Op → Except PyErr Tags
  | .ip t v => addIp s t v
  | .rev t v => addRev s t v

/-- Calls in turn, exceptions caught (not code: how a user may call the class). -/
def run : Tags → List Op → Tags
  | s, [] => s
  | s, o :: os =>
    match step s o with
    | .ok s' => run s' os
    | .error _ => run s os

/-! ### The allocator -/

/-- `IPtagResource`, iptag_resource.py: what the allocator reads. -/
structure IPRes where
  ip : Nat
  port : Option Nat
  strip : Bool
  tag : Option Nat
  deriving DecidableEq, Repr

/-- `ReverseIPtagResource`, reverse_iptag_resource.py: what the allocator reads. -/
structure RevRes where
  port : Option Nat
  tag : Option Nat
  deriving DecidableEq, Repr

/-- A placed vertex with its nearest Ethernet chip, basic_tag_allocator.py:65-67, and its resources. -/
structure Placed where
  vertex : Nat
  eth : Nat
  iptags : List IPRes
  revtags : List RevRes
  deriving DecidableEq, Repr

/-- The machine: its Ethernet chips in order, and their IP addresses. -/
structure Machine where
  eths : List Nat
  addr : Nat → Nat

/-- `_CHIP_TAGS`, basic_tag_allocator.py:31. -/
def chipTags : List Nat := [1, 2, 3, 4, 5, 6, 7]

/-- `_BOARD_PORTS`, basic_tag_allocator.py:28. -/
def boardPorts : List Nat := List.range' 17896 104

/-- A `defaultdict` of lists. -/
def avail (default : List Nat) (d : Dict Nat (List Nat)) (c : Nat) : List Nat := (d.get? c).getD default

/-- `__find_tag_chip`, basic_tag_allocator.py:105-112. -/
def findTagChip (d : Dict Nat (List Nat)) (tag : Nat) : List Nat →
    Except PyErr (Nat × Dict Nat (List Nat))
  | [] => .error .notFound
  | c :: cs =>
    if tag ∈ avail chipTags d c then .ok (c, d.set c ((avail chipTags d c).erase tag))
    else findTagChip d tag cs

/-- `__find_free_tag`, basic_tag_allocator.py:115-122. -/
def findFreeTag (d : Dict Nat (List Nat)) : List Nat → Except PyErr (Nat × Nat × Dict Nat (List Nat))
  | [] => .error .notFound
  | c :: cs =>
    match avail chipTags d c with
    | [] => findFreeTag d cs
    | t :: ts => .ok (c, t, d.set c ts)

/-- `__get_chip_and_tag`, basic_tag_allocator.py:86-102: the chip, the tag and the tags left. -/
def getChipAndTag (m : Machine) (d : Dict Nat (List Nat)) (eth : Nat) (want : Option Nat) :
    Except PyErr (Nat × Nat × Dict Nat (List Nat)) :=
  match want with
  | some tag =>
    if tag ∈ avail chipTags d eth then .ok (eth, tag, d.set eth ((avail chipTags d eth).erase tag))
    else
      match findTagChip d tag m.eths with
      | .error e => .error e
      | .ok (c, d') => .ok (c, tag, d')
  | none =>
    match (avail chipTags d eth).getLast? with
    | some tag => .ok (eth, tag, d.set eth (avail chipTags d eth).dropLast)
    | none => findFreeTag d m.eths

/-- `__get_port`, basic_tag_allocator.py:147-152. -/
def getPort (d : Dict Nat (List Nat)) (eth : Nat) (want : Option Nat) :
    Except PyErr (Nat × Dict Nat (List Nat)) :=
  match want with
  | some p => .ok (p, d)
  | none =>
    match (avail boardPorts d eth).getLast? with
    | some p => .ok (p, d.set eth (avail boardPorts d eth).dropLast)
    | none => .error .indexError

/-- The local variables of `basic_tag_allocator`. -/
structure State where
  tagsAvail : Dict Nat (List Nat)
  portsAvail : Dict Nat (List Nat)
  tags : Tags
  deriving DecidableEq, Repr

/-- One IP tag of a placed vertex, basic_tag_allocator.py:68-73 with `__create_tag` (125-133). -/
def allocIp (m : Machine) (p : Placed) (s : State) (r : IPRes) : Except PyErr State := do
  let (c, tag, d) ← getChipAndTag m s.tagsAvail p.eth r.tag
  let tags ← addIp s.tags ⟨m.addr c, tag, r.ip, r.port, r.strip⟩ p.vertex
  pure { s with tagsAvail := d, tags := tags }

/-- One reverse IP tag of a placed vertex, basic_tag_allocator.py:74-81 with `__create_reverse_tag`
(136-144): the chip found is not used. -/
def allocRev (m : Machine) (p : Placed) (s : State) (r : RevRes) : Except PyErr State := do
  let (_, tag, d) ← getChipAndTag m s.tagsAvail p.eth r.tag
  let (port, d') ← getPort s.portsAvail p.eth r.port
  let tags ← addRev s.tags ⟨m.addr p.eth, tag, some port⟩ p.vertex
  pure ⟨d, d', tags⟩

/-- A `for` loop over the resources. -/
def foldE {α : Type} (f : State → α → Except PyErr State) : State → List α → Except PyErr State
  | s, [] => .ok s
  | s, a :: l =>
    match f s a with
    | .error e => .error e
    | .ok s' => foldE f s' l

/-- One placed vertex, basic_tag_allocator.py:64-81. -/
def allocPlaced (m : Machine) (s : State) (p : Placed) : Except PyErr State := do
  let s ← foldE (allocIp m p) s p.iptags
  foldE (allocRev m p) s p.revtags

/-- `basic_tag_allocator`, basic_tag_allocator.py:34-83. -/
def allocate (m : Machine) (ps : List Placed) : Except PyErr Tags :=
  (foldE (allocPlaced m) ⟨[], [], Tags.empty⟩ ps).map (·.tags)

end Pacman.TagAlloc
