import Verif.Model.Base
/-
Model of `model/routing_tables/`.  `same` is `MulticastRoutingEntry.__eq__` (external, in
spinn_machine).  Tables are values: a table changed after it was put in a collection is not
modelled, except in `fromJson`, which does so itself.
-/

namespace Pacman.Tables

/-- A chip position. -/
abbrev XY := Nat × Nat

/-- `UnCompressedMulticastRoutingTable`, uncompressed_multicast_routing_table.py:36-46. -/
structure UTable where
  x : Nat
  y : Nat
  entries : Dict (Word × Word) Entry
  nDefaulted : Nat
  deriving DecidableEq, Repr

/-- A table without entries, uncompressed_multicast_routing_table.py:63-66. -/
def UTable.empty (x y : Nat) : UTable := ⟨x, y, [], 0⟩

/-- `add_multicast_routing_entry`, uncompressed_multicast_routing_table.py:71-94. -/
def UTable.add (same : Entry → Entry → Bool) (t : UTable) (e : Entry) : Except PyErr UTable :=
  match t.entries.get? (e.key, e.mask) with
  | some old => if same old e then .ok t else .error .alreadyExists
  | none =>
    .ok { t with
      entries := t.entries.set (e.key, e.mask) e
      nDefaulted := if e.defaultable then t.nDefaulted + 1 else t.nDefaulted }

/-- Adding entries in turn; the first exception ends it
(uncompressed_multicast_routing_table.py:68-69, multicast_routing_tables.py:184-190). -/
def UTable.addAll (same : Entry → Entry → Bool) : UTable → List Entry → Except PyErr UTable
  | t, [] => .ok t
  | t, e :: es =>
    match t.add same e with
    | .error x => .error x
    | .ok t' => addAll same t' es

/-- `multicast_routing_entries`, uncompressed_multicast_routing_table.py:108-109. -/
def UTable.values (t : UTable) : List Entry := t.entries.map (·.2)

/-- `dict.__eq__`: as many keys, and each key of the first has an equal value in the second. -/
def dictEq {κ α : Type} [DecidableEq κ] (same : α → α → Bool) (d d' : Dict κ α) : Bool :=
  d.length == d'.length && d.all (fun p =>
    match d'.get? p.1 with
    | some v => same p.2 v
    | none => false)

/-- `UnCompressedMulticastRoutingTable.__eq__`, uncompressed_multicast_routing_table.py:121-127. -/
def UTable.eq (same : Entry → Entry → Bool) (a b : UTable) : Bool :=
  if a.x ≠ b.x ∧ a.y ≠ b.y then false else dictEq same a.entries b.entries

/-- `CompressedMulticastRoutingTable`, compressed_multicast_routing_table.py:27-37. -/
structure CTable where
  x : Nat
  y : Nat
  entries : List Entry
  nDefaulted : Nat
  deriving DecidableEq, Repr

/-- A table without entries, compressed_multicast_routing_table.py:54-57. -/
def CTable.empty (x y : Nat) : CTable := ⟨x, y, [], 0⟩

/-- `add_multicast_routing_entry`, compressed_multicast_routing_table.py:62-69. -/
def CTable.add (t : CTable) (e : Entry) : CTable :=
  { t with
    entries := t.entries ++ [e]
    nDefaulted := if e.defaultable then t.nDefaulted + 1 else t.nDefaulted }

/-- `CompressedMulticastRoutingTable.__eq__`, compressed_multicast_routing_table.py:96-103. -/
def CTable.eq (same : Entry → Entry → Bool) (a b : CTable) : Bool :=
  if a.x ≠ b.x ∧ a.y ≠ b.y then false
  else a.entries.length == b.entries.length && (a.entries.zip b.entries).all (fun p => same p.1 p.2)

/-- `AbstractMulticastRoutingTable`, abstract_multicast_routing_table.py:23-113: one of the two. -/
inductive Table where
  | u (t : UTable)
  | c (t : CTable)
  deriving DecidableEq, Repr

/-- `(table.x, table.y)`. -/
def Table.xy : Table → XY
  | .u t => (t.x, t.y)
  | .c t => (t.x, t.y)

/-- `multicast_routing_entries`, uncompressed_multicast_routing_table.py:106-109,
compressed_multicast_routing_table.py:81-84. -/
def Table.entries : Table → List Entry
  | .u t => t.values
  | .c t => t.entries

/-- `number_of_entries`, uncompressed_multicast_routing_table.py:111-114,
compressed_multicast_routing_table.py:86-89. -/
def Table.numberOfEntries : Table → Nat
  | .u t => t.entries.length
  | .c t => t.entries.length

/-- `number_of_defaultable_entries`, uncompressed_multicast_routing_table.py:116-119,
compressed_multicast_routing_table.py:91-94. -/
def Table.numberOfDefaultable : Table → Nat
  | .u t => t.nDefaulted
  | .c t => t.nDefaulted

/-- `MulticastRoutingTables`, multicast_routing_tables.py:30-42. -/
abbrev TablesMap := Dict XY Table

/-- `add_routing_table`, multicast_routing_tables.py:58-74. -/
def addTable (m : TablesMap) (t : Table) : Except PyErr TablesMap :=
  match m.get? t.xy with
  | some _ => .error .alreadyExists
  | none => .ok (m.set t.xy t)

/-- `routing_tables` and `__iter__`, multicast_routing_tables.py:76-84, 128-135. -/
def tablesOf (m : TablesMap) : List Table := m.map (·.2)

/-- Python's `max` of a list of naturals that is not empty. -/
def maxOf : List Nat → Nat
  | [] => 0
  | a :: l => Nat.max a (maxOf l)

/-- `get_max_number_of_entries`, multicast_routing_tables.py:86-99. -/
def maxNumberOfEntries (m : TablesMap) : Nat :=
  if m.isEmpty then 0 else maxOf ((tablesOf m).map (·.numberOfEntries))

/-- `get_total_number_of_entries`, multicast_routing_tables.py:101-114. -/
def totalNumberOfEntries (m : TablesMap) : Nat :=
  if m.isEmpty then 0 else ((tablesOf m).map (·.numberOfEntries)).sum

/-- `get_routing_table_for_chip`, multicast_routing_tables.py:116-126. -/
def tableFor (m : TablesMap) (xy : XY) : Option Table := m.get? xy

/-- One JSON object of a table: `x`, `y` and entries (`key`, `mask`, `defaultable`,
`spinnaker_route`), multicast_routing_tables.py:148-162. -/
structure JTable where
  x : Nat
  y : Nat
  entries : List (Nat × Nat × Bool × Nat)
  deriving DecidableEq, Repr

/-- `to_json`, multicast_routing_tables.py:141-162. -/
def toJson (m : TablesMap) : List JTable :=
  (tablesOf m).map (fun t => ⟨t.xy.1, t.xy.2,
    t.entries.map (fun e => (e.key.toNat, e.mask.toNat, e.defaultable, e.route))⟩)

/-- The constructor of `MulticastRoutingEntry` (external): rejects a key with bits outside the
mask. -/
def mkEntry (key mask : Nat) (defaultable : Bool) (route : Nat) : Except PyErr Entry :=
  let k : Word := BitVec.ofNat 32 key
  let m : Word := BitVec.ofNat 32 mask
  if k &&& m = k then .ok ⟨k, m, route, defaultable⟩ else .error .invalidParameter

/-- The loop over the entries of one table in `from_json`, multicast_routing_tables.py:186-191. -/
def fromJsonEntries (same : Entry → Entry → Bool) : UTable → List (Nat × Nat × Bool × Nat) →
    Except PyErr UTable
  | t, [] => .ok t
  | t, (k, m, d, r) :: rest =>
    match mkEntry k m d r with
    | .error e => .error e
    | .ok e =>
      match t.add same e with
      | .error e => .error e
      | .ok t' => fromJsonEntries same t' rest

/-- `from_json`, multicast_routing_tables.py:165-192, on JSON already read. The table is added to
the collection while empty, then filled. -/
def fromJson (same : Entry → Entry → Bool) : TablesMap → List JTable → Except PyErr TablesMap
  | m, [] => .ok m
  | m, j :: rest =>
    match addTable m (.u (UTable.empty j.x j.y)) with
    | .error e => .error e
    | .ok m' =>
      match fromJsonEntries same (UTable.empty j.x j.y) j.entries with
      | .error e => .error e
      | .ok t => fromJson same (m'.set (j.x, j.y) (.u t)) rest

end Pacman.Tables
