import Verif.Model.Base
import Verif.Model.KeyMask
/-
Model of `operations/routing_info_allocator_algorithms/zoned_routing_info_allocator.py`.

Application and machine vertices are represented by numbers (object identity), partition
identifiers by numbers. Keys and masks are unbounded naturals as in Python; fixed keys and masks
are 32-bit words.
-/

namespace Pacman.Alloc

/-- A machine vertex as the allocator sees it for one partition: identity, the number of keys it
asks for, `vertex_slice.lo_atom`, its fixed key and mask, and its index in the application vertex. -/
structure MVertex where
  id : Nat
  nKeys : Nat
  loAtom : Nat
  fixed : Option (Word × Word)
  index : Nat
  deriving DecidableEq, Repr

/-- An element of `__vertex_partitions`: application vertex, identifier, the outgoing machine
vertices given by the splitter, the fixed key and mask of the application vertex, and the number
of machine vertices of the application vertex. -/
structure Part where
  pre : Nat
  ident : Nat
  outgoing : List MVertex
  fixed : Option (Word × Word)
  nMachine : Nat
  deriving DecidableEq, Repr

/-- A vertex of either kind. -/
inductive VId where
  | app (n : Nat)
  | mach (n : Nat)
  deriving DecidableEq, Repr

/-- `__fixed_partitions`: (identifier, vertex) to key and mask. -/
abbrev Fixed := Dict (Nat × VId) (Word × Word)

/-- State of `__find_fixed`: the dictionary, `__all_fixed` and the local variable `vert`, which Python
keeps from one partition to the next (`none` while unbound). -/
structure FState where
  fixed : Fixed
  allFixed : Bool
  vert : Option MVertex

/-- The loop over the outgoing vertices, zoned_routing_info_allocator.py:165-193, with the two flags
`is_fixed_m_key` and `is_unfixed_m_key`. -/
def findMachine (p : Part) : List MVertex → FState → Bool → Bool → Except PyErr (FState × Bool)
  | [], s, isFixed, _ => .ok (s, isFixed)
  | v :: vs, s, isFixed, isUnfixed =>
    let s := { s with vert := some v }
    match v.fixed with
    | some km =>
      if isUnfixed then .error .routeInfoAllocation
      else match p.fixed with
        | none => .error .routeInfoAllocation
        | some akm =>
          if km.1 &&& akm.2 ≠ akm.1 then .error .routeInfoAllocation
          else findMachine p vs { s with fixed := s.fixed.set (p.ident, .mach v.id) km } true isUnfixed
    | none =>
      if isFixed then .error .routeInfoAllocation
      else findMachine p vs s isFixed true

/-- One round of the loop of `__find_fixed`, zoned_routing_info_allocator.py:160-204. Where no vertex
was seen yet Python raises an `UnboundLocalError`. -/
def findOne (s : FState) (p : Part) : Except PyErr FState := do
  let (s, isFixed) ← findMachine p p.outgoing s false false
  match p.fixed with
  | none => pure { s with allFixed := false }
  | some akm =>
    if isFixed then pure { s with fixed := s.fixed.set (p.ident, .app p.pre) akm }
    else if p.outgoing.length > 1 then .error .routeInfoAllocation
    else match s.vert with
      | none => .error .unboundLocal
      | some v =>
        pure { s with fixed :=
          (s.fixed.set (p.ident, .mach v.id) akm).set (p.ident, .app p.pre) akm }

/-- `__find_fixed`, zoned_routing_info_allocator.py:153-204. -/
def findFixed : FState → List Part → Except PyErr FState
  | s, [] => .ok s
  | s, p :: ps => do
    let s ← findOne s p
    findFixed s ps

/-- `int(math.ceil(math.log2(n)))` for positive `n`. -/
def clog2 (n : Nat) : Nat := if n ≤ 1 then 0 else (n - 1).log2 + 1

/-- `allocator_bits_needed`, utility_calls.py:158-168. -/
def bitsNeeded (n : Nat) : Nat := if n = 0 then 0 else clog2 n

/-- The zone sizes: `__n_bits_atoms`, `__n_bits_machine`, `__n_bits_atoms_and_mac` and
`__atom_bits_per_app_part`. -/
structure Zones where
  atoms : Nat
  machine : Nat
  both : Nat
  perPart : Dict (Nat × Nat) Nat
  deriving DecidableEq, Repr

/-- The greatest number of keys asked for, zoned_routing_info_allocator.py:224-227. -/
def maxKeys : List MVertex → Nat
  | [] => 0
  | v :: vs => Nat.max v.nKeys (maxKeys vs)

/-- One round of the loop of `__calculate_zones`, zoned_routing_info_allocator.py:220-242. -/
def zoneOne (fixed : Fixed) (z : Zones) (p : Part) : Zones :=
  if p.outgoing = [] then z
  else if maxKeys p.outgoing > 0 then
    let atomBits := bitsNeeded (maxKeys p.outgoing)
    let z := if (fixed.get? (p.ident, .app p.pre)).isSome then z
      else
        let machineBits := bitsNeeded p.outgoing.length
        { z with
          atoms := Nat.max z.atoms atomBits
          machine := Nat.max z.machine machineBits
          both := Nat.max z.both (machineBits + atomBits) }
    { z with perPart := z.perPart.set (p.pre, p.ident) atomBits }
  else { z with perPart := z.perPart.set (p.pre, p.ident) 0 }

/-- `__calculate_zones`, zoned_routing_info_allocator.py:206-242. -/
def calculateZones (fixed : Fixed) (ps : List Part) : Zones :=
  ps.foldl (zoneOne fixed) ⟨0, 0, 0, []⟩

/-- `BITS_IN_KEY`, utilities/constants.py:20. -/
def bitsInKey : Nat := 32

/-- The `AP` indices blocked by one fixed key, zoned_routing_info_allocator.py:302-313. `both` is at
most 32 here. The words are those of Python: nothing is shifted out at the top. -/
def blockedBy (both : Nat) (km : Word × Word) : List Nat :=
  let key : Word := km.1 >>> both
  let mask : Word := (km.2 >>> both) ||| BitVec.ofNat 32 ((2 ^ both - 1) * 2 ^ (bitsInKey - both))
  (KeyMask.getKeyRanges key mask).flatMap (fun r => (List.range r.2).map (fun i => r.1.toNat + i))

/-- `__set_fixed_used`, zoned_routing_info_allocator.py:281-313: the set as a list without
repetitions. -/
def fixedUsed (both : Nat) (fixed : Fixed) : List Nat :=
  (fixed.flatMap (fun p => blockedBy both p.2)).eraseDups

/-- `__check_zones`, zoned_routing_info_allocator.py:244-279: the sizes and the blocked indices. -/
def checkZones (flexible : Bool) (fixed : Fixed) (z : Zones) : Except PyErr (Zones × List Nat) :=
  let appPartBits := bitsNeeded z.perPart.length
  if appPartBits + z.both > bitsInKey then .error .routeInfoAllocation
  else
    let used := fixedUsed z.both fixed
    let appPartBits := bitsNeeded (z.perPart.length + used.length)
    if appPartBits + z.both > bitsInKey then .error .routeInfoAllocation
    else if flexible then .ok (z, used)
    else if appPartBits + z.machine + z.atoms > bitsInKey then
      .ok ({ z with
        atoms := bitsInKey - appPartBits - z.machine
        both := bitsInKey - appPartBits }, used)
    else .ok ({ z with both := z.machine + z.atoms }, used)

/-- Routing information: `MachineVertexRoutingInfo` (machine_vertex_routing_info.py:24-49) or
`AppVertexRoutingInfo` (app_vertex_routing_info.py:26-56). -/
inductive Info where
  | mach (ident vertex key mask index : Nat)
  | app (ident vertex key mask machineMask nBitsAtoms : Nat) (maxIndex : Int)
  deriving DecidableEq, Repr

/-- Partition and vertex of an info. -/
def Info.of : Info → Nat × VId
  | .mach i v _ _ _ => (i, .mach v)
  | .app i v _ _ _ _ _ => (i, .app v)

/-- The store, as the list of what was added. -/
abbrev Infos := List Info

/-- `RoutingInfo.add_routing_info`, routing_info.py:37-51. -/
def addInfo (s : Infos) (i : Info) : Except PyErr Infos :=
  if s.any (fun j => decide (j.of = i.of)) then .error .alreadyExists else .ok (s ++ [i])

/-- `__mask`, zoned_routing_info_allocator.py:390-396, for at most 32 bits (Python would give a
negative number for more). -/
def maskOf (bits : Nat) : Nat := 0xFFFFFFFF - (2 ^ bits - 1)

/-- The constructor of `BaseKeyAndMask`, base_key_and_mask.py:30-44. -/
def mkKM (key mask : Nat) : Except PyErr (Nat × Nat) :=
  if key &&& mask = key then .ok (key, mask) else .error .configuration

/-- The `while` loop, zoned_routing_info_allocator.py:338-339, with at most `fuel` rounds. -/
def nextFree (used : List Nat) : Nat → Nat → Except PyErr Nat
  | 0, _ => .error .outOfFuel
  | fuel + 1, i => if i ∈ used then nextFree used fuel (i + 1) else .ok i

/-- The number of bits used for atoms in one partition and for the machine index,
zoned_routing_info_allocator.py:348-358; the second may be negative. -/
def partBits (flexible : Bool) (z : Zones) (atomBits : Nat) : Nat × Int :=
  if flexible then (atomBits, (z.both : Int) - atomBits)
  else if atomBits ≤ z.atoms then (z.atoms, z.machine)
  else (atomBits, (z.both : Int) - atomBits)

/-- Python's shift count: negative counts raise a `ValueError`. -/
def shiftCount (n : Int) : Except PyErr Nat := if n < 0 then .error .valueError else .ok n.toNat

/-- The key and mask of one machine vertex, zoned_routing_info_allocator.py:361-370. -/
def machineKM (fixed : Fixed) (ap nBitsAtoms : Nat) (nBitsMachine : Int) (ident : Nat) (v : MVertex)
    (index : Nat) : Except PyErr (Nat × Nat) :=
  match fixed.get? (ident, .mach v.id) with
  | some km => .ok (km.1.toNat, km.2.toNat)
  | none => do
    let sh ← shiftCount nBitsMachine
    mkKM (((ap <<< sh) ||| index) <<< nBitsAtoms) (maskOf nBitsAtoms)

/-- The loop over the machine vertices, zoned_routing_info_allocator.py:360-373. -/
def allocMachine (fixed : Fixed) (ap nBitsAtoms : Nat) (nBitsMachine : Int) (ident : Nat) :
    List MVertex → Nat → Infos → Except PyErr Infos
  | [], _, s => .ok s
  | v :: vs, i, s => do
    let km ← machineKM fixed ap nBitsAtoms nBitsMachine ident v i
    let s ← addInfo s (.mach ident v.id km.1 km.2 i)
    allocMachine fixed ap nBitsAtoms nBitsMachine ident vs (i + 1) s

/-- The key and mask of the application vertex, zoned_routing_info_allocator.py:376-382. -/
def appKM (fixed : Fixed) (ap nBitsAtoms : Nat) (nBitsMachine : Int) (p : Part) :
    Except PyErr (Nat × Nat) :=
  match fixed.get? (p.ident, .app p.pre) with
  | some km => .ok (km.1.toNat, km.2.toNat)
  | none => do
    let sh ← shiftCount (nBitsAtoms + nBitsMachine)
    mkKM (ap <<< sh) (maskOf sh)

/-- `machine_vertices.sort(key=lambda x: x.vertex_slice.lo_atom)`,
zoned_routing_info_allocator.py:346. -/
def sortMachine (vs : List MVertex) : List MVertex :=
  stableSort (fun a b => decide (a.loAtom ≤ b.loAtom)) vs

/-- One partition, zoned_routing_info_allocator.py:338-386: the next index and the infos. -/
def allocOne (flexible : Bool) (fixed : Fixed) (z : Zones) (used : List Nat) (ap : Nat) (s : Infos)
    (p : Part) : Except PyErr (Nat × Infos) := do
  let ap ← nextFree used (used.length + 1) ap
  if p.outgoing = [] then pure (ap, s)
  else
    let vs := sortMachine p.outgoing
    match z.perPart.get? (p.pre, p.ident) with
    | none => .error .keyError
    | some atomBits => do
      let bits := partBits flexible z atomBits
      let s ← allocMachine fixed ap bits.1 bits.2 p.ident vs 0 s
      let km ← appKM fixed ap bits.1 bits.2 p
      let s ← addInfo s (.app p.ident p.pre km.1 km.2 (maskOf bits.1) bits.1 ((vs.length : Int) - 1))
      pure (ap + 1, s)

/-- `__allocate`, zoned_routing_info_allocator.py:332-388. -/
def allocLoop (flexible : Bool) (fixed : Fixed) (z : Zones) (used : List Nat) :
    List Part → Nat → Infos → Except PyErr Infos
  | [], _, s => .ok s
  | p :: ps, ap, s => do
    let (ap, s) ← allocOne flexible fixed z used ap s p
    allocLoop flexible fixed z used ps ap s

/-- The info made for one fixed key in `__allocate_all_fixed`, zoned_routing_info_allocator.py:319-329.
The vertices are found again from the partitions (in Python the dictionary holds the objects). -/
def fixedInfo (ps : List Part) (z : Zones) (f : (Nat × VId) × (Word × Word)) : Except PyErr Info :=
  match f.1.2 with
  | .app v =>
    match z.perPart.get? (v, f.1.1), ps.find? (fun p => decide (p.pre = v)) with
    | some bits, some p => .ok (.app f.1.1 v f.2.1.toNat f.2.2.toNat (maskOf bits) bits
        ((p.nMachine : Int) - 1))
    | _, _ => .error .keyError
  | .mach v =>
    match (ps.flatMap (·.outgoing)).find? (fun m => decide (m.id = v)) with
    | some m => .ok (.mach f.1.1 v f.2.1.toNat f.2.2.toNat m.index)
    | none => .error .keyError

/-- `__allocate_all_fixed`, zoned_routing_info_allocator.py:315-330. -/
def allocFixed (ps : List Part) (z : Zones) : Fixed → Infos → Except PyErr Infos
  | [], s => .ok s
  | f :: fs, s => do
    let i ← fixedInfo ps z f
    let s ← addInfo s i
    allocFixed ps z fs s

/-- `allocate`, zoned_routing_info_allocator.py:122-151, on a new allocator. `ps` is
`__vertex_partitions` (each pair of vertex and identifier once). -/
def allocate (flexible : Bool) (ps : List Part) : Except PyErr Infos := do
  let f ← findFixed ⟨[], true, none⟩ ps
  let (z, used) ← checkZones flexible f.fixed (calculateZones f.fixed ps)
  if f.allFixed then allocFixed ps z f.fixed []
  else allocLoop flexible f.fixed z used ps 0 []

end Pacman.Alloc
