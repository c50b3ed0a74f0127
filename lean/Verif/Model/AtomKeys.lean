import Verif.Model.KeyMask
/-
The keys of the atoms of a machine vertex: `get_keys` of `utilities/utility_calls.py` and of
`model/routing_info/vertex_routing_info.py`; and the remaining functions on bits of `utility_calls.py`.
-/

namespace Pacman.AtomKeys

open KeyMask

/-- `get_keys`, utility_calls.py:171-184: `base_key` plus the numbers of the atoms, shifted. Simplified:
the numbers of numpy have 64 bits, here nothing is cut off. -/
def sliceKeys (base nAtoms extra : Nat) : List Nat := (List.range nAtoms).map (fun i => base + i <<< extra)

/-- `VertexRoutingInfo.get_keys`, vertex_routing_info.py:48-70, for the key and mask of the info. -/
def infoKeys (key mask : Word) (n : Option Nat) : Except PyErr (List Word) :=
  match n with
  | none => fill (nKeys mask)
  | some n => if nKeys mask < n then .error .configuration else fill n
where
  /-- Lines 66-70: an array of zeros is made and filled. -/
  fill (n : Nat) : Except PyErr (List Word) :=
    match getKeys key mask (some (List.replicate n 0)) 0 (some n) with
    | .error e => .error e
    | .ok (a, _) => .ok a

/-- `bit_array[bit_positions]`: a position outside the array raises. Positions are not negative. -/
def pick (bits : List Bool) : List Nat → Except PyErr (List Bool)
  | [] => .ok []
  | p :: ps =>
    match bits[p]? with
    | none => .error .indexError
    | some b =>
      match pick bits ps with
      | .error e => .error e
      | .ok bs => .ok (b :: bs)

/-- `compress_bits_from_bit_array`, utility_calls.py:46-60. Assigned are the last `len(bit_positions)`
elements of 32: all 32 where there are no positions (`[-0:]`) or more than 32. numpy refuses other
numbers of values, but for one value, which it repeats (not reached: one position selects one
element). -/
def compressBits (bits : List Bool) (pos : List Nat) : Except PyErr Word :=
  match pick bits pos with
  | .error e => .error e
  | .ok vals =>
    let room := if pos.length = 0 ∨ pos.length > 32 then 32 else pos.length
    if vals.length = room then .ok (compress (List.replicate (32 - room) false ++ vals))
    else .error .valueError

/-- `is_single`, utility_calls.py:73-90. An item is `none` where it is Python's `None`. -/
def isSingle {α : Type} (l : List (Option α)) : Bool :=
  match l with
  | [] => false
  | none :: _ => false
  | some _ :: [] => true
  | some _ :: none :: _ => true
  | some _ :: some _ :: _ => false

end Pacman.AtomKeys
