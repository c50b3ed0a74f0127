import Verif.Model.Slices
import Verif.Model.Allocator
/-
Model of `model/graphs/application/abstract/abstract_2d_device_vertex.py` and of the slices of
`model/graphs/application/application_fpga_vertex.py`.
-/

namespace Pacman.Device

open Alloc (clog2)
open Slices (Slice mkSlice)

/-- `width`, `height`, `sub_width` and `sub_height`, abstract_2d_device_vertex.py:42-80. Negative sizes are left out:
they are refused by `_verify_sub_size`. -/
structure Dev where
  w : Nat
  h : Nat
  sw : Nat
  sh : Nat
  deriving DecidableEq, Repr

/-- `is_power_of_2`, utility_calls.py:187-194. -/
def isPow2 (v : Nat) : Bool := decide (v ≠ 0 ∧ v &&& (v - 1) = 0)

/-- `_verify_sub_size`, abstract_2d_device_vertex.py:96-113. -/
def verify (d : Dev) : Except PyErr Unit :=
  if isPow2 d.sw = false then .error .configuration
  else if isPow2 d.sh = false then .error .configuration
  else if d.sw > d.w then .error .configuration
  else if d.sh > d.h then .error .configuration
  else .ok ()

/-- `int(math.ceil(a / b))`: the division by a power of two is exact for numbers below 2^53. -/
def ceilDiv (a b : Nat) : Nat := (a + b - 1) / b

/-- `get_n_bits`, utility_calls.py:143-155. `math.log2` is taken as exact. -/
def nBits (n : Nat) : Nat := if n = 0 then 0 else if n = 1 then 1 else clog2 n

/-- `n_squares_per_row` and `n_per_row`, abstract_2d_device_vertex.py:132-133 and 212. -/
def perRow (d : Dev) : Nat := ceilDiv d.w d.sw

/-- `n_per_col`, abstract_2d_device_vertex.py:222. -/
def perCol (d : Dev) : Nat := ceilDiv d.h d.sh

/-- `_n_sub_rectangles`, abstract_2d_device_vertex.py:115-123. -/
def nSub (d : Dev) : Nat := perRow d * perCol d

/-- `_sub_square_from_index`, abstract_2d_device_vertex.py:125-138. -/
def subSquare (d : Dev) (index : Nat) : Nat × Nat := (index % perRow d, index / perRow d)

/-- `_get_slice`, abstract_2d_device_vertex.py:140-155; `atoms_shape` is `(width, height)`
(application_2d_fpga_vertex.py:94-97). -/
def getSlice (d : Dev) (index : Nat) : Except PyErr Slice :=
  let xy := subSquare d index
  let lo := index * (d.sw * d.sh)
  mkSlice lo (lo + d.sw * d.sh) (some [(xy.1 * d.sw, d.sw, d.w), (xy.2 * d.sh, d.sh, d.h)])

/-- `_x_bits`, abstract_2d_device_vertex.py:187-194. -/
def xBits (d : Dev) : Nat := nBits d.w

/-- `_y_bits`, abstract_2d_device_vertex.py:196-203. -/
def yBits (d : Dev) : Nat := nBits d.h

/-- `_sub_x_bits`, abstract_2d_device_vertex.py:205-213. -/
def subXBits (d : Dev) : Nat := nBits (perRow d)

/-- `_sub_y_bits`, abstract_2d_device_vertex.py:215-223. -/
def subYBits (d : Dev) : Nat := nBits (perCol d)

/-- `_source_x_shift`, abstract_2d_device_vertex.py:253-261. -/
def sourceXShift (_ : Dev) : Nat := 0

/-- `_source_y_shift`, abstract_2d_device_vertex.py:273-281. -/
def sourceYShift (d : Dev) : Nat := xBits d

/-- `_x_index_shift`, abstract_2d_device_vertex.py:225-232. The difference is not negative for a device that
`_verify_sub_size` accepts (`subXBits_le`). -/
def xIndexShift (d : Dev) : Nat := sourceXShift d + (xBits d - subXBits d)

/-- `_y_index_shift`, abstract_2d_device_vertex.py:234-241. -/
def yIndexShift (d : Dev) : Nat := sourceYShift d + (yBits d - subYBits d)

/-- `_key_shift`, abstract_2d_device_vertex.py:283-290. -/
def keyShift (d : Dev) : Nat := yBits d + xBits d

/-- `_mask`, abstract_2d_device_vertex.py:172-185: a negative shift raises `ValueError`. -/
def mask (d : Dev) : Except PyErr Nat :=
  if keyShift d > 32 then .error .valueError
  else .ok ((1 <<< (32 - keyShift d) - 1) <<< keyShift d + (1 <<< subYBits d - 1) <<< yIndexShift d
    + (1 <<< subXBits d - 1) <<< xIndexShift d)

/-- `BaseKeyAndMask(base_key, mask)`, base_key_and_mask.py:30-43. Numbers are not cut to 32 bits. -/
def mkKeyMask (key m : Nat) : Except PyErr (Nat × Nat) :=
  if key &&& m ≠ key then .error .configuration else .ok (key, m)

/-- `_get_key_and_mask`, abstract_2d_device_vertex.py:157-170. -/
def getKeyMask (d : Dev) (base index : Nat) : Except PyErr (Nat × Nat) :=
  match mask d with
  | .error e => .error e
  | .ok m =>
    let xy := subSquare d index
    mkKeyMask (base <<< keyShift d + xy.2 <<< yIndexShift d + xy.1 <<< xIndexShift d) m

/-! ### FPGA devices -/

/-- `ApplicationFPGAVertex.get_incoming_slice_for_link`, application_fpga_vertex.py:81-98. -/
def fpgaSlice (nAtoms perLink index : Nat) : Except PyErr Slice :=
  if perLink = 0 then .error .zeroDivision
  else
    let a := nAtoms / perLink
    mkSlice (a * index) (min (a * (index + 1)) nAtoms) none

/-- `ApplicationFPGAVertex.get_outgoing_slice`, application_fpga_vertex.py:100-106. -/
def fpgaOutgoing (nAtoms : Nat) : Except PyErr Slice := mkSlice 0 nAtoms none

end Pacman.Device
