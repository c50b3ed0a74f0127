import Verif.Model.Device2D
/-
What users expect of 2D devices.
-/

namespace Pacman.Device

/-- The key a device sends for a pixel, as the class describes it (abstract_2d_device_vertex.py:31-34): the base key
above a field for y above a field for x. -/
def pixelKey (d : Dev) (base x y : Nat) : Nat := (base * 2 ^ yBits d + y) * 2 ^ xBits d + x

/-- The number of the sub-rectangle a pixel is in: row by row. -/
def indexOf (d : Dev) (x y : Nat) : Nat := y / d.sh * perRow d + x / d.sw

/-- The key is matched. -/
def Matches (key : Nat) (km : Nat × Nat) : Prop := key &&& km.2 = km.1

instance (key : Nat) (km : Nat × Nat) : Decidable (Matches key km) := inferInstanceAs (Decidable (_ = _))

/-- All keys of a device: those in which the bits above the pixels are the base key. -/
def appWords (d : Dev) (base : Nat) : Word × Word :=
  (BitVec.ofNat 32 (base * 2 ^ keyShift d), BitVec.ofNat 32 (2 ^ keyShift d * (2 ^ (32 - keyShift d) - 1)))

/-- A key and a mask as words. -/
def toWords (km : Nat × Nat) : Word × Word := (BitVec.ofNat 32 km.1, BitVec.ofNat 32 km.2)

/-- Sub-rectangles that are one pixel high, and whose rows go on from one another. -/
def InLine (d : Dev) : Prop := d.sh = 1 ∧ (perRow d = 2 ^ subXBits d ∨ d.h = 1)

instance (d : Dev) : Decidable (InLine d) := inferInstanceAs (Decidable (_ ∧ _))

end Pacman.Device
