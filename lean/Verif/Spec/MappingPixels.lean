import Verif.Spec.MappingDevices
import Verif.Spec.Device2D
/-
What is asked of 2D devices that hand out the keys of their sub-rectangles, for their packets to get to where they should.
-/

namespace Pacman.Split

open Device (Dev appWords toWords getKeyMask keyShift nSub verify InLine)
open Pipe (Keys)

/-- The fixed keys of application vertices, where `D` says which of them are 2D devices with which base key. -/
def fixedFor (K : Keys) (D : Nat → Nat → Option (Dev × Nat)) (a ident : Nat) : Option (Word × Word) :=
  match D a ident with
  | some x => some (appWords x.1 x.2)
  | none => K.fixed a ident

/-- What a subclass of a 2D device is to return for `get_fixed_key_and_mask` and `get_machine_fixed_key_and_mask`
(application_vertex.py:302-337): `D` says for which vertices and identifiers, with which device and base key. The application vertex has
all keys with the base key, and a machine vertex the key that `_get_key_and_mask` (abstract_2d_device_vertex.py:157-170) has for its
sub-rectangle, the number of which is found from the first atom of its slice. Other vertices have the keys in `K`, and none fixed for
machine vertices. Should `_get_key_and_mask` raise, this has no key. -/
def withPixels (K : Keys) (D : Nat → Nat → Option (Dev × Nat)) (W : World) : Keys := { K with
  fixed := fixedFor K D
  machFixed := fun m ident => match D (W.mv m).app ident with
    | some x => match getKeyMask x.1 x.2 ((W.mv m).slice.lo / (x.1.sw * x.1.sh)) with
      | .ok km => some (toWords km)
      | .error _ => none
    | none => none
  loAtom := fun m => (W.mv m).slice.lo
  index := fun m => (W.mv m).index }

/-- The device sends on one link, from a machine vertex for each sub-rectangle. -/
def DevKind.grid (d : Dev) : DevKind → Prop
  | .fpga k links _ two => two = some d ∧ k = nSub d ∧ links.length = 1
  | .link n _ inc _ two => two = some d ∧ n = nSub d ∧ inc = true

/-- A 2D device with keys for which the base key leaves room. Its sub-rectangles do not span it (C48), and either they are higher than one
pixel or their keys go on from one another. -/
structure Grid (E : Env) (W : World) (v : Nat) (d : Dev) (base : Nat) : Prop where
  external : External E W v
  kind : ∃ x, (E.app v).device = some x ∧ x.grid d
  ok : verify d = .ok ()
  bits : keyShift d ≤ 32
  base : base < 2 ^ (32 - keyShift d)
  wide : d.sw < d.w ∨ d.w = 1
  high : d.sh < d.h ∨ d.h = 1
  line : 1 < d.sh ∨ InLine d

/-- As `Modest`, for keys of which some are those of 2D devices. -/
structure ModestPixels (fl : Bool) (cnt : Nat → Nat) (vs : List Nat) (parts : List Router.AppPart) (K : Keys)
    (D : Nat → Nat → Option (Dev × Nat)) (i j c : Nat) : Prop where
  valid : ∀ a ident km, K.fixed a ident = some km → km.1 &&& km.2 = km.1
  asked : ∀ x ∈ K.extra, x.1 ∈ vs
  some_ : ∀ m ident, 1 ≤ K.nKeys m ident
  most : ∀ m ident, K.nKeys m ident ≤ 2 ^ j
  one : ∀ x ∈ pairs parts K, D x.1 x.2 = none → K.fixed x.1 x.2 ≠ none → cnt x.1 = 1
  apart : ∀ x ∈ pairs parts K, ∀ y ∈ pairs parts K, x ≠ y → ∀ a b, fixedFor K D x.1 x.2 = some a → fixedFor K D y.1 y.2 = some b →
    ∀ k : Word, ¬ (k &&& a.2 = a.1 ∧ k &&& b.2 = b.1)
  room : ∃ L : List Nat, parts.length + K.extra.length + L.length ≤ 2 ^ c ∧
    ∀ x ∈ pairs parts K, ∀ km, fixedFor K D x.1 x.2 = some km → ∀ k : Word, k &&& km.2 = km.1 → k.toNat / 2 ^ (i + j) ∈ L
  clear : fl = true ∨ (∀ x ∈ pairs parts K, fixedFor K D x.1 x.2 = none) ∨
    ∃ x ∈ pairs parts K, fixedFor K D x.1 x.2 = none ∧ ∀ y ∈ pairs parts K, fixedFor K D y.1 y.2 = none →
      cnt y.1 ≤ cnt x.1 ∧ ∀ m m', K.nKeys m' y.2 ≤ K.nKeys m x.2

end Pacman.Split
