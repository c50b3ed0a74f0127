import Verif.Model.Base
/-
Keys and masks: `model/routing_info/base_key_and_mask.py` and the key functions of
`utilities/utility_calls.py`.  A numpy array of 32 `uint8` bits is a `List Bool`,
most significant bit first.
-/

namespace Pacman.KeyMask

/-- `expand_to_bit_array`, utility_calls.py:22-31 (and base_key_and_mask.py:97-98, 126-127, 149-150):
big-endian `unpackbits` of a 32-bit value. -/
def expand (w : Word) : List Bool := (List.range 32).map (fun i => w.getMsbD i)

/-- The number spelled by bits, most significant first. -/
def bitsVal : List Bool → Nat
  | [] => 0
  | b :: bs => (if b then 2 ^ bs.length else 0) + bitsVal bs

/-- `compress_from_bit_array`, utility_calls.py:34-43 (and base_key_and_mask.py:161-162). -/
def compress (bits : List Bool) : Word := BitVec.ofNat 32 (bitsVal bits)

/-- `numpy.where(bits == 0)[0]`, base_key_and_mask.py:101, 128: positions of the zeros, ascending. -/
def zeros (bits : List Bool) : List Nat :=
  (List.range bits.length).filter (fun i => bits[i]? == some false)

/-- numpy's `array[positions] = values` (base_key_and_mask.py:160, utility_calls.py:138-139).
The two sides have the same length at both places, so the shape error of numpy cannot occur. -/
def assign (bits : List Bool) (pos : List Nat) (vals : List Bool) : List Bool :=
  (pos.zip vals).foldl (fun b pv => b.set pv.1 pv.2) bits

/-- The last `n` elements, Python's `[-n:]`; with `n = 0` Python returns everything. -/
def lastN (n : Nat) (l : List Bool) : List Bool := if n = 0 then l else l.drop (l.length - n)

/-- The constructor, base_key_and_mask.py:30-44. -/
def mk (key mask : Word) : Except PyErr (Word × Word) :=
  if key &&& mask = key then .ok (key, mask) else .error .configuration

/-- `n_keys`, base_key_and_mask.py:89-105. -/
def nKeys (mask : Word) : Nat := 2 ^ (zeros (expand mask)).length

/-- The key built for one value, base_key_and_mask.py:156-162. -/
def keyOf (key mask : Word) (value : Nat) : Word :=
  let z := zeros (expand mask)
  compress (assign (expand key) z (lastN z.length (expand (BitVec.ofNat 32 value))))

/-- numpy item assignment with a non-negative index. -/
def setItem (a : List Word) (i : Nat) (w : Word) : Except PyErr (List Word) :=
  if i < a.length then .ok (a.set i w) else .error .indexError

/-- The loop base_key_and_mask.py:155-162: `n` values still to do, starting from `value`. -/
def fill (key mask : Word) (offset : Nat) : Nat → Nat → List Word → Except PyErr (List Word)
  | 0, _, a => .ok a
  | n + 1, value, a =>
    match setItem a (value + offset) (keyOf key mask value) with
    | .error e => .error e
    | .ok a' => fill key mask offset n (value + 1) a'

/-- The limit on the number of keys, base_key_and_mask.py:142-145. -/
def limitOf : Option Nat → Nat → Nat
  | none, maxN => maxN
  | some l, maxN => min l maxN

/-- `get_keys`, base_key_and_mask.py:107-163.  Simplified: `offset` and the limit are
non-negative (Python would accept negative ones).  The returned list is the array after the
call. -/
def getKeys (key mask : Word) (arr : Option (List Word)) (offset : Nat) (limit : Option Nat) :
    Except PyErr (List Word × Nat) :=
  let z := zeros (expand mask)
  if z.length = 0 then
    let a := arr.getD [0]
    match setItem a offset key with
    | .error e => .error e
    | .ok a' => .ok (a', 1)
  else
    let maxN := 2 ^ z.length
    let maxN := match arr with
      | some a => if a.length < maxN then a.length else maxN
      | none => maxN
    let n := limitOf limit maxN
    let a := arr.getD (List.replicate n 0)
    match fill key mask offset n 0 a with
    | .error e => .error e
    | .ok a' => .ok (a', n)

/-- The first loop of `get_key_ranges`, utility_calls.py:118-120: `pos + 1` is the argument;
returns the number of zeros found and the argument at the end. -/
def firstZeros (bits : List Bool) : Nat → Nat × Nat
  | 0 => (0, 0)
  | pos + 1 =>
    if bits[pos]? == some false then
      let r := firstZeros bits pos
      (r.1 + 1, r.2)
    else (0, pos + 1)

/-- The second loop of `get_key_ranges`, utility_calls.py:123-126: positions, descending. -/
def remainingZeros (bits : List Bool) : Nat → List Nat
  | 0 => []
  | pos + 1 =>
    if bits[pos]? == some false then pos :: remainingZeros bits pos else remainingZeros bits pos

/-- `get_key_ranges`, utility_calls.py:103-140: the list of everything yielded. -/
def getKeyRanges (key mask : Word) : List (Word × Nat) :=
  let um := expand mask
  let (nf, pos) := firstZeros um um.length
  let rem := remainingZeros um pos
  let nSets := 2 ^ rem.length
  let n := 2 ^ nf
  if rem.length = 0 then [(key, n)]
  else (List.range nSets).map (fun v =>
    (compress (assign (expand key) rem (lastN rem.length (expand (BitVec.ofNat 32 v)))), n))

end Pacman.KeyMask
