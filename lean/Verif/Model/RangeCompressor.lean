import Verif.Model.Base
/-
Model of `operations/router_compressors/ranged_compressor.py`.
-/

namespace Pacman.Range

/-- `sys.maxsize` on a 64-bit platform. -/
def maxsize : Nat := 2 ^ 63 - 1

/-- `_get_key`, ranged_compressor.py:132-144. -/
def getKey (es : List Entry) (i : Nat) : Except PyErr Nat :=
  if i = es.length then .ok maxsize
  else do
    let e ← getE es i
    return (e.key &&& e.mask).toNat

/-- `_get_endpoint`, ranged_compressor.py:146-158. The argument is the Python index plus one, so
that 0 stands for index -1 (lower indices do not occur). -/
def getEndpoint (es : List Entry) : Nat → Except PyErr Nat
  | 0 => .ok 0
  | i + 1 => do
    let e ← getE es i
    return (e.key ||| ~~~e.mask).toNat

/-- `_validate`, ranged_compressor.py:124-130; `n` entries still to check, from index `i`. -/
def validate (es : List Entry) : Nat → Nat → Except PyErr Bool
  | 0, _ => .ok true
  | n + 1, i => do
    let e ← getEndpoint es (i + 1)
    let k ← getKey es (i + 1)
    if e ≥ k then .ok false else validate es n (i + 1)

/-- Python's `int.bit_length`. -/
def bitLength (n : Nat) : Nat := if n = 0 then 0 else n.log2 + 1

/-- `first_point // power * power`, with `power = 2 ^ p`. -/
def lowCut (firstPoint p : Nat) : Nat := firstPoint / 2 ^ p * 2 ^ p

/-- Exponent of the starting power, ranged_compressor.py:174-186 (`power` is always a power of
two, the model keeps its exponent). -/
def startPower (firstPoint lastPoint : Nat) : Nat :=
  let dif := lastPoint - firstPoint
  let p := if dif < 1 then 0 else bitLength (dif - 1)
  if lowCut firstPoint p + 2 ^ p < lastPoint then p + 1 else p

/-- The loop at ranged_compressor.py:189-192. -/
def shrink (firstPoint pre post : Nat) : Nat → Nat
  | 0 => 0
  | p + 1 =>
    if lowCut firstPoint (p + 1) < pre ∨ lowCut firstPoint (p + 1) + 2 ^ (p + 1) > post then
      shrink firstPoint pre post p
    else p + 1

/-- The loop at ranged_compressor.py:196-198. `stop` is `last + 1`; index -1 has
endpoint 0, which is below every `high_cut`. -/
def reduceLast (es : List Entry) (high : Nat) : Nat → Except PyErr Nat
  | 0 => .ok 0
  | stop + 1 => do
    let e ← getEndpoint es (stop + 1)
    if high ≤ e then reduceLast es high stop else .ok (stop + 1)

/-- `_merge_range`, ranged_compressor.py:160-213. `stop` is `last + 1`, `acc` is the table
`_compressed` so far. `fuel` bounds the number of iterations of the outer `while True`.  A
`RoutingEntry` made from a route alone is not defaultable (spinn_machine). -/
def mergeRange (es : List Entry) : Nat → Nat → Nat → List Entry → Except PyErr (List Entry)
  | 0, _, _, _ => .error .outOfFuel
  | fuel + 1, first, stop, acc =>
    if first + 1 = stop then do
      let e ← getE es first
      return acc ++ [e]
    else do
      let firstPoint ← getKey es first
      let lastPoint ← getEndpoint es stop
      let pre ← getEndpoint es first
      let post ← getKey es stop
      let p := shrink firstPoint pre post (startPower firstPoint lastPoint)
      let low := lowCut firstPoint p
      let stop' ← reduceLast es (low + 2 ^ p) stop
      let e ← getE es first
      let acc' := acc ++ [⟨BitVec.ofNat 32 low, BitVec.ofNat 32 (2 ^ 32 - 2 ^ p), e.route, false⟩]
      if stop = stop' then return acc'
      else mergeRange es fuel stop' stop acc'

/-- The loop at ranged_compressor.py:110-119; `n` entries still to look at from index `i`. -/
def ranges (es : List Entry) (fuel : Nat) : Nat → Nat → Nat → Nat → List Entry →
    Except PyErr (List Entry)
  | 0, i, first, _, acc => mergeRange es fuel first i acc
  | n + 1, i, first, route, acc => do
    let e ← getE es i
    if e.route ≠ route then do
      let acc' ← mergeRange es fuel first i acc
      ranges es fuel n (i + 1) i e.route acc'
    else ranges es fuel n (i + 1) first route acc

/-- `compress_table`, ranged_compressor.py:75-122.  `asFar` is the configuration option
`router_table_compress_as_far_as_possible`, `target` the number of router entries of the chip. The
result is the list of entries of the returned table. -/
def compressTable (fuel : Nat) (asFar : Bool) (target : Nat) (t : List Entry) :
    Except PyErr (List Entry) :=
  if asFar = false ∧ t.length < target then .ok t
  else
    let es := stableSort (fun a b => decide (a.key.toNat ≤ b.key.toNat)) t
    match validate es es.length 0 with
    | .error e => .error e
    | .ok false => .ok t
    | .ok true => do
      let e ← getE es 0
      ranges es fuel es.length 0 0 e.route []

end Pacman.Range
