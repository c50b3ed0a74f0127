import Verif.Model.RoutingTables
import Verif.Model.SliceText
/-
Model of `__eq__` and `__hash__` of the classes whose objects may be put into sets and used as keys of
dictionaries, and of a set as Python makes it.
-/

namespace Pacman.Hashing

/-- The objects, with the fields that are compared or hashed. Vertices are their identity; strings are
numbers.
* `chipAndCore`: chip_and_core.py:31-40;
* `keyAndMask`: base_key_and_mask.py:25-44;
* `placement`: placement.py:27-50;
* `ipTag`: `IPtagResource`, iptag_resource.py;
* `revTag`: `ReverseIPtagResource`, reverse_iptag_resource.py;
* `slice`: see `SliceText.S`;
* `uTable`, `cTable`: the routing tables, see `Tables`;
* `sdram`: `ConstantSDRAM`, constant_sdram.py. -/
inductive Val where
  | chipAndCore (x y : Int) (p : Option Int)
  | keyAndMask (key mask : Word)
  | placement (vertex : Nat) (x y p : Nat)
  | ipTag (ip : Nat) (port : Option Nat) (strip : Bool) (tag : Option Nat) (traffic : Nat)
  | revTag (port : Option Nat) (sdpPort : Nat) (tag : Option Nat)
  | slice (s : SliceText.S)
  | uTable (t : Tables.UTable)
  | cTable (t : Tables.CTable)
  | sdram (bytes : Int)

/-- An object: its identity and its value. -/
structure Obj where
  id : Nat
  val : Val

/-- The functions of Python that are not modelled: `hash` of the tuples that are hashed (of any kind of
tuple: the first number tells which), and `MulticastRoutingEntry.__eq__`. -/
structure Py where
  tuple : Nat → List (Option Int) → Int
  same : Entry → Entry → Bool

/-- `a.__eq__(b)`: chip_and_core.py:75-78, base_key_and_mask.py:72-76, placement.py:114-118,
iptag_resource.py:121-129 (which does not look at the class of the other: the others have not got its
fields), reverse_iptag_resource.py:88-93, slice.py:176-186 with mdslice.py:122-127,
uncompressed_multicast_routing_table.py:120-125, compressed_multicast_routing_table.py:96-102,
constant_sdram.py:52-55. -/
def eq (P : Py) : Val → Val → Except PyErr Bool
  | .chipAndCore x y p, .chipAndCore x' y' p' => .ok (decide ((x, y, p) = (x', y', p')))
  | .keyAndMask k m, .keyAndMask k' m' => .ok (decide (k = k') && decide (m = m'))
  | .placement v x y p, .placement v' x' y' p' =>
    .ok (decide (x = x') && decide (y = y') && decide (p = p') && decide (v = v'))
  | .ipTag i p s t f, .ipTag i' p' s' t' f' =>
    .ok (decide (i = i') && decide (p = p') && decide (s = s') && decide (t = t') && decide (f = f'))
  | .ipTag _ _ _ _ _, _ => .error .attributeError
  | .revTag p s t, .revTag p' s' t' => .ok (decide (p = p') && decide (s = s') && decide (t = t'))
  | .slice a, .slice b => .ok (SliceText.eq a b)
  | .uTable a, .uTable b => .ok (a.eq P.same b)
  | .cTable a, .cTable b => .ok (a.eq P.same b)
  | .sdram a, .sdram b => .ok (decide (b = a))
  | _, _ => .ok false

/-- `hash(a)`: chip_and_core.py:83-84, base_key_and_mask.py:87-88, placement.py:120-121,
iptag_resource.py:131-134, reverse_iptag_resource.py:95-96, slice.py:188-190,
uncompressed_multicast_routing_table.py:127-129, compressed_multicast_routing_table.py:104-106.
constant_sdram.py:52-55 defines `__eq__` but no `__hash__`: Python makes such objects unhashable. -/
def hash (P : Py) (a : Obj) : Except PyErr Int :=
  match a.val with
  | .chipAndCore x y p => .ok (P.tuple 0 [some x, some y, p])
  | .keyAndMask k m => .ok ((k ^^^ m).toNat)
  | .placement v x y p => .ok (P.tuple 1 [some (x : Int), some (y : Int), some (p : Int), some (v : Int)])
  | .ipTag i p s t f =>
    .ok (P.tuple 2 [some (i : Int), p.map (fun n => (n : Int)), some (if s then 1 else 0),
      t.map (fun n => (n : Int)), some (f : Int)])
  | .revTag p s t => .ok (P.tuple 3 [p.map (fun n => (n : Int)), some (s : Int), t.map (fun n => (n : Int))])
  | .slice s => .ok (SliceText.hash s)
  | .uTable _ => .ok a.id
  | .cTable _ => .ok a.id
  | .sdram _ => .error .typeError

/-- `a == b` in a set or dictionary: objects with the same hash are the same if they are one object or
compare equal; the object in the set is asked. -/
def sameIn (P : Py) (h : Int) (x y : Obj) : Except PyErr Bool :=
  match hash P y with
  | .error e => .error e
  | .ok h' => if h' = h then (if y.id = x.id then .ok true else eq P y.val x.val) else .ok false

/-- Looking for `x` with hash `h` in the objects of a set. Python goes through those with the same hash in
some order: where no comparison raises, the order makes no difference. -/
def search (P : Py) (h : Int) (x : Obj) : List Obj → Except PyErr Bool
  | [] => .ok false
  | y :: ys =>
    match sameIn P h x y with
    | .error e => .error e
    | .ok true => .ok true
    | .ok false => search P h x ys

/-- `x in s`, or `x in d` for a dictionary with the keys `s`. -/
def contains (P : Py) (s : List Obj) (x : Obj) : Except PyErr Bool :=
  match hash P x with
  | .error e => .error e
  | .ok h => search P h x s

/-- `s.add(x)`. -/
def add (P : Py) (s : List Obj) (x : Obj) : Except PyErr (List Obj) :=
  match contains P s x with
  | .error e => .error e
  | .ok true => .ok s
  | .ok false => .ok (s ++ [x])

/-- `set(xs)`, on top of `s`. -/
def addAll (P : Py) : List Obj → List Obj → Except PyErr (List Obj)
  | s, [] => .ok s
  | s, x :: xs =>
    match add P s x with
    | .error e => .error e
    | .ok s => addAll P s xs

end Pacman.Hashing
