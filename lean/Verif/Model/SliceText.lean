import Verif.Model.Text
/-
Model of the strings, the equality and the hash of `model/graphs/common/slice.py` and `mdslice.py`.
-/

namespace Pacman.SliceText

open Text

/-- The fields of an `MDSlice`, mdslice.py:54-56. -/
structure Dims where
  shape : List Int
  start : List Int
  atoms : List Int
  deriving DecidableEq, Repr

/-- A `Slice`, or an `MDSlice` if `md` is there: slice.py:49-51. -/
structure S where
  lo : Nat
  n : Nat
  md : Option Dims
  deriving DecidableEq, Repr

/-- `Slice(lo, hi)`, slice.py:31-51. Arguments are integers. -/
def mkSlice (lo hi : Int) : Except PyErr S :=
  if lo < 0 then .error .pacmanValueError
  else if hi < lo then .error .pacmanValueError
  else .ok ⟨lo.toNat, (hi - lo + 1).toNat, none⟩

/-- `MDSlice(lo, hi, shape, start, atoms)`, mdslice.py:30-56. The arguments are tuples of integers. -/
def mkMD (lo hi : Int) (shape start atoms : List Int) : Except PyErr S :=
  match mkSlice lo hi with
  | .error e => .error e
  | .ok s => if shape.length ≠ start.length then .error .pacmanValueError else .ok { s with md := some ⟨shape, start, atoms⟩ }

/-- `shape`, slice.py:85-92 and mdslice.py:66-67. -/
def S.shape (s : S) : List Int :=
  match s.md with
  | none => [(s.n : Int)]
  | some d => d.shape

/-- `start`, slice.py:95-102 and mdslice.py:71-72. -/
def S.start (s : S) : List Int :=
  match s.md with
  | none => [(s.lo : Int)]
  | some d => d.start

/-- `dimension`, slice.py:132-142 and mdslice.py:81-97: the first index and the index after the last in each dimension. -/
def S.dimension (s : S) : List (Int × Int) := (s.start.zip s.shape).map (fun d => (d.1, d.1 + d.2))

/-- `end`, slice.py:145-151 and mdslice.py:101-102. -/
def S.end_ (s : S) : List Int :=
  match s.md with
  | none => [(s.lo : Int) + s.n]
  | some d => (d.start.zip d.shape).map (fun x => x.1 + x.2 - 1)

/-- `str` of a tuple of integers. -/
def tupleStr : List Int → Str
  | [] => lit "()"
  | [a] => '(' :: intStr a ++ lit ",)"
  | l => '(' :: join (lit ", ") (l.map intStr) ++ lit ")"

/-- `(a:b)`, slice.py:174 and mdslice.py:119. -/
def rangeStr (a b : Int) : Str := '(' :: intStr a ++ ':' :: intStr b ++ lit ")"

/-- `str(s)`, slice.py:173-174 and mdslice.py:116-120. -/
def S.str (s : S) : Str :=
  match s.md with
  | none => rangeStr s.lo ((s.lo : Int) + s.n - 1)
  | some d => intStr s.lo ++ tupleStr d.atoms ++ s.dimension.flatMap (fun d => rangeStr d.1 d.2)

/-- `Slice.from_string`, slice.py:193-206. -/
def fromString (s : Str) : Except PyErr S :=
  match s with
  | [] => .error .indexError
  | c :: _ =>
    if c ≠ '(' then .error .notImplemented
    else
      match split ':' (s.drop 1).dropLast with
      | [] => .error .indexError
      | [a] => (pyInt 10 a).bind (fun _ => .error .indexError)
      | a :: b :: _ => (pyInt 10 a).bind (fun lo => (pyInt 10 b).bind (fun hi => mkSlice lo hi))

/-- The generator of mdslice.py:150. -/
def ints : List Str → Except PyErr (List Int)
  | [] => .ok []
  | p :: ps => (pyInt 10 p).bind (fun a => (ints ps).map (fun l => a :: l))

/-- The loop of mdslice.py:151-157: start and size in each dimension. -/
def parts : List Str → Except PyErr (List (Int × Int))
  | [] => .ok []
  | p :: ps =>
    match split ':' p with
    | [] => .error .indexError
    | [a] => (pyInt 10 a).bind (fun _ => .error .indexError)
    | a :: b :: _ => (pyInt 10 a).bind (fun begin_ => (pyInt 10 b.dropLast).bind (fun stop =>
        (parts ps).map (fun l => (begin_, stop - begin_) :: l)))

/-- The product of a list, `size` in mdslice.py:149-155. -/
def prod : List Int → Int
  | [] => 1
  | a :: l => a * prod l

/-- `MDSlice.from_string`, mdslice.py:133-160. -/
def fromStringMD (s : Str) : Except PyErr S :=
  match s with
  | [] => .error .indexError
  | c :: _ =>
    if c = '(' then fromString s
    else
      match split '(' s with
      | [] => .error .indexError
      | [a] => (pyInt 10 a).bind (fun _ => .error .indexError)
      | a :: t :: ps => (pyInt 10 a).bind (fun lo => (ints (split ',' t.dropLast)).bind (fun atoms =>
          (parts ps).bind (fun l =>
            mkMD lo (lo + prod (l.map (·.2)) - 1) (l.map (·.2)) (l.map (·.1)) atoms)))

/-! ### Equality -/

/-- `Slice.__eq__`, slice.py:176-186, for slices. -/
def eqSlice (a b : S) : Bool :=
  if a.lo ≠ b.lo then false
  else if a.shape ≠ b.shape then false
  else if a.start ≠ b.start then false
  else decide (a.n = b.n)

/-- `MDSlice.__eq__`, mdslice.py:122-127, for an `MDSlice` with fields `d`. -/
def eqMD (a : S) (d : Dims) (b : S) : Bool :=
  match b.md with
  | none => false
  | some e => if eqSlice a b = false then false else decide (d.atoms = e.atoms)

/-- `a == b`. Python asks the right operand first if its class is a subclass of that of the left one and overrides `__eq__`. -/
def eq (a b : S) : Bool :=
  match a.md, b.md with
  | none, none => eqSlice a b
  | none, some e => eqMD b e a
  | some d, _ => eqMD a d b

/-- `__hash__`, slice.py:188-190 and mdslice.py:129-131. -/
def hash (a : S) : Nat := a.lo

end Pacman.SliceText
