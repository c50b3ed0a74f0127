import Verif.Model.Base
/-
The parts of Python's `str` and `int` that the code uses to write and read numbers. Strings are lists of ASCII characters; numbers
have at most 4300 digits (beyond, Python raises).
-/

namespace Pacman.Text

/-- A string. -/
abbrev Str := List Char

/-- The characters of a literal. -/
def lit (s : String) : Str := s.toList

/-- `str(n)` of a number that is not negative. -/
def natStr (n : Nat) : Str := Nat.toDigits 10 n

/-- `str(n)`, as in slice.py:174 and mdslice.py:117-120. -/
def intStr : Int → Str
  | .ofNat n => natStr n
  | .negSucc n => '-' :: natStr (n + 1)

/-- Characters that `int` passes over at both ends: space, tab, line feed, vertical tab, form feed, carriage return. -/
def isSpace (c : Char) : Bool := c = ' ' || (9 ≤ c.toNat && c.toNat ≤ 13)

/-- The value of a digit, for bases up to 36. -/
def digitVal (c : Char) : Option Nat :=
  if c.isDigit then some (c.toNat - 48)
  else if 97 ≤ c.toNat ∧ c.toNat ≤ 122 then some (c.toNat - 87)
  else if 65 ≤ c.toNat ∧ c.toNat ≤ 90 then some (c.toNat - 55)
  else none

/-- Digits of a base, between which there may be single underscores, and what comes after them. `d` says whether the last
character was a digit. -/
def scan (b : Nat) : (d : Bool) → (acc : Nat) → Str → Option (Nat × Str)
  | d, acc, [] => if d then some (acc, []) else none
  | d, acc, c :: cs =>
    if c = '_' then (if d then scan b false acc cs else none)
    else
      match digitVal c with
      | some v => if v < b then scan b true (acc * b + v) cs else if d then some (acc, c :: cs) else none
      | none => if d then some (acc, c :: cs) else none

/-- Digits, and nothing but spaces after them. -/
def digits (b : Nat) (s : Str) : Except PyErr Nat :=
  match scan b false 0 s with
  | some (n, rest) => if rest.all isSpace then .ok n else .error .valueError
  | none => .error .valueError

/-- After the sign: for base 16, `0x` may come first, and an underscore after it. -/
def unsigned (b : Nat) (s : Str) : Except PyErr Nat :=
  match s with
  | '0' :: x :: '_' :: r => if b = 16 ∧ (x = 'x' ∨ x = 'X') then digits b r else digits b s
  | '0' :: x :: r => if b = 16 ∧ (x = 'x' ∨ x = 'X') then digits b r else digits b s
  | _ => digits b s

/-- `int(s, b)` for the bases 10 and 16, as in slice.py:204-205, mdslice.py:146-155 and
uncompressed_multicast_routing_table.py:139-147. -/
def pyInt (b : Nat) (s : Str) : Except PyErr Int :=
  match s.dropWhile isSpace with
  | '-' :: r => (unsigned b r).map (fun n : Nat => -(n : Int))
  | '+' :: r => (unsigned b r).map (fun n : Nat => (n : Int))
  | r => (unsigned b r).map (fun n : Nat => (n : Int))

/-- `s.split(c)`. -/
def split (c : Char) : Str → List Str
  | [] => [[]]
  | x :: xs =>
    if x = c then [] :: split c xs
    else
      match split c xs with
      | [] => [[x]]
      | p :: ps => (x :: p) :: ps

/-- `sep.join(...)`. -/
def join (sep : Str) : List Str → Str
  | [] => []
  | [p] => p
  | p :: q :: ps => p ++ sep ++ join sep (q :: ps)

end Pacman.Text
