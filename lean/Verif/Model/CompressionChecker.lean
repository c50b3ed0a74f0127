import Verif.Model.Base
/-
Model of `operations/router_compressors/routing_compression_checker.py`.
-/

namespace Pacman.Checker

/-- A codified route: a string over `0`, `1` and the wildcard `*` (`none`), most significant bit
first. -/
abbrev Code := List (Option Bool)

/-- `codify`, routing_compression_checker.py:28-56 (with the default length 32; the logged error for
an invalid key is not modelled). -/
def codify (e : Entry) : Code :=
  (List.range 32).reverse.map (fun i => if e.mask.getLsbD i then some (e.key.getLsbD i) else none)

/-- `codify_table`, routing_compression_checker.py:59-72: a dict comprehension, so for a repeated
code the first position and the last entry are kept. -/
def codifyTable (t : List Entry) : Dict Code Entry :=
  t.foldl (fun d e => d.set (codify e) e) []

/-- `covers`, routing_compression_checker.py:75-89. -/
def covers (o c : Code) : Bool :=
  o == c || (o.zip c).all (fun oc => match oc with
    | (some true, some false) => false
    | (some false, some true) => false
    | _ => true)

/-- The part of an original code that starts with the other bit,
routing_compression_checker.py:104-108. -/
def headRemainder (o c : Option Bool) (os : Code) : List Code :=
  if o = none then
    if c = some false then [some true :: os]
    else if c = some true then [some false :: os]
    else []
  else []

/-- `calc_remainders`, routing_compression_checker.py:92-109. Both codes have the same length; for
different lengths Python would fail with an `IndexError`, which the last case leaves out. -/
def calcRemainders : Code → Code → List Code
  | o :: os, c :: cs =>
    if o :: os = c :: cs then []
    else
      (calcRemainders os cs).map (fun tail => o :: tail) ++
      headRemainder o c os
  | _, _ => []

/-- `compare_route`, routing_compression_checker.py:112-157. The position `start` in the list of
codes is modelled by the rest of the list. `same` is `MulticastRoutingEntry.__eq__`
(external). The processors and links are the route word. -/
def compareRoute (same : Entry → Entry → Bool) (o : Entry) : List (Code × Entry) → Code →
    Except PyErr Unit
  | [], _ => if o.defaultable then .ok () else .error .routing
  | (cc, c) :: rest, code =>
    if covers code cc then
      if o.route ≠ c.route then .error .routing
      else if !o.defaultable && c.defaultable then
        if same o c then .error .routing
        else compareRoute same o rest code
      else forE (fun r => compareRoute same o rest r) (calcRemainders code cc)
    else compareRoute same o rest code

/-- `compare_tables`, routing_compression_checker.py:160-175. -/
def compareTables (same : Entry → Entry → Bool) (original compressed : List Entry) :
    Except PyErr Unit :=
  let d := codifyTable compressed
  forE (fun o => compareRoute same o d (codify o)) original

end Pacman.Checker
