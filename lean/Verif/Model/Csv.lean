import Verif.Model.Text
import Verif.Model.RoutingTables
import Verif.Model.RouteWord
/-
Model of reading routing entries from rows of text (`uncompressed_multicast_routing_table.py`) and of writing them
(`utilities/algorithm_utilities/routes_format.py`). Opening files, `gzip` and `csv.reader` are left out: a file is the list of rows
that `csv.reader` gives, each a list of cells.
-/

namespace Pacman.Csv

open Text Tables

/-- The exceptions that `except ValueError` catches: `ValueError` and the classes of exceptions.py:124, 136 and 148. -/
def isValueError : PyErr → Bool
  | .valueError => true
  | .pacmanValueError => true
  | .alreadyPlaced => true
  | .processorOccupied => true
  | _ => false

/-- The cells of key, mask and route, uncompressed_multicast_routing_table.py:138-141 and 145-148. -/
def cells (row : List Str) : Option (Str × Str × Str) :=
  match row with
  | [a, b, c] => some (a, b, c)
  | [_, a, b, c, _, _] => some (a, b, c)
  | _ => none

/-- The body of `try` for one row, uncompressed_multicast_routing_table.py:138-151. `mk` is the constructor of
`MulticastRoutingEntry` on a `RoutingEntry` of the route (external). -/
def row (same : Entry → Entry → Bool) (mk : Int → Int → Int → Except PyErr Entry) (t : UTable) (r : List Str) : Except PyErr UTable :=
  match cells r with
  | none => .ok t
  | some (a, b, c) =>
    (pyInt 16 a).bind (fun key => (pyInt 16 b).bind (fun mask => (pyInt 16 c).bind (fun route =>
      (mk key mask route).bind (fun e => t.add same e))))

/-- The loop over the rows, uncompressed_multicast_routing_table.py:136-154. The warning of line 153 is left out. -/
def rows (same : Entry → Entry → Bool) (mk : Int → Int → Int → Except PyErr Entry) : UTable → List (List Str) → Except PyErr UTable
  | t, [] => .ok t
  | t, r :: rs =>
    match row same mk t r with
    | .ok t' => rows same mk t' rs
    | .error e => if isValueError e then rows same mk t rs else .error e

/-- `_from_csv_file`, uncompressed_multicast_routing_table.py:132-154. -/
def fromCsv (same : Entry → Entry → Bool) (mk : Int → Int → Int → Except PyErr Entry) (rs : List (List Str)) : Except PyErr UTable :=
  rows same mk (UTable.empty 0 0) rs

/-! ### Writing -/

/-- `f"{n:08X}"`, as in routes_format.py:69. -/
def hex8 (n : Nat) : Str :=
  let ds := (Nat.toDigits 16 n).map Char.toUpper
  List.replicate (8 - ds.length) '0' ++ ds

/-- The dictionary `link_labels`, routes_format.py:52. -/
def linkLabel : Nat → Except PyErr Str
  | 0 => .ok (lit "E")
  | 1 => .ok (lit "NE")
  | 2 => .ok (lit "N")
  | 3 => .ok (lit "W")
  | 4 => .ok (lit "SW")
  | 5 => .ok (lit "S")
  | _ => .error .keyError

/-- The labels of the links, routes_format.py:53. -/
def linkLabels : List Nat → Except PyErr (List Str)
  | [] => .ok []
  | l :: ls => (linkLabel l).bind (fun s => (linkLabels ls).map (fun ss => s :: ss))

/-- `_expand_route_value`, routes_format.py:38-55. The arguments are the sets in the order of their iteration. -/
def expand (processors links : List Nat) : Except PyErr Str :=
  (linkLabels links).map (fun ls => lit "[" ++ join (lit ", ") (processors.map natStr) ++ lit "] [" ++ join (lit ", ") ls ++ lit "]")

/-- `f"{b:<7}"` of a bool, routes_format.py:69: formatted as the integer. -/
def flag (b : Bool) : Str := (if b then '1' else '0') :: List.replicate 6 ' '

/-- `format_route`, routes_format.py:58-70, for an entry with these processors and links. -/
def formatRoute (key mask : Word) (processors links : List Nat) (defaultable : Bool) : Except PyErr Str :=
  (expand processors links).map (fun s =>
    lit "0x" ++ hex8 key.toNat ++ lit " 0x" ++ hex8 mask.toNat ++ lit " 0x" ++ hex8 (RouteWord.reduceRoute processors links) ++
    lit " " ++ flag defaultable ++ lit " " ++ s)

end Pacman.Csv
