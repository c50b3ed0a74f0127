import Verif.Model.Csv
/-
Specification of rows of text with routing entries.
-/

namespace Pacman.Csv

open Text

/-- Hexadecimal digits. -/
def hexChars : List Char := "0123456789abcdefABCDEF".toList

/-- The value of one of them. -/
def hexDigit (c : Char) : Nat := ("0123456789abcdef".toList.idxOf c.toLower)

/-- The number that digits say, from the first on. -/
def value (ds : Str) : Nat := ds.foldl (fun a c => 16 * a + hexDigit c) 0

/-- Spaces around a number. -/
def blanks : List Char := [' ', '\t', '\n', '\r']

/-- A cell with the hexadecimal number `n`: digits in either case, with or without `0x`, with or without spaces around. -/
def Hex (s : Str) (n : Nat) : Prop :=
  ∃ a p ds b, s = a ++ (p ++ (ds ++ b)) ∧ (∀ c ∈ a, c ∈ blanks) ∧ (p = [] ∨ p = lit "0x" ∨ p = lit "0X") ∧ ds ≠ [] ∧
    (∀ c ∈ ds, c ∈ hexChars) ∧ (∀ c ∈ b, c ∈ blanks) ∧ n = value ds

/-- A cell with no number: nothing, or a character that is in none. -/
def NoNumber (s : Str) : Prop := s = [] ∨ ∃ c ∈ s, c ∉ hexChars ++ "xX_+- \t\n\r\x0b\x0c".toList

/-- The columns of an entry: all three of three, or the second to the fourth of six. -/
def Columns (r : List Str) (a b c : Str) : Prop := r = [a, b, c] ∨ ∃ x y z, r = [x, a, b, c, y, z]

/-- A row with an entry. -/
def Holds (r : List Str) (key mask : Word) (route : Nat) : Prop :=
  ∃ a b c, Columns r a b c ∧ Hex a key.toNat ∧ Hex b mask.toNat ∧ Hex c route

/-- A row without an entry: another number of columns, or text where a number should be. -/
def Other (r : List Str) : Prop :=
  (r.length ≠ 3 ∧ r.length ≠ 6) ∨ ∃ a b c, Columns r a b c ∧ (NoNumber a ∨ NoNumber b ∨ NoNumber c)

/-- The entry of a row, if any: rows are of one of the two kinds. -/
inductive Read : List (List Str) → List (Word × Word × Nat) → Prop
  | nil : Read [] []
  | holds {r rs es} {k m : Word} {w : Nat} : Holds r k m w → Read rs es → Read (r :: rs) ((k, m, w) :: es)
  | other {r rs es} : Other r → Read rs es → Read (r :: rs) es

/-- What is assumed of the constructor of entries: it refuses keys with bits outside of the mask, with an exception that is no
`ValueError`; entries are not defaultable unless asked for. -/
def Contract (mk : Int → Int → Int → Except PyErr Entry) : Prop :=
  ∀ (k m : Word) (w : Nat), mk k.toNat m.toNat w = if k &&& m = k then .ok ⟨k, m, w, false⟩ else .error .invalidParameter

/-- The entry of these numbers. -/
def entry (e : Word × Word × Nat) : Entry := ⟨e.1, e.2.1, e.2.2, false⟩

/-- The key has no bits outside of the mask. -/
def Fits (e : Word × Word × Nat) : Prop := e.1 &&& e.2.1 = e.1

end Pacman.Csv
