import Verif.Model.Base
/-
What a SpiNNaker router does with a table: independent of any PACMAN code.
-/

namespace Pacman

/-- The router matches key `k` with an entry when the masked key equals the entry key. -/
def Entry.Matches (e : Entry) (k : Word) : Prop := k &&& e.mask = e.key

instance (e : Entry) (k : Word) : Decidable (e.Matches k) :=
  inferInstanceAs (Decidable (k &&& e.mask = e.key))

/-- What the constructor of a routing entry guarantees: no key bit outside the mask. -/
def Entry.Valid (e : Entry) : Prop := e.key &&& e.mask = e.key

instance (e : Entry) : Decidable e.Valid := inferInstanceAs (Decidable (_ = _))

/-- The first matching entry of a table. -/
def lookup (t : List Entry) (k : Word) : Option Entry := t.find? (fun e => decide (e.Matches k))

/-- The route given by the first match. -/
def routeOf (t : List Entry) (k : Word) : Option Nat := (lookup t k).map (·.route)

/-- Two entries intersect when some key matches both. -/
def Entry.Meets (a b : Entry) : Prop := ∃ k, a.Matches k ∧ b.Matches k

/-- Entries with different routes never match the same key. -/
def RouteDisjoint (t : List Entry) : Prop :=
  ∀ a ∈ t, ∀ b ∈ t, a.route ≠ b.route → ¬ a.Meets b

/-- No key is matched by two entries at different positions. -/
def Orthogonal (t : List Entry) : Prop := t.Pairwise (fun a b => ¬ a.Meets b)

/-- The number of bits of a key that the entry does not look at. -/
def Entry.free (e : Entry) : Nat := (List.range 32).countP (fun i => !e.mask.getLsbD i)

/-- Where a key is matched by two entries the later one looks at no more bits; no two entries have the same key and
mask. -/
def NarrowFirst (t : List Entry) : Prop :=
  t.Pairwise (fun a b => (a.key, a.mask) ≠ (b.key, b.mask) ∧ (a.Meets b → a.free ≤ b.free))

/-- All entries could have been constructed. -/
def AllValid (t : List Entry) : Prop := ∀ e ∈ t, e.Valid

/-- `t'` sends each key that `t` matches where `t` sends it. -/
def RoutesSame (t t' : List Entry) : Prop :=
  ∀ k, routeOf t k ≠ none → routeOf t' k = routeOf t k

/-- What removing entries may do to a key: nothing, or leave the key unmatched where its entry was
defaultable. -/
def SafelyRemoved (t t' : List Entry) : Prop :=
  ∀ k, lookup t' k = lookup t k ∨
    (lookup t' k = none ∧ ∃ e, lookup t k = some e ∧ e.defaultable = true)

end Pacman
