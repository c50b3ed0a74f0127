import Verif.Model.Allocator
/-
Words used to state what the allocator guarantees.
-/

namespace Pacman.Alloc

/-- The words a key and mask cover. -/
def Covers (k m : Nat) (x : Word) : Prop := x.toNat &&& m = k

/-- A machine vertex in a partition. -/
abbrev mk (p : Part) (v : MVertex) : Nat × VId := (p.ident, .mach v.id)

/-- Distinct partitions and machine vertices, fixed keys that the constructor of a key and mask
accepts. -/
structure WF (ps : List Part) : Prop where
  pairs : (ps.map (fun p => (p.pre, p.ident))).Nodup
  machs : (ps.flatMap (fun p => p.outgoing.map (mk p))).Nodup
  valid : ∀ p ∈ ps, ∀ akm, p.fixed = some akm → akm.1 &&& akm.2 = akm.1
  validM : ∀ p ∈ ps, ∀ v ∈ p.outgoing, ∀ km, v.fixed = some km → km.1 &&& km.2 = km.1

/-- No fixed application key on a partition without outgoing vertices. -/
def NoIdleFixed (ps : List Part) : Prop := ∀ p ∈ ps, p.outgoing = [] → p.fixed = none

/-- A partition whose vertices all ask for no keys has a single vertex. -/
def Counted (ps : List Part) : Prop :=
  ∀ p ∈ ps, p.fixed = none → (∀ v ∈ p.outgoing, v.nKeys = 0) → p.outgoing.length ≤ 1

/-- Where the blocks keep clear of fixed keys: the flexible mode; no fixed keys at all; or some partition without
a fixed key needs as large a block for each vertex, and as many of them, as any such partition. -/
def Clear (flexible : Bool) (ps : List Part) : Prop :=
  flexible = true ∨ (∀ p ∈ ps, p.fixed = none) ∨
  ∃ p ∈ ps, p.fixed = none ∧ ∀ q ∈ ps, q.fixed = none →
    (∀ a : Nat, (∀ v ∈ p.outgoing, v.nKeys ≤ 2 ^ a) → ∀ v ∈ q.outgoing, v.nKeys ≤ 2 ^ a) ∧
    ∀ m : Nat, p.outgoing.length ≤ 2 ^ m → q.outgoing.length ≤ 2 ^ m

/-- The infos come from the allocator, in a mode in which blocks keep clear of fixed keys. -/
def Given (ps : List Part) (infos : Infos) : Prop :=
  ∃ flexible, Clear flexible ps ∧ allocate flexible ps = .ok infos

theorem Given.flexible {ps : List Part} {infos : Infos} (h : allocate true ps = .ok infos) : Given ps infos :=
  ⟨true, .inl rfl, h⟩

end Pacman.Alloc
