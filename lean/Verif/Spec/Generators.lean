import Verif.Model.Generators
import Verif.Spec.Routing
/-
Words used to state what the routing table generators guarantee.
-/

namespace Pacman.Gen

open ByPart (REntry)

/-- What the zoned allocator gives consecutive machine vertices of one application vertex: `2 ^ m` blocks
of `2 ^ nBitsAtoms` keys from an aligned application key, one block for each machine index.  The machine
vertices given are those from index `i0`, their entries have route `r`, and the last index of the
application vertex is not before theirs. -/
structure Zoned (app : AppInfo) (m r i0 : Nat) (entries : List (REntry × MInfo)) : Prop where
  bits : app.nBitsAtoms + m ≤ 32
  base : ∃ b, app.key.toNat = b * 2 ^ (app.nBitsAtoms + m)
  mask : app.machineMask.toNat = 2 ^ 32 - 1 - (2 ^ app.nBitsAtoms - 1)
  each : ∀ j e info, entries[j]? = some (e, info) →
    e.route = r ∧ info.index = i0 + j ∧
      info.key.toNat = app.key.toNat + (i0 + j) * 2 ^ app.nBitsAtoms ∧ info.mask = app.machineMask
  some : entries ≠ []
  fits : i0 + entries.length ≤ 2 ^ m
  last : (i0 + entries.length : Int) ≤ app.maxIndex + 1

/-- The keys of a machine vertex. -/
def MInfo.Owns (i : MInfo) (x : Word) : Prop := x &&& i.mask = i.key

/-- The keys of the block of an application vertex. -/
def AppInfo.Owns (i : AppInfo) (x : Word) : Prop := x &&& i.mask = i.key

open Alloc (VId)

/-- The keys of a source. -/
def World.Owns (w : World) (src : VId × Nat) (x : Word) : Prop :=
  match src.1 with
  | .app a => ∃ i, w.appInfo a src.2 = some i ∧ i.Owns x
  | .mach v => ∃ i, w.machInfo v src.2 = some i ∧ i.Owns x

/-- A source is a machine vertex of application vertex `a` sending on partition `p`. -/
def World.MachOf (w : World) (a p : Nat) (src : VId × Nat) : Prop :=
  ∃ v, src = (.mach v, p) ∧ w.appOf v = some a

/-- The source has the infos the generators ask for. -/
def World.Known (w : World) (src : VId × Nat) : Prop :=
  match src.1 with
  | .app a => ∃ i, w.appInfo a src.2 = some i ∧ i.key &&& i.mask = i.key
  | .mach v => (∃ i, w.machInfo v src.2 = some i ∧ i.key &&& i.mask = i.key) ∧
      ∀ a, w.appOf v = some a → ∃ i, w.appInfo a src.2 = some i

/-- The machine vertices of `a` among the sources have one block each for their index in the aligned block
of `a`, which is for them only. -/
structure Zone (w : World) (srcs : List (VId × Nat)) (a p : Nat) (A : AppInfo) (m : Nat) : Prop where
  bits : A.nBitsAtoms + m ≤ 32
  base : ∃ b, A.key.toNat = b * 2 ^ (A.nBitsAtoms + m)
  mask : A.mask.toNat = 2 ^ 32 - 1 - (2 ^ (A.nBitsAtoms + m) - 1)
  machineMask : A.machineMask.toNat = 2 ^ 32 - 1 - (2 ^ A.nBitsAtoms - 1)
  mach : ∀ v, (.mach v, p) ∈ srcs → w.appOf v = some a → ∀ i, w.machInfo v p = some i →
    i.key.toNat = A.key.toNat + i.index * 2 ^ A.nBitsAtoms ∧ i.mask = A.machineMask ∧
      i.index < 2 ^ m ∧ (i.index : Int) ≤ A.maxIndex
  own : ∀ src ∈ srcs, ¬ w.MachOf a p src → ∀ x, A.Owns x → ¬ w.Owns src x ∧
    ∀ a' A', w.MachOf a' src.2 src → w.appInfo a' src.2 = some A' → ¬ A'.Owns x

/-- A mask whose ones are all above its zeros. -/
def Prefix (m : Word) : Prop := ∃ n, m.toNat + 2 ^ n = 2 ^ 32

/-- Each of several vertices has fixed keys of its own, with a mask that is no such mask. -/
structure Holed {α : Type} (km : α → Option (Word × Word)) (vs : List α) : Prop where
  each : ∀ v ∈ vs, ∃ k, km v = some k ∧ ¬ Prefix k.2
  apart : ∀ v ∈ vs, ∀ v' ∈ vs, v ≠ v' → ∀ k k', km v = some k → km v' = some k' →
    ∀ x : Word, ¬ (x &&& k.2 = k.1 ∧ x &&& k'.2 = k'.1)

/-- Several vertices, in the order of their atoms and numbered so, have blocks of `2 ^ n` fixed keys one after another, from the
first of `2 ^ (n + m)` keys `akm`. -/
structure Lined {α : Type} (akm : Word × Word) (km : α → Option (Word × Word)) (idx lo : α → Nat) (vs : List α) (n m : Nat) :
    Prop where
  bits : n + m ≤ 32
  mask : akm.2.toNat = 2 ^ 32 - 1 - (2 ^ (n + m) - 1)
  order : vs.Pairwise (fun a b => lo a ≤ lo b)
  fits : vs.length ≤ 2 ^ m
  each : ∀ i v, vs[i]? = some v → idx v = i ∧
    ∃ k, km v = some k ∧ k.1.toNat = akm.1.toNat + i * 2 ^ n ∧ k.2.toNat = 2 ^ 32 - 1 - (2 ^ n - 1)

/-- No two machine vertices of `a` among the sources that could be merged. -/
def Apart (w : World) (srcs : List (VId × Nat)) (a p : Nat) (A : AppInfo) : Prop :=
  ∀ v v', (.mach v, p) ∈ srcs → (.mach v', p) ∈ srcs → w.appOf v = some a → w.appOf v' = some a →
    ∀ i i', w.machInfo v p = some i → w.machInfo v' p = some i' → i.mask = A.machineMask →
      Prefix i.mask → i'.index ≠ i.index + 1

/-- Distinct sources with known and disjoint keys; those that might be merged have zoned keys. -/
structure Ready (w : World) (srcs : List (VId × Nat)) : Prop where
  nodup : srcs.Nodup
  known : ∀ src ∈ srcs, w.Known src
  disjoint : ∀ s ∈ srcs, ∀ t ∈ srcs, s ≠ t → ∀ x, ¬ (w.Owns s x ∧ w.Owns t x)
  zones : ∀ a p A, w.appInfo a p = some A → Apart w srcs a p A ∨ ∃ m, Zone w srcs a p A m

/-- The machine info stored for a vertex and partition. -/
def machIn (infos : Alloc.Infos) (v p : Nat) : Option MInfo :=
  infos.findSome? (fun j => match j with
    | .mach q u k m idx => if q = p ∧ u = v then some ⟨BitVec.ofNat 32 k, BitVec.ofNat 32 m, idx⟩ else none
    | _ => none)

/-- The application info stored for a vertex and partition. -/
def appIn (infos : Alloc.Infos) (v p : Nat) : Option AppInfo :=
  infos.findSome? (fun j => match j with
    | .app q u k m mm nb mi =>
      if q = p ∧ u = v then some ⟨BitVec.ofNat 32 k, BitVec.ofNat 32 m, BitVec.ofNat 32 mm, nb, mi⟩ else none
    | _ => none)

/-- The infos of the allocator as the generators see them. -/
def ofInfos (infos : Alloc.Infos) (appOf : Nat → Option Nat) : World := ⟨appOf, machIn infos, appIn infos⟩

/-- A source of a partition: the application vertex or one of its machine vertices. -/
def FromPart (q : Alloc.Part) (src : VId × Nat) : Prop :=
  src = (.app q.pre, q.ident) ∨ ∃ v ∈ q.outgoing, src = (.mach v.id, q.ident)

/-- The fixed keys of a partition are those of one vertex, or of several with masks that have holes, or they lie in line. -/
inductive FixedWell (ps : List Alloc.Part) (q : Alloc.Part) : Prop
  | one : q.outgoing.length ≤ 1 → FixedWell ps q
  | holes : Holed (·.fixed) q.outgoing → FixedWell ps q
  | line (akm : Word × Word) (n m : Nat) : q.fixed = some akm →
    Lined akm (·.fixed) (·.index) (·.loAtom) q.outgoing n m →
    (∀ q' ∈ ps, ∀ u ∈ q'.outgoing, ∀ v ∈ q.outgoing, u.id = v.id → u.index = v.index) →
    (∀ q' ∈ ps, q'.pre = q.pre → q.outgoing.length ≤ q'.nMachine) → FixedWell ps q

end Pacman.Gen
