import Verif.Model.Pipeline
import Verif.Spec.RouterGraph
import Verif.Spec.Validation
/-
What is taken for granted of the keys asked for, and where packets get to on the machine.
-/

namespace Pacman.Pipe

open Alloc (VId Infos)
open Router (Net Leaves)
open RPath (XY Topo)
open Tables (TablesMap)

/-- Keys are allocated for the packets of `a` with this identifier. -/
def Used (N : Net) (K : Keys) (a ident : Nat) : Prop := Leaves N a ident ∨ (a, ident) ∈ K.extra

/-- The blocks keep clear of fixed keys (C18): the flexible mode; no fixed keys at all; or some partition without a fixed
key needs as large a block for each vertex, and as many of them, as any such partition. -/
def Clear (flexible : Bool) (N : Net) (K : Keys) : Prop :=
  flexible = true ∨ (∀ a ident, Used N K a ident → K.fixed a ident = none) ∨
  ∃ a ident ms, Used N K a ident ∧ N.outgoing ident a = some ms ∧ K.fixed a ident = none ∧
    ∀ b ident' ms', Used N K b ident' → N.outgoing ident' b = some ms' → K.fixed b ident' = none →
      (∀ e : Nat, (∀ m ∈ ms, K.nKeys m ident ≤ 2 ^ e) → ∀ m ∈ ms', K.nKeys m ident' ≤ 2 ^ e) ∧
      ∀ e : Nat, ms.length ≤ 2 ^ e → ms'.length ≤ 2 ^ e

/-- The infos come from the allocator, in a mode in which blocks keep clear of fixed keys. -/
def Allocated (N : Net) (K : Keys) (infos : Infos) : Prop :=
  ∃ flexible, Clear flexible N K ∧ allocateFor flexible N K = .ok infos

theorem Allocated.flexible {N : Net} {K : Keys} {infos : Infos} (h : allocateFor true N K = .ok infos) :
    Allocated N K infos := ⟨true, .inl rfl, h⟩

/-- The fixed keys are those of one machine vertex, or of several with masks that have holes, or they lie in line. -/
def Alone (K : Keys) (a ident : Nat) (ms : List Nat) : Prop :=
  ms.length ≤ 1 ∨ Gen.Holed (K.machFixed · ident) ms ∨
  ∃ akm n m, K.fixed a ident = some akm ∧ Gen.Lined akm (K.machFixed · ident) K.index K.loAtom ms n m

/-- What is taken for granted of the keys asked for. -/
structure KeyContract (N : Net) (K : Keys) : Prop where
  /-- No splitter lists a vertex twice. -/
  once : ∀ ident a ms, N.outgoing ident a = some ms → ms.Nodup
  /-- Fixed keys are such as the constructor of a key and mask accepts. -/
  valid : ∀ a ident km, K.fixed a ident = some km → km.1 &&& km.2 = km.1
  validM : ∀ m ident km, K.machFixed m ident = some km → km.1 &&& km.2 = km.1
  /-- No fixed key where nothing is sent (C20). -/
  idle : ∀ a ident, Used N K a ident → N.outgoing ident a = some [] → K.fixed a ident = none
  /-- Several vertices do not all ask for no keys (C17). -/
  counted : ∀ a ident ms, Used N K a ident → N.outgoing ident a = some ms → K.fixed a ident = none →
    (∀ m ∈ ms, K.nKeys m ident = 0) → ms.length ≤ 1
  /-- Merged entries reach no further than the fixed keys (C23). -/
  single : ∀ a ident ms, Used N K a ident → N.outgoing ident a = some ms → K.fixed a ident ≠ none →
    Alone K a ident ms
  /-- The fixed keys of a machine vertex are among those of its application vertex. -/
  inside : ∀ a ident ms akm m km, Used N K a ident → N.outgoing ident a = some ms →
    K.fixed a ident = some akm → m ∈ ms → K.machFixed m ident = some km → km.2 &&& akm.2 = akm.2
  /-- Fixed keys of different partitions have nothing in common. -/
  apart : ∀ a ident b ident', Used N K a ident → Used N K b ident' → (a, ident) ≠ (b, ident') →
    ∀ x y, K.fixed a ident = some x → K.fixed b ident' = some y →
    ∀ k : Word, ¬ (k &&& x.2 = x.1 ∧ k &&& y.2 = y.1)
  /-- Vertices that send within their application vertex are listed as sending. -/
  internal : ∀ a is, N.internals a = some is → ∀ i ∈ is, ∃ ms, N.outgoing i.1 a = some ms ∧ i.2.1 ∈ ms

/-- The coordinates of chips are not negative. -/
def Positive (T : Topo) : Prop := ∀ c ∈ T.chips, 0 ≤ c.1 ∧ 0 ≤ c.2

/-- The machine with these tables in its routers. -/
def sceneOf (T : Topo) (m : TablesMap) : Valid.Scene where
  link := fun c l => if T.linkAt c l then some (T.over c l) else none
  tables := m.map (fun p => (((p.1.1 : Int), (p.1.2 : Int)), p.2.entries))

/-- `k` is one of the keys that machine vertex `m` was given for its packets with this identifier. -/
def HasKey (infos : Infos) (m ident : Nat) (k : Word) : Prop :=
  ∃ key mask index, .mach ident m key mask index ∈ infos ∧ k.toNat &&& mask = key

/-- The packet is sent over link `l` of chip `c`. -/
def Leads (V : Valid.Scene) (k : Word) (src c : XY) (l : Nat) : Prop :=
  ∃ w e, Valid.Way V k src w c ∧ lookup (V.entries c) k = some e ∧ e.route.testBit l = true

/-- The packet gets to machine vertex `t`: to its chip, to its core, and to its link if it is a
device. -/
def Arrives (N : Net) (V : Valid.Scene) (k : Word) (src : XY) (t : Nat) : Prop :=
  (∃ w, Valid.Way V k src w (N.base.locate t).1) ∧
  (∀ p, (N.base.locate t).2.1 = some p → Valid.Reaches V k src (N.base.locate t).1 p) ∧
  (∀ l, (N.base.locate t).2.2 = some l → Leads V k src (N.base.locate t).1 l)

end Pacman.Pipe
