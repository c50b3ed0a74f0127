import Verif.Spec.Allocator
/-
Words used to state what the infos say of the vertices of a partition.
-/

namespace Pacman.Alloc

/-- The indices in the infos of the vertices of a partition number them from 0 in the order of their slices. -/
structure Ordered (infos : Infos) (p : Part) : Prop where
  some : ∀ v ∈ p.outgoing, ∃ k m i, .mach p.ident v.id k m i ∈ infos
  lt : ∀ v ∈ p.outgoing, ∀ k m i, .mach p.ident v.id k m i ∈ infos → i < p.outgoing.length
  inj : ∀ v ∈ p.outgoing, ∀ w ∈ p.outgoing, ∀ k m k' m' i, .mach p.ident v.id k m i ∈ infos →
    .mach p.ident w.id k' m' i ∈ infos → v = w
  mono : ∀ v ∈ p.outgoing, ∀ w ∈ p.outgoing, ∀ k m i k' m' j, .mach p.ident v.id k m i ∈ infos →
    .mach p.ident w.id k' m' j ∈ infos → v.loAtom < w.loAtom → i < j
  top : ∀ K M mm nb mi, .app p.ident p.pre K M mm nb mi ∈ infos → mi = (p.outgoing.length : Int) - 1

/-- The info of the application vertex says which keys and masks its machine vertices have: `nb` is the number of
bits below the index, `mm` the mask of each. -/
def Described (infos : Infos) (p : Part) : Prop :=
  ∀ K M mm nb mi, .app p.ident p.pre K M mm nb mi ∈ infos → mm + 2 ^ nb = 2 ^ 32 ∧
    ∀ v ∈ p.outgoing, ∀ k m i, .mach p.ident v.id k m i ∈ infos → k = K + i * 2 ^ nb ∧ m = mm

/-- One vertex in several partitions: the same index, and the same number of machine vertices. -/
structure Same (ps : List Part) : Prop where
  index : ∀ p ∈ ps, ∀ q ∈ ps, ∀ v ∈ p.outgoing, ∀ w ∈ q.outgoing, v.id = w.id → v.index = w.index
  count : ∀ p ∈ ps, ∀ q ∈ ps, p.pre = q.pre → p.nMachine = q.nMachine

/-- The vertices that send are all the machine vertices of the application vertex, made in the order of their
slices. -/
structure Natural (p : Part) : Prop where
  count : p.nMachine = p.outgoing.length
  index : ∀ v ∈ p.outgoing, v.index < p.outgoing.length
  inj : ∀ v ∈ p.outgoing, ∀ w ∈ p.outgoing, v.index = w.index → v = w
  mono : ∀ v ∈ p.outgoing, ∀ w ∈ p.outgoing, v.loAtom < w.loAtom → v.index < w.index

end Pacman.Alloc
