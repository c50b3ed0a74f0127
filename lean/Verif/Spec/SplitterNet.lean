import Verif.Model.SplitterNet
import Verif.Spec.Pipeline
/-
What is taken for granted of the machine, of the places of machine vertices and of the keys asked for, and what the
routing is to do for the built-in splitters.
-/

namespace Pacman.Split

open Router (Ctx AppPart Net)
open Pipe (Keys Used Alone)

/-- What is taken for granted of the machine and of places, see `Router.NetContract`: merging entries joins their routes,
sets are gone through in some order, machine vertices are on chips, vectors lead to their ends, and the links of
devices are none of the machine. -/
structure Ground (C : Ctx) : Prop where
  merges : ∀ a b c, C.merge a b = .ok c → c.route = a.route ||| b.route
  iter : ∀ l, (C.iter l).Perm l
  placed : ∀ m, (C.locate m).1 ∈ C.T.chips
  vector : ∀ a b, a ∈ C.T.chips → b ∈ C.T.chips →
    RPath.Chain C.T a (RPath.longestFirst C.T (C.vector a b).1 (C.vector a b).2.1 (C.vector a b).2.2 a) b
  outside : ∀ m l, (C.locate m).2.2 = some l → l < 6 ∧ C.T.linkAt (C.locate m).1 l = false

/-- What is taken for granted of the keys asked for; as `Pipe.KeyContract` without what the built-in splitters see to. -/
structure KeyTerms (N : Net) (K : Keys) : Prop where
  valid : ∀ a ident km, K.fixed a ident = some km → km.1 &&& km.2 = km.1
  validM : ∀ m ident km, K.machFixed m ident = some km → km.1 &&& km.2 = km.1
  idle : ∀ a ident, Used N K a ident → N.outgoing ident a = some [] → K.fixed a ident = none
  counted : ∀ a ident ms, Used N K a ident → N.outgoing ident a = some ms → K.fixed a ident = none →
    (∀ m ∈ ms, K.nKeys m ident = 0) → ms.length ≤ 1
  single : ∀ a ident ms, Used N K a ident → N.outgoing ident a = some ms → K.fixed a ident ≠ none →
    Alone K a ident ms
  inside : ∀ a ident ms akm m km, Used N K a ident → N.outgoing ident a = some ms →
    K.fixed a ident = some akm → m ∈ ms → K.machFixed m ident = some km → km.2 &&& akm.2 = akm.2
  apart : ∀ a ident b ident', Used N K a ident → Used N K b ident' → (a, ident) ≠ (b, ident') →
    ∀ x y, K.fixed a ident = some x → K.fixed b ident' = some y →
    ∀ k : Word, ¬ (k &&& x.2 = x.1 ∧ k &&& y.2 = y.1)

/-- `m` is one of the vertices that send for application vertex `a`. -/
def Sender (E : Env) (W : World) (a m : Nat) : Prop :=
  ∃ s ms, (W.app a).splitter = some s ∧ outVerts E W s = .ok ms ∧ m ∈ ms

/-- `t` is one of the vertices that receive for application vertex `d`. -/
def Receiver (E : Env) (W : World) (d t : Nat) : Prop :=
  ∃ s ts, (W.app d).splitter = some s ∧ inVerts E W s = .ok ts ∧ t ∈ ts

/-- The vertex of a device that receives packets is on a chip to which a vertex of it sends packets. -/
def Near (E : Env) (W : World) (C : Ctx) (a : Nat) : Prop :=
  ∀ s, (W.app a).splitter = some s → E.kind s = .external → ∀ t, Receiver E W a t →
    ∃ m, Sender E W a m ∧ (C.locate m).1 = (C.locate t).1

end Pacman.Split
