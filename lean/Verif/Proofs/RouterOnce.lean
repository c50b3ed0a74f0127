import Verif.Spec.Trips
import Verif.Proofs.RouterFlow
import Verif.Proofs.RouterGraph
/-
Helper lemmas: the ways of packets in a routed graph.
-/

namespace Pacman.Router

open Alloc (VId)
open RPath

section
variable {C : Ctx} {P : Partition} {R : Routes} {all goals : List XY} {S : ByPart.State} {m : Nat}

theorem entryFor_mine (hC : Contract C P) (hm : Sends C P m) {c : XY} {e : ByPart.REntry}
    (h : entryFor C S P.ident m c = some e) : ∃ v, (v = .mach m ∨ v = .app P.source) ∧ Mine C P v ∧
      ByPart.entryOn S v P.ident c.1 c.2 = some e := by
  unfold entryFor at h
  split at h
  · rename_i e' he
    cases h
    exact ⟨.mach m, Or.inl rfl, Or.inr ⟨m, rfl, hm⟩, he⟩
  · rw [sends_app hC hm] at h
    exact ⟨_, Or.inr rfl, Or.inl rfl, h⟩

/-- A hop is along the routes of the partition, or along those between the chips of the source. -/
theorem hop_flow (hC : Contract C P)
    (hT : Track C P (FlowF C P R all goals) (FlowD C P R all goals) S) (hm : Sends C P m) {c d : XY}
    {l : Nat} (h : Hop C S P.ident m c l d) : Edge R c l d ∨
      ∃ Rm, routeToXys C.T (C.locate m).1 all [] goals = .ok Rm ∧ Edge Rm c l d := by
  obtain ⟨e, he, hl, hb, hlk, rfl⟩ := h
  obtain ⟨v, hv, hmine, hon⟩ := entryFor_mine hC hm he
  rcases hT.flow v hmine c l ⟨e, hon, hb⟩ hl hlk with h1 | ⟨m', Rm, h1, h2, h3, h4⟩
  · exact Or.inl h1
  · rcases hv with rfl | rfl
    · cases h1
      exact Or.inr ⟨Rm, h3, h4⟩
    · cases h1

theorem hop_one (hC : Contract C P) (hA : Apart C P R all)
    (hT : Track C P (FlowF C P R all goals) (FlowD C P R all goals) S) (hm : Sends C P m)
    {c c' d : XY} {l l' : Nat} (h : Hop C S P.ident m c l d) (h' : Hop C S P.ident m c' l' d) :
    c = c' ∧ l = l' := by
  rcases hop_flow hC hT hm h with h1 | ⟨Rm, h1, h2⟩ <;>
    rcases hop_flow hC hT hm h' with h3 | ⟨Rm', h3, h4⟩
  · exact hA.forest.oneParent _ _ _ _ _ h1 h3
  · exact absurd (self_into h3 h4).1 (hA.noEnter _ _ _ h1)
  · exact absurd (self_into h1 h2).1 (hA.noEnter _ _ _ h3)
  · rw [h1] at h3
    cases h3
    exact (C71_forest forest_empty h1).oneParent _ _ _ _ _ h2 h4

theorem hop_home (hC : Contract C P) (hA : Apart C P R all)
    (hT : Track C P (FlowF C P R all goals) (FlowD C P R all goals) S) (hm : Sends C P m)
    {c : XY} {l : Nat} : ¬ Hop C S P.ident m c l (C.locate m).1 := by
  intro h
  rcases hop_flow hC hT hm h with h1 | ⟨Rm, h1, h2⟩
  · exact hA.noEnter _ _ _ h1 (hA.here m hm)
  · exact (self_into h1 h2).2 rfl

theorem flag_goes (hC : Contract C P) (hA : Apart C P R all) (hk : KeepsFlag C)
    (hT : Track C P (FlowF C P R all goals) (FlowD C P R all goals) S) (hm : Sends C P m)
    {c : XY} {e : ByPart.REntry} (he : entryFor C S P.ident m c = some e) (hd : e.defaultable = true) :
    ∃ l, (∀ b, e.route.testBit b = true ↔ b = l) ∧ (∀ a k, Hop C S P.ident m a k c → k = l) ∧
      (c = (C.locate m).1 → heading (C.locate m) = some l) := by
  obtain ⟨v, hv, hmine, hon⟩ := entryFor_mine hC hm he
  obtain ⟨l, h1, h2⟩ := hT.flag hk v hmine c e hon hd
  refine ⟨l, h1, ?_, ?_⟩
  · intro a k hh
    rcases hop_flow hC hT hm hh with h3 | ⟨Rm, h3, h4⟩ <;> rcases h2 with ⟨b, h2⟩ | ⟨m', Rm', h5, h6, h7, h8⟩
    · exact (hA.forest.oneParent _ _ _ _ _ h3 h2).2
    · exact absurd (self_heads hA h6 h7 h8) (hA.noEnter _ _ _ h3)
    · exact absurd (self_into h3 h4).1 (hA.noEnter _ _ _ h2)
    · rcases hv with rfl | rfl
      · cases h5
        rw [h3] at h7
        cases h7
        rcases h8 with ⟨b, _, h8⟩ | ⟨rfl, _⟩
        · exact ((C71_forest forest_empty h3).oneParent _ _ _ _ _ h4 h8).2
        · exact absurd rfl (self_into h3 h4).2
      · cases h5
  · rintro rfl
    rcases h2 with ⟨b, h2⟩ | ⟨m', Rm', h5, h6, h7, h8⟩
    · exact absurd (hA.here m hm) (hA.noEnter _ _ _ h2)
    · rcases hv with rfl | rfl
      · cases h5
        rcases h8 with ⟨b, _, h8⟩ | ⟨_, h9, i, h10, rfl⟩
        · exact absurd rfl (self_into h7 h8).2
        · unfold heading
          rcases hloc : C.locate m with ⟨xy, p, li⟩
          rw [hloc] at h9 h10
          simp only at h9 h10
          subst h9 h10
          rfl
      · cases h5

end

/-- What is known of the entries for the packets of `m` in a routed graph. -/
structure Straight (C : Ctx) (S : ByPart.State) (ident m : Nat) : Prop where
  one : ∀ c c' d l l', Hop C S ident m c l d → Hop C S ident m c' l' d → c = c' ∧ l = l'
  home : ∀ c l, ¬ Hop C S ident m c l (C.locate m).1
  flag : KeepsFlag C → ∀ c e, entryFor C S ident m c = some e → e.defaultable = true →
    ∃ l, (∀ b, e.route.testBit b = true ↔ b = l) ∧ (∀ a k, Hop C S ident m a k c → k = l) ∧
      (c = (C.locate m).1 → heading (C.locate m) = some l)

theorem routeGraph_straight {N : Net} (hN : NetContract N) (hn : NoReturns N.base) (hs : NetAllSend N)
    (ho : NetOutside N) {fuel : Nat} {S : ByPart.State} (h : routeGraph N fuel = .ok S)
    {a ident m : Nat} (hl : Leaves N a ident) (hm : NetSends N a ident m) :
    Straight (N.ctx ident) S ident m := by
  obtain ⟨p, is, S1, S2, rfl, rfl, hR, _, hr, hf, _, _, hsame⟩ := in_the_end hN h hl
  have hC := hR.contract hN
  have hm' := (sends_iff hR m).mpr hm
  obtain ⟨R, all, goals, hA, hT⟩ := routePartition_track hC hn (hR.outside ho) (hR.allSend hs) hf hr
  have hh : ∀ {c l d}, Hop (N.ctx p.ident) S p.ident m c l d →
      Hop (N.ctx p.ident) S2 (N.partition p is).ident m c l d := by
    rintro c l d ⟨e, h1, h2⟩
    rw [hsame m hm c] at h1
    exact ⟨e, h1, h2⟩
  refine ⟨fun c c' d l l' h1 h2 => hop_one hC hA hT hm' (hh h1) (hh h2),
    fun c l h1 => hop_home hC hA hT hm' (hh h1), fun hk c e he hd => ?_⟩
  rw [hsame m hm c] at he
  obtain ⟨l, h1, h2, h3⟩ := flag_goes hC hA hk hT hm' he hd
  exact ⟨l, h1, fun a k hh' => h2 a k (hh hh'), h3⟩

end Pacman.Router
