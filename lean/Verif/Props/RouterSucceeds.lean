import Verif.Proofs.RouterSucceeds
import Verif.Props.RouterGraph
import Verif.Props.MappingWhole
/-
C110: the routing of a graph raises nothing if the vertices are on chips that are together (false without;
partial).
-/

namespace Pacman.Router

open Alloc (VId)
open RPath

/-- C110: if the chips of a machine can all be reached from each other, every source has a splitter, and there are vertices
that send and vertices that receive for every edge, then the graph is routed. -/
def C110_full : Prop := ∀ N : Net, NetContract N → Connected N.base.T → Merges N.base → NetAllSend N →
  (∀ v ∈ N.verts, (N.internals v).isSome = true) → (∀ p ∈ N.parts, (N.internals p.pre).isSome = true) →
  (∀ a ident, Leaves N a ident → ∃ m, NetSends N a ident m) →
  (∀ p ∈ N.parts, p.edges ≠ [] ∧ ∀ d ∈ p.edges, N.incoming d p.pre p.ident ≠ []) →
  ∃ n, ∀ fuel, n ≤ fuel → ∃ S, routeGraph N fuel = .ok S

/-- C110, one partition: where it has no entries before, it is routed.
Missing: returning ways, chips without a vertex that sends (`C98_device_fails`), vertices whose chips are not together
(`C110_target_apart`, `C110_source_apart`), edges without targets (`C110_no_target`). -/
theorem C110_partition_partial {C : Ctx} {P : Partition} (hC : Contract C P) (hT : Connected C.T) (hn : NoReturns C)
    (hm : Merges C) (ha : AllSend C P) (hP : Routable C P) :
    ∃ n, ∀ fuel, n ≤ fuel → ∀ S, Untouched C P S → ∃ S', routePartition C P fuel S = .ok S' :=
  partition_ok hC hn (connected_reaches hC hn hT) hm ha hP

theorem net_reaches {N : Net} (hN : NetContract N) (hn : NoReturns N.base) (hT : Connected N.base.T) :
    Reaches N.base := by
  intro a b ha hb
  exact withoutErrors_reaches hT.owned hT.reach (hN.vector a b ha hb) ha hb (fun ms h => hn a b ms ha hb h)

/-- C110, a whole graph: it is routed.
Missing: as in `C110_partition_partial`. -/
theorem C110_graph_partial {N : Net} (hN : NetContract N) (hT : Connected N.base.T) (hn : NoReturns N.base)
    (hm : Merges N.base) (ha : NetAllSend N) (hP : NetRoutable N) :
    ∃ n, ∀ fuel, n ≤ fuel → ∃ S, routeGraph N fuel = .ok S :=
  routeGraph_succeeds hN hn (net_reaches hN hn hT) hm ha hP

theorem intact_reaches {C : Ctx} (hT : Intact C.T)
    (hv : ∀ a b, a ∈ C.T.chips → b ∈ C.T.chips → ShortVector C.T a b (C.vector a b)) : Reaches C :=
  fun a b ha hb => ⟨_, (C109_way hT ha hb (hv a b ha hb)).1⟩

/-- C110, a whole graph on a machine without faults, with shortest vectors: it is routed.
Missing: chips without a vertex that sends, vertices whose chips are not together, edges without targets. -/
theorem C110_intact_partial {N : Net} (hN : NetContract N) (hT : Intact N.base.T)
    (hv : ∀ a b, a ∈ N.base.T.chips → b ∈ N.base.T.chips → ShortVector N.base.T a b (N.base.vector a b))
    (hm : Merges N.base) (ha : NetAllSend N) (hP : NetRoutable N) :
    ∃ n, ∀ fuel, n ≤ fuel → ∃ S, routeGraph N fuel = .ok S :=
  routeGraph_succeeds hN (Split.C109_noReturns hT hv) (intact_reaches hT hv) hm ha hP

/-! ### Where it fails -/

/-- If the target vertices of an edge are on chips that are not together, routing raises. -/
theorem C110_target_apart :
    routePartition (lineC [0, 1]) ⟨0, 0, [(1, [(2, [.app 0]), (3, [.app 0])])], []⟩ 20 [] = .error .routing := by
  decide +kernel

/-- Application vertex 0 is on the ends of the row, vertex 1 in the middle. -/
def apartC : Ctx := { lineC [0, 1] with
  locate := fun m => if m = 1 then ((2, 0), some 1, none) else if m = 2 then ((1, 0), some 1, none)
    else ((0, 0), some 1, none) }

/-- If the source is on chips that are not together, routing raises. -/
theorem C110_source_apart :
    routePartition apartC ⟨0, 0, [(1, [(2, [.app 0])])], []⟩ 20 [] = .error .routing := by
  decide +kernel

/-- An edge to a vertex whose splitter names no target vertices: `_find_target_xy` returns a variable that it has not set
(an `UnboundLocalError`). -/
theorem C110_no_target : routePartition (lineC [0, 1]) ⟨0, 0, [(1, [])], []⟩ 20 [] = .error .unboundLocal := by
  decide +kernel

/-- A partition without edges, and one that only leads to the source without naming a target vertex: `_route_to_xys`
makes no routes at all, so that those of the source are not found (a `KeyError`). -/
theorem C110_no_edges : routePartition (lineC [0, 1]) ⟨0, 0, [], []⟩ 20 [] = .error .keyError ∧
    routePartition (lineC [0, 1]) ⟨0, 0, [(0, [])], []⟩ 20 [] = .error .keyError := by
  decide +kernel

/-- The chips of the machine of the examples, from the first one and back to it. -/
theorem line_connected : Connected lineT where
  owned := by
    intro c l h
    simp only [lineT, decide_eq_true_eq, List.mem_cons, Prod.mk.injEq, List.not_mem_nil, or_false] at h
    rcases h with ⟨rfl, -⟩ | ⟨rfl, -⟩ | ⟨rfl, -⟩ | ⟨rfl, -⟩ | ⟨rfl, -⟩ | ⟨rfl, -⟩ <;> decide
  reach := by
    have away : ∀ a ∈ lineT.chips, ∃ ns, Walk lineT a ns (0, 0) := by
      intro a ha
      simp only [lineT, List.mem_cons, List.not_mem_nil, or_false] at ha
      rcases ha with rfl | rfl | rfl | rfl
      · exact ⟨_, .nil⟩
      · exact ⟨_, .cons (l := 3) (by decide) (by decide) (by decide) .nil⟩
      · exact ⟨_, .cons (l := 3) (by decide) (by decide) (by decide) (.cons (l := 3) (by decide) (by decide) (by decide) .nil)⟩
      · exact ⟨_, .cons (l := 5) (by decide) (by decide) (by decide) .nil⟩
    have back : ∀ a ∈ lineT.chips, ∃ ns, Walk lineT (0, 0) ns a := by
      intro a ha
      simp only [lineT, List.mem_cons, List.not_mem_nil, or_false] at ha
      rcases ha with rfl | rfl | rfl | rfl
      · exact ⟨_, .nil⟩
      · exact ⟨_, .cons (l := 0) (by decide) (by decide) (by decide) .nil⟩
      · exact ⟨_, .cons (l := 0) (by decide) (by decide) (by decide) (.cons (l := 0) (by decide) (by decide) (by decide) .nil)⟩
      · exact ⟨_, .cons (l := 2) (by decide) (by decide) (by decide) .nil⟩
    intro a b ha hb
    obtain ⟨ns, h1⟩ := away a ha
    obtain ⟨ms, h2⟩ := back b hb
    exact ⟨_, h1.append h2⟩

/-- Application vertex 0 as in `lineC`, application vertex 1 with machine vertices 2 on (2, 0) and 3 on (0, 1). -/
def splitC : Ctx := { lineC [0, 1] with
  appOf := fun m => if m ≤ 1 then some 0 else if m ≤ 3 then some 1 else none
  machines := fun a => if a = 0 then [0, 1] else if a = 1 then [2, 3] else [] }

/-- There is an edge from one to the other. -/
def splitN : Net where
  base := splitC
  parts := [⟨0, 0, [1]⟩]
  verts := [0, 1]
  internals := fun _ => some []
  outgoing := fun _ a => if a = 0 then some [0, 1] else some []
  incoming := fun d a _ => if d = 1 then [(2, [.app a]), (3, [.app a])] else []

theorem split_contract : NetContract splitN := by
  have hC := lineP_contract (out := [0, 1]) (by decide)
  refine ⟨hC.merges, ?_, ?_, ?_, hC.iter, hC.placed, hC.vector, ?_, by simp [splitN]⟩
  · intro a m
    show m ∈ (if a = 0 then [0, 1] else if a = 1 then [2, 3] else []) ↔
      (if m ≤ 1 then some 0 else if m ≤ 3 then some 1 else none) = some a
    by_cases h0 : a = 0
    · subst h0
      rw [if_pos rfl]
      by_cases h1 : m ≤ 1
      · rw [if_pos h1]; simp; omega
      · rw [if_neg h1]
        by_cases h2 : m ≤ 3
        · rw [if_pos h2]; simp; omega
        · rw [if_neg h2]; simp; omega
    · rw [if_neg h0]
      by_cases h3 : a = 1
      · subst h3
        rw [if_pos rfl]
        by_cases h1 : m ≤ 1
        · rw [if_pos h1]; simp; omega
        · rw [if_neg h1]
          by_cases h2 : m ≤ 3
          · rw [if_pos h2]; simp; omega
          · rw [if_neg h2]; simp; omega
      · rw [if_neg h3]
        by_cases h1 : m ≤ 1
        · rw [if_pos h1]; simp; omega
        · rw [if_neg h1]
          by_cases h2 : m ≤ 3
          · rw [if_pos h2]; simp; omega
          · rw [if_neg h2]; simp
  · intro ident a l m h hm
    simp only [splitN] at h
    split at h
    · rename_i h0
      cases h
      simp only [List.mem_cons, List.not_mem_nil, or_false] at hm
      rcases hm with rfl | rfl <;> rw [h0] <;> rfl
    · cases h
      cases hm
  · intro a is h i hi
    simp only [splitN] at h
    cases h
    cases hi
  · intro p hp d hd v hv s hs
    left
    simp only [splitN] at hv
    split at hv
    · simp only [List.mem_cons, List.not_mem_nil, or_false] at hv
      rcases hv with rfl | rfl <;> exact List.mem_singleton.mp hs
    · cases hv

theorem split_leaves {a ident : Nat} (h : Leaves splitN a ident) : a = 0 ∧ ident = 0 := by
  rcases h with ⟨p, hp, h1, h2⟩ | ⟨_, is, h1, i, h2, _⟩
  · simp only [splitN, List.mem_singleton] at hp
    subst hp
    exact ⟨h1.symm, h2.symm⟩
  · simp only [splitN] at h1
    cases h1
    cases h2

theorem split_fails (fuel : Nat) : routeGraph splitN fuel = .error .routing := by
  have h1 : appPartitions splitN = .ok [⟨0, 0, [1]⟩] := by decide +kernel
  have h2 : mapping (splitN.ctx 0) (splitN.partition ⟨0, 0, [1]⟩ []) =
      .ok [((0, 0), [(0, some 1, none)]), ((1, 0), [(1, some 1, none)])] := rfl
  have h3 : routeEdges (splitN.ctx 0) (splitN.partition ⟨0, 0, [1]⟩ []) (0, 0)
      (allSource (splitN.ctx 0) (splitN.partition ⟨0, 0, [1]⟩ []))
      [((0, 0), [(0, some 1, none)]), ((1, 0), [(1, some 1, none)])]
      (splitN.partition ⟨0, 0, [1]⟩ []).edges ⟨[], [], [], false, []⟩ = .error .routing := by decide +kernel
  unfold routeGraph
  rw [h1]
  simp only [routeAll, show splitN.internals 0 = some [] from rfl, routePartition, h2, h3]

/-- C110 is false if the chips of a target are not together. -/
theorem C110_false : ¬ C110_full := by
  intro h
  obtain ⟨n, hn⟩ := h splitN split_contract line_connected (fun a b => ⟨_, rfl⟩) (by
      intro a ident hl m hm
      obtain ⟨rfl, rfl⟩ := split_leaves hl
      exact ⟨m, Or.inl ⟨[0, 1], rfl, hm⟩, rfl⟩) (by decide) (by decide) (by
      intro a ident hl
      obtain ⟨rfl, rfl⟩ := split_leaves hl
      exact ⟨0, Or.inl ⟨[0, 1], rfl, by decide⟩⟩) (by decide)
  obtain ⟨S, hS⟩ := hn n (Nat.le_refl n)
  rw [split_fails] at hS
  cases hS

/-! ### The hypotheses hold for the graph on the machine of four chips -/

theorem together_one {T : Topo} {on : XY → Prop} {x : XY} (h : ∀ c, on c → c = x) : Together T on := by
  intro a b ha hb
  rw [h a ha, h b hb]
  exact .nil

theorem line_sources : Together lineT (fun c => ∃ m ∈ [0, 1], ((lineC [0, 1]).locate m).1 = c) := by
  have hon : ∀ c, (∃ m ∈ [0, 1], ((lineC [0, 1]).locate m).1 = c) → c = (0, 0) ∨ c = (1, 0) := by
    rintro c ⟨m, hm, rfl⟩
    simp only [List.mem_cons, List.not_mem_nil, or_false] at hm
    rcases hm with rfl | rfl
    · exact Or.inl rfl
    · exact Or.inr rfl
  intro a b ha hb
  rcases hon a ha with rfl | rfl <;> rcases hon b hb with rfl | rfl
  · exact .nil
  · exact .snoc (l := 0) .nil (by decide) (by decide) (by decide) ⟨1, by decide, rfl⟩
  · exact .snoc (l := 3) .nil (by decide) (by decide) (by decide) ⟨0, by decide, rfl⟩
  · exact .nil

theorem lineN_routable : NetRoutable (lineN [0, 1]) where
  splitters := by decide
  pres := by decide
  sends := by
    intro a ident _
    simp only [lineN]
    split
    · rfl
    · split <;> rfl
  sources := by
    intro a ident _
    show Together lineT (fun c => ∃ m ∈ (if a = 0 then [0, 1] else if a = 1 then [2] else if a = 2 then [3] else []),
      ((lineC [0, 1]).locate m).1 = c)
    split
    · exact line_sources
    · split
      · refine together_one (x := (2, 0)) ?_
        rintro c ⟨m, hm, rfl⟩
        rw [List.mem_singleton.mp hm]
        rfl
      · split
        · refine together_one (x := (0, 1)) ?_
          rintro c ⟨m, hm, rfl⟩
          rw [List.mem_singleton.mp hm]
          rfl
        · rintro a b ⟨m, hm, _⟩
          cases hm
  named := by decide
  targets := by
    intro p hp d hd hne
    have : ∀ p ∈ (lineN [0, 1]).parts, ∀ d ∈ p.edges, d ≠ p.pre → d = 0 ∧ p.pre = 1 ∨ d = 1 ∧ p.pre = 0 ∨ d = 2 ∧ p.pre = 0 := by
      decide
    rcases this p hp d hd hne with ⟨rfl, h⟩ | ⟨rfl, h⟩ | ⟨rfl, h⟩
    · refine together_congr (fun c => ?_) line_sources
      simp only [lineN, if_pos]
      constructor
      · rintro ⟨m, hm, rfl⟩
        simp only [List.mem_cons, List.not_mem_nil, or_false] at hm
        rcases hm with rfl | rfl
        · exact ⟨_, List.mem_cons_self, rfl⟩
        · exact ⟨_, List.mem_cons_of_mem _ List.mem_cons_self, rfl⟩
      · rintro ⟨v, hv, rfl⟩
        simp only [List.mem_cons, List.not_mem_nil, or_false] at hv
        rcases hv with rfl | rfl
        · exact ⟨0, by decide, rfl⟩
        · exact ⟨1, by decide, rfl⟩
    · refine together_one (x := (2, 0)) ?_
      rintro c ⟨v, hv, rfl⟩
      rw [List.mem_singleton.mp (show v ∈ [(2, [VId.app p.pre])] from hv)]
      rfl
    · refine together_one (x := (0, 1)) ?_
      rintro c ⟨v, hv, rfl⟩
      rw [List.mem_singleton.mp (show v ∈ [(3, [VId.app p.pre])] from hv)]
      rfl
  itself := by
    intro p hp he v hv
    have : ∀ p ∈ (lineN [0, 1]).parts, p.pre ∈ p.edges → p.pre = 1 := by decide
    have h1 := this p hp he
    rw [h1] at hv ⊢
    rw [List.mem_singleton.mp (show v ∈ [(2, [VId.app 1])] from hv)]
    rfl
  inside := by
    intro a is h i hi t ht
    simp only [lineN] at h
    split at h
    · rename_i h0
      cases h
      subst h0
      simp only [List.mem_cons, List.not_mem_nil, or_false] at hi
      rcases hi with rfl | rfl | rfl <;> rw [List.mem_singleton.mp ht] <;> rfl
    · cases h
      cases hi
  asked := by
    intro a ident hl _
    rcases hl with ⟨p, hp, h1, h2⟩ | ⟨_, is, h1, i, h2, h3⟩
    · simp only [lineN, List.mem_cons, List.not_mem_nil, or_false] at hp
      rcases hp with rfl | rfl
      · exact ⟨2, Or.inl ⟨⟨0, 0, [1, 2]⟩, by decide, h1, h2, 1, by decide, (2, [.app a]), by simp [lineN], rfl⟩⟩
      · exact ⟨2, Or.inl ⟨⟨1, 0, [0, 1]⟩, by decide, h1, h2, 1, by decide, (2, [.app a]), by simp [lineN], rfl⟩⟩
    · have h1' := h1
      simp only [lineN] at h1
      split at h1
      · rename_i h0
        cases h1
        simp only [List.mem_cons, List.not_mem_nil, or_false] at h2
        rcases h2 with rfl | rfl | rfl
        · exact ⟨1, Or.inr ⟨_, h1', _, List.mem_cons_self, h3, by decide⟩⟩
        · exact ⟨1, Or.inr ⟨_, h1', _, List.mem_cons_of_mem _ List.mem_cons_self, h3, by decide⟩⟩
        · exact ⟨0, Or.inr ⟨_, h1', _, List.mem_cons_of_mem _ (List.mem_cons_of_mem _ List.mem_cons_self), h3, by decide⟩⟩
      · cases h1
        cases h2

/-- The graph with two partitions and three internal ones is routed. -/
example : ∃ n, ∀ fuel, n ≤ fuel → ∃ S, routeGraph (lineN [0, 1]) fuel = .ok S :=
  C110_graph_partial (line_net (by decide)) line_connected (line_noReturns _) (fun a b => ⟨_, rfl⟩) lineN_allSend
    lineN_routable

/-- And so is its first partition. -/
example : ∃ n, ∀ fuel, n ≤ fuel → ∃ S', routePartition (lineC [0, 1]) lineP fuel [] = .ok S' := by
  obtain ⟨n, hn⟩ := C110_partition_partial (lineP_contract (out := [0, 1]) (by decide)) line_connected (line_noReturns _)
    (fun a b => ⟨_, rfl⟩) line_allSend
    { splitter := rfl
      sources := line_sources
      named := by decide
      targets := by
        intro e he _
        simp only [lineP, List.mem_cons, List.not_mem_nil, or_false] at he
        rcases he with rfl | rfl
        · refine together_one (x := (2, 0)) ?_
          rintro c ⟨v, hv, rfl⟩
          rw [List.mem_singleton.mp hv]
          rfl
        · refine together_one (x := (0, 1)) ?_
          rintro c ⟨v, hv, rfl⟩
          rw [List.mem_singleton.mp hv]
          rfl
      itself := by decide
      inside := by decide
      asked := fun _ => ⟨2, Or.inl ⟨(1, [(2, [.app 0])]), by decide, (2, [.app 0]), by decide, rfl⟩⟩ }
  exact ⟨n, fun fuel hf => hn fuel hf [] (fun _ _ _ => rfl)⟩

end Pacman.Router
