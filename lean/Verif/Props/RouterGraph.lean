import Verif.Proofs.RouterGraph
import Verif.Props.Router
/-
C78: the partitions to route are found, each once.
C79: packets of a whole graph are delivered (false; partial), only to targets; the routing ends.
-/

namespace Pacman.Router

open Alloc (VId)
open RPath

/-! A graph on the machine of four chips. -/

/-- Application vertices 0 to 2 as in `lineC`. Partition 0 of vertex 0 leads to 1 and 2. Partition 0 of
vertex 1 leads to 0 and to itself. Within vertex 0 there are an internal partition 0 and two with
identifier 1 that have no other partition. -/
def lineN (out : List Nat) : Net where
  base := lineC out
  parts := [⟨0, 0, [1, 2]⟩, ⟨1, 0, [0, 1]⟩]
  verts := [0, 1, 2]
  internals := fun a => if a = 0 then some [(0, 0, [1]), (1, 0, [1]), (1, 1, [0])] else some []
  outgoing := fun _ a => if a = 0 then some out else if a = 1 then some [2] else some []
  incoming := fun d a _ => if d = 0 then [(0, [.app a]), (1, [.app a])] else
    if d = 1 then [(2, [.app a])] else if d = 2 then [(3, [.app a])] else []

/-! C78: `get_app_partitions` -/

/-- C78: `get_app_partitions` returns the partitions of the graph in their order and after them
partitions without edges; there is one for a vertex and identifier exactly if packets with the
identifier leave the vertex, in the graph or within it; and if the graph has none twice then there is
none twice. -/
theorem C78_partitions {N : Net} {r : List AppPart} (h : appPartitions N = .ok r) :
    (∃ extra, r = N.parts ++ extra ∧ ∀ e ∈ extra, e.edges = []) ∧
    (∀ a ident, Leaves N a ident ↔ ∃ p ∈ r, p.pre = a ∧ p.ident = ident) ∧
    ((N.parts.map (fun p => (p.pre, p.ident))).Nodup → (r.map (fun p => (p.pre, p.ident))).Nodup) := by
  obtain ⟨extra, hx, h1, h2, h3⟩ := appPartitions_ok h
  refine ⟨⟨extra, hx, fun e he => (h1 e he).1⟩, fun a ident => ⟨mem_of_leaves h, ?_⟩,
    fun hd => appPartitions_nodup hd h⟩
  rintro ⟨p, hp, rfl, rfl⟩
  rw [hx] at hp
  rcases List.mem_append.mp hp with hp | hp
  · exact Or.inl ⟨p, hp, rfl, rfl⟩
  · obtain ⟨_, _, k3, k4⟩ := h1 p hp
    exact Or.inr ⟨k3, k4⟩

/-- C78: it fails exactly if a vertex has no splitter. (The code means to leave such vertices out:
`not v.splitter`. But `v.splitter` raises.) -/
theorem C78_fails (N : Net) (err : PyErr) : appPartitions N = .error err ↔
    err = .configuration ∧ ∃ v ∈ N.verts, N.internals v = none := by
  constructor
  · exact addVertices_error N _ _ _
  · rintro ⟨rfl, v, hv, hn⟩
    cases hr : appPartitions N with
    | error err => rw [(addVertices_error N _ _ _ hr).1]
    | ok r =>
      obtain ⟨_, _, _, h2, _⟩ := appPartitions_ok hr
      obtain ⟨is, hi, _⟩ := h2 v hv
      rw [hn] at hi
      cases hi

example : appPartitions (lineN [0, 1]) = .ok [⟨0, 0, [1, 2]⟩, ⟨1, 0, [0, 1]⟩, ⟨0, 1, []⟩] := by
  decide +kernel

/-! C79: `route_application_graph` -/

/-- C79: if the graph is routed then all packets that should get somewhere are delivered. -/
def C79_full : Prop := ∀ (N : Net) (fuel : Nat) (S : ByPart.State), NetContract N →
  routeGraph N fuel = .ok S → ∀ a ident m t, NetWants N a ident m t →
  Delivered (N.ctx ident) S ident m t

theorem line_net {out : List Nat} (ho : ∀ m ∈ out, m ≤ 1) : NetContract (lineN out) := by
  have hC := lineP_contract ho
  refine ⟨hC.merges, hC.owns, ?_, ?_, hC.iter, hC.placed, hC.vector, ?_, by simp [lineN]⟩
  · intro ident a l m h hm
    simp only [lineN] at h
    split at h
    · rename_i h0
      cases h
      rw [h0]
      exact hC.sends 0 out m rfl hm
    · split at h
      · rename_i h1
        cases h
        rw [List.mem_singleton.mp hm, h1]
        rfl
      · cases h
        cases hm
  · intro a is h i hi
    simp only [lineN] at h
    split at h
    · rename_i h0
      cases h
      rw [h0]
      simp only [List.mem_cons, List.not_mem_nil, or_false] at hi
      rcases hi with rfl | rfl | rfl <;> rfl
    · cases h
      cases hi
  · intro p hp d hd v hv s hs
    left
    simp only [lineN] at hv
    split at hv
    · simp only [List.mem_cons, List.not_mem_nil, or_false] at hv
      rcases hv with rfl | rfl <;> exact List.mem_singleton.mp hs
    · split at hv
      · rw [List.mem_singleton.mp hv] at hs
        exact List.mem_singleton.mp hs
      · split at hv
        · rw [List.mem_singleton.mp hv] at hs
          exact List.mem_singleton.mp hs
        · cases hv

/-- C79 is false, as C74 is: if only machine vertex 0 of application vertex 0 sends, its packets never
get to machine vertex 2, though the graph is routed without error. -/
theorem C79_false : ¬ C79_full := by
  intro h
  have hr : routeGraph (lineN [0]) 20 = .ok
      [((0, 0), [((.mach 0, 0), ⟨5, false⟩), ((.app 1, 0), ⟨128, false⟩), ((.mach 0, 1), ⟨1, false⟩),
         ((.mach 1, 1), ⟨128, false⟩)]),
       ((0, 1), [((.app 0, 0), ⟨128, false⟩)]),
       ((1, 0), [((.mach 0, 0), ⟨128, false⟩), ((.app 1, 0), ⟨136, false⟩),
         ((.mach 0, 1), ⟨128, false⟩), ((.mach 1, 1), ⟨8, false⟩)]),
       ((2, 0), [((.mach 2, 0), ⟨136, false⟩)])] := by decide +kernel
  have hw : NetWants (lineN [0]) 0 0 0 2 :=
    Or.inl ⟨⟨0, 0, [1, 2]⟩, by simp [lineN], rfl, rfl, 1, by simp, (2, [.app 0]), by simp [lineN], rfl,
      .app 0, by simp, Or.inr ⟨rfl, [0], rfl, by simp⟩⟩
  have hd := (h _ _ _ (line_net (by decide)) hr _ _ _ _ hw).1
  have := comes_within (L := [(0, 0), (0, 1), (1, 0)]) (by decide) (by decide +kernel) hd
  revert this
  decide

/-- C79, the part that holds: if the graph is routed then the packets of every machine vertex get to
every target they should get to, over working links, along edges and internal partitions.
Missing: as in `C74_delivered_partial`. -/
theorem C79_delivered_partial {N : Net} (hN : NetContract N) (hn : NoReturns N.base)
    (ha : NetAllSend N) {fuel : Nat} {S : ByPart.State} (h : routeGraph N fuel = .ok S)
    {a ident m t : Nat} (hw : NetWants N a ident m t) : Delivered (N.ctx ident) S ident m t := by
  have hl : Leaves N a ident := by
    rcases hw with ⟨p, hp, h1, h2, _⟩ | ⟨hv, is, hi, i, h1, h2, _⟩
    · exact Or.inl ⟨p, hp, h1, h2⟩
    · exact Or.inr ⟨hv, is, hi, i, h1, h2⟩
  obtain ⟨p, is, S1, S2, rfl, rfl, hR, huniq, hr, hf, hu, _, hsame⟩ := in_the_end hN h hl
  have hwant : Wants (N.ctx p.ident) (N.partition p is) m t := by
    rcases hw with ⟨q, hq, h1, h2, d, hd, v, hv, h3, s, hs, h4⟩ | ⟨hv, is', hi, i, h1, h2, h3, h4⟩
    · rw [huniq q hq h1 h2] at hd
      refine Or.inl ⟨(d, N.incoming d p.pre p.ident), List.mem_map.mpr ⟨d, hd, rfl⟩, v, hv, h3, s, hs, ?_⟩
      rcases h4 with h4 | ⟨h4, ms, h5, h6⟩
      · exact Or.inl h4
      · exact Or.inr ⟨_, ms, h4, h5, h6⟩
    · rw [hR.internals] at hi
      cases hi
      exact Or.inr ⟨i.2, List.mem_map.mpr ⟨i, List.mem_filter.mpr ⟨h1, decide_eq_true h2⟩, rfl⟩, h3, h4⟩
  have hs : NetSends N p.pre p.ident m := by
    rcases hw with ⟨q, hq, h1, h2, d, hd, v, hv, h3, s, hs, h4 | ⟨_, h4⟩⟩ | ⟨hv, is', hi, i, h1, h2, h3, h4⟩
    · have := hN.sources q hq d hd v (by rw [h1, h2]; exact hv) s hs
      rcases this with h5 | ⟨l, k, h5, h6, h7⟩
      · rw [h4] at h5; cases h5
      · rw [h4] at h7
        cases h7
        rw [h1, h2] at h5
        exact Or.inl ⟨l, h5, h6⟩
    · exact Or.inl h4
    · exact Or.inr ⟨is', hi, i, h1, h2, h3⟩
  exact delivered_same (hsame m hs)
    (C74_delivered_partial (hR.contract hN) hn (hR.allSend ha) hu hr hwant)

/-- C79: a core that packets are sent to, on the entry of any vertex and partition, is the core of a
target of that partition, and the vertex is its source or one that sends. -/
theorem C79_cores {N : Net} (hN : NetContract N) {fuel : Nat} {S : ByPart.State}
    (h : routeGraph N fuel = .ok S) {ident : Nat} {v : VId} {c : XY} {p : Nat}
    (hb : Bit S ident v c (6 + p)) : ∃ a, Leaves N a ident ∧
      (v = .app a ∨ ∃ m, v = .mach m ∧ NetSends N a ident m) ∧
      ∃ t, NetAsked N a ident t ∧ (N.base.locate t).1 = c ∧
        ((N.base.locate t).2.1 = some p ∨ (N.base.locate t).2.2 = some (6 + p)) := by
  obtain ⟨r, hr, hS⟩ := routeGraph_ok h
  rcases routeAll_cores hN r (fun q hq js hj => routed_of_mem hr hq hj) hS (by omega) hb with
    ⟨e, he, _⟩ | ⟨q, hq, js, hR, rfl, hm, t, ht, h1, h2⟩
  · cases he
  · refine ⟨q.pre, hR.leaves, ?_, t, asked_net hR ht, h1, ?_⟩
    · rcases hm with rfl | ⟨m, rfl, hm⟩
      · exact Or.inl rfl
      · exact Or.inr ⟨m, rfl, (sends_iff hR m).mp hm⟩
    · rcases h2 with ⟨k, h3, h4⟩ | h3
      · have : p = k := by omega
        exact Or.inl (this ▸ h3)
      · exact Or.inr h3

/-- C79: no router holds both an application vertex and one of its machine vertices. -/
theorem C79_unmixed {N : Net} (hN : NetContract N) {fuel : Nat} {S : ByPart.State}
    (h : routeGraph N fuel = .ok S) : Unmixed N.base S := by
  obtain ⟨r, hr, hS⟩ := routeGraph_ok h
  exact routeAll_unmixed hN r (fun q hq js hj => routed_of_mem hr hq hj) hS (unmixed_empty _)

/-- C79: on every chip that packets come to there is an entry for them.
Missing: as in `C77_met_partial`. -/
theorem C79_met_partial {N : Net} (hN : NetContract N) (hn : NoReturns N.base) (ho : NetOutside N)
    {fuel : Nat} {S : ByPart.State} (h : routeGraph N fuel = .ok S) {a ident m : Nat}
    (hl : Leaves N a ident) {ms : List Nat} (h1 : N.outgoing ident a = some ms) (h2 : m ∈ ms) {c : XY}
    (hc : Comes (N.ctx ident) S ident m c) : (entryFor (N.ctx ident) S ident m c).isSome = true := by
  obtain ⟨p, is, S1, S2, rfl, rfl, hR, _, hr, hf, hu, _, hsame⟩ := in_the_end hN h hl
  have hs := hsame m (Or.inl ⟨ms, h1, h2⟩)
  rw [hs c]
  exact C77_met_partial (hR.contract hN) hn (hR.outside ho) hf h1 h2 hr
    (comes_same (fun c => (hs c).symm) hc)

/-- C79: the routing of a graph ends: with enough rounds allowed, none of its loops uses them up. -/
theorem C79_ends {N : Net} (hN : NetContract N) (hm : NoFuel N.base) :
    ∃ n, ∀ fuel, n ≤ fuel → routeGraph N fuel ≠ .error .outOfFuel := by
  cases hr : appPartitions N with
  | error err =>
    refine ⟨0, fun fuel _ h => ?_⟩
    unfold routeGraph at h
    simp only [hr] at h
    cases h
    cases ((C78_fails N _).mp hr).1
  | ok r =>
    obtain ⟨n, hn⟩ := routeAll_ends r (fun q hq js hj =>
      C76_ends ((routed_of_mem hr hq hj).contract hN) hm)
    refine ⟨n, fun fuel hf h => ?_⟩
    unfold routeGraph at h
    simp only [hr] at h
    exact hn fuel hf [] h

/-- What is made for the graph of the examples if both machine vertices of application vertex 0
send. -/
def lineNS : ByPart.State :=
  [((1, 0), [((.mach 0, 0), ⟨129, false⟩), ((.mach 1, 0), ⟨9, false⟩), ((.app 1, 0), ⟨136, false⟩),
     ((.mach 0, 1), ⟨128, false⟩), ((.mach 1, 1), ⟨8, false⟩)]),
   ((2, 0), [((.app 0, 0), ⟨128, false⟩), ((.mach 2, 0), ⟨136, false⟩)]),
   ((0, 0), [((.mach 0, 0), ⟨5, false⟩), ((.mach 1, 0), ⟨4, false⟩), ((.app 1, 0), ⟨128, false⟩),
     ((.mach 0, 1), ⟨1, false⟩), ((.mach 1, 1), ⟨128, false⟩)]),
   ((0, 1), [((.app 0, 0), ⟨128, false⟩)])]

theorem lineN_routed : routeGraph (lineN [0, 1]) 20 = .ok lineNS := by decide +kernel

theorem lineN_allSend : NetAllSend (lineN [0, 1]) := by
  intro a ident hl m hm
  have h01 : a = 0 ∨ a = 1 := by
    rcases hl with ⟨p, hp, h1, _⟩ | ⟨_, is, h1, i, h2, _⟩
    · simp only [lineN, List.mem_cons, List.not_mem_nil, or_false] at hp
      rcases hp with rfl | rfl
      · exact Or.inl h1.symm
      · exact Or.inr h1.symm
    · simp only [lineN] at h1
      split at h1
      · rename_i h0; exact Or.inl h0
      · cases h1; cases h2
  rcases h01 with rfl | rfl
  · exact ⟨m, Or.inl ⟨[0, 1], rfl, hm⟩, rfl⟩
  · exact ⟨m, Or.inl ⟨[2], rfl, hm⟩, rfl⟩

theorem lineN_outside (out : List Nat) : NetOutside (lineN out) := by
  intro a ident t l _ hl
  simp only [lineN, lineC] at hl
  split at hl
  · cases hl
  · split at hl
    · cases hl
    · split at hl <;> cases hl

/-- Along the edge from application vertex 0 to 2, and within application vertex 0. -/
example : Delivered ((lineN [0, 1]).ctx 0) lineNS 0 1 3 ∧ Delivered ((lineN [0, 1]).ctx 1) lineNS 1 1 0 :=
  ⟨C79_delivered_partial (a := 0) (line_net (by decide)) (line_noReturns _) lineN_allSend lineN_routed
    (Or.inl ⟨⟨0, 0, [1, 2]⟩, by simp [lineN], rfl, rfl, 2, by simp, (3, [.app 0]), by simp [lineN], rfl,
      .app 0, by simp, Or.inr ⟨rfl, [0, 1], rfl, by simp⟩⟩),
   C79_delivered_partial (a := 0) (line_net (by decide)) (line_noReturns _) lineN_allSend lineN_routed
    (Or.inr ⟨by simp [lineN], _, rfl, (1, 1, [0]), by simp, rfl, rfl, by simp⟩)⟩

example : Bit lineNS 0 (.app 1) (1, 0) (6 + 1) := ⟨⟨136, false⟩, by decide, by decide⟩

example : NoFuel (lineN [0, 1]).base := fun a b h => by cases h

end Pacman.Router
