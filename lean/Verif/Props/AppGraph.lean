import Verif.Proofs.AppEdges
/-
C47, C62 and C63: the vertices and edges of the application graph.
-/

namespace Pacman.AppGraph

open Parts (Edge)

/-! ### C47 -/

/-- Vertices of a class, with labels. -/
def objs (ls : List (Option String)) : Objs :=
  ⟨fun v => ((ls[v]?).getD none).map String.toList, fun _ => false, fun _ => "V".toList⟩

/-- C47, as far as it holds: if no label that users give ends in a digit, then after any calls (exceptions caught)
the vertices of the graph are those whose addition did not raise, each once, in order; a label finds the vertex
that has it, every such vertex is found, and other labels raise a `KeyError`. Missing: labels that end in a digit, for which it is false (see
`C47_given_like_generated` and `C47_unlabelled`). -/
theorem C47_vertices_partial (o : Objs) (ops : List Op) (ho : ∀ v l, o.label v = some l → NoDigit l)
    (hops : OpsOk ops) :
    let s := run (Graph.new, o) ops
    let acc := accepted (Graph.new, o) ops
    s.1.vertices = acc ∧ acc.Nodup ∧ s.1.nVertices = acc.length ∧
    (∀ v ∈ acc, ∃ l, s.2.label v = some l ∧ s.1.vertexByLabel l = .ok v) ∧
    (∀ l v, s.1.vertexByLabel l = .ok v → v ∈ acc ∧ s.2.label v = some l) ∧
    (∀ l, (∀ v ∈ acc, s.2.label v ≠ some l) → s.1.vertexByLabel l = .error .keyError) := by
  have h := run_inv ops _ _ (new_inv o ho) hops
  rw [List.nil_append] at h
  refine ⟨h.verts, h.nodupA, ?_, ?_, ?_, ?_⟩
  · have := congrArg List.length h.verts
    rw [List.length_map] at this
    exact this
  · intro v hv
    obtain ⟨_, l, h1, h2, _⟩ := h.lab v hv
    refine ⟨l, h1, ?_⟩
    unfold Graph.vertexByLabel
    rw [h2]
  · intro l v hv
    unfold Graph.vertexByLabel at hv
    cases hg : (run (Graph.new, o) ops).1.byLabel.get? l with
    | none => rw [hg] at hv; cases hv
    | some w => rw [hg] at hv; cases hv; exact h.own l v hg
  · intro l hl
    unfold Graph.vertexByLabel
    cases hg : (run (Graph.new, o) ops).1.byLabel.get? l with
    | none => rfl
    | some w => exact absurd (h.own l w hg).2 (hl w (h.own l w hg).1)

/-- C47: under the same condition, the label of a vertex of the graph cannot be set any more. -/
theorem C47_label_stays_partial (o : Objs) (ops : List Op) (ho : ∀ v l, o.label v = some l → NoDigit l)
    (hops : OpsOk ops) (v : Nat) (l : Label) :
    let s := run (Graph.new, o) ops
    v ∈ s.1.vertices → step s (.setLabel v l) = (s, .error .configuration) := by
  have h := run_inv ops _ _ (new_inv o ho) hops
  rw [List.nil_append] at h
  have hv' : (run (Graph.new, o) ops).1.vertices = accepted (Graph.new, o) ops := h.verts
  intro s hv
  rw [hv'] at hv
  obtain ⟨h1, -⟩ := h.lab v hv
  simp only [step, userLabel, Objs.setLabel, s, h1, if_true]

/-- C47: under the same condition, a vertex that has not been added to a graph is accepted, and one that is in the
graph already is refused without effect. -/
theorem C47_accepts_partial (o : Objs) (ops : List Op) (ho : ∀ v l, o.label v = some l → NoDigit l)
    (hops : OpsOk ops) (v : Nat) :
    let s := run (Graph.new, o) ops
    (s.2.added v = false → (step s (.addVertex v)).2 = .ok ()) ∧
    (v ∈ s.1.vertices → step s (.addVertex v) = (s, .error .alreadyExists)) := by
  have h := run_inv ops _ _ (new_inv o ho) hops
  rw [List.nil_append] at h
  have hv' : (run (Graph.new, o) ops).1.vertices = accepted (Graph.new, o) ops := h.verts
  generalize run (Graph.new, o) ops = s at h hv'
  constructor
  · intro ha
    have hrl : ∀ b, (relabel s.1 s.2 v b).2 = .ok () := by
      intro b
      unfold relabel Objs.setLabel
      simp only [ha, Bool.false_eq_true, if_false]
    show (addVertex s.1 s.2 v).2 = .ok ()
    unfold addVertex
    cases hl : s.2.label v with
    | none => exact hrl _
    | some l =>
      simp only
      split
      · exact hrl _
      · cases hg : s.1.byLabel.get? l with
        | none => rfl
        | some w =>
          simp only
          split
          · rename_i hw
            have h1 := (h.own l w hg).1
            rw [hw] at h1
            have h2 := (h.lab v h1).1
            rw [ha] at h2; cases h2
          · exact hrl _
  · intro hv
    rw [hv'] at hv
    obtain ⟨_, l, h1, h2, hne, _⟩ := h.lab v hv
    show addVertex s.1 s.2 v = _
    unfold addVertex
    simp only [h1, h2]
    rw [if_neg hne, if_pos trivial]

/-- Two vertices with one label and two with none, one of them added twice. -/
example :
    let s := run (Graph.new, objs [some "a", some "a", none, none])
      [.addVertex 0, .addVertex 1, .addVertex 2, .addVertex 1, .setLabel 3 "b".toList, .addVertex 3]
    s.1.byLabel = [("a".toList, 0), ("a1".toList, 1), ("V_2".toList, 2), ("b".toList, 3)] := by decide +kernel

example : ∀ v l, (objs [some "a", some "a", none, none]).label v = some l → NoDigit l := by
  intro v l h c hc
  match v, h with
  | 0, h => cases h; simp at hc; subst hc; decide
  | 1, h => cases h; simp at hc; subst hc; decide
  | 2, h => cases h
  | 3, h => cases h
  | v + 4, h => simp [objs] at h

/-- C47 does not hold for all labels: three vertices are added without an exception, and two are in the graph. The
label made for the third is that of the first, which it replaces. -/
theorem C47_given_like_generated :
    let s := run (Graph.new, objs [some "a1", some "a", some "a"]) [.addVertex 0, .addVertex 1, .addVertex 2]
    accepted (Graph.new, objs [some "a1", some "a", some "a"]) [.addVertex 0, .addVertex 1, .addVertex 2] = [0, 1, 2] ∧
    s.1.vertices = [2, 1] ∧ s.1.nVertices = 2 ∧ s.1.vertexByLabel "a1".toList = .ok 2 ∧
    s.2.label 0 = s.2.label 2 := by
  decide +kernel

/-- The same for a vertex without a label. -/
theorem C47_unlabelled :
    let s := run (Graph.new, objs [some "V_1", none]) [.addVertex 0, .addVertex 1]
    accepted (Graph.new, objs [some "V_1", none]) [.addVertex 0, .addVertex 1] = [0, 1] ∧ s.1.vertices = [1] := by
  decide +kernel

/-! ### C62 -/

/-- C62: after any calls (exceptions caught), there is a partition for a source and a name just if an edge of that
source was accepted under that name. It has those edges in the order they were added. The list of all edges has each
accepted edge as often as it was accepted, no two partitions have the same source and name, and the number of
partitions is right. -/
theorem C62_edges (o : Objs) (ops : List Op) :
    let g := (run (Graph.new, o) ops).1
    let acc := acceptedEdges (Graph.new, o) ops
    (∀ v n, g.partition v n = if part acc v n = [] then none else some ⟨n, v, part acc v n⟩) ∧
    g.edges.Perm (acc.map (·.1)) ∧
    (g.partitions.map (fun p => (p.pre, p.ident))).Nodup ∧ g.nParts = g.partitions.length ∧ acc.Nodup := by
  have h := run_einv ops (Graph.new, o) [] new_einv
  rw [List.nil_append] at h
  refine ⟨fun v n => partition_eq h v n, h.perm, pairs_nodup h, h.count, ?_⟩
  suffices hh : ∀ (ops : List Op) (s : Graph × Objs) (acc : List (Edge × String)), EInv s.1 acc → acc.Nodup →
      (acc ++ acceptedEdges s ops).Nodup from hh ops (Graph.new, o) [] new_einv List.nodup_nil
  intro ops
  induction ops with
  | nil => intro s acc _ hn; simpa [acceptedEdges] using hn
  | cons op ops ih =>
    intro s acc hi hn
    cases op with
    | setLabel v l =>
      refine ih (step s (.setLabel v l)).1 acc ?_ hn
      show EInv (userLabel s v l).1.1 acc
      rw [userLabel_fst]; exact hi
    | addVertex v => exact ih _ acc (hi.congr (addVertex_parts _ _ _).1 (addVertex_parts _ _ _).2) hn
    | startingAt v => exact ih _ acc (startingAt_inv hi v) hn
    | addEdge e n =>
      have h1 := addEdge_inv hi s.2 e n
      rw [acceptedEdges]
      cases hr : (step s (.addEdge e n)).2 with
      | error x =>
        have hr' : (addEdge s.1 s.2 e n).2 = .error x := hr
        rw [hr'] at h1
        exact ih (step s (.addEdge e n)).1 acc h1.1 hn
      | ok u =>
        have hr' : (addEdge s.1 s.2 e n).2 = .ok () := hr
        have h2 := (h1.2.1 hr').2
        rw [hr'] at h1
        have := ih (step s (.addEdge e n)).1 _ h1.1 (by
          rw [pushE, List.nodup_append]
          refine ⟨hn, by simp, ?_⟩
          intro a ha b hb hab
          rw [List.mem_singleton] at hb
          rw [hab, hb] at ha
          exact h2 ha)
        rw [pushE, List.append_assoc] at this
        exact this

/-- C62: an edge is accepted just if it is an application edge, the labels of both its vertices are in the graph, and
it was not accepted before under that name. -/
theorem C62_accepts (o : Objs) (ops : List Op) (e : Edge) (n : String) :
    let s := run (Graph.new, o) ops
    (step s (.addEdge e n)).2 = .ok () ↔
      e.typeOk = true ∧ (∃ l v, s.2.label e.pre = some l ∧ s.1.vertexByLabel l = .ok v) ∧
      (∃ l v, s.2.label e.post = some l ∧ s.1.vertexByLabel l = .ok v) ∧
      (e, n) ∉ acceptedEdges (Graph.new, o) ops := by
  have h := run_einv ops (Graph.new, o) [] new_einv
  rw [List.nil_append] at h
  generalize run (Graph.new, o) ops = s at h
  generalize acceptedEdges (Graph.new, o) ops = acc at h
  have hk : ∀ v, s.1.known s.2 v = true ↔ ∃ l w, s.2.label v = some l ∧ s.1.vertexByLabel l = .ok w := by
    intro v
    unfold Graph.known Graph.vertexByLabel
    cases hl : s.2.label v with
    | none => exact ⟨fun hh => (by cases hh), fun ⟨_, _, hh, _⟩ => (by cases hh)⟩
    | some l =>
      simp only
      constructor
      · intro hh
        obtain ⟨w, hw⟩ := Option.isSome_iff_exists.1 hh
        exact ⟨l, w, rfl, by rw [hw]⟩
      · rintro ⟨l', w, hll, hh⟩
        cases hll
        cases hg : s.1.byLabel.get? l with
        | none => rw [hg] at hh; cases hh
        | some w => rfl
  have hc : checkEdge s.1 s.2 e = .ok () ↔
      e.typeOk = true ∧ s.1.known s.2 e.pre = true ∧ s.1.known s.2 e.post = true := by
    unfold checkEdge
    cases e.typeOk <;> cases s.1.known s.2 e.pre <;> cases s.1.known s.2 e.post <;> simp
  show (addEdge s.1 s.2 e n).2 = .ok () ↔ _
  rw [(addEdge_inv h s.2 e n).2, hc, hk, hk, and_assoc, and_assoc]

/-- Two vertices, with edges in two partitions, one edge in both. -/
example :
    let e1 : Edge := ⟨1, 0, 1, 0, true⟩
    let e2 : Edge := ⟨2, 0, 0, 0, true⟩
    let ops := [Op.addVertex 0, .startingAt 1, .addEdge e1 "p", .addVertex 1, .addEdge e1 "p", .addEdge e2 "q",
      .addEdge e1 "p", .addEdge e1 "q"]
    let s := run (Graph.new, objs [some "a", some "b"]) ops
    acceptedEdges (Graph.new, objs [some "a", some "b"]) ops = [(e1, "p"), (e2, "q"), (e1, "q")] ∧
    s.1.edges = [e1, e2, e1] ∧ s.1.nParts = 2 ∧ s.1.partition 0 "q" = some ⟨"q", 0, [e2, e1]⟩ := by decide +kernel

/-! ### C63 -/

/-- C63, as far as it holds: if no label that users give ends in a digit, and no vertex outside the graph has the label
of one inside, an edge that is accepted joins vertices of the graph. Missing: vertices with the labels of others, for
which it is false (see `C63_same_label`). -/
theorem C63_edges_inside_partial (o : Objs) (ops : List Op) (ho : ∀ v l, o.label v = some l → NoDigit l)
    (hops : OpsOk ops) (e : Edge) (n : String)
    (hd : NoDouble (run (Graph.new, o) ops))
    (ha : (step (run (Graph.new, o) ops) (.addEdge e n)).2 = .ok ()) :
    e.pre ∈ (run (Graph.new, o) ops).1.vertices ∧ e.post ∈ (run (Graph.new, o) ops).1.vertices := by
  obtain ⟨_, ⟨l, v, h1, h2⟩, ⟨l', v', h1', h2'⟩, _⟩ := (C62_accepts o ops e n).1 ha
  obtain ⟨hv, _, _, _, hw, _⟩ := C47_vertices_partial o ops ho hops
  rw [← hv] at hw
  obtain ⟨h3, h4⟩ := hw l v h2
  obtain ⟨h3', h4'⟩ := hw l' v' h2'
  rw [hd v e.pre l h3 h4 h1, hd v' e.post l' h3' h4' h1']
  exact ⟨h3, h3'⟩

/-- C63, the other way: an application edge between vertices of the graph is accepted unless it was before. -/
theorem C63_inside_accepted_partial (o : Objs) (ops : List Op) (ho : ∀ v l, o.label v = some l → NoDigit l)
    (hops : OpsOk ops) (e : Edge) (n : String) (ht : e.typeOk = true)
    (hp : e.pre ∈ (run (Graph.new, o) ops).1.vertices) (hq : e.post ∈ (run (Graph.new, o) ops).1.vertices)
    (hn : (e, n) ∉ acceptedEdges (Graph.new, o) ops) :
    (step (run (Graph.new, o) ops) (.addEdge e n)).2 = .ok () := by
  obtain ⟨hv, _, _, hw, _⟩ := C47_vertices_partial o ops ho hops
  rw [hv] at hp hq
  obtain ⟨l, h1, h2⟩ := hw _ hp
  obtain ⟨l', h1', h2'⟩ := hw _ hq
  exact (C62_accepts o ops e n).2 ⟨ht, ⟨l, _, h1, h2⟩, ⟨l', _, h1', h2'⟩, hn⟩

/-- The hypotheses of `C63_edges_inside_partial` are met with two vertices and an edge from one to the other. -/
example :
    let o := objs [some "a", some "b"]
    NoDouble (run (Graph.new, o) [.addVertex 0, .addVertex 1]) ∧
    (step (run (Graph.new, o) [.addVertex 0, .addVertex 1]) (.addEdge ⟨1, 0, 1, 0, true⟩ "p")).2 = .ok () := by
  refine ⟨?_, by decide +kernel⟩
  intro v w l hv h1 h2
  have hl : (run (Graph.new, objs [some "a", some "b"]) [.addVertex 0, .addVertex 1]).2.label
      = (objs [some "a", some "b"]).label := rfl
  rw [hl] at h1 h2
  have hv : v ∈ [0, 1] := hv
  match v, w, h1, h2 with
  | 0, 0, _, _ => rfl
  | 1, 1, _, _ => rfl
  | 0, 1, h1, h2 => rw [← h1] at h2; revert h2; decide
  | 1, 0, h1, h2 => rw [← h1] at h2; revert h2; decide
  | v + 2, _, _, _ => simp at hv
  | _, w + 2, _, h2 => simp [objs] at h2

/-- C63 does not hold for all: a vertex that was never added is the source of an edge of the graph, as another vertex
has its label. -/
theorem C63_same_label :
    let ops := [Op.addVertex 0, .addEdge ⟨1, 1, 0, 0, true⟩ "p"]
    let s := run (Graph.new, objs [some "a", some "a"]) ops
    s.1.vertices = [0] ∧ s.1.edges = [⟨1, 1, 0, 0, true⟩] ∧ s.1.nParts = 1 := by decide +kernel

end Pacman.AppGraph
