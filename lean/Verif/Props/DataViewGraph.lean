import Verif.Proofs.AppEdges
import Verif.Props.DataViewSdram
/-
C106, C107: the graph through the data view.
-/

namespace Pacman.View

open AppGraph (Graph Objs)

/-! ### C106 -/

theorem put_data (w : World) (r : Data × Except PyErr Unit) : (w.put r).1.data = r.1 := rfl

/-- What calls do to the graph and to the flag. -/
theorem graph_frame (w : World) (o : Op) :
    (o = .setup) ∨
    (∃ v, Adds o v) ∨ (∃ e n, o = .viewAddEdge e n ∨ o = .writerAddEdge e n) ∨ (∃ v, o = .startingAt v) ∨
    ((step w o).1.data.graph = w.data.graph ∧
      (o = .hardReset ∨ o = .endRun ∨ (step w o).1.data.mapping = w.data.mapping)) := by
  cases o with
  | setup => exact Or.inl rfl
  | viewAddVertex v => exact Or.inr (Or.inl ⟨v, Or.inl rfl⟩)
  | writerAddVertex v => exact Or.inr (Or.inl ⟨v, Or.inr rfl⟩)
  | viewAddEdge e n => exact Or.inr (Or.inr (Or.inl ⟨e, n, Or.inl rfl⟩))
  | writerAddEdge e n => exact Or.inr (Or.inr (Or.inl ⟨e, n, Or.inr rfl⟩))
  | startingAt v => exact Or.inr (Or.inr (Or.inr (Or.inl ⟨v, rfl⟩)))
  | hardReset => exact Or.inr (Or.inr (Or.inr (Or.inr ⟨rfl, Or.inl rfl⟩)))
  | endRun => exact Or.inr (Or.inr (Or.inr (Or.inr ⟨rfl, Or.inr (Or.inl rfl)⟩)))
  | setPlan v =>
    obtain ⟨p, hp⟩ := plan_fields w.data v
    simp [step, World.put, hp]
  | setPlacements v => cases v with
    | obj c i => cases c <;> simp [step, World.put, setPlacements]
    | _ => simp [step, World.put, setPlacements]
  | setRoutingInfos v => cases v with
    | obj c i => cases c <;> simp [step, World.put, setRoutingInfos]
    | _ => simp [step, World.put, setRoutingInfos]
  | setTags v => cases v with
    | obj c i => cases c <;> simp [step, World.put, setTags]
    | _ => simp [step, World.put, setTags]
  | setUncompressed v => cases v with
    | obj c i => cases c <;> simp [step, World.put, setUncompressed]
    | _ => simp [step, World.put, setUncompressed]
  | setPrecompressed v => cases v with
    | obj c i => cases c <;> simp [step, World.put, setPrecompressed]
    | _ => simp [step, World.put, setPrecompressed]
  | setByPartition v => cases v with
    | obj c i => cases c <;> simp [step, World.put, setByPartition]
    | _ => simp [step, World.put, setByPartition]
  | addMonitor m a => simp [step, World.put, monitor_fields]
  | setNRequired b c =>
    obtain ⟨nb, nc, hp⟩ := required_fields w.data b c
    simp [step, World.put, hp]
  | setNInGraph v =>
    obtain ⟨p, hp⟩ := inGraph_fields w.data v
    simp [step, World.put, hp]
  | setLabel v l =>
    obtain ⟨o, hp⟩ := label_fields w v l
    simp [hp]
  | _ => simp [step, softReset, remember]

/-- Vertices, edges and number of partitions of a graph, as the view shows them. -/
def Same (w w' : World) : Prop :=
  iterateVertices w = iterateVertices w' ∧ getNVertices w = getNVertices w' ∧ getEdges w = getEdges w' ∧
  getNPartitions w = getNPartitions w' ∧ iteratePartitions w = iteratePartitions w'

theorem Dict.map_set_new {κ α : Type} [DecidableEq κ] (d : Dict κ α) (k : κ) (a : α) (h : d.get? k = none) :
    Dict.set d k a = d ++ [(k, a)] := by
  induction d with
  | nil => rfl
  | cons p d ih =>
    by_cases hp : p.1 = k
    · unfold Dict.get? at h
      rw [List.find?_cons_of_pos (by simpa using hp)] at h
      cases h
    · rw [Dict.set, if_neg hp, ih (by
        unfold Dict.get? at h ⊢
        rw [List.find?_cons_of_neg (by simpa using hp)] at h
        exact h)]
      rfl

theorem startingAt_same (w : World) (v : Nat) : Same (startingAt w v).1 w := by
  unfold startingAt Graph.startingAt
  cases h : w.data.graph.parts.get? v with
  | some l => exact ⟨rfl, rfl, rfl, rfl, rfl⟩
  | none =>
    have h1 := Dict.map_set_new w.data.graph.parts v [] h
    have hp : (Dict.set w.data.graph.parts v []).map (·.2) = w.data.graph.parts.map (·.2) ++ [[]] := by
      rw [h1, List.map_append]; rfl
    have hq : ((Dict.set w.data.graph.parts v []).map (·.2)).flatten = (w.data.graph.parts.map (·.2)).flatten := by
      rw [hp]; simp
    refine ⟨rfl, rfl, ?_, rfl, hq⟩
    show ((((Dict.set w.data.graph.parts v []).map (·.2)).flatten).map _).flatten = _
    rw [hq]; rfl

theorem Same.refl (w : World) : Same w w := ⟨rfl, rfl, rfl, rfl, rfl⟩

theorem Same.trans {a b c : World} (h : Same a b) (h' : Same b c) : Same a c :=
  ⟨h.1.trans h'.1, h.2.1.trans h'.2.1, h.2.2.1.trans h'.2.2.1, h.2.2.2.1.trans h'.2.2.2.1, h.2.2.2.2.trans h'.2.2.2.2⟩

/-- A call after which mapping is not required was made when it was not, unless a run ended, and did not change the
graph. -/
theorem quiet_step (w : World) (o : Op) (ho : o ≠ .endRun) (h : (step w o).1.data.mapping = false) :
    w.data.mapping = false ∧ Same (step w o).1 w := by
  rcases graph_frame w o with rfl | ⟨v, rfl | rfl⟩ | ⟨e, n, rfl | rfl⟩ | ⟨v, rfl⟩ | ⟨h1, h2⟩
  · cases h
  · cases h
  · by_cases hm : w.data.mapping = false
    · refine ⟨hm, ?_⟩
      simp only [step, writerAddVertex, if_pos hm]
      exact Same.refl w
    · exfalso
      simp only [step, writerAddVertex, if_neg hm] at h
      exact hm h
  · cases h
  · by_cases hm : w.data.mapping = false
    · refine ⟨hm, ?_⟩
      simp only [step, writerAddEdge, if_pos hm]
      exact Same.refl w
    · exfalso
      simp only [step, writerAddEdge, if_neg hm] at h
      exact hm h
  · exact ⟨h, startingAt_same w v⟩
  · have hs : Same (step w o).1 w := by
      unfold Same iterateVertices getNVertices getEdges getNPartitions iteratePartitions
      rw [h1]
      exact ⟨rfl, rfl, rfl, rfl, rfl⟩
    rcases h2 with rfl | h2 | h2
    · cases h
    · exact absurd h2 ho
    · exact ⟨h2 ▸ h, hs⟩

theorem quiet_run (w : World) (post : List Op) (ho : Op.endRun ∉ post) (h : (run w post).data.mapping = false) :
    w.data.mapping = false ∧ Same (run w post) w := by
  induction post generalizing w with
  | nil => exact ⟨h, Same.refl w⟩
  | cons o post ih =>
    obtain ⟨h1, h2⟩ := ih (step w o).1 (fun hh => ho (List.mem_cons_of_mem _ hh)) h
    obtain ⟨h3, h4⟩ := quiet_step w o (fun hh => ho (by rw [hh]; exact List.mem_cons_self)) h1
    exact ⟨h3, h2.trans h4⟩

/-- C106: no change of the graph goes unnoticed. Whenever mapping is not required, there was a run, and the graph that the
view shows is the one that was there when the last run ended. -/
theorem C106_noticed (o : Objs) (ops : List Op) (h : (run (World.new o) ops).data.mapping = false) :
    ∃ pre post, ops = pre ++ .endRun :: post ∧ Op.endRun ∉ post ∧
      Same (run (World.new o) ops) (run (World.new o) pre) := by
  by_cases hm : Op.endRun ∈ ops
  · obtain ⟨pre, post, h1, h2⟩ : ∃ pre post, ops = pre ++ .endRun :: post ∧ Op.endRun ∉ post := by
      clear h
      induction ops using snoc_ind with
      | h0 => cases hm
      | h1 l a ih =>
        by_cases ha : a = .endRun
        · exact ⟨l, [], by rw [ha], by simp⟩
        · rcases List.mem_append.1 hm with h | h
          · obtain ⟨pre, post, h1, h2⟩ := ih h
            refine ⟨pre, post ++ [a], by simp [h1], ?_⟩
            intro h3
            rcases List.mem_append.1 h3 with h3 | h3
            · exact h2 h3
            · rw [List.mem_singleton] at h3; exact ha h3.symm
          · rw [List.mem_singleton] at h; exact absurd h.symm ha
    refine ⟨pre, post, h1, h2, ?_⟩
    rw [h1, run_append] at h ⊢
    exact (quiet_run _ post h2 h).2
  · obtain ⟨h1, _⟩ := quiet_run _ ops hm h
    cases h1

/-- C106: a vertex or edge added through the view makes mapping required, even where the graph raises; the writer adds
only while it is, and otherwise raises and changes nothing. Both add just as the graph does. -/
theorem C106_add (w : World) (v : Nat) (e : Parts.Edge) (n : String) :
    ((step w (.viewAddVertex v)).1.data.mapping = true ∧ (step w (.viewAddEdge e n)).1.data.mapping = true) ∧
    ((step w (.viewAddVertex v)).2 = (AppGraph.addVertex w.data.graph w.objs v).2 ∧
      (step w (.viewAddVertex v)).1.data.graph = (AppGraph.addVertex w.data.graph w.objs v).1.1 ∧
      (step w (.viewAddVertex v)).1.objs = (AppGraph.addVertex w.data.graph w.objs v).1.2 ∧
      (step w (.viewAddEdge e n)).2 = (AppGraph.addEdge w.data.graph w.objs e n).2 ∧
      (step w (.viewAddEdge e n)).1.data.graph = (AppGraph.addEdge w.data.graph w.objs e n).1) ∧
    (w.data.mapping = false → step w (.writerAddVertex v) = (w, .error .configuration) ∧
      step w (.writerAddEdge e n) = (w, .error .configuration)) ∧
    (w.data.mapping = true → step w (.writerAddVertex v) = step w (.viewAddVertex v) ∧
      step w (.writerAddEdge e n) = step w (.viewAddEdge e n)) := by
  refine ⟨⟨rfl, rfl⟩, ⟨rfl, rfl, rfl, rfl, rfl⟩, fun h => ?_, fun h => ?_⟩
  · simp only [step, writerAddVertex, writerAddEdge, if_pos h, and_self]
  · have hw : requireMapping w = w := by
      obtain ⟨d, _, _⟩ := w
      obtain ⟨_, _, _, _, _, _, _, _, _, _, _, _, _, m⟩ := d
      simp only at h
      subst h
      rfl
    simp only [step, writerAddVertex, writerAddEdge, viewAddVertex, viewAddEdge, hw, h]
    simp

/-- A vertex added after a run; the writer then may add too. -/
example :
    let o : Objs := ⟨fun _ => some ['a'], fun _ => false, fun _ => []⟩
    let ops := [Op.viewAddVertex 0, .endRun, .startingAt 0, .writerAddVertex 1]
    (run (World.new o) ops).data.mapping = false ∧ iterateVertices (run (World.new o) ops) = [0] ∧
    (step (run (World.new o) (ops.take 3)) (.writerAddVertex 1)).2 = .error .configuration ∧
    (run (World.new o) (ops ++ [.viewAddVertex 0])).data.mapping = true ∧
    iterateVertices (run (World.new o) (ops ++ [.viewAddVertex 0, .writerAddVertex 1])) = [0, 1] := by
  decide +kernel

/-- The numbers of partitions are kept up by the graph, for some edges that have been added. -/
def Counted (g : Graph) : Prop := ∃ acc, AppGraph.EInv g acc

theorem counted_new : Counted Graph.new :=
  ⟨[], { nodup := List.nodup_nil, good := fun v => ⟨List.nodup_nil, fun p hp => (by cases hp)⟩, has := fun x hx => (by cases hx), count := rfl, perm := List.Perm.nil }⟩

theorem counted_step (w : World) (o : Op) (h : Counted w.data.graph) : Counted (step w o).1.data.graph := by
  have hv : ∀ v, Counted (AppGraph.addVertex w.data.graph w.objs v).1.1 := fun v => by
    obtain ⟨acc, h⟩ := h
    exact ⟨acc, h.congr (AppGraph.addVertex_parts _ _ _).1 (AppGraph.addVertex_parts _ _ _).2⟩
  have he : ∀ e n, Counted (AppGraph.addEdge w.data.graph w.objs e n).1 := fun e n => by
    obtain ⟨acc, h⟩ := h
    exact ⟨_, (AppGraph.addEdge_inv h w.objs e n).1⟩
  rcases graph_frame w o with rfl | ⟨v, rfl | rfl⟩ | ⟨e, n, rfl | rfl⟩ | ⟨v, rfl⟩ | ⟨h1, -⟩
  · exact counted_new
  · exact hv v
  · simp only [step, writerAddVertex]
    split
    · exact h
    · exact hv v
  · exact he e n
  · simp only [step, writerAddEdge]
    split
    · exact h
    · exact he e n
  · obtain ⟨acc, h⟩ := h
    exact ⟨acc, AppGraph.startingAt_inv h v⟩
  · rw [h1]; exact h

theorem counted_run (ops : List Op) : ∀ w : World, Counted w.data.graph → Counted (run w ops).data.graph := by
  induction ops with
  | nil => exact fun w h => h
  | cons o ops ih => exact fun w h => ih _ (counted_step w o h)

/-- C106: the numbers that the view gives are those of what it iterates over, and vertices by type are those of the type. -/
theorem C106_counts (o : Objs) (ops : List Op) (isType : Nat → Bool) :
    let w := run (World.new o) ops
    getNVertices w = (iterateVertices w).length ∧ getNPartitions w = (iteratePartitions w).length ∧
    (∀ v, v ∈ getVerticesByType w isType ↔ v ∈ iterateVertices w ∧ isType v = true) ∧
    (getVerticesByType w isType).Sublist (iterateVertices w) := by
  refine ⟨?_, ?_, fun v => ?_, List.filter_sublist⟩
  · exact (List.length_map _).symm
  · obtain ⟨acc, h⟩ := counted_run ops (World.new o) counted_new
    exact h.count
  · exact List.mem_filter

example :
    let o : Objs := ⟨fun _ => none, fun _ => false, fun _ => ['C']⟩
    let w := run (World.new o) [.viewAddVertex 0, .viewAddVertex 3, .viewAddEdge ⟨1, 0, 3, 0, true⟩ "p",
      .viewAddEdge ⟨2, 0, 0, 0, true⟩ "p", .viewAddEdge ⟨3, 3, 0, 0, true⟩ "p", .startingAt 5]
    getNVertices w = 2 ∧ getNPartitions w = 2 ∧ (getEdges w).length = 3 ∧
    getVerticesByType w (fun v => decide (v = 3)) = [3] := by
  decide +kernel

/-! ### C107 -/

theorem resetGraph_mem (made : Nat → List Nat) (vs : List Nat) (v : Nat) (h : v ∈ vs) : vs.foldl resetVertex made v = [] := by
  have keep : ∀ (vs : List Nat) (made : Nat → List Nat), made v = [] → vs.foldl resetVertex made v = [] := by
    intro vs
    induction vs with
    | nil => intro made h; exact h
    | cons u vs ih =>
      intro made h
      refine ih _ ?_
      unfold resetVertex
      split
      · rfl
      · exact h
  induction vs generalizing made with
  | nil => cases h
  | cons u vs ih =>
    rcases List.mem_cons.1 h with rfl | h
    · refine keep vs _ ?_
      unfold resetVertex
      rw [if_pos rfl]
    · exact ih _ h

theorem resetGraph_sub (made : Nat → List Nat) (vs : List Nat) (v m : Nat) (h : m ∈ vs.foldl resetVertex made v) :
    m ∈ made v := by
  induction vs generalizing made with
  | nil => exact h
  | cons u vs ih =>
    have := ih _ h
    unfold resetVertex at this
    split at this
    · cases this
    · exact this

theorem enter_vertices (g : Graph) (o : Objs) (v u : Nat) (h : u ∈ (AppGraph.enter g o v).1.vertices) : u = v ∨ u ∈ g.vertices := by
  unfold AppGraph.enter at h
  split at h
  · rename_i l _
    unfold Graph.vertices at h ⊢
    dsimp only at h
    revert h
    generalize g.byLabel = d
    intro h
    induction d with
    | nil => left; simpa [Dict.set] using h
    | cons p d ih =>
      rw [Dict.set] at h
      split at h
      · rcases List.mem_cons.1 h with h | h
        · left; exact h
        · right; exact List.mem_cons_of_mem _ h
      · rcases List.mem_cons.1 h with h | h
        · right; rw [List.map_cons, h]; exact List.mem_cons_self
        · rcases ih h with h | h
          · exact Or.inl h
          · exact Or.inr (List.mem_cons_of_mem _ h)
  · exact Or.inr h

theorem addVertex_vertices (g : Graph) (o : Objs) (v u : Nat) (h : u ∈ (AppGraph.addVertex g o v).1.1.vertices) :
    u = v ∨ u ∈ g.vertices := by
  have hr : ∀ base, u ∈ (AppGraph.relabel g o v base).1.1.vertices → u = v ∨ u ∈ g.vertices := by
    intro base h
    unfold AppGraph.relabel at h
    dsimp only at h
    split at h
    · exact Or.inr h
    · rcases enter_vertices { g with unlabelled := g.unlabelled + 1 } _ v u h with h | h
      · exact Or.inl h
      · exact Or.inr h
  unfold AppGraph.addVertex at h
  split at h
  · exact hr _ h
  · split at h
    · exact hr _ h
    · split at h
      · exact enter_vertices _ _ _ _ h
      · split at h
        · exact Or.inr h
        · exact hr _ h

theorem addEdge_vertices (g : Graph) (o : Objs) (e : Parts.Edge) (n : String) :
    (AppGraph.addEdge g o e n).1.vertices = g.vertices := by
  have hs : (g.startingAt e.pre).2.byLabel = g.byLabel := by
    unfold Graph.startingAt
    split <;> rfl
  unfold AppGraph.addEdge
  split
  · rfl
  · unfold AppGraph.putEdge
    dsimp only
    split <;> (unfold Graph.vertices; dsimp only; rw [hs])

theorem made_frame (w : World) (o : Op) :
    (o = .setup ∨ o = .hardReset ∨ (∃ v m, o = .remember v m)) ∨ (step w o).1.made = w.made := by
  cases o with
  | setup => exact Or.inl (Or.inl rfl)
  | hardReset => exact Or.inl (Or.inr (Or.inl rfl))
  | remember v m => exact Or.inl (Or.inr (Or.inr ⟨v, m, rfl⟩))
  | writerAddVertex v =>
    obtain ⟨g, o, hp⟩ := writerV_fields w v
    right; simp only [step, hp]
  | writerAddEdge e n =>
    obtain ⟨g, hp⟩ := writerE_fields w e n
    right; simp only [step, hp]
  | setLabel v l =>
    obtain ⟨o, hp⟩ := label_fields w v l
    right; rw [hp]
  | _ => exact Or.inr rfl

theorem remember_made (w : World) (v m u x : Nat) (h : x ∈ (remember w v m).made u) : (u = v ∧ x = m) ∨ x ∈ w.made u := by
  unfold remember at h
  dsimp only at h
  split at h
  · rename_i hu
    subst hu
    split at h
    · exact Or.inr h
    · rcases List.mem_append.1 h with h | h
      · exact Or.inr h
      · exact Or.inl ⟨rfl, by simpa using h⟩
  · exact Or.inr h

/-- A machine vertex was remembered. -/
theorem made_remembered (o : Objs) (ops : List Op) (v m : Nat) (h : m ∈ (run (World.new o) ops).made v) :
    Op.remember v m ∈ ops := by
  induction ops using snoc_ind with
  | h0 => cases h
  | h1 ops c ih =>
    rw [run_snoc] at h
    rcases made_frame (run (World.new o) ops) c with (rfl | rfl | ⟨u, x, rfl⟩) | hc
    · exact List.mem_append_left _ (ih (resetGraph_sub _ _ _ _ h))
    · exact List.mem_append_left _ (ih (resetGraph_sub _ _ _ _ h))
    · rcases remember_made _ _ _ _ _ h with ⟨rfl, rfl⟩ | h
      · simp
      · exact List.mem_append_left _ (ih h)
    · rw [hc] at h
      exact List.mem_append_left _ (ih h)

theorem vertices_step (w : World) (o : Op) (u : Nat) (h : u ∈ (step w o).1.data.graph.vertices) :
    (o ≠ .setup ∧ u ∈ w.data.graph.vertices) ∨ Adds o u := by
  rcases graph_frame w o with rfl | ⟨v, rfl | rfl⟩ | ⟨e, n, rfl | rfl⟩ | ⟨v, rfl⟩ | ⟨h1, _⟩
  · cases h
  · rcases addVertex_vertices _ _ _ _ h with rfl | h
    · exact Or.inr (Or.inl rfl)
    · exact Or.inl ⟨by simp, h⟩
  · by_cases hm : w.data.mapping = false
    · simp only [step, writerAddVertex, if_pos hm] at h
      exact Or.inl ⟨by simp, h⟩
    · simp only [step, writerAddVertex, if_neg hm] at h
      rcases addVertex_vertices _ _ _ _ h with rfl | h
      · exact Or.inr (Or.inr rfl)
      · exact Or.inl ⟨by simp, h⟩
  · left
    refine ⟨by simp, ?_⟩
    have : u ∈ (AppGraph.addEdge w.data.graph w.objs e n).1.vertices := h
    rwa [addEdge_vertices] at this
  · left
    refine ⟨by simp, ?_⟩
    by_cases hm : w.data.mapping = false
    · simp only [step, writerAddEdge, if_pos hm] at h
      exact h
    · simp only [step, writerAddEdge, if_neg hm] at h
      have : u ∈ (AppGraph.addEdge w.data.graph w.objs e n).1.vertices := h
      rwa [addEdge_vertices] at this
  · left
    refine ⟨by simp, ?_⟩
    have := (startingAt_same w v).1
    unfold iterateVertices at this
    rw [← this]
    exact h
  · by_cases hs : o = .setup
    · subst hs; cases h
    · rw [h1] at h
      exact Or.inl ⟨hs, h⟩

/-- The machine vertices that the view shows of an application vertex in the graph were all made since the last set-up or
reset. -/
def C107_full : Prop := ∀ (o : Objs) (ops : List Op) (m : Nat), m ∈ iterateMachineVertices (run (World.new o) ops) →
  ∃ v ∈ iterateVertices (run (World.new o) ops), ∃ pre post, ops = pre ++ .remember v m :: post ∧
    ∀ c ∈ post, ¬ (c = .setup ∨ c = .hardReset)

/-- C107 is false: a set-up makes a new graph before it resets the vertices of the graph, so that those of the old graph
keep their machine vertices. If one of them is added to the new graph, its old machine vertices are there. -/
theorem C107_false : ¬ C107_full := by
  intro h
  obtain ⟨v, _, pre, post, h1, h2⟩ := h noObjs [.viewAddVertex 0, .remember 0 5, .setup, .viewAddVertex 0] 5 (by decide +kernel)
  have h3 : Op.setup ∈ post := by
    rcases pre with _ | ⟨a, _ | ⟨b, _ | ⟨c, _ | ⟨d, pre⟩⟩⟩⟩
    · simp at h1
    · simp at h1; rw [← h1.2.2]; simp
    · simp at h1
    · simp at h1
    · simp at h1
  exact h2 _ h3 (Or.inl rfl)

/-- C107, missing: vertices that are added to a graph after they got machine vertices (in an earlier simulation, or before
they were in any graph). For the others the claim holds. -/
theorem C107_machine_partial (o : Objs) (ops : List Op)
    (h : ∀ pre v m post, ops = pre ++ .remember v m :: post → ∀ c ∈ post, ¬ Adds c v) (m : Nat)
    (hm : m ∈ iterateMachineVertices (run (World.new o) ops)) :
    ∃ v ∈ iterateVertices (run (World.new o) ops), ∃ pre post, ops = pre ++ .remember v m :: post ∧
      ∀ c ∈ post, ¬ (c = .setup ∨ c = .hardReset) := by
  have key : ∀ ops : List Op, (∀ pre v m post, ops = pre ++ .remember v m :: post → ∀ c ∈ post, ¬ Adds c v) →
      ∀ v ∈ (run (World.new o) ops).data.graph.vertices, ∀ m ∈ (run (World.new o) ops).made v,
      ∃ pre post, ops = pre ++ .remember v m :: post ∧ ∀ c ∈ post, ¬ Wipes c := by
    intro ops
    induction ops using snoc_ind with
    | h0 => intro _ v hv; cases hv
    | h1 ops c ih =>
      intro h v hv m hm
      have h' : ∀ pre v m post, ops = pre ++ .remember v m :: post → ∀ c ∈ post, ¬ Adds c v := by
        intro pre v m post he d hd
        exact h pre v m (post ++ [c]) (by simp [he]) d (by simp [hd])
      rw [run_snoc] at hv hm
      rcases vertices_step _ _ _ hv with ⟨hs, hv'⟩ | ha
      · have old : m ∈ (run (World.new o) ops).made v → ¬ Wipes c →
            ∃ pre post, ops ++ [c] = pre ++ .remember v m :: post ∧ ∀ c ∈ post, ¬ Wipes c := by
          intro hm hw
          obtain ⟨pre, post, h1, h2⟩ := ih h' v hv' m hm
          refine ⟨pre, post ++ [c], by simp [h1], ?_⟩
          intro d hd
          rcases List.mem_append.1 hd with hd | hd
          · exact h2 d hd
          · rw [List.mem_singleton] at hd; subst hd; exact hw
        rcases made_frame (run (World.new o) ops) c with (rfl | rfl | ⟨u, x, rfl⟩) | hc
        · exact absurd rfl hs
        · have hz : (step (run (World.new o) ops) .hardReset).1.made v = [] := resetGraph_mem _ _ _ hv'
          rw [hz] at hm
          cases hm
        · rcases remember_made _ _ _ _ _ hm with ⟨rfl, rfl⟩ | hm
          · exact ⟨ops, [], rfl, by simp⟩
          · exact old hm (by rintro (h | h) <;> cases h)
        · rw [hc] at hm
          by_cases hw : Wipes c
          · rcases hw with rfl | rfl
            · exact absurd rfl hs
            · have hz : (step (run (World.new o) ops) .hardReset).1.made v = [] := resetGraph_mem _ _ _ hv'
              rw [hc] at hz
              rw [hz] at hm
              cases hm
          · exact old hm hw
      · exfalso
        have hm' : m ∈ (run (World.new o) ops).made v := by
          rcases made_frame (run (World.new o) ops) c with (rfl | rfl | ⟨u, x, rfl⟩) | hc
          · rcases ha with ha | ha <;> cases ha
          · rcases ha with ha | ha <;> cases ha
          · rcases ha with ha | ha <;> cases ha
          · rwa [hc] at hm
        obtain ⟨pre, post, hp⟩ := List.append_of_mem (made_remembered o ops v m hm')
        exact h pre v m (post ++ [c]) (by simp [hp]) c (by simp) ha
  obtain ⟨v, hv, hm'⟩ := List.mem_flatMap.1 hm
  obtain ⟨pre, post, h1, h2⟩ := key ops h v hv m hm'
  exact ⟨v, hv, pre, post, h1, h2⟩

/-- C107: the number of machine vertices is that of those the view iterates over; there are none after a set-up or
reset. -/
theorem C107_count (w : World) :
    getNMachineVertices w = (iterateMachineVertices w).length ∧
    iterateMachineVertices (step w .setup).1 = [] ∧ iterateVertices (step w .setup).1 = [] ∧
    iterateMachineVertices (step w .hardReset).1 = [] ∧ iterateVertices (step w .hardReset).1 = iterateVertices w := by
  refine ⟨?_, rfl, rfl, ?_, rfl⟩
  · unfold getNMachineVertices iterateMachineVertices
    rw [List.length_flatMap]
  · show List.flatMap _ _ = _
    rw [List.flatMap_eq_nil_iff]
    intro v hv
    exact resetGraph_mem _ _ _ hv

/-- Two vertices split, reset, and split again. -/
example :
    let ops := [Op.viewAddVertex 0, .viewAddVertex 1, .remember 0 5, .remember 1 6, .hardReset, .remember 0 7, .remember 0 8, .remember 1 9]
    iterateMachineVertices (run (World.new noObjs) (ops.take 4)) = [5, 6] ∧
    iterateMachineVertices (run (World.new noObjs) ops) = [7, 8, 9] ∧ getNMachineVertices (run (World.new noObjs) ops) = 3 := by
  decide +kernel

end Pacman.View
