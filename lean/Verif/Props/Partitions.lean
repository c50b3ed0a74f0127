import Verif.Proofs.Partitions
/-
C51, C52 and C61: edge partitions and the memory of SDRAM partitions.
-/

namespace Pacman.Parts

/-! ### C51 -/

theorem firstTo_only {edges : List Edge} {e : Edge} (he : e ∈ edges) (ho : ∀ e' ∈ edges, e'.post = e.post → e' = e) :
    firstTo edges e.post = .ok e := by
  unfold firstTo
  cases hf : edges.find? (fun e' => decide (e'.post = e.post)) with
  | none =>
    rw [List.find?_eq_none] at hf
    exact absurd (by simp) (hf e he)
  | some e' =>
    have h1 := List.mem_of_find?_eq_some hf
    have h2 : e'.post = e.post := by simpa using List.find?_some hf
    rw [ho e' h1 h2]

/-- C51, destination segmented: after any calls (exceptions caught), the base address can be set if there is an
edge. The edges then share out the memory from there on in the order they were added, the source reads back the
whole, and each destination its own segment. -/
theorem C51_destination (pre : Nat) (a0 : Addrs) (os : List Op) (v : Int) :
    let s := (Dest.run (Dest.new pre, a0) os).1
    let a := (Dest.run (Dest.new pre, a0) os).2
    ((s.setBase a v).2 = .ok () ↔ s.edges ≠ []) ∧
    (s.edges ≠ [] →
      let s' := (s.setBase a v).1.1
      let a' := (s.setBase a v).1.2
      s'.edges = s.edges ∧ Segments a' s.edges v (totalSize s.edges) ∧
      s'.addrFor a' pre = .ok (some v) ∧ s'.sizeFor pre = .ok (totalSize s.edges) ∧
      ∀ e ∈ s.edges, (∀ e' ∈ s.edges, e'.post = e.post → e' = e) → e.post ≠ pre →
        s'.addrFor a' e.post = .ok (a' e) ∧ s'.sizeFor e.post = .ok e.size) := by
  obtain ⟨h1, h2, h3⟩ := Dest.run_inv os (s := Dest.new pre) (a := a0) (by simp [Dest.new]) (by simp [Dest.new])
  generalize Dest.run (Dest.new pre, a0) os = sa at h1 h2 h3
  obtain ⟨s, a⟩ := sa
  change s.pre = pre at h2
  simp only at h1 h2 h3 ⊢
  constructor
  · unfold Dest.setBase
    by_cases h : s.edges.length = 0
    · rw [if_pos h]
      exact ⟨fun hh => (by cases hh), fun hh => absurd (List.length_eq_zero_iff.1 h) hh⟩
    · rw [if_neg h]
      exact ⟨fun _ hh => h (by rw [hh]; rfl), fun _ => rfl⟩
  · intro hne
    have h : ¬ s.edges.length = 0 := fun hh => hne (List.length_eq_zero_iff.1 hh)
    have e : (s.setBase a v).1 = ({ s with base := some v }, assign a v s.edges) := by
      unfold Dest.setBase
      rw [if_neg h]
    rw [e]
    refine ⟨rfl, assign_segments a v s.edges h1, ?_, ?_, ?_⟩
    · simp [Dest.addrFor, h2]
    · simp [Dest.sizeFor, h2]
    · intro e he ho hp
      constructor
      · simp only [Dest.addrFor]
        rw [if_neg (by rw [h2]; exact fun hh => hp hh.1.symm), firstTo_only he ho]
        rfl
      · simp only [Dest.sizeFor]
        rw [if_neg (by rw [h2]; exact fun hh => hp hh.symm), firstTo_only he ho]
        rfl

/-- An edge object. -/
def edge (id pre post size : Nat) : Edge := ⟨id, pre, post, size, true⟩

/-- Three edges, one of them refused for its source and one as it is already there. -/
def destOps : List Op :=
  [.add (edge 0 7 1 10), .add (edge 1 7 2 0), .add (edge 2 8 3 5), .add (edge 0 7 1 10), .add (edge 3 7 3 6)]

example : (Dest.run (Dest.new 7, fun _ => none) destOps).1.edges = [edge 0 7 1 10, edge 1 7 2 0, edge 3 7 3 6] ∧
    ((Dest.run (Dest.new 7, fun _ => none) (destOps ++ [.setBase 100])).1.addrFor
      (Dest.run (Dest.new 7, fun _ => none) (destOps ++ [.setBase 100])).2 3) = .ok (some 110) := by
  refine ⟨by decide +kernel, by decide +kernel⟩

/-- Of two edges to one vertex, which the partition accepts, the vertex reads back the first only. -/
theorem C51_two_edges_one_vertex :
    let s := Dest.run (Dest.new 7, fun _ => none) [.add (edge 0 7 1 10), .add (edge 1 7 1 4), .setBase 100]
    s.1.edges = [edge 0 7 1 10, edge 1 7 1 4] ∧ s.2 (edge 1 7 1 4) = some 110 ∧ s.1.addrFor s.2 1 = .ok (some 100) := by
  decide +kernel

/-- C51, source segmented: after any calls (exceptions caught), the base address can be set if and only if each
source has its edge. The edges then share out the memory from there on in the order of the sources; each source
reads back its own segment, and any other vertex, such as the destination, the whole. -/
theorem C51_source (ps : List Nat) (s0 : Src) (hs : Src.new ps = .ok s0) (a0 : Addrs) (os : List Op) (v : Int) :
    let s := (Src.run (s0, a0) os).1
    let a := (Src.run (s0, a0) os).2
    ((s.setBase a v).2 = .ok () ↔ ∀ p ∈ ps, ∃ e ∈ s.edges, e.pre = p) ∧
    (∀ e ∈ s.edges, ∀ e' ∈ s.edges, e.post = e'.post ∧ (e.pre = e'.pre → e = e')) ∧
    ((s.setBase a v).2 = .ok () →
      let s' := (s.setBase a v).1.1
      let a' := (s.setBase a v).1.2
      s'.edges = s.edges ∧
      (∃ es : List Edge, es.Perm s.edges ∧ es.map (·.pre) = ps ∧ Segments a' es v (totalSize s.edges)) ∧
      (∀ e ∈ s.edges, ∃ x, a' e = some x ∧ s'.addrFor a' e.pre = .ok x ∧ s'.sizeFor e.pre = .ok e.size) ∧
      ∀ d, d ∉ ps → s'.addrFor a' d = .ok v ∧ s'.sizeFor d = .ok (totalSize s.edges)) := by
  have I := Src.run_inv (ps := ps) os (s := s0) (a := a0) (Src.inv_new hs)
  generalize Src.run (s0, a0) os = sa at I
  obtain ⟨s, a⟩ := sa
  simp only at I ⊢
  have hplen : s.pres.length = ps.length := by rw [← I.keys]; simp [Dict.keys]
  have hsub : (s.edges.map (·.pre)) ⊆ ps := by
    intro p hp
    obtain ⟨e, he, rfl⟩ := List.mem_map.1 hp
    exact I.from_ e he
  have hn : (s.edges.map (·.pre)).Nodup := by
    rw [List.nodup_iff_pairwise_ne, List.pairwise_map]
    have := I.edges
    rw [List.nodup_iff_pairwise_ne] at this
    refine this.imp_of_mem ?_
    intro a b ha hb hab he
    exact hab (I.one a ha b hb he)
  have ok_iff : (s.setBase a v).2 = .ok () ↔ s.pres.length = s.edges.length := by
    unfold Src.setBase
    by_cases h : s.pres.length ≠ s.edges.length
    · rw [if_pos h]
      exact ⟨fun hh => (by cases hh), fun hh => absurd hh h⟩
    · rw [if_neg h]
      refine ⟨fun _ => Classical.not_not.1 h, fun hh => ?_⟩
      obtain ⟨es, -, -, h3⟩ := Src.full I hh
      rw [assignPres_eq a v _ es h3]
  refine ⟨?_, fun e he e' he' => ⟨I.post e he e' he', I.one e he e' he'⟩, ?_⟩
  · rw [ok_iff]
    constructor
    · intro hl p hp
      obtain ⟨es, h1, h2, -⟩ := Src.full I hl
      rw [← h2] at hp
      obtain ⟨e, he, hh⟩ := List.mem_map.1 hp
      exact ⟨e, h1.mem_iff.1 he, hh⟩
    · intro hall
      have h1 : ps.length ≤ (s.edges.map (·.pre)).length := I.nodup.length_le_of_subset (by
        intro p hp
        obtain ⟨e, he, hh⟩ := hall p hp
        exact List.mem_map.2 ⟨e, he, hh⟩)
      have h2 := hn.length_le_of_subset hsub
      simp at h1 h2
      omega
  · intro hok
    have hl := ok_iff.1 hok
    obtain ⟨es, h1, h2, h3⟩ := Src.full I hl
    have e : (s.setBase a v).1 = ({ s with base := some v }, assign a v es) := by
      unfold Src.setBase
      rw [if_neg (fun h => h hl), assignPres_eq a v _ es h3]
    rw [e]
    have hseg := assign_segments a v es (h1.nodup_iff.2 I.edges)
    rw [totalSize_perm h1] at hseg
    have hget : ∀ e ∈ s.edges, s.pres.get? e.pre = some [e] := by
      intro e he
      rw [I.pres e.pre (I.from_ e he)]
      congr 1
      have hp := (List.perm_ext_iff_of_nodup (I.edges.filter (fun e' => decide (e'.pre = e.pre)))
        (show [e].Nodup by simp)).2 (by
          intro x
          rw [List.mem_filter, decide_eq_true_eq, List.mem_singleton]
          exact ⟨fun h => I.one x h.1 e he h.2, fun h => by rw [h]; exact ⟨he, rfl⟩⟩)
      exact List.perm_singleton.1 hp
    refine ⟨rfl, ⟨es, h1, h2, hseg⟩, ?_, ?_⟩
    · intro e he
      obtain ⟨x, hx, -⟩ := hseg.inside e (h1.mem_iff.2 he)
      refine ⟨x, hx, ?_, ?_⟩
      · simp only [Src.addrFor, hget e he, edgeAddr]
        have : peek [e] = .ok e := rfl
        simp only [this, hx]
      · simp only [Src.sizeFor, hget e he]
        rfl
    · intro d hd
      have : s.pres.get? d = none := by
        rw [Dict.get?_eq_none, I.keys]
        exact hd
      simp only [Src.addrFor, Src.sizeFor, this, and_self]

/-- C51, source segmented: a source that has no edge yet has no size. -/
theorem C51_source_without_edge (ps : List Nat) (s0 : Src) (hs : Src.new ps = .ok s0) (a0 : Addrs) (os : List Op)
    (p : Nat) (hp : p ∈ ps) (hn : ∀ e ∈ (Src.run (s0, a0) os).1.edges, e.pre ≠ p) :
    (Src.run (s0, a0) os).1.sizeFor p = .error .keyError := by
  have I := Src.run_inv (ps := ps) os (s := s0) (a := a0) (Src.inv_new hs)
  have : (Src.run (s0, a0) os).1.edges.filter (fun e => decide (e.pre = p)) = [] := by
    rw [List.filter_eq_nil_iff]
    intro e he
    simpa using hn e he
  rw [Src.sizeFor, I.pres p hp, this]
  rfl

/-- C51: once the base address is set, both kinds of segmented partition refuse every further edge, so that the segments
stay as they are. -/
theorem C51_fixed_destination (s : Dest) (a : Addrs) (v : Int) (h : (s.setBase a v).2 = .ok ()) (e : Edge) :
    (s.setBase a v).1.1.add e = ((s.setBase a v).1.1, .error .configuration) := by
  unfold Dest.setBase at h ⊢
  by_cases h0 : s.edges.length = 0
  · rw [if_pos h0] at h; cases h
  · rw [if_neg h0]
    unfold Dest.add
    rw [if_pos (by simp)]

theorem C51_fixed_source (ps : List Nat) (s0 : Src) (hs : Src.new ps = .ok s0) (a0 : Addrs) (os : List Op) (v : Int)
    (h : ((Src.run (s0, a0) os).1.setBase (Src.run (s0, a0) os).2 v).2 = .ok ()) (e : Edge) :
    let s' := ((Src.run (s0, a0) os).1.setBase (Src.run (s0, a0) os).2 v).1.1
    s'.add e = (s', .error .configuration) := by
  have I := Src.run_inv (ps := ps) os (s := s0) (a := a0) (Src.inv_new hs)
  have hall := (C51_source ps s0 hs a0 os v).1.1 h
  generalize Src.run (s0, a0) os = sa at I h hall
  obtain ⟨s, a⟩ := sa
  simp only at I h hall ⊢
  have e1 : (s.setBase a v).1.1.dests = s.dests ∧ (s.setBase a v).1.1.pres = s.pres := by
    unfold Src.setBase
    by_cases h0 : s.pres.length ≠ s.edges.length
    · rw [if_pos h0]; exact ⟨rfl, rfl⟩
    · rw [if_neg h0]; exact ⟨rfl, rfl⟩
  unfold Src.add
  rw [e1.1, e1.2]
  split
  · rfl
  · cases hg : s.pres.get? e.pre with
    | none => rfl
    | some l =>
      have hp : e.pre ∈ ps := by
        rw [← I.keys]
        apply Classical.not_not.1
        intro hh
        rw [← Dict.get?_eq_none, hg] at hh
        cases hh
      obtain ⟨e', he', hpre⟩ := hall e.pre hp
      have hl := I.pres e.pre hp
      rw [hg] at hl
      have hl : l = s.edges.filter (fun e' => decide (e'.pre = e.pre)) := Option.some.inj hl
      have hm : e' ∈ l := by
        rw [hl, List.mem_filter]; exact ⟨he', by simpa using hpre⟩
      have : l.length ≠ 0 := by
        intro h0
        rw [List.length_eq_zero_iff] at h0
        rw [h0] at hm; cases hm
      simp only [if_pos this]

/-- A partition from 3, 4 and 5 to 9. -/
def srcOps : List Op :=
  [.add (edge 0 5 9 10), .add (edge 1 3 9 6), .add (edge 2 5 9 5), .add (edge 3 4 8 5), .setBase 7, .add (edge 4 4 9 2)]

example : (∃ s0, Src.new [3, 4, 5] = .ok s0) ∧
    (Src.new [3, 4, 5]).map (fun s0 => (Src.run (s0, fun _ => none) srcOps).1.edges) =
      .ok [edge 0 5 9 10, edge 1 3 9 6, edge 4 4 9 2] ∧
    (Src.new [3, 4, 5]).map (fun s0 =>
      let s := Src.run (s0, fun _ => none) (srcOps ++ [.setBase 100])
      (s.1.addrFor s.2 3, s.1.addrFor s.2 4, s.1.addrFor s.2 5, s.1.addrFor s.2 9)) =
      .ok (.ok 100, .ok 106, .ok 108, .ok 100) := by
  refine ⟨⟨_, rfl⟩, by decide +kernel, by decide +kernel⟩

/-- An edge too many, and a source without one. -/
example : (Src.new [3, 4]).map (fun s0 =>
      ((Src.run (s0, fun _ => none) [.add (edge 0 3 9 10)]).1.sizeFor 4,
       ((Src.run (s0, fun _ => none) [.add (edge 0 3 9 10), .add (edge 1 4 9 5), .setBase 8]).1.add (edge 2 4 9 1)).2)) =
      .ok (.error .keyError, .error .configuration) ∧
    ((Dest.run (Dest.new 7, fun _ => none) [.add (edge 0 7 1 10), .setBase 8]).1.add (edge 1 7 2 3)).2 =
      .error .configuration := by
  refine ⟨by decide +kernel, by decide +kernel⟩

/-! ### C52 -/

/-- C52 is false of a partition with one source: an edge from another vertex is refused, and is in the partition. -/
theorem C52_refused_edge_kept : ∃ pre edges e, (singleAdd pre edges e).2 = .error .configuration ∧
    (singleAdd pre edges e).1 = edges ++ [e] :=
  ⟨7, [edge 0 7 1 10], edge 1 8 2 10, by decide +kernel, by decide +kernel⟩

/-- C52, partitions with one source: for edges from that source, a refused edge changes nothing, and an accepted
one is added at the end. What is missing is edges from other vertices, see `C52_refused_edge_kept`. -/
theorem C52_single_partial (pre : Nat) (edges : List Edge) (e : Edge) (he : e.pre = pre) :
    ((singleAdd pre edges e).2 = .ok () ∧ e ∉ edges ∧ e.typeOk = true ∧ (singleAdd pre edges e).1 = edges ++ [e]) ∨
    ((singleAdd pre edges e).2 ≠ .ok () ∧ (e ∈ edges ∨ e.typeOk = false) ∧ (singleAdd pre edges e).1 = edges) := by
  cases hr : (singleAdd pre edges e).2 with
  | ok u =>
    obtain ⟨h1, h2, h3, -⟩ := singleAdd_ok hr
    exact .inl ⟨rfl, h2, h3, h1⟩
  | error x =>
    refine .inr ⟨fun hh => (by cases hh), ?_, singleAdd_err he hr⟩
    cases ht : e.typeOk with
    | false => exact .inr rfl
    | true =>
      left
      refine Classical.byContradiction fun hm => ?_
      simp [singleAdd, baseAdd, ht, hm, he] at hr

example : (edge 0 7 1 10).pre = 7 ∧ (singleAdd 7 [edge 1 7 2 3] (edge 0 7 1 10)).2 = .ok () ∧
    (singleAdd 7 [edge 1 7 2 3] (edge 1 7 2 3)).2 = .error .alreadyExists := by decide +kernel

/-- C52, destination segmented: a refused edge changes nothing. -/
theorem C52_destination (s : Dest) (e : Edge) (x : PyErr) (h : (s.add e).2 = .error x) : (s.add e).1 = s :=
  Dest.add_err h

example : ((Dest.new 7).add (edge 0 8 1 10)).2 = .error .configuration := by decide +kernel

/-- C52, source segmented: a refused edge changes nothing. -/
theorem C52_source (s : Src) (e : Edge) (x : PyErr) (h : (s.add e).2 = .error x) : (s.add e).1 = s :=
  Src.add_err h

example : (Src.new [3, 4]).map (fun s => ((s.add (edge 0 8 1 10)).2, ((s.add (edge 0 3 1 10)).1.add (edge 1 3 1 10)).2)) =
    .ok (.error .configuration, .error .configuration) := by decide +kernel

/-- C52 is false of a constant partition even of its other fields: the first edge, refused for its type, sets the
size, and an edge of another size is refused after it although the partition is empty. -/
theorem C52_refused_edge_sets_size :
    let s := ((Const.new 7).add ⟨0, 7, 1, 5, false⟩).1
    ((Const.new 7).add ⟨0, 7, 1, 5, false⟩).2 = .error .invalidParameter ∧ s.edges = [] ∧ s.total = .ok 5 ∧
    (s.add (edge 1 7 1 6)).2 = .error .sdramEdgeSize := by decide +kernel

/-- C52, constant: for edges from its source, a refused edge leaves the edges as they are, and leaves everything as
it is if there was an edge before. -/
theorem C52_constant_partial (s : Const) (e : Edge) (x : PyErr) (he : e.pre = s.pre) (h : (s.add e).2 = .error x) :
    (s.add e).1.edges = s.edges ∧ (s.size ≠ none → (s.add e).1 = s) := by
  have sized : ∀ (s : Const) (x : PyErr), e.pre = s.pre → (s.addSized e).2 = .error x → (s.addSized e).1 = s := by
    intro s x he h
    unfold Const.addSized at h ⊢
    cases hb : s.base with
    | some b => rfl
    | none =>
      simp only [hb] at h ⊢
      rw [singleAdd_err he h]
      cases s
      simp_all
  unfold Const.add at h ⊢
  cases hs : s.size with
  | none =>
    simp only [hs] at h ⊢
    rw [sized { s with size := some e.size } x he h]
    exact ⟨rfl, fun hh => absurd rfl hh⟩
  | some n =>
    simp only [hs] at h ⊢
    split
    · exact ⟨rfl, fun _ => rfl⟩
    · rename_i hn
      rw [if_neg hn] at h
      rw [sized _ _ he h]
      exact ⟨rfl, fun _ => rfl⟩

example : (((Const.new 7).add (edge 0 7 1 5)).1.add (edge 1 7 1 6)).2 = .error .sdramEdgeSize := by decide +kernel

/-! ### C61 -/

/-- C61: after any calls (exceptions caught), all edges of a constant partition have the size it reports; once the
base address is set, it is that of all edges and vertices, and no edge can be added. -/
theorem C61_constant (pre : Nat) (a0 : Addrs) (os : List Op) (v : Int) :
    let s := (Const.run (Const.new pre, a0) os).1
    let a := (Const.run (Const.new pre, a0) os).2
    (∀ e ∈ s.edges, s.total = .ok e.size) ∧
    ((s.setBase a v).2 = .ok () ↔ s.edges ≠ []) ∧
    ((s.setBase a v).2 = .ok () →
      let s' := (s.setBase a v).1.1
      let a' := (s.setBase a v).1.2
      s'.edges = s.edges ∧ (∀ e ∈ s.edges, a' e = some v) ∧ (∀ e, e ∉ s.edges → a' e = a e) ∧
      (∀ w, s'.addrFor w = .ok v) ∧ s'.total = s.total ∧
      ∀ e, (s'.add e).2 ≠ .ok () ∧ (s'.add e).1.edges = s.edges) := by
  have hz := Const.run_sized os (s := Const.new pre) (a := a0) (by intro e he; cases he)
  generalize Const.run (Const.new pre, a0) os = sa at hz
  obtain ⟨s, a⟩ := sa
  simp only at hz ⊢
  refine ⟨?_, ?_, ?_⟩
  · intro e he
    rw [Const.total, hz e he]
  · unfold Const.setBase
    by_cases h : s.edges.length = 0
    · rw [if_pos h]
      exact ⟨fun hh => (by cases hh), fun hh => absurd (List.length_eq_zero_iff.1 h) hh⟩
    · rw [if_neg h]
      exact ⟨fun _ hh => h (by rw [hh]; rfl), fun _ => rfl⟩
  · intro hok
    have h : ¬ s.edges.length = 0 := by
      intro h
      unfold Const.setBase at hok
      rw [if_pos h] at hok
      cases hok
    have e : (s.setBase a v).1 = ({ s with base := some v }, s.edges.foldl (fun a e => a.put e v) a) := by
      unfold Const.setBase
      rw [if_neg h]
    rw [e]
    refine ⟨rfl, ?_, ?_, fun _ => rfl, rfl, ?_⟩
    · intro e he
      simp only
      rw [foldl_put, if_pos he]
    · intro e he
      simp only
      rw [foldl_put, if_neg he]
    · intro e
      unfold Const.add
      simp only
      cases s.size with
      | none => exact ⟨fun hh => (by cases hh), rfl⟩
      | some n =>
        simp only
        split
        · exact ⟨fun hh => (by cases hh), rfl⟩
        · exact ⟨fun hh => (by cases hh), rfl⟩

example : (Const.run (Const.new 7, fun _ => none) [.add (edge 0 7 1 5), .add (edge 1 7 2 6), .add (edge 2 7 2 5)]).1.edges =
    [edge 0 7 1 5, edge 2 7 2 5] := by decide +kernel

theorem Const.run_added : ∀ (os : List Op) (s : Const) (a : Addrs), (∀ o ∈ os, ∃ e, o = .add e) → s.base = none →
    (Const.run (s, a) os).1.base = none
  | [], _, _, _, h => h
  | o :: os, s, a, ho, h => by
    obtain ⟨e, rfl⟩ := ho o List.mem_cons_self
    refine Const.run_added os _ a (fun o' h' => ho o' (List.mem_cons_of_mem _ h')) ?_
    have hs : ∀ s : Const, s.base = none → (s.addSized e).1.base = none := by
      intro s h
      unfold Const.addSized
      rw [h]
    unfold Const.add
    split
    · exact hs _ h
    · split
      · exact h
      · exact hs _ h

theorem Src.run_added : ∀ (os : List Op) (s : Src) (a : Addrs), (∀ o ∈ os, ∃ e, o = .add e) → s.base = none →
    (Src.run (s, a) os).1.base = none
  | [], _, _, _, h => h
  | o :: os, s, a, ho, h => by
    obtain ⟨e, rfl⟩ := ho o List.mem_cons_self
    refine Src.run_added os _ a (fun o' h' => ho o' (List.mem_cons_of_mem _ h')) ?_
    unfold Src.add
    split
    · exact h
    · split
      · exact h
      · split
        · exact h
        · unfold multiAdd
          split
          · exact h
          · split <;> exact h

theorem Const.run_unset : ∀ (os : List Op) (s : Const) (a : Addrs), (∀ o ∈ os, ∃ v, o = .setBase v) → s.edges = [] →
    (Const.run (s, a) os).1 = s
  | [], _, _, _, _ => rfl
  | o :: os, s, a, ho, h => by
    obtain ⟨v, rfl⟩ := ho o List.mem_cons_self
    rw [Const.run]
    have : s.setBase a v = ((s, a), .error .partitionMissingEdges) := by
      unfold Const.setBase
      rw [if_pos (by rw [h]; rfl)]
    rw [this]
    exact Const.run_unset os s a (fun o' h' => ho o' (List.mem_cons_of_mem _ h')) h

/-- C51, C61: as long as no base address has been set, a vertex has none, in constant and in source segmented partitions; as
long as no edge has been added, a constant partition has no size. -/
theorem C61_not_set (pre : Nat) (ps : List Nat) (s0 : Src) (hs : Src.new ps = .ok s0) (a0 : Addrs) (os : List Op) :
    ((∀ o ∈ os, ∃ e, o = .add e) → ∀ w,
      (Const.run (Const.new pre, a0) os).1.addrFor w = .error .partitionMissingEdges ∧
      (Src.run (s0, a0) os).1.addrFor (Src.run (s0, a0) os).2 w = .error .pacmanValueError) ∧
    ((∀ o ∈ os, ∃ v, o = .setBase v) →
      (Const.run (Const.new pre, a0) os).1.total = .error .partitionMissingEdges) := by
  refine ⟨fun ho w => ⟨?_, ?_⟩, fun ho => ?_⟩
  · unfold Const.addrFor
    rw [Const.run_added os _ a0 ho rfl]
  · unfold Src.addrFor
    have h0 : s0.base = none := by
      unfold Src.new at hs
      simp only at hs
      split at hs
      · cases hs
      · cases hs; rfl
    rw [Src.run_added os _ a0 ho h0]
  · rw [Const.run_unset os _ a0 ho rfl]
    rfl

example : ∃ s0, Src.new [3, 4] = .ok s0 ∧ (∀ o ∈ [Op.add (edge 0 3 1 10), .add (edge 0 4 1 10)], ∃ e, o = Op.add e) ∧
    (Src.run (s0, fun _ => none) [.add (edge 0 3 1 10), .add (edge 0 4 1 10)]).1.edges.length = 2 :=
  ⟨_, rfl, by intro o ho; simp only [List.mem_cons, List.not_mem_nil, or_false] at ho; rcases ho with rfl | rfl <;> exact ⟨_, rfl⟩,
    by decide +kernel⟩

end Pacman.Parts
