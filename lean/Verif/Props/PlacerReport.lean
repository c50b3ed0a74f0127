import Verif.Proofs.PlacerReport
/-
C132: the report on a graph that is not placed.
-/

namespace Pacman.Placer

open Plc (Placement Store Inv)

/-- C132 in full. -/
def C132_full : Prop :=
  ∀ (M : Machine) (fuel : Nat) (os : List Plc.Op) (vs : List AppV) (s : Store) (R : Report), Order M → Grid M → M.chips.length < fuel →
    Sane M (Plc.placements (given os)) → (allVerts vs).Nodup →
    (∀ u ∈ allVerts vs, u ∉ (Plc.placements (given os)).map (·.vertex)) → (∀ v ∈ vs, Unmixed M v) →
    placeReport M fuel vs (given os) = some (s, .ok R) → Tells M vs (Plc.placements (given os)) (Plc.placements s) R

/-- There is a report exactly if PacmanPlaceException is raised. -/
theorem C132_written {M : Machine} {fuel : Nat} (hO : Order M) (os : List Plc.Op) (vs : List AppV) :
    place M fuel vs (given os) = .error .place ↔ ∃ s R, placeReport M fuel vs (given os) = some (s, .ok R) := by
  have hI := given_inv os
  unfold place placeReport
  cases h0 : initial M (given os) with
  | error e =>
    unfold initial at h0
    split at h0
    · cases h0; simp
    · cases h0
  | ok st =>
    simp only
    rw [initial_store h0]
    have hF := fixedAll_spec hO (vs := vs) hI
    cases h1 : fixedAll M vs (given os) with
    | error e =>
      rw [h1] at hF
      simp only
      have : e ≠ .place := by
        rcases hF with rfl | rfl | h
        · decide
        · decide
        · exact h.2.1
      simp [this]
    | ok s1 =>
      simp only
      have key : ∀ (ws : List AppV) (st : State), placeAll M fuel vs ws st = .error .place ↔
          ∃ s R, reportAll M fuel vs ws st = some (s, .ok R) := by
        intro ws
        induction ws with
        | nil => intro st; simp [placeAll, reportAll]
        | cons w ws ih =>
          intro st
          rw [placeAll, reportAll]
          cases h2 : placeVertex M fuel w st with
          | ok st' => exact ih st'
          | error e =>
            simp only
            by_cases he : e = .place
            · rw [if_pos he, if_pos he]
              unfold report
              rcases reportVertices_error (M := M) (s := st.store) vs ([], 0, 0) with ⟨r, h3, h4⟩ | ⟨e', h3, h4, rfl⟩
              · rw [h3, h4]
                exact ⟨fun _ => ⟨_, _, rfl⟩, fun _ => rfl⟩
              · rw [h3, h4]
                simp
            · rw [if_neg he, if_neg he]
              simp [he]
      rw [← key]
      cases placeAll M fuel vs vs { st with store := s1 } with
      | error e => simp
      | ok st' => simp

section
variable {M : Machine} {fuel : Nat} {os : List Plc.Op} {vs : List AppV} {s : Store} {R : Report}

theorem report_of (h : report M s s vs = .ok R) : ∃ us count n, reportVertices M s vs ([], 0, 0) = .ok (us, count, n) ∧
    R = ⟨us, vs.length, count, n, reportChips s s, us.map (reportNot M s), reportUnused M s s⟩ := by
  unfold report at h
  cases h0 : reportVertices M s vs ([], 0, 0) with
  | error e => rw [h0] at h; cases h
  | ok r =>
    rw [h0] at h
    cases h
    exact ⟨_, _, _, rfl, rfl⟩

/-- C132 on the vertices that are not placed: the report lists just those with a machine vertex that is to be on a core and is on none,
of which there is one; it says of each how much it needs, and of none of its machine vertices that it is placed. Missing: vertices with
virtual machine vertices and others (`C132_hidden`), and the other parts of the report, which are wrong (`C132_same_object`). -/
theorem C132_not_placed_partial (hO : Order M) (hG : Grid M) (hf : M.chips.length < fuel) (hn : (allVerts vs).Nodup)
    (hfresh : ∀ u ∈ allVerts vs, u ∉ (Plc.placements (given os)).map (·.vertex)) (hp : ∀ v ∈ vs, Unmixed M v)
    (h : placeReport M fuel vs (given os) = some (s, .ok R)) :
    R.total = vs.length ∧ (∀ v, v ∈ R.unplaced ↔ v ∈ vs ∧ Lacks M (Plc.placements s) v) ∧ R.unplaced ≠ [] ∧
      R.notPlaced = R.unplaced.map (fun v => v.groups.map (fun g => (g.1.length, M.costs.total [g.2], g.1.map (fun u => (u, none))))) := by
  obtain ⟨as, h1, h2, -, h4, v0, h5, h6⟩ := placeReport_spec hO hG hf (given_inv os) hn hfresh h
  obtain ⟨us, count, n, h7, rfl⟩ := report_of h2.symm
  obtain ⟨-, h8⟩ := reportVertices_spec h1 vs [] _ (fun v hv => ⟨hp v hv, h4 v hv⟩) h7
  have h9 : ∀ v, v ∈ us ↔ v ∈ vs ∧ Lacks M (Plc.placements (given os) ++ as) v := fun v => by simpa using h8 v
  have hl : Plc.placements s = Plc.placements (given os) ++ as := by
    show s.byVertex.map (·.2) = _
    rw [h1.vertex, List.map_map]
    exact List.map_id _
  refine ⟨rfl, fun v => by rw [hl]; exact h9 v, fun h0 => ?_, List.map_congr_left fun v hv => ?_⟩
  · have : us = [] := h0
    have := (h9 v0).2 ⟨h5, h6⟩
    simp_all
  · obtain ⟨hv, u, hu, huv, hul⟩ := (h9 v).1 hv
    unfold reportNot
    refine List.map_congr_left fun g hg => ?_
    rw [List.map_congr_left (g := fun u => (u, none))]
    intro w hw
    rcases h4 v hv with h10 | h10
    · exact absurd (h10 u hu huv) hul
    · rw [if_neg]
      intro h11
      exact h10 w (List.mem_flatMap.2 ⟨g, hg, hw⟩) ((placed_mem h1 w).1 h11)

/-- Why C132 fails: "Could not place 0 of 0 in the last app vertex" is in each report, as the placer places all of a vertex or
nothing. -/
theorem C132_counts_nothing (hO : Order M) (hG : Grid M) (hf : M.chips.length < fuel) (hn : (allVerts vs).Nodup)
    (hfresh : ∀ u ∈ allVerts vs, u ∉ (Plc.placements (given os)).map (·.vertex)) (hp : ∀ v ∈ vs, Unmixed M v)
    (h : placeReport M fuel vs (given os) = some (s, .ok R)) : R.count = 0 ∧ R.groups = 0 := by
  obtain ⟨as, h1, h2, -, h4, -⟩ := placeReport_spec hO hG hf (given_inv os) hn hfresh h
  obtain ⟨us, count, n, h7, rfl⟩ := report_of h2.symm
  obtain ⟨h8, -⟩ := reportVertices_spec h1 vs [] _ (fun v hv => ⟨hp v hv, h4 v hv⟩) h7
  simp only [Prod.mk.injEq] at h8
  exact h8

/-- Why C132 fails: the placements that the placer adds to are the object that it takes for those of the system. So no report says
where a vertex has been placed, and each says of all chips that they are unused. -/
theorem C132_same_object (hO : Order M) (hG : Grid M) (hf : M.chips.length < fuel) (hn : (allVerts vs).Nodup)
    (hfresh : ∀ u ∈ allVerts vs, u ∉ (Plc.placements (given os)).map (·.vertex))
    (h : placeReport M fuel vs (given os) = some (s, .ok R)) :
    R.chips = [] ∧ R.unused = M.chips.map (fun c => (c, ((M.cores c).length : Int) - (at_ (Plc.placements s) c).length)) := by
  obtain ⟨as, h1, h2, -⟩ := placeReport_spec hO hG hf (given_inv os) hn hfresh h
  obtain ⟨us, count, n, h7, rfl⟩ := report_of h2.symm
  have hl : Plc.placements s = Plc.placements (given os) ++ as := by
    show s.byVertex.map (·.2) = _
    rw [h1.vertex, List.map_map]
    exact List.map_id _
  exact ⟨reportChips_same h1, by rw [hl]; exact reportUnused_same h1⟩

/-- `ApplicationPlacer(s).do_placements(sys)` with two objects, of which `s` has the placements of `sys` and others: the parts of the
report on chips are right. -/
theorem C132_two_objects_partial {sys : Store} {l0 as : List Placement} (hI : Inv s (l0 ++ as)) (hS : Inv sys l0)
    (h : report M s sys vs = .ok R) :
    (∀ (c : XY) (p u : Nat), (∃ ps, (c, ps) ∈ R.chips ∧ (p, u) ∈ ps) ↔ (⟨u, c.1, c.2, p⟩ : Placement) ∈ as) ∧
    ∀ (c : XY) (n : Int), (c, n) ∈ R.unused ↔ c ∈ M.chips ∧ (∀ a ∈ as, (a.x, a.y) ≠ c) ∧
      n = ((M.cores c).length : Int) - (at_ (l0 ++ as) c).length := by
  unfold report at h
  cases h0 : reportVertices M s vs ([], 0, 0) with
  | error e => rw [h0] at h; cases h
  | ok r =>
    rw [h0] at h
    cases h
    refine ⟨fun c p u => ?_, fun c n => ?_⟩
    · rw [reportChips_mem hI hS, List.mem_append]
      constructor
      · rintro ⟨h1 | h1, h2⟩
        · exact absurd (List.mem_map.2 ⟨_, h1, rfl⟩) h2
        · exact h1
      · intro h1
        refine ⟨.inr h1, fun h2 => ?_⟩
        have hn := hI.verts
        rw [List.map_append, List.nodup_append] at hn
        exact hn.2.2 _ h2 _ (List.mem_map.2 ⟨_, h1, rfl⟩) rfl
    · rw [reportUnused_mem hI hS]
      have h4 : at_ (l0 ++ as) c = at_ l0 c ++ at_ as c := List.filter_append ..
      constructor
      · rintro ⟨h1, h2, rfl⟩
        have h5 : at_ as c = [] := List.filter_eq_nil_iff.2 fun a ha hac => h2 a ha (of_decide_eq_true hac)
        exact ⟨h1, h2, by rw [h4, h5]; simp⟩
      · rintro ⟨h1, h2, rfl⟩
        have h5 : at_ as c = [] := List.filter_eq_nil_iff.2 fun a ha hac => h2 a ha (of_decide_eq_true hac)
        exact ⟨h1, h2, by rw [h4, h5]; simp⟩

/-- The drawing is made from the same object too, where a graph is not placed and where it is: all chips have the colour of unused
chips. -/
theorem C132_drawing (s : Store) (c : XY) : drawChip s s c = some none := by
  unfold drawChip
  rw [if_pos rfl]

/-- With two objects the drawing has that colour just for the chips on which the placer has put nothing, and the colour of one of the
vertices that it has put there for the others. -/
theorem C132_drawing_two_partial {sys : Store} {l0 as : List Placement} (hI : Inv s (l0 ++ as)) (hS : Inv sys l0) (c : XY) :
    (drawChip s sys c = some none ∧ ∀ a ∈ as, (a.x, a.y) ≠ c) ∨ ∃ a ∈ as, (a.x, a.y) = c ∧ drawChip s sys c = some (some a.vertex) := by
  have h4 : at_ (l0 ++ as) c = at_ l0 c ++ at_ as c := List.filter_append ..
  unfold drawChip
  rw [nOnChip_eq hI, nOnChip_eq hS, onChip_eq hI, h4, List.length_append]
  have hn := hI.verts
  rw [List.map_append, List.nodup_append] at hn
  cases h : at_ as c with
  | nil =>
    rw [if_pos (by simp)]
    exact .inl ⟨rfl, fun a ha hac => by
      have : a ∈ at_ as c := List.mem_filter.2 ⟨ha, decide_eq_true hac⟩
      rw [h] at this
      cases this⟩
  | cons a rest =>
    obtain ⟨ha, hac⟩ := List.mem_filter.1 (show a ∈ at_ as c by rw [h]; simp)
    rw [if_neg (by simp), List.find?_append, List.find?_eq_none.2, Option.none_or, List.find?_cons_of_pos]
    · exact .inr ⟨a, ha, of_decide_eq_true hac, rfl⟩
    · cases h5 : Plc.isPlaced sys a.vertex with
      | false => rfl
      | true => exact absurd rfl (hn.2.2 _ ((placed_mem hS _).1 h5) _ (List.mem_map.2 ⟨a, ha, rfl⟩))
    · intro b hb
      have := (placed_mem hS b.vertex).2 (List.mem_map.2 ⟨b, (List.mem_filter.1 hb).1, rfl⟩)
      simp [this]

end

/-- A monitor on the first of two chips with four cores; the first vertex is placed beside it, the second one is not placed. -/
def lackVs : List AppV := [⟨[([1], 10)], false⟩, ⟨[([2, 3, 4], 10), ([5, 10, 11], 10), ([12], 10)], false⟩, ⟨[([7], 0)], false⟩]

/-- What is placed, and the vertices and the unused chips of the report. -/
def told (r : Option (Store × Except PyErr Report)) : Option (List Placement × List AppV × List (XY × Int)) :=
  match r with
  | some (s, .ok R) => some (Plc.placements s, R.unplaced, R.unused)
  | _ => none

theorem told_some {r : Option (Store × Except PyErr Report)} {q : List Placement × List AppV × List (XY × Int)} (h : told r = some q) :
    ∃ s R, r = some (s, .ok R) ∧ Plc.placements s = q.1 ∧ R.unplaced = q.2.1 ∧ R.unused = q.2.2 := by
  unfold told at h
  split at h
  · cases h; exact ⟨_, _, rfl, rfl, rfl, rfl⟩
  · cases h

theorem lack_report : told (placeReport demo 3 lackVs (given demoOs)) = some ([⟨100, 0, 0, 1⟩, ⟨1, 0, 0, 2⟩],
    [⟨[([2, 3, 4], 10), ([5, 10, 11], 10), ([12], 10)], false⟩], [((0, 0), 2), ((1, 0), 4)]) := by decide +kernel

theorem lack_pure : ∀ v ∈ lackVs, Unmixed demo v := by
  intro v hv
  have hv' : v = ⟨[([1], 10)], false⟩ ∨ v = ⟨[([2, 3, 4], 10), ([5, 10, 11], 10), ([12], 10)], false⟩ ∨ v = ⟨[([7], 0)], false⟩ := by
    simpa [lackVs] using hv
  rcases hv' with rfl | rfl | rfl
  · exact .inr (by decide)
  · exact .inr (by decide)
  · exact .inl (by decide)

/-- The hypotheses hold for it. -/
example : ∃ s R, placeReport demo 3 lackVs (given demoOs) = some (s, .ok R) ∧ R.total = 3 ∧ R.unplaced ≠ [] ∧ R.count = 0 ∧
    R.chips = [] := by
  obtain ⟨s, R, h1, -⟩ := told_some lack_report
  have h2 := C132_not_placed_partial demo_order demo_grid (by decide +kernel) (by decide) (by decide +kernel) lack_pure h1
  exact ⟨s, R, h1, h2.1, h2.2.2.1, (C132_counts_nothing demo_order demo_grid (by decide +kernel) (by decide) (by decide +kernel) lack_pure h1).1,
    (C132_same_object demo_order demo_grid (by decide +kernel) (by decide) (by decide +kernel) h1).1⟩

example : place demo 3 lackVs (given demoOs) = .error .place := by
  obtain ⟨s, R, h1, -⟩ := told_some lack_report
  exact (C132_written demo_order demoOs lackVs).2 ⟨s, R, h1⟩

/-- C132 fails: vertex 1 is on core 2 of the first chip, and the report does not say so. -/
theorem C132_false : ¬ C132_full := by
  intro h
  obtain ⟨s, R, h1, h2, -⟩ := told_some lack_report
  have h3 := h demo 3 demoOs lackVs s R demo_order demo_grid (by decide +kernel) (demo_sane _ (by decide +kernel)) (by decide)
    (by decide +kernel) lack_pure h1
  have h4 := (C132_same_object demo_order demo_grid (by decide +kernel) (by decide) (by decide +kernel) h1).1
  obtain ⟨ps, h5, -⟩ := (h3.chips (0, 0) 2 1).2 (by rw [h2]; decide +kernel)
  rw [h4] at h5
  cases h5

/-- Where the first group of a vertex is virtual, and others are not, the vertex is not listed though it is not placed. -/
theorem C132_hidden : told (placeReport demo 3 [⟨[([7], 0), ([2, 3, 4], 10), ([5, 10, 11], 10), ([12, 13], 10)], false⟩] (given demoOs)) =
    some ([⟨100, 0, 0, 1⟩], [], [((0, 0), 3), ((1, 0), 4)]) := by decide +kernel

/-- With the placements of the system in an object of their own the report says where vertex 1 is. -/
example : ∃ R, report demo (given [.add ⟨100, 0, 0, 1⟩, .add ⟨1, 0, 0, 2⟩]) (given demoOs) lackVs = .ok R ∧
    (∃ ps, ((0, 0), ps) ∈ R.chips ∧ (2, 1) ∈ ps) ∧ ((1, 0), 4) ∈ R.unused ∧
    drawChip (given [.add ⟨100, 0, 0, 1⟩, .add ⟨1, 0, 0, 2⟩]) (given demoOs) (0, 0) = some (some 1) := by
  cases h : report demo (given [.add ⟨100, 0, 0, 1⟩, .add ⟨1, 0, 0, 2⟩]) (given demoOs) lackVs with
  | error e =>
    have : (report demo (given [.add ⟨100, 0, 0, 1⟩, .add ⟨1, 0, 0, 2⟩]) (given demoOs) lackVs).toOption.isSome = true := by
      decide +kernel
    rw [h] at this
    cases this
  | ok R =>
    have hI := given_inv [.add ⟨100, 0, 0, 1⟩, .add ⟨1, 0, 0, 2⟩]
    have e1 : Plc.placements (given [.add ⟨100, 0, 0, 1⟩, .add ⟨1, 0, 0, 2⟩]) = [⟨100, 0, 0, 1⟩] ++ [⟨1, 0, 0, 2⟩] := by decide +kernel
    have e2 : Plc.placements (given demoOs) = [⟨100, 0, 0, 1⟩] := by decide +kernel
    rw [e1] at hI
    have hS := given_inv demoOs
    rw [e2] at hS
    obtain ⟨h1, h2⟩ := C132_two_objects_partial hI hS h
    have h3 : drawChip (given [.add ⟨100, 0, 0, 1⟩, .add ⟨1, 0, 0, 2⟩]) (given demoOs) (0, 0) = some (some 1) := by
      rcases C132_drawing_two_partial hI hS (0, 0) with ⟨-, h3⟩ | ⟨a, ha, -, h3⟩
      · exact absurd rfl (h3 _ List.mem_cons_self)
      · rw [List.mem_singleton] at ha
        rw [h3, ha]
    exact ⟨R, rfl, (h1 (0, 0) 2 1).2 (by decide), (h2 (1, 0) 4).2 (by decide +kernel), h3⟩

end Pacman.Placer
