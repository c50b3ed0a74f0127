import Verif.Props.Placer
/-
C80 and C81: the chips of an application vertex are linked; a vertex is placed where there is room.
-/

namespace Pacman.Placer

open Plc (Placement Store Inv)

/-! ### C80 -/

/-- C80: if no vertex is in two groups and none is placed before, then after the placer the chips that hold the
vertices of an application vertex without a fixed location can all be reached over links from one of them, without
leaving these chips. -/
theorem C80_linked {M : Machine} {fuel : Nat} (hO : Order M) (hG : Grid M) (hf : M.chips.length < fuel)
    (os : List Plc.Op) (vs : List AppV) (hn : (allVerts vs).Nodup)
    (hl : ∀ u ∈ allVerts vs, u ∉ (Plc.placements (given os)).map (·.vertex)) {s' : Store}
    (h : place M fuel vs (given os) = .ok s') {v : AppV} (hv : v ∈ vs) (hvf : v.isFixed = false) :
    ∃ s, ∀ u ∈ v.groups.flatMap (·.1), ∀ c, On (Plc.placements s') u c →
      Way M (fun d => ∃ w ∈ v.groups.flatMap (·.1), On (Plc.placements s') w d) s c := by
  obtain ⟨fs, l', hN, hI, hC⟩ := place_ok False hO hG hf (fun k => k.elim) (given_inv os) h
  rw [placements_eq hI]
  have hfs : ∀ u ∈ v.verts, u ∉ ((Plc.placements (given os)) ++ fs).map (·.vertex) := by
    intro u hu hm
    rw [List.map_append, List.mem_append] at hm
    rcases hm with hm | hm
    · exact hl u (List.mem_flatMap.2 ⟨v, hv, hu⟩) hm
    · obtain ⟨a, ha, rfl⟩ := List.mem_map.1 hm
      obtain ⟨⟨w, hw, hwf, hm'⟩, _⟩ := hN.verts a ha
      have hvw : w = v := app_unique hn hw hv hm' hu
      rw [hvw, hvf] at hwf
      cases hwf
  obtain ⟨l1, as, bs, h3, h4, h5, h6⟩ := hC.made hn hv hfs
  obtain ⟨s, hs⟩ := h4.way
  refine ⟨s, ?_⟩
  rintro u hu c ⟨a, ha, hau, hac⟩
  have haa : a ∈ as := by
    rw [h3] at ha
    rcases List.mem_append.1 ha with ha | ha
    · rcases List.mem_append.1 ha with ha | ha
      · exact absurd (List.mem_map.2 ⟨a, ha, hau⟩) (h5 u hu)
      · exact ha
    · exact absurd (List.mem_map.2 ⟨a, ha, hau⟩) (h6 u hu)
  rw [← hac]
  refine (hs a haa).mono ?_
  rintro d ⟨b, hb, hbd⟩
  exact ⟨b.vertex, h4.verts.subset (List.mem_map.2 ⟨b, hb, rfl⟩), b, by rw [h3]; simp [hb], rfl, hbd⟩

example : (allVerts demoVs).Nodup ∧ (∀ u ∈ allVerts demoVs, u ∉ (Plc.placements (given demoOs)).map (·.vertex)) ∧
    (∃ s', place demo 3 demoVs (given demoOs) = .ok s') ∧
    (∃ v ∈ demoVs, v.isFixed = false ∧ 1 ∈ v.groups.flatMap (·.1) ∧ 3 ∈ v.groups.flatMap (·.1)) ∧
    On demoPlaced 1 (0, 0) ∧ On demoPlaced 3 (1, 0) :=
  ⟨by decide, by decide +kernel, demo_ok, ⟨demoVs[0], by decide, by decide, by decide, by decide⟩,
    ⟨⟨1, 0, 0, 2⟩, by decide, rfl, rfl⟩, ⟨⟨3, 1, 0, 1⟩, by decide, rfl, rfl⟩⟩

/-! ### C81 -/

/-- A chip has as many free cores as there are vertices, and its SDRAM is enough if the costs are added. -/
def HasRoom (M : Machine) (l : List Placement) (vs costs : List Nat) (c : XY) : Prop :=
  M.has c = true ∧ (l.filter (fun a => decide ((a.x, a.y) = c))).length + vs.length ≤ (M.cores c).length ∧
    M.costs.total (needs M l c ++ costs) ≤ M.sdram c

/-- C81 in full: if the other vertices have been placed, then a vertex with one group is placed as well if a chip has
room for it. -/
def C81_full : Prop :=
  ∀ (M : Machine) (fuel : Nat) (os : List Plc.Op) (vs : List AppV) (v : AppV) (g : List Nat × Nat) (s' : Store) (c : XY),
    Order M → Grid M → M.chips.length < fuel → Sane M (Plc.placements (given os)) → v.isFixed = false →
    v.groups = [g] → g.1 ≠ [] → g.1.Nodup → (∀ u ∈ g.1, M.virtual u = false) →
    (M.costs.total [g.2] : Int) ≤ M.maxSdram → (g.1.length : Int) ≤ M.maxCores →
    place M fuel vs (given os) = .ok s' → (∀ u ∈ g.1, u ∉ (Plc.placements s').map (·.vertex)) →
    HasRoom M (Plc.placements s') g.1 [g.2] c →
    ∃ s'', place M fuel (vs ++ [v]) (given os) = .ok s''

/-- One chip of 100 bytes with four cores; vertex 1 needs 80 bytes, all others 10. -/
def solo : Machine where
  width := 1
  height := 1
  has := fun c => decide (c = (0, 0))
  cores := fun _ => [1, 2, 3, 4]
  sdram := fun _ => 100
  board := fun _ => (0, 0)
  links := fun _ => []
  maxSdram := 100
  maxCores := 4
  virtual := fun _ => false
  need := fun v => if v = 1 then 80 else 10
  fixed := fun _ => none
  iter := id

theorem solo_grid : Grid solo := by
  intro c hc
  have hc : c = (0, 0) := by simpa [solo] using hc
  subst hc
  decide

/-- C81 fails: once more than three quarters of the SDRAM (all but a core's share) are used, nothing is put on the
chip any more, even if there are cores and enough SDRAM. -/
theorem C81_false : ¬ C81_full := by
  intro h
  have hp : listed (place solo 2 [⟨[([1], 80)], false⟩] (given [])) = some [⟨1, 0, 0, 1⟩] := by decide +kernel
  unfold listed at hp
  split at hp
  · rename_i s' hs
    have hs' := Option.some.inj hp
    obtain ⟨s'', hs''⟩ := h solo 2 [] [⟨[([1], 80)], false⟩] ⟨[([2], 10)], false⟩ ([2], 10) s' (0, 0)
      (fun l => List.Perm.refl l) solo_grid (by decide +kernel)
      ⟨by intro c _ d hd; simp [solo] at hd, fun _ => (show [1, 2, 3, 4].Nodup by decide), by decide +kernel⟩ rfl rfl
      (by decide) (by decide) (by decide) (by decide) (by decide) hs (by rw [hs']; decide)
      ⟨by decide, by rw [hs']; decide +kernel, by rw [hs']; decide +kernel⟩
    have : place solo 2 ([⟨[([1], 80)], false⟩] ++ [⟨[([2], 10)], false⟩]) (given []) = .error .place := by
      decide +kernel
    rw [this] at hs''
    cases hs''
  · cases hp

/-- C81, what holds: a vertex with one group is placed if a chip has room for it on which no more than the cap, all of
the SDRAM that is usable on a chip but the share of one core, is used. Missing: chips that are over the cap. -/
theorem C81_room_partial {M : Machine} {fuel : Nat} (hO : Order M) (hG : Grid M) (hf : M.chips.length < fuel)
    (os : List Plc.Op) (hS : Sane M (Plc.placements (given os))) (vs : List AppV) {v : AppV} {g : List Nat × Nat}
    (hvf : v.isFixed = false) (hg : v.groups = [g]) (hne : g.1 ≠ []) (hnd : g.1.Nodup)
    (hvirt : ∀ u ∈ g.1, M.virtual u = false)
    (hms : (M.costs.total [g.2] : Int) ≤ M.maxSdram) (hmc : (g.1.length : Int) ≤ M.maxCores) {s' : Store}
    (h : place M fuel vs (given os) = .ok s') (hnew : ∀ u ∈ g.1, u ∉ (Plc.placements s').map (·.vertex)) {c : XY}
    (hroom : HasRoom M (Plc.placements s') g.1 [g.2] c)
    (hcap : (load M (Plc.placements s') c : Int) ≤ M.maxSdram - Int.fdiv M.maxSdram M.maxCores) :
    ∃ s'', place M fuel (vs ++ [v]) (given os) = .ok s'' := by
  obtain ⟨st, st', h0, ⟨s1, h1, h2⟩, h3, h4⟩ := place_more hvf h
  have hF := fixedAll_spec hO (vs := vs) (given_inv os)
  rw [h1] at hF
  obtain ⟨fs, hI1, hN⟩ := hF
  have hA := placeAll_spec (K := False) (all := vs) (vs := vs) (fuel := fuel) hG hf (fun k => k.elim)
    (book_initial h0 hI1)
  rw [h2] at hA
  obtain ⟨l', hC, hB⟩ := hA
  have hl' : Plc.placements s' = l' := by
    rw [← h3]
    exact placements_eq hB.inv
  rw [hl'] at hroom hcap hnew
  obtain ⟨as, h5, h6, _⟩ := hC.prefix
  have hSane : Sane M l' := by
    refine ⟨hS.links, hS.cores, ?_⟩
    intro a ha
    rw [h5] at ha
    rcases List.mem_append.1 ha with ha | ha
    · rcases List.mem_append.1 ha with ha | ha
      · exact hS.offered a ha
      · exact (hN.offered a ha).2
    · exact (h6 a ha).2
  rw [h4, placeAll]
  have hV := placeVertex_spec (K := False) hG hf (v := v) (fun k => k.elim) hB
  cases hr : placeVertex M fuel v st' with
  | ok st2 => exact ⟨st2.store, rfl⟩
  | error e =>
    exfalso
    rw [hr] at hV
    rcases hV with rfl | rfl | hV
    · obtain ⟨g', hg', hh⟩ := placeVertex_tooBig hr
      rw [hg, List.mem_singleton] at hg'
      subst hg'
      unfold Huge at hh
      omega
    · have := placeVertex_single hG hf hg hB hr c
        (mem_chips.2 ⟨(hG c hroom.1).1, (hG c hroom.1).2, hroom.1⟩)
      obtain ⟨_, r1, r2⟩ := hroom
      have hpos : 0 < g.1.length := List.length_pos_iff.2 hne
      have hat : (at_ l' c).length = (l'.filter (fun a => decide ((a.x, a.y) = c))).length := rfl
      rcases this with (h7 | h7) | h7 | h7
      · omega
      · unfold Machine.cap at h7
        omega
      · omega
      · omega
    · refine hV.2 ⟨hSane, ?_, ?_⟩
      · intro g' hg'
        rw [hg, List.mem_singleton] at hg'
        subst hg'
        exact ⟨.inr hvirt, .inr hnew⟩
      · rw [hg]
        simpa using hnd

example : HasRoom demo demoPlaced [11] [10] (1, 0) ∧
    (load demo demoPlaced (1, 0) : Int) ≤ demo.maxSdram - Int.fdiv demo.maxSdram demo.maxCores := by
  refine ⟨⟨by decide, by decide +kernel, by decide +kernel⟩, by decide +kernel⟩

example : listed (place demo 3 (demoVs ++ [⟨[([11], 10)], false⟩]) (given demoOs)) =
    some (demoPlaced ++ [⟨11, 1, 0, 4⟩]) := by decide +kernel

end Pacman.Placer
