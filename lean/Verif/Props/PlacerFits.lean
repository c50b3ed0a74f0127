import Verif.Props.PlacerRoom
import Verif.Proofs.PlacerFits
/-
C81: a vertex is placed where there is room for all of its groups.
-/

namespace Pacman.Placer

open Plc (Placement Store Inv)

/-- C81, for vertices with several groups: the vertex is placed if one chip has room for all of its groups together, and no
more than the cap is used on it. Missing: chips that are over the cap; groups that fit only on several chips. -/
theorem C81_groups_partial {M : Machine} {fuel : Nat} (hO : Order M) (hG : Grid M) (hf : M.chips.length < fuel)
    (os : List Plc.Op) (hS : Sane M (Plc.placements (given os))) (vs : List AppV) {v : AppV}
    (hvf : v.isFixed = false) (hne : v.groups.flatMap (·.1) ≠ []) (hnd : (v.groups.flatMap (·.1)).Nodup)
    (hvirt : ∀ u ∈ v.groups.flatMap (·.1), M.virtual u = false)
    (hms : ∀ g ∈ v.groups, (M.costs.total [g.2] : Int) ≤ M.maxSdram) (hmc : ∀ g ∈ v.groups, (g.1.length : Int) ≤ M.maxCores) {s' : Store}
    (h : place M fuel vs (given os) = .ok s')
    (hnew : ∀ u ∈ v.groups.flatMap (·.1), u ∉ (Plc.placements s').map (·.vertex)) {c : XY}
    (hroom : HasRoom M (Plc.placements s') (v.groups.flatMap (·.1)) (v.groups.map (·.2)) c)
    (hcap : (load M (Plc.placements s') c : Int) ≤ M.maxSdram - Int.fdiv M.maxSdram M.maxCores) :
    ∃ s'', place M fuel (vs ++ [v]) (given os) = .ok s'' := by
  obtain ⟨st, st', h0, ⟨s1, h1, h2⟩, h3, h4⟩ := place_more hvf h
  have hF := fixedAll_spec hO (vs := vs) (given_inv os)
  rw [h1] at hF
  obtain ⟨fs, hI1, hN⟩ := hF
  have hA := placeAll_spec (K := False) (all := vs) (vs := vs) (fuel := fuel) hG hf (fun k => k.elim)
    (book_initial h0 hI1)
  rw [h2] at hA
  obtain ⟨l', hC, hB⟩ := hA
  have hl' : Plc.placements s' = l' := by
    rw [← h3]
    exact placements_eq hB.inv
  rw [hl'] at hroom hcap hnew
  obtain ⟨as, h5, h6, _⟩ := hC.prefix
  have hSane : Sane M l' := by
    refine ⟨hS.links, hS.cores, ?_⟩
    intro a ha
    rw [h5] at ha
    rcases List.mem_append.1 ha with ha | ha
    · rcases List.mem_append.1 ha with ha | ha
      · exact hS.offered a ha
      · exact (hN.offered a ha).2
    · exact (h6 a ha).2
  rw [h4, placeAll]
  have hV := placeVertex_spec (K := False) hG hf (v := v) (fun k => k.elim) hB
  cases hr : placeVertex M fuel v st' with
  | ok st2 => exact ⟨st2.store, rfl⟩
  | error e =>
    exfalso
    rw [hr] at hV
    rcases hV with rfl | rfl | hV
    · obtain ⟨g', hg', hh⟩ := placeVertex_tooBig hr
      have k1 := hms g' hg'
      have k2 := hmc g' hg'
      unfold Huge at hh
      omega
    · obtain ⟨r0, r1, r2⟩ := hroom
      have hat : (at_ l' c).length = (l'.filter (fun a => decide ((a.x, a.y) = c))).length := rfl
      have hcores : coresOf v.groups = (v.groups.flatMap (·.1)).length := by
        unfold coresOf
        rw [List.length_flatMap]
      have hpos : 0 < (v.groups.flatMap (·.1)).length := List.length_pos_iff.2 hne
      refine placeVertex_fits hG hf hB r0 ⟨?_, by omega, r2⟩ hr
      unfold Filled Machine.cap
      omega
    · refine hV.2 ⟨hSane, ?_, hnd⟩
      intro g' hg'
      exact ⟨.inr (fun u hu => hvirt u (List.mem_flatMap.2 ⟨g', hg', hu⟩)),
        .inr (fun u hu => hnew u (List.mem_flatMap.2 ⟨g', hg', hu⟩))⟩

/-- A vertex with two groups: the first chip has room for both of them together with vertex 1. -/
example : ∃ s'', place demo 3 ([⟨[([1], 10)], false⟩] ++ [⟨[([2], 10), ([3, 4], 20)], false⟩]) (given []) = .ok s'' := by
  have hp : listed (place demo 3 [⟨[([1], 10)], false⟩] (given [])) = some [⟨1, 0, 0, 1⟩] := by decide +kernel
  unfold listed at hp
  split at hp
  · rename_i s' hs
    have hs' := Option.some.inj hp
    refine C81_groups_partial demo_order demo_grid (by decide +kernel) [] ⟨?_, fun _ => (by decide : [1, 2, 3, 4].Nodup), by decide⟩
      [⟨[([1], 10)], false⟩] rfl (by decide) (by decide) (by decide) (by decide) (by decide) hs (by rw [hs']; decide)
      (c := (0, 0)) ⟨by decide, by rw [hs']; decide +kernel, by rw [hs']; decide +kernel⟩ (by rw [hs']; decide +kernel)
    intro c hc d hd
    by_cases h : c = (0, 0)
    · simp only [demo, h, if_true, List.mem_singleton] at hd
      subst hd
      decide
    · simp only [demo, if_neg h, List.mem_singleton] at hd
      subst hd
      decide
  · cases hp

example : listed (place demo 3 [⟨[([1], 10)], false⟩, ⟨[([2], 10), ([3, 4], 20)], false⟩] (given [])) =
    some [⟨1, 0, 0, 1⟩, ⟨2, 0, 0, 2⟩, ⟨3, 0, 0, 3⟩, ⟨4, 0, 0, 4⟩] := by decide +kernel

end Pacman.Placer
