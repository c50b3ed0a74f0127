import Verif.Proofs.PlacerCosts
import Verif.Props.PlacerFits
/-
C32 with the classes of model/resources: shared blocks are counted once on each chip.
-/

namespace Pacman.Placer

open Plc (Placement Store Inv)
open Sdram (Cost Good tally addAll add own blocks)

/-- The costs of the placer for SDRAM objects. -/
def costsOn {cost : Nat → Cost} {t : Option Nat} (h : Good cost t) : Costs where
  total := fun l => tally t (l.map cost)
  perm := fun hp => Sdram.tally_perm h hp
  mono := fun l l' => Sdram.tally_mono h l l'

/-- What the placer computes for a chip: `ConstantSDRAM(0)` and then `+=` for each vertex on the chip, and for the group
(application_placer.py:478-501), is what `Costs.total` says. -/
theorem C32_costs {cost : Nat → Cost} {t : Option Nat} (h : Good cost t) (l : List Nat) :
    ∃ c, addAll (.const 0) (l.map cost) = .ok c ∧ Sdram.total t c = .ok ((costsOn h).total l : Int) := by
  have hag : Sdram.Agree (.const 0 :: l.map cost) := by
    intro a ha b hb k v w hv hw
    rcases List.mem_cons.1 ha with rfl | ha
    · rw [Sdram.blocks_const] at hv; cases hv
    · rcases List.mem_cons.1 hb with rfl | hb
      · rw [Sdram.blocks_const] at hw; cases hw
      · exact h.agree_list l a ha b hb k v w hv hw
  obtain ⟨c, h1, h2⟩ := Sdram.C49_sum (.const 0) (l.map cost) (by
      intro a ha
      rcases List.mem_cons.1 ha with rfl | ha
      · exact .const 0
      · obtain ⟨i, -, rfl⟩ := List.mem_map.1 ha; exact h.wf i) hag
  refine ⟨c, h1, ?_⟩
  have hone : Sdram.OnePerKey (.const 0 :: l.map cost) (Sdram.firsts ((l.map cost).flatMap blocks)) := by
    have := Sdram.firsts_one (l.map cost)
    refine ⟨this.nodup, fun q hq => ?_, fun a ha q hq => ?_⟩
    · obtain ⟨a, ha, hq⟩ := this.mem q hq
      exact ⟨a, List.mem_cons_of_mem _ ha, hq⟩
    · rcases List.mem_cons.1 ha with rfl | ha
      · rw [Sdram.blocks_const] at hq; cases hq
      · exact this.all a ha q hq
  have h3 := Sdram.tally_eq h (Sdram.firsts_one (l.map cost))
  rw [h2 _ hone t]
  simp only [List.map_cons, Sdram.own_const, List.sum_cons, Sdram.sumQ, Int.zero_add, Rat.zero_add]
  exact h3

/-- The cost of a group alone (`_check_could_fit`, application_placer.py:525) is what `Costs.total` says. -/
theorem C32_costs_alone {cost : Nat → Cost} {t : Option Nat} (h : Good cost t) (i : Nat) :
    Sdram.total t (cost i) = .ok ((costsOn h).total [i] : Int) := by
  have hone : Sdram.OnePerKey ([i].map cost) (blocks (cost i)) := by
    refine ⟨(Sdram.wf_blocks (h.wf i)).1, fun q hq => ⟨cost i, by simp, hq⟩, fun a ha q hq => ?_⟩
    simp only [List.map_cons, List.map_nil, List.mem_singleton] at ha
    subst ha
    exact List.mem_map.2 ⟨q, hq, rfl⟩
  have h1 := Sdram.tally_eq h hone
  rw [Sdram.total_blocks]
  simp only [List.map_cons, List.map_nil, List.sum_cons, List.sum_nil, Sdram.sumQ, Int.add_zero, Rat.add_zero] at h1
  exact h1

/-- The cost of a further group with what is on the chip already (`sdram + self.__current_sdram_used`,
application_placer.py:660): the new cost is the left operand. -/
theorem C32_costs_left {cost : Nat → Cost} {t : Option Nat} (h : Good cost t) (i : Nat) (l : List Nat) {c : Cost}
    (hc : addAll (.const 0) (l.map cost) = .ok c) :
    ∃ d, add (cost i) c = .ok d ∧ Sdram.total t d = .ok ((costsOn h).total (i :: l) : Int) := by
  have h0 : Sdram.SumAll [.const 0] (.const 0) := ⟨.const 0, by simp, by simp [Sdram.sumQ, Rat.add_zero],
    fun q hq => ⟨_, by simp, hq⟩, by
      intro b hb q hq
      rw [List.mem_singleton] at hb
      subst hb
      exact List.mem_map.2 ⟨q, hq, rfl⟩⟩
  have hag : ∀ l : List Nat, Sdram.Agree (.const 0 :: l.map cost) := by
    intro l a ha b hb k v w hv hw
    rcases List.mem_cons.1 ha with rfl | ha
    · rw [Sdram.blocks_const] at hv; cases hv
    · rcases List.mem_cons.1 hb with rfl | hb
      · rw [Sdram.blocks_const] at hw; cases hw
      · exact h.agree_list l a ha b hb k v w hv hw
  obtain ⟨c', h1, hs⟩ := Sdram.addAll_ok (.const 0) [] (l.map cost) (.const 0) h0 (by
      intro a ha
      obtain ⟨i, -, rfl⟩ := List.mem_map.1 ha; exact h.wf i) (hag l)
  rw [hc] at h1
  cases h1
  rw [List.nil_append] at hs
  have hmem : ∀ q ∈ blocks c, ∃ j ∈ l, q ∈ blocks (cost j) := by
    intro q hq
    obtain ⟨a, ha, hqa⟩ := hs.mem q hq
    rcases List.mem_cons.1 ha with rfl | ha
    · rw [Sdram.blocks_const] at hqa; cases hqa
    · obtain ⟨j, hj, rfl⟩ := List.mem_map.1 ha
      exact ⟨j, hj, hqa⟩
  obtain ⟨d, hd, hS⟩ := Sdram.add_ok _ (cost i) c (Nat.le_refl _) (h.wf i) hs.wf (by
    intro k v w hv hw
    obtain ⟨j, -, hj⟩ := hmem _ hw
    exact ⟨h.agree i j k v w hv hj, h.agree j i k w v hj hv⟩)
  refine ⟨d, hd, ?_⟩
  have hone : Sdram.OnePerKey ((i :: l).map cost) (blocks d) := by
    refine ⟨(Sdram.wf_blocks hS.wf).1, fun q hq => ?_, fun a ha q hq => ?_⟩
    · rcases hS.mem q hq with hq | hq
      · exact ⟨cost i, by simp, hq⟩
      · obtain ⟨j, hj, hjq⟩ := hmem q hq
        exact ⟨cost j, List.mem_map.2 ⟨j, List.mem_cons_of_mem _ hj, rfl⟩, hjq⟩
    · rw [hS.all]
      rw [List.map_cons] at ha
      rcases List.mem_cons.1 ha with rfl | ha
      · exact .inl (List.mem_map.2 ⟨q, hq, rfl⟩)
      · exact .inr (hs.all a (List.mem_cons_of_mem _ ha) q hq)
  have h3 := Sdram.tally_eq h hone
  rw [Sdram.total_blocks, hS.own]
  simp only [hs.fixed, hs.per]
  simp only [List.map_cons, Sdram.own_const, List.sum_cons, Sdram.sumQ, Int.zero_add, Rat.zero_add] at h3 ⊢
  exact h3

/-- C32 for SDRAM objects, shared blocks among them: if nothing has a fixed location and each group consists of one vertex
with the SDRAM of that vertex (as all splitters in the package give), and if the system placements keep to the SDRAM of
each chip, then the costs of the vertices on any chip can be added up and come to at most the SDRAM of the chip. Missing:
fixed locations; costs that cannot be added up. -/
theorem C32_objects_partial {M : Machine} {cost : Nat → Cost} {t : Option Nat} (hg : Good cost t) (hM : M.costs = costsOn hg)
    {fuel : Nat} (hO : Order M) (hG : Grid M) (hf : M.chips.length < fuel) (os : List Plc.Op) (vs : List AppV)
    (hone : ∀ v ∈ vs, ∀ g ∈ v.groups, ∃ m, g = ([m], M.need m)) (hfree : ∀ v ∈ vs, v.isFixed = false)
    (hsys : ∀ c, ∃ d x, addAll (.const 0) ((needs M (Plc.placements (given os)) c).map cost) = .ok d ∧
      Sdram.total t d = .ok x ∧ x ≤ M.sdram c) {s' : Store}
    (h : place M fuel vs (given os) = .ok s') (c : XY) :
    ∃ d x, addAll (.const 0) ((needs M (Plc.placements s') c).map cost) = .ok d ∧ Sdram.total t d = .ok x ∧ x ≤ M.sdram c := by
  have h1 := C32_no_fixed_partial hO hG hf os vs (by
      intro v hv g hg
      obtain ⟨m, rfl⟩ := hone v hv g hg
      exact Costs.Le.refl _ _) hfree (by
      intro c
      obtain ⟨d, x, k1, k2, k3⟩ := hsys c
      obtain ⟨d', k4, k5⟩ := C32_costs hg (needs M (Plc.placements (given os)) c)
      rw [k1] at k4
      cases k4
      rw [k2] at k5
      have k6 := Except.ok.inj k5
      unfold load
      rw [hM]
      omega) h c
  obtain ⟨d, k4, k5⟩ := C32_costs hg (needs M (Plc.placements s') c)
  refine ⟨d, _, k4, k5, ?_⟩
  unfold load at h1
  rw [hM] at h1
  omega

/-! ### An example: vertices that share a block -/

/-- Vertex `i` needs `i` bytes of its own and a block of 60 bytes that all share. -/
def sharing : Nat → Cost := fun i => .shared [("weights", .const 60)] (.const i)

theorem sharing_good : Good sharing (some 10) where
  wf := fun i => .shared _ _ (.const _) (by simp) (by
    intro q hq
    rw [List.mem_singleton] at hq
    subst hq
    exact .const 60)
  agree := by
    intro i j k v w hv hw
    simp only [sharing, Sdram.blocks, List.map_nil, List.map_cons, List.append_nil, List.mem_singleton] at hv hw
    cases hv
    cases hw
    simp [Sdram.eq, Sdram.eqPlain]
  fixed := fun i => by simp [sharing, Sdram.own]
  per := fun i => by simp [sharing, Sdram.own]
  known := fun i h => by cases h
  shared := by
    intro i q hq
    simp only [sharing, Sdram.blocks, List.map_nil, List.map_cons, List.append_nil, List.mem_singleton] at hq
    subst hq
    exact ⟨60, by simp [Sdram.total]⟩

/-- One chip of 100 bytes. -/
def sharingM : Machine := { solo with need := id, costs := costsOn sharing_good }

/-- Three vertices are put on one chip: 3 + 4 + 2 bytes and the shared block, although their totals
add up to 189 bytes. -/
example : listed (place sharingM 2 [⟨[([3], 3), ([4], 4)], false⟩, ⟨[([2], 2)], false⟩] (given [])) =
      some [⟨3, 0, 0, 1⟩, ⟨4, 0, 0, 2⟩, ⟨2, 0, 0, 3⟩] ∧
    sharingM.costs.total [3, 4, 2] = 69 ∧ sharingM.costs.total [10] = 70 ∧
    place sharingM 2 [⟨[([10], 10), ([41], 41)], false⟩] (given []) = .error .place ∧
    place sharingM 2 [⟨[([41], 41)], false⟩] (given []) = .error .tooBig := by
  decide +kernel

example : ∃ d x, addAll (.const 0) ((needs sharingM [⟨3, 0, 0, 1⟩, ⟨4, 0, 0, 2⟩, ⟨2, 0, 0, 3⟩] (0, 0)).map sharing) = .ok d ∧
    Sdram.total (some 10) d = .ok x ∧ x ≤ sharingM.sdram (0, 0) := by
  obtain ⟨s', hs⟩ : ∃ s', place sharingM 2 [⟨[([3], 3), ([4], 4)], false⟩, ⟨[([2], 2)], false⟩] (given []) = .ok s' ∧
      Plc.placements s' = [⟨3, 0, 0, 1⟩, ⟨4, 0, 0, 2⟩, ⟨2, 0, 0, 3⟩] := by
    have hp : listed (place sharingM 2 [⟨[([3], 3), ([4], 4)], false⟩, ⟨[([2], 2)], false⟩] (given [])) =
      some [⟨3, 0, 0, 1⟩, ⟨4, 0, 0, 2⟩, ⟨2, 0, 0, 3⟩] := by decide +kernel
    unfold listed at hp
    split at hp
    · rename_i s' hs
      exact ⟨s', hs, Option.some.inj hp⟩
    · cases hp
  rw [← hs.2]
  refine C32_objects_partial (M := sharingM) sharing_good rfl (fun l => List.Perm.refl l) solo_grid (by decide +kernel) [] _ ?_ (by decide)
    ?_ hs.1 (0, 0)
  · intro v hv g hg
    simp only [List.mem_cons, List.not_mem_nil, or_false] at hv
    rcases hv with rfl | rfl
    · simp only [List.mem_cons, List.not_mem_nil, or_false] at hg
      rcases hg with rfl | rfl
      · exact ⟨3, rfl⟩
      · exact ⟨4, rfl⟩
    · simp only [List.mem_cons, List.not_mem_nil, or_false] at hg
      subst hg
      exact ⟨2, rfl⟩
  · intro c
    exact ⟨.const 0, 0, rfl, by simp [Sdram.total], Int.natCast_nonneg _⟩

end Pacman.Placer
