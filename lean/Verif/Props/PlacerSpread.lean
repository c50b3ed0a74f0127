import Verif.Proofs.PlacerSpread
/-
C128: a vertex that is spread over several chips is placed exactly if enough cores are free on chips that are linked.
-/

namespace Pacman.Placer

open Plc (Placement Store Inv)

/-- All placements are counted on the chips that hold them. -/
theorem length_le_at : ∀ (cs : List XY) (as : List Placement), (∀ a ∈ as, (a.x, a.y) ∈ cs) →
    as.length ≤ (cs.map (fun c => (at_ as c).length)).sum := by
  intro cs
  induction cs with
  | nil =>
    intro as h
    cases as with
    | nil => simp
    | cons a as => have := h a List.mem_cons_self; cases this
  | cons c cs ih =>
    intro as h
    have h1 := ih (as.filter (fun a => !decide ((a.x, a.y) = c))) (by
      intro a ha
      obtain ⟨ha, hne⟩ := List.mem_filter.1 ha
      rcases List.mem_cons.1 (h a ha) with h0 | h0
      · simp [h0] at hne
      · exact h0)
    have h2 : (cs.map (fun d => (at_ (as.filter (fun a => !decide ((a.x, a.y) = c))) d).length)).sum ≤
        (cs.map (fun d => (at_ as d).length)).sum := by
      clear ih h h1
      induction cs with
      | nil => simp
      | cons d cs ih =>
        rw [List.map_cons, List.map_cons, List.sum_cons, List.sum_cons]
        have : (at_ (as.filter (fun a => !decide ((a.x, a.y) = c))) d).length ≤ (at_ as d).length := by
          unfold at_
          exact ((List.filter_sublist (l := as)).filter _).length_le
        omega
    have h3 : as.length = (at_ as c).length + (as.filter (fun a => !decide ((a.x, a.y) = c))).length := by
      have := List.length_eq_countP_add_countP (fun a : Placement => decide ((a.x, a.y) = c)) (l := as)
      rw [List.countP_eq_length_filter, List.countP_eq_length_filter] at this
      unfold at_
      simpa using this
    rw [List.map_cons, List.sum_cons]
    omega

/-- What was placed for a vertex is on chips that are linked. -/
theorem Made.linked {M : Machine} {K : Prop} {l as : List Placement} {gs : List (List Nat × Nat)} (hG : Grid M) (hS : Sane M l)
    (h : Made M K l gs as) : Linked M l as.length := by
  have hroom : ∀ c, (at_ l c).length + (at_ as c).length ≤ (M.cores c).length := by
    intro c
    have hn : ((at_ (l ++ as) c).map (·.p)).Nodup := by
      have h1 := h.locs hS.cores
      have h2 : ((at_ (l ++ as) c).map Placement.loc).Nodup := h1.sublist ((List.filter_sublist (l := l ++ as)).map _)
      rw [List.Nodup, List.pairwise_map] at h2 ⊢
      refine List.Pairwise.imp_of_mem ?_ h2
      intro a b ha hb hab he
      obtain ⟨-, ha⟩ := mem_at.1 ha
      obtain ⟨-, hb⟩ := mem_at.1 hb
      refine hab ?_
      have hx : (a.x, a.y) = (b.x, b.y) := ha.trans hb.symm
      simp only [Prod.mk.injEq] at hx
      simp only [Placement.loc, Prod.mk.injEq]
      exact ⟨hx.1, hx.2, he⟩
    have := List.Nodup.length_le_of_subset hn (l₂ := M.cores c) (by
      intro p hp
      obtain ⟨a, ha, rfl⟩ := List.mem_map.1 hp
      obtain ⟨ha, hac⟩ := mem_at.1 ha
      rw [← hac]
      rcases List.mem_append.1 ha with ha | ha
      · exact hS.offered a ha
      · exact (h.offered a ha).2)
    rw [List.length_map, at_append, List.length_append] at this
    exact this
  obtain ⟨s, hs⟩ := h.way
  have hspare : ∀ c, (∃ b ∈ as, (b.x, b.y) = c) → Spare M l c := by
    rintro c ⟨b, hb, rfl⟩
    refine ⟨(h.offered b hb).1, ?_⟩
    have h1 := hroom (b.x, b.y)
    have h2 : 0 < (at_ as (b.x, b.y)).length := List.length_pos_of_mem (mem_at.2 ⟨hb, rfl⟩)
    unfold freeOn
    omega
  refine ⟨s, M.chips.filter (fun c => decide (∃ b ∈ as, (b.x, b.y) = c)), (chips_nodup M).sublist List.filter_sublist, ?_, ?_⟩
  · intro c hc
    obtain ⟨-, hc⟩ := List.mem_filter.1 hc
    obtain ⟨b, hb, rfl⟩ := of_decide_eq_true hc
    exact (hs b hb).mono hspare
  · refine Nat.le_trans (length_le_at (M.chips.filter (fun c => decide (∃ b ∈ as, (b.x, b.y) = c))) as ?_) ?_
    · intro a ha
      refine List.mem_filter.2 ⟨?_, decide_eq_true ⟨a, ha, rfl⟩⟩
      have := (h.offered a ha).1
      exact mem_chips.2 ⟨(hG _ this).1, (hG _ this).2, this⟩
    · generalize M.chips.filter (fun c => decide (∃ b ∈ as, (b.x, b.y) = c)) = cs
      induction cs with
      | nil => simp
      | cons c cs ih =>
        rw [List.map_cons, List.map_cons, List.sum_cons, List.sum_cons]
        have := hroom c
        unfold freeOn at ih ⊢
        omega

/-- C128: each machine vertex of an application vertex may go to any core, and SDRAM is not the limit. The vertex is placed
exactly if there are as many free cores as it has machine vertices on chips that are linked by chips with free cores. -/
theorem C128_spread {M : Machine} {fuel : Nat} (hO : Order M) (hG : Grid M) (hf : M.chips.length < fuel)
    (os : List Plc.Op) (hS : Sane M (Plc.placements (given os))) (vs : List AppV) {v : AppV}
    (hvf : v.isFixed = false) (hone : ∀ g ∈ v.groups, g.1.length = 1) (hnd : (v.groups.flatMap (·.1)).Nodup)
    (hvirt : ∀ u ∈ v.groups.flatMap (·.1), M.virtual u = false)
    (hms : ∀ g ∈ v.groups, (M.costs.total [g.2] : Int) ≤ M.maxSdram) (hmc : 1 ≤ M.maxCores) {s' : Store}
    (h : place M fuel vs (given os) = .ok s')
    (hnew : ∀ u ∈ v.groups.flatMap (·.1), u ∉ (Plc.placements s').map (·.vertex))
    (hA : Ample M (Plc.placements s') (v.groups.map (·.2))) :
    (∃ s'', place M fuel (vs ++ [v]) (given os) = .ok s'') ↔ Linked M (Plc.placements s') v.groups.length := by
  obtain ⟨st, st', h0, ⟨s1, h1, h2⟩, h3, h4⟩ := place_more hvf h
  have hF := fixedAll_spec hO (vs := vs) (given_inv os)
  rw [h1] at hF
  obtain ⟨fs, hI1, hN⟩ := hF
  have hP := placeAll_spec (K := False) (all := vs) (vs := vs) (fuel := fuel) hG hf (fun k => k.elim)
    (book_initial h0 hI1)
  rw [h2] at hP
  obtain ⟨l', hC, hB⟩ := hP
  have hl' : Plc.placements s' = l' := by
    rw [← h3]
    exact placements_eq hB.inv
  rw [hl'] at hA hnew ⊢
  obtain ⟨as, h5, h6, _⟩ := hC.prefix
  have hSane : Sane M l' := by
    refine ⟨hS.links, hS.cores, ?_⟩
    intro a ha
    rw [h5] at ha
    rcases List.mem_append.1 ha with ha | ha
    · rcases List.mem_append.1 ha with ha | ha
      · exact hS.offered a ha
      · exact (hN.offered a ha).2
    · exact (h6 a ha).2
  have hlen : (v.groups.flatMap (·.1)).length = v.groups.length := by
    revert hone
    generalize v.groups = gs
    induction gs with
    | nil => intro _; rfl
    | cons g gs ih =>
      intro h
      rw [List.flatMap_cons, List.length_append, h g List.mem_cons_self, ih (fun g hg => h g (List.mem_cons_of_mem _ hg)),
        List.length_cons]
      omega
  rw [h4, placeAll]
  have hV := placeVertex_spec (K := False) hG hf (v := v) (fun k => k.elim) hB
  cases hr : placeVertex M fuel v st' with
  | ok st2 =>
    rw [hr] at hV
    obtain ⟨as, hM, -⟩ := hV
    refine ⟨fun _ => ?_, fun _ => ⟨st2.store, rfl⟩⟩
    have hle : v.groups.length ≤ as.length := by
      rw [← hlen, ← List.length_map (f := fun a : Placement => a.vertex)]
      refine List.Nodup.length_le_of_subset hnd ?_
      intro u hu
      obtain ⟨g, hg, hug⟩ := List.mem_flatMap.1 hu
      rcases hM.settled g hg with h7 | ⟨c, h7⟩
      · rcases h7 u hug with h8 | h8
        · exact absurd h8 (hnew u hu)
        · rw [hvirt u hu] at h8; cases h8
      · obtain ⟨-, a, ha, hau, -⟩ := h7 u hug
        exact List.mem_map.2 ⟨a, ha, hau⟩
    obtain ⟨s, cs, k1, k2, k3⟩ := hM.linked hG hSane
    exact ⟨s, cs, k1, k2, Nat.le_trans hle k3⟩
  | error e =>
    refine ⟨fun ⟨s'', hs⟩ => (by simp only at hs; cases hs), fun hL => ?_⟩
    exfalso
    rw [hr] at hV
    rcases hV with rfl | rfl | hV
    · obtain ⟨g', hg', hh⟩ := placeVertex_tooBig hr
      have k1 := hms g' hg'
      have k2 := hone g' hg'
      unfold Huge at hh
      omega
    · exact placeVertex_spread hG hA hf hB (fun g hg => ⟨hone g hg, List.mem_map.2 ⟨g, hg, rfl⟩⟩) hL hr
    · refine hV.2 ⟨hSane, ?_, hnd⟩
      intro g' hg'
      exact ⟨.inr (fun u hu => hvirt u (List.mem_flatMap.2 ⟨g', hg', hu⟩)),
        .inr (fun u hu => hnew u (List.mem_flatMap.2 ⟨g', hg', hu⟩))⟩

/-! ### Where the hypotheses hold: three chips in a row with two cores each -/

def row : Machine where
  width := 3
  height := 1
  has := fun c => decide (c.1 < 3 ∧ c.2 = 0)
  cores := fun _ => [1, 2]
  sdram := fun _ => 100
  board := fun _ => (0, 0)
  links := fun c => if c = (0, 0) then [(1, 0)] else if c = (1, 0) then [(0, 0), (2, 0)] else if c = (2, 0) then [(1, 0)] else []
  maxSdram := 100
  maxCores := 2
  virtual := fun _ => false
  need := fun _ => 10
  fixed := fun _ => none
  iter := id

theorem row_grid : Grid row := by
  intro c hc
  have hc : c.1 < 3 ∧ c.2 = 0 := of_decide_eq_true hc
  exact ⟨hc.1, (by show c.2 < 1; omega)⟩

theorem row_links : ∀ c, row.has c = true → ∀ d ∈ row.links c, row.has d = true := by
  intro c _ d hd
  have hd : d ∈ (if c = (0, 0) then [((1, 0) : XY)] else if c = (1, 0) then [(0, 0), (2, 0)] else
    if c = (2, 0) then [(1, 0)] else []) := hd
  refine decide_eq_true ?_
  split at hd
  · rw [List.mem_singleton.1 hd]; decide
  · split at hd
    · simp only [List.mem_cons, List.not_mem_nil, or_false] at hd
      rcases hd with rfl | rfl <;> decide
    · split at hd
      · rw [List.mem_singleton.1 hd]; decide
      · cases hd

theorem row_sane {l : List Placement} (h : ∀ a ∈ l, a.p ∈ [1, 2]) : Sane row l :=
  ⟨row_links, fun _ => (by decide : [1, 2].Nodup), h⟩

/-- Groups of one machine vertex each, of 10 bytes. -/
def ones (us : List Nat) : AppV := ⟨us.map (fun u => ([u], 10)), false⟩

theorem row_ample {l : List Placement} {xs : List Nat} (hx : ∀ x ∈ xs, x = 10) : Ample row l xs := by
  intro c hc
  have h1 : (at_ l c).length ≤ 1 := by
    have := hc.2
    have h2 : (row.cores c).length = 2 := rfl
    unfold freeOn at this
    omega
  have hload : load row l c = 10 * (at_ l c).length := by
    unfold load needs
    show ((at_ l c).map (fun _ => 10)).sum = _
    rw [List.map_const', List.sum_replicate_nat, Nat.mul_comm]
  refine ⟨?_, ?_⟩
  · rw [hload]
    show ((10 * (at_ l c).length : Nat) : Int) ≤ 50
    omega
  · intro ys hy hle
    have h3 : ys.length ≤ 2 := Nat.le_trans hle (by unfold freeOn; exact Nat.sub_le _ _)
    show (needs row l c ++ ys).sum ≤ 100
    have h4 : ys.sum ≤ ys.length * 10 := by
      clear hle h3
      induction ys with
      | nil => simp
      | cons y ys ih =>
        have := ih (fun z hz => hy z (List.mem_cons_of_mem _ hz))
        have := hx y (hy y List.mem_cons_self)
        rw [List.sum_cons, List.length_cons]
        omega
    have h5 : (needs row l c).sum = 10 * (at_ l c).length := hload
    rw [List.sum_append]
    omega

/-- Five machine vertices are spread over the three chips. -/
example : ∃ s'', place row 4 ([] ++ [ones [1, 2, 3, 4, 5]]) (given []) = .ok s'' :=
  (C128_spread (fun l => List.Perm.refl l) row_grid (by decide) [] (row_sane (by decide)) [] rfl (by decide) (by decide)
    (fun _ _ => rfl) (by decide) (by decide) rfl (by decide) (row_ample (by decide))).2
    ⟨(0, 0), [(0, 0), (1, 0), (2, 0)], by decide, by
      have h0 : Way row (Spare row (Plc.placements (given []))) (0, 0) (0, 0) := .here ⟨by decide, by decide⟩
      have h1 : Way row (Spare row (Plc.placements (given []))) (0, 0) (1, 0) := .step h0 (by decide) ⟨by decide, by decide⟩
      intro c hc
      simp only [List.mem_cons, List.not_mem_nil, or_false] at hc
      rcases hc with rfl | rfl | rfl
      · exact h0
      · exact h1
      · exact .step h1 (by decide) ⟨by decide, by decide⟩, by decide⟩

/-- System vertices on both cores of the chip in the middle. -/
def between : List Plc.Op := [.add ⟨100, 1, 0, 1⟩, .add ⟨101, 1, 0, 2⟩]

/-- From a chip at an end, the chip in the middle is in the way. -/
theorem between_alone {s c : XY} (h : Way row (Spare row (Plc.placements (given between))) s c) : c = s := by
  induction h with
  | here _ => rfl
  | step h1 hd hu ih =>
    rename_i c d
    have hm : ∀ {e : XY}, Spare row (Plc.placements (given between)) e → e ≠ (1, 0) := by
      rintro e he rfl
      exact absurd he.2 (by decide)
    have hc : c ≠ (1, 0) := by
      cases h1 with
      | here h => exact hm h
      | step _ _ h => exact hm h
    have hd : d ∈ (if c = (0, 0) then [((1, 0) : XY)] else if c = (1, 0) then [(0, 0), (2, 0)] else
      if c = (2, 0) then [(1, 0)] else []) := hd
    split at hd
    · exact absurd (List.mem_singleton.1 hd) (hm hu)
    · split at hd
      · exact absurd (List.mem_singleton.1 hd) (hm hu)
      · cases hd

/-- Four cores are free at the ends. Three machine vertices do not go there, as no chip with free cores links the ends. -/
example : ¬ ∃ s'', place row 4 ([] ++ [ones [1, 2, 3]]) (given between) = .ok s'' := by
  intro h
  obtain ⟨s, cs, hn, hw, hle⟩ := (C128_spread (s' := given between) (fun l => List.Perm.refl l) row_grid (by decide) between
    (row_sane (by decide)) [] rfl (by decide) (by decide) (fun _ _ => rfl) (by decide) (by decide) (by rfl) (by decide)
    (row_ample (by decide))).1 h
  have hall : ∀ c ∈ cs, c = s := fun c hc => between_alone (hw c hc)
  have hone : cs.length ≤ 1 := by
    match cs, hn, hall with
    | [], _, _ => simp
    | [_], _, _ => simp
    | a :: b :: cs, hn, hall =>
      rw [hall a (by simp), hall b (by simp)] at hn
      simp at hn
  have hsum : (cs.map (freeOn row (Plc.placements (given between)))).sum ≤ cs.length * 2 := by
    clear hn hw hle hall hone h
    induction cs with
    | nil => simp
    | cons c cs ih =>
      rw [List.map_cons, List.sum_cons, List.length_cons]
      have : freeOn row (Plc.placements (given between)) c ≤ 2 := Nat.sub_le _ _
      omega
  have : (ones [1, 2, 3]).groups.length = 3 := rfl
  omega

/-- Two go to one of the ends. -/
example : ∃ s'', place row 4 ([] ++ [ones [1, 2]]) (given between) = .ok s'' :=
  (C128_spread (s' := given between) (fun l => List.Perm.refl l) row_grid (by decide) between
    (row_sane (by decide)) [] rfl (by decide) (by decide) (fun _ _ => rfl) (by decide) (by decide) (by rfl) (by decide)
    (row_ample (by decide))).2
    ⟨(2, 0), [(2, 0)], by decide, fun c hc => by
      obtain rfl := List.mem_singleton.1 hc
      exact .here ⟨by decide, by decide⟩, by decide⟩

end Pacman.Placer
