import Verif.Proofs.PlacerAll
/-
When the placer raises PacmanTooBigToPlace, and what a vertex with one group needs.
-/

namespace Pacman.Placer

open Plc (Placement Store Inv)

/-! ### Too big -/

/-- A group that no chip can hold. -/
def Huge (M : Machine) (n sdram : Nat) : Prop := M.maxSdram < (M.costs.total [sdram] : Int) ∨ M.maxCores < (n : Int)

theorem spaceOn_tooBig {M : Machine} {c : XY} {n sdram : Nat} {st : State}
    (h : spaceOn M c n sdram st = .error .tooBig) : Huge M n sdram := by
  unfold spaceOn at h
  simp only at h
  split at h
  · cases h
  · split at h
    · rename_i hr
      cases h
      exact absurd (removeAll_error hr) (by decide)
    · split at h
      · cases h
      · split at h
        · split at h
          · rename_i hf
            unfold couldFit at hf
            split at hf
            · cases hf
            · rename_i hn
              unfold Huge
              omega
          · cases h
        · split at h
          · rename_i ha
            cases h
            exact absurd (addNeighbours_error ha).1 (by decide)
          · cases h

theorem startLoop_tooBig {M : Machine} {n sdram fuel : Nat} {st : State}
    (h : startLoop M n sdram fuel st = .error .tooBig) : Huge M n sdram := by
  induction fuel generalizing st with
  | zero => cases h
  | succ fuel ih =>
    rw [startLoop] at h
    have hP := popStart_spec (st := st)
    cases hp : popStart st with
    | error e =>
      rw [hp] at h hP
      cases h
      exact absurd hP.1 (by decide)
    | ok r =>
      rw [hp] at h
      simp only at h
      split at h
      · rename_i hs
        cases h
        exact spaceOn_tooBig hs
      · cases h
      · exact ih h

theorem nextNeighbour_tooBig {M : Machine} {n sdram fuel : Nat} {st : State}
    (h : nextNeighbour M n sdram fuel st = .error .tooBig) : Huge M n sdram := by
  induction fuel generalizing st with
  | zero => cases h
  | succ fuel ih =>
    rw [nextNeighbour] at h
    cases hp : popNeighbour M st with
    | none => rw [hp] at h; cases h
    | some r =>
      rw [hp] at h
      simp only at h
      split at h
      · rename_i hs
        cases h
        exact spaceOn_tooBig hs
      · cases h
      · exact ih h

theorem nextChip_tooBig {M : Machine} {n sdram fuel : Nat} {st : State}
    (h : nextChip M n sdram fuel st = .error .tooBig) : Huge M n sdram := by
  unfold nextChip at h
  split at h
  · split at h
    · rename_i hs
      cases h
      exact startLoop_tooBig hs
    · cases h
  · split at h
    · cases h
    · exact nextNeighbour_tooBig h

/-- What is left of a group is not longer than the group. -/
theorem filter_length {M : Machine} {s : Store} {vs ws : List Nat} (h : filterVertices M s vs = .ok ws) :
    ws.length ≤ vs.length := by
  unfold filterVertices at h
  simp only at h
  split at h
  · cases h
  · cases h
    exact Nat.le_trans (List.length_filter_le ..) (List.length_filter_le ..)

theorem prepareLoop_tooBig {M : Machine} {fuel : Nat} {gs : List (List Nat × Nat)} {st : State} {acc : List Placement}
    (h : prepareLoop M fuel gs st acc = .error .tooBig) : ∃ g ∈ gs, Huge M g.1.length g.2 := by
  induction gs generalizing st acc with
  | nil => cases h
  | cons g gs ih =>
    have next : ∀ {st acc}, prepareLoop M fuel gs st acc = .error .tooBig → ∃ g' ∈ g :: gs, Huge M g'.1.length g'.2 := by
      intro st acc h'
      obtain ⟨g', hg', hh⟩ := ih h'
      exact ⟨g', by simp [hg'], hh⟩
    rw [prepareLoop] at h
    cases hv : filterVertices M st.store g.1 with
    | error e =>
      rw [hv] at h
      cases h
      exact absurd (filter_error hv) (by decide)
    | ok ws =>
      rw [hv] at h
      have hlen := filter_length hv
      cases ws with
      | nil => exact next h
      | cons w ws =>
        simp only at h
        split at h
        · rename_i hc
          cases h
          have := nextChip_tooBig hc
          refine ⟨g, by simp, ?_⟩
          unfold Huge at *
          omega
        · cases h
        · split at h
          · rename_i ht
            cases h
            exact absurd (takeCores_error ht) (by decide)
          · exact next h

theorem placeVertex_tooBig {M : Machine} {fuel : Nat} {v : AppV} {st : State}
    (h : placeVertex M fuel v st = .error .tooBig) : ∃ g ∈ v.groups, Huge M g.1.length g.2 := by
  have hatt : ∀ k st, attempts M fuel v.groups k st = .error .tooBig → ∃ g ∈ v.groups, Huge M g.1.length g.2 := by
    intro k
    induction k with
    | zero => intro st h; cases h
    | succ k ih =>
      intro st h
      rw [attempts] at h
      split at h
      · rename_i hp
        cases h
        exact prepareLoop_tooBig hp
      · cases h
      · exact ih _ h
  unfold placeVertex at h
  split at h
  · cases h
  · split at h
    · rename_i ha
      cases h
      exact hatt _ _ ha
    · split at h
      · rename_i hr
        cases h
        have := addAll_error (s := _) (as := _) (e := .tooBig) (congrArg Prod.snd hr)
        exact absurd this (by decide)
      · cases h

theorem placeAll_tooBig {M : Machine} {fuel : Nat} {all vs : List AppV} {st : State}
    (h : placeAll M fuel all vs st = .error .tooBig) : ∃ v ∈ vs, ∃ g ∈ v.groups, Huge M g.1.length g.2 := by
  induction vs generalizing st with
  | nil => cases h
  | cons v vs ih =>
    rw [placeAll] at h
    cases hv : placeVertex M fuel v st with
    | error e =>
      rw [hv] at h
      simp only at h
      by_cases he : e = .place
      · rw [if_pos he] at h
        have := Except.error.inj h
        rcases placeError_spec (M := M) (s := st.store) (vs := all) with h2 | ⟨h2, _⟩ <;>
          rw [h2] at this <;> cases this
      · rw [if_neg he] at h
        cases h
        exact ⟨v, by simp, placeVertex_tooBig hv⟩
    | ok st1 =>
      rw [hv] at h
      obtain ⟨w, hw, hh⟩ := ih h
      exact ⟨w, by simp [hw], hh⟩

theorem fixedAll_not_tooBig {M : Machine} {vs : List AppV} {s : Store} : fixedAll M vs s ≠ .error .tooBig := by
  have h1 : ∀ c (vs : List Nat) s it, fixedCores M c vs s it ≠ .error .tooBig := by
    intro c vs
    induction vs with
    | nil => intro s it h; cases h
    | cons v vs ih =>
      intro s it h
      rw [fixedCores] at h
      split at h
      · exact ih _ _ h
      · split at h
        · cases h
        · split at h
          · rename_i ha
            cases h
            exact absurd (add_error ha) (by decide)
          · exact ih _ _ h
  have h2 : ∀ c (vs : List Nat) s it, anyCores M c vs s it ≠ .error .tooBig := by
    intro c vs
    induction vs with
    | nil => intro s it h; cases h
    | cons v vs ih =>
      intro s it h
      unfold anyCores at h
      split at h
      · exact ih _ _ h
      · split at h
        · cases h
        · split at h
          · rename_i ha
            cases h
            exact absurd (add_error ha) (by decide)
          · exact ih _ _ h
  have h3 : ∀ (gs : List (List Nat × Nat)) s, fixedGroups M gs s ≠ .error .tooBig := by
    intro gs
    induction gs with
    | nil => intro s h; cases h
    | cons g gs ih =>
      intro s h
      rw [fixedGroups] at h
      split at h
      · rename_i hv
        cases h
        exact absurd (filter_error hv) (by decide)
      · split at h
        · rename_i hd
          cases h
          unfold doFixed at hd
          split at hd
          · cases hd
          · split at hd
            · cases hd
            · split at hd
              · rename_i hf
                cases hd
                exact h1 _ _ _ _ hf
              · exact h2 _ _ _ _ hd
        · exact ih _ h
  induction vs generalizing s with
  | nil => intro h; cases h
  | cons v vs ih =>
    intro h
    rw [fixedAll] at h
    split at h
    · split at h
      · rename_i hp
        cases h
        unfold placeFixed at hp
        split at hp
        · cases hp
        · exact h3 _ _ hp
      · exact ih h
    · exact ih h

/-! ### One group -/

theorem placeVertex_single {M : Machine} {l : List Placement} {fuel : Nat} (hG : Grid M) (hf : M.chips.length < fuel)
    {v : AppV} {g : List Nat × Nat} (hg : v.groups = [g]) {st : State} (hB : Book M st l)
    (h : placeVertex M fuel v st = .error .place) :
    ∀ c ∈ M.chips, Filled M l c ∨ Small M l g.1.length g.2 c := by
  unfold placeVertex at h
  rw [if_neg (by simp [hg]), hg] at h
  have hB1 : Book M { st with restored := st.restored ++ st.tried, tried := [], prepared := [], cur := none } l := by
    refine ⟨hB.inv, ?_, ?_, ?_, hB.full⟩
    · simp only [List.nil_append]
      refine (List.Perm.nodup_iff ?_).1 hB.nodup
      rw [← List.append_assoc]
      exact List.Perm.append_right _ List.perm_append_comm
    · intro c hc
      refine hB.sub c ?_
      simp only [List.nil_append, List.mem_append] at hc ⊢
      rcases hc with (h | h) | h
      · exact .inr (.inl h)
      · exact .inl h
      · exact .inr (.inr h)
    · intro c hc
      refine (hB.all c hc).imp ?_ id
      intro hc
      simp only [List.nil_append, List.mem_append] at hc ⊢
      rcases hc with h | h | h
      · exact .inl (.inr h)
      · exact .inl (.inl h)
      · exact .inr h
  cases fuel with
  | zero => omega
  | succ fuel =>
    split at h
    · rename_i e ha
      cases h
      rw [attempts] at ha
      unfold prepare at ha
      rw [prepareLoop] at ha
      simp only at ha
      cases hv : filterVertices M st.store g.1 with
      | error e =>
        rw [hv] at ha
        cases ha
        exact absurd (filter_error hv) (by decide)
      | ok ws =>
        rw [hv] at ha
        cases ws with
        | nil => simp only [prepareLoop] at ha; cases ha
        | cons w ws =>
          simp only at ha
          have hS := nextChip_spec (K := True) (n := (w :: ws).length) (sdram := g.2) hG hf
            (.inl ⟨rfl, rfl, hB1⟩)
          have hlen := filter_length hv
          cases hn : nextChip M (w :: ws).length g.2 (fuel + 1)
              { st with restored := st.restored ++ st.tried, tried := [], prepared := [], cur := none } with
          | error e =>
            rw [hn] at ha hS
            cases ha
            intro c hc
            refine ((hS.2 rfl).2 (by simp) c hc).imp id ?_
            unfold Small
            omega
          | ok r =>
            obtain ⟨oc, st1⟩ := r
            rw [hn] at ha hS
            cases oc with
            | none => exact absurd rfl hS.1
            | some c =>
              simp only at ha
              cases ht : takeCores c g.1 st1.free with
              | error e =>
                rw [ht] at ha
                cases ha
                exact absurd (takeCores_error ht) (by decide)
              | ok r =>
                rw [ht] at ha
                simp only [prepareLoop] at ha
                cases ha
    · split at h
      · rename_i hr
        cases h
        have := addAll_error (s := _) (as := _) (e := .place) (congrArg Prod.snd hr)
        exact absurd this (by decide)
      · cases h

/-! ### One more vertex -/

theorem fixedAll_more {M : Machine} {vs : List AppV} {v : AppV} (hv : v.isFixed = false) {s : Store} :
    fixedAll M (vs ++ [v]) s = fixedAll M vs s := by
  induction vs generalizing s with
  | nil => simp [fixedAll, hv]
  | cons w vs ih =>
    rw [List.cons_append, fixedAll, fixedAll]
    split
    · cases placeFixed M w s with
      | error e => rfl
      | ok s => exact ih
    · exact ih

theorem placeAll_more {M : Machine} {fuel : Nat} {all all' vs : List AppV} {v : AppV} {st st' : State}
    (h : placeAll M fuel all vs st = .ok st') :
    placeAll M fuel all' (vs ++ [v]) st = placeAll M fuel all' [v] st' := by
  induction vs generalizing st with
  | nil =>
    cases h
    rfl
  | cons w vs ih =>
    rw [placeAll] at h
    rw [List.cons_append, placeAll]
    cases hv : placeVertex M fuel w st with
    | error e => rw [hv] at h; cases h
    | ok st1 =>
      rw [hv] at h
      exact ih h

/-- Placing one more vertex goes on where placing the others ended. -/
theorem place_more {M : Machine} {fuel : Nat} {vs : List AppV} {v : AppV} (hv : v.isFixed = false) {s s' : Store}
    (h : place M fuel vs s = .ok s') :
    ∃ st st', initial M s = .ok st ∧ (∃ s1, fixedAll M vs s = .ok s1 ∧
      placeAll M fuel vs vs { st with store := s1 } = .ok st') ∧ st'.store = s' ∧
      place M fuel (vs ++ [v]) s =
        match placeAll M fuel (vs ++ [v]) [v] st' with
        | .error e => .error e
        | .ok st'' => .ok st''.store := by
  unfold place at h ⊢
  cases h0 : initial M s with
  | error e => rw [h0] at h; cases h
  | ok st =>
    rw [h0] at h
    simp only at h ⊢
    rw [initial_store h0] at h ⊢
    rw [fixedAll_more hv]
    cases h2 : fixedAll M vs s with
    | error e => rw [h2] at h; cases h
    | ok s1 =>
      rw [h2] at h
      simp only at h ⊢
      cases h4 : placeAll M fuel vs vs { st with store := s1 } with
      | error e => rw [h4] at h; cases h
      | ok st' =>
        rw [h4] at h
        cases h
        exact ⟨st, st', rfl, ⟨s1, rfl, h4⟩, rfl, by
          rw [placeAll_more h4]
          cases placeAll M fuel (vs ++ [v]) [v] st' <;> rfl⟩

end Pacman.Placer
