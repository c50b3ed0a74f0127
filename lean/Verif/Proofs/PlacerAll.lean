import Verif.Proofs.PlacerFixed
/-
The placement of all vertices.
-/

namespace Pacman.Placer

open Plc (Placement Store Inv)

/-- The vertices in the groups of an application vertex. -/
def AppV.verts (v : AppV) : List Nat := v.groups.flatMap (·.1)

/-! ### Fixed locations -/

/-- What the first loop has placed. -/
structure AllNailed (M : Machine) (l : List Placement) (vs : List AppV) (as : List Placement) : Prop where
  group : ∀ v ∈ vs, v.isFixed = true → ∀ g ∈ v.groups, (∀ u ∈ g.1, u ∉ l.map (·.vertex)) ∧
    ∃ c, (∃ u ∈ g.1, M.virtual u = false ∧ ∃ q, M.fixed u = some (c, q)) ∧
    ∀ u ∈ g.1, M.virtual u = false → ∃ a ∈ as, a.vertex = u ∧ (a.x, a.y) = c ∧ ∀ p, M.core u = some p → a.p = p
  offered : ∀ a ∈ as, M.has (a.x, a.y) = true ∧ a.p ∈ M.cores (a.x, a.y)
  verts : ∀ a ∈ as, (∃ v ∈ vs, v.isFixed = true ∧ a.vertex ∈ v.verts) ∧ M.virtual a.vertex = false

theorem fixedAll_spec {M : Machine} (hO : Order M) {vs : List AppV} {s : Store} {l : List Placement} (hI : Inv s l) :
    match fixedAll M vs s with
    | .ok s' => ∃ as, Inv s' (l ++ as) ∧ AllNailed M l vs as
    | .error e => Bad ((∀ c, (M.cores c).Nodup) ∧ (vs.flatMap AppV.verts).Nodup ∧
        ∀ v ∈ vs.flatMap AppV.verts, v ∉ l.map (·.vertex)) e := by
  induction vs generalizing s l with
  | nil => exact ⟨[], by simpa using hI, by simp, by simp, by simp⟩
  | cons v vs ih =>
    rw [fixedAll]
    by_cases hf : v.isFixed = true
    · rw [if_pos hf]
      unfold placeFixed
      by_cases hg : v.groups = []
      · rw [if_pos hg]
        exact .inr (.inl rfl)
      · rw [if_neg hg]
        have h1 := fixedGroups_spec hO (gs := v.groups) hI
        cases hr : fixedGroups M v.groups s with
        | error e =>
          rw [hr] at h1
          refine h1.imp ?_
          rintro ⟨h2, h3, h4⟩
          rw [List.flatMap_cons] at h3 h4
          exact ⟨h2, (List.nodup_append.1 h3).1, fun u hu => h4 u (List.mem_append_left _ hu)⟩
        | ok s1 =>
          rw [hr] at h1
          obtain ⟨as, h2, h3⟩ := h1
          simp only
          have := ih h2
          cases hr2 : fixedAll M vs s1 with
          | error e =>
            rw [hr2] at this
            refine this.imp ?_
            rintro ⟨h4, h5, h6⟩
            rw [List.flatMap_cons] at h5 h6
            have h5' := List.nodup_append.1 h5
            refine ⟨h4, h5'.2.1, ?_⟩
            intro u hu hm
            rw [List.map_append, List.mem_append] at hm
            rcases hm with hm | hm
            · exact h6 u (List.mem_append_right _ hu) hm
            · obtain ⟨a, ha, rfl⟩ := List.mem_map.1 hm
              exact h5'.2.2 _ (h3.verts a ha).1 _ hu rfl
          | ok s2 =>
            rw [hr2] at this
            obtain ⟨bs, h4, h5⟩ := this
            refine ⟨as ++ bs, by simpa using h4, ?_, ?_, ?_⟩
            · intro w hw hwf g hg'
              rcases List.mem_cons.1 hw with rfl | hw
              · obtain ⟨h6, c, h7, h8⟩ := h3.group g hg'
                refine ⟨h6, c, h7, ?_⟩
                intro u hu hv
                obtain ⟨a, ha, h9⟩ := h8 u hu hv
                exact ⟨a, List.mem_append_left _ ha, h9⟩
              · obtain ⟨h6, c, h7, h8⟩ := h5.group w hw hwf g hg'
                refine ⟨?_, c, h7, ?_⟩
                · intro u hu hm
                  exact h6 u hu (by rw [List.map_append]; exact List.mem_append_left _ hm)
                · intro u hu hv
                  obtain ⟨a, ha, h9⟩ := h8 u hu hv
                  exact ⟨a, List.mem_append_right _ ha, h9⟩
            · intro a ha
              rcases List.mem_append.1 ha with ha | ha
              · exact h3.offered a ha
              · exact h5.offered a ha
            · intro a ha
              rcases List.mem_append.1 ha with ha | ha
              · exact ⟨⟨v, by simp, hf, (h3.verts a ha).1⟩, (h3.verts a ha).2⟩
              · obtain ⟨⟨w, hw, h6⟩, h7⟩ := h5.verts a ha
                exact ⟨⟨w, by simp [hw], h6⟩, h7⟩
    · rw [if_neg hf]
      have := ih hI
      cases hr : fixedAll M vs s with
      | error e =>
        rw [hr] at this
        refine this.imp ?_
        rintro ⟨h2, h3, h4⟩
        rw [List.flatMap_cons] at h3 h4
        exact ⟨h2, (List.nodup_append.1 h3).2.1, fun u hu => h4 u (List.mem_append_right _ hu)⟩
      | ok s' =>
        rw [hr] at this
        obtain ⟨as, h2, h3⟩ := this
        refine ⟨as, h2, ?_, h3.offered, ?_⟩
        · intro w hw hwf
          rcases List.mem_cons.1 hw with rfl | hw
          · exact absurd hwf hf
          · exact h3.group w hw hwf
        · intro a ha
          obtain ⟨⟨w, hw, h6⟩, h7⟩ := h3.verts a ha
          exact ⟨⟨w, by simp [hw], h6⟩, h7⟩

/-! ### The second loop -/

/-- The vertices are placed one after the other. -/
inductive Chain (M : Machine) (K : Prop) : List Placement → List AppV → List Placement → Prop
  | nil (l : List Placement) : Chain M K l [] l
  | cons {l as l' : List Placement} {v : AppV} {vs : List AppV} :
      Made M K l v.groups as → Chain M K (l ++ as) vs l' → Chain M K l (v :: vs) l'

/-- The conditions under which only the exceptions of the placer are raised. -/
structure Tidy (M : Machine) (l : List Placement) (vs : List AppV) : Prop where
  sane : Sane M l
  uniform : ∀ v ∈ vs, Uniform M l v.groups
  once : (vs.flatMap AppV.verts).Nodup

theorem Tidy.next {M : Machine} {K : Prop} {l as : List Placement} {v : AppV} {vs : List AppV} (h : Tidy M l (v :: vs))
    (hM : Made M K l v.groups as) : Tidy M (l ++ as) vs := by
  have hn := h.once
  rw [List.flatMap_cons] at hn
  have hn' := List.nodup_append.1 hn
  refine ⟨⟨h.sane.links, h.sane.cores, ?_⟩, ?_, hn'.2.1⟩
  · intro a ha
    rcases List.mem_append.1 ha with ha | ha
    · exact h.sane.offered a ha
    · exact (hM.offered a ha).2
  · intro w hw g hg
    have hu := h.uniform w (by simp [hw]) g hg
    refine ⟨hu.1, ?_⟩
    rcases hu.2 with h2 | h2
    · exact .inl (fun u hu' => by rw [List.map_append]; exact List.mem_append_left _ (h2 u hu'))
    · refine .inr (fun u hu' hm => ?_)
      rw [List.map_append, List.mem_append] at hm
      rcases hm with hm | hm
      · exact h2 u hu' hm
      · exact hn'.2.2 u (hM.verts.subset hm) u
          (List.mem_flatMap.2 ⟨w, hw, List.mem_flatMap.2 ⟨g, hg, hu'⟩⟩) rfl

theorem errorGroups_spec {M : Machine} {s : Store} {gs : List (List Nat × Nat)} :
    match errorGroups M s gs with
    | .ok () => True
    | .error e => e = .indexError ∧ ∃ g ∈ gs, g.1 = [] := by
  induction gs with
  | nil => trivial
  | cons g gs ih =>
    unfold errorGroups
    cases hg : g.1 with
    | nil => exact ⟨rfl, g, by simp, hg⟩
    | cons v vs =>
      simp only
      cases hv : M.virtual v with
      | true => trivial
      | false =>
        simp only [Bool.false_eq_true, if_false]
        cases hp : Plc.isPlaced s v with
        | false => trivial
        | true =>
          simp only [if_true]
          cases hr : errorGroups M s gs with
          | ok u => trivial
          | error e =>
            rw [hr] at ih
            obtain ⟨h1, g', h2, h3⟩ := ih
            exact ⟨h1, g', by simp [h2], h3⟩

theorem placeError_spec {M : Machine} {s : Store} {vs : List AppV} :
    placeError M s vs = .place ∨ placeError M s vs = .indexError ∧ ∃ v ∈ vs, ∃ g ∈ v.groups, g.1 = [] := by
  induction vs with
  | nil => exact .inl rfl
  | cons v vs ih =>
    rw [placeError]
    have h1 := errorGroups_spec (M := M) (s := s) (gs := v.groups)
    cases hr : errorGroups M s v.groups with
    | error e =>
      rw [hr] at h1
      exact .inr ⟨h1.1, v, by simp, h1.2⟩
    | ok u =>
      simp only
      refine ih.imp id ?_
      rintro ⟨h2, w, hw, h3⟩
      exact ⟨h2, w, by simp [hw], h3⟩

theorem placeAll_spec {M : Machine} {K : Prop} {l : List Placement} {fuel : Nat} (hG : Grid M)
    (hf : M.chips.length < fuel) {all vs : List AppV} (hK : K → ∀ v ∈ vs, Covered M v.groups) {st : State}
    (hB : Book M st l) :
    match placeAll M fuel all vs st with
    | .ok st' => ∃ l', Chain M K l vs l' ∧ Book M st' l'
    | .error e => e = .tooBig ∨ e = .place ∨
        (e ≠ .outOfFuel ∧ ¬ (Tidy M l vs ∧ ∀ v ∈ all, ∀ g ∈ v.groups, g.1 ≠ [])) := by
  induction vs generalizing st l with
  | nil => exact ⟨l, .nil l, hB⟩
  | cons v vs ih =>
    rw [placeAll]
    have h1 := placeVertex_spec hG hf (v := v) (fun k => hK k v (by simp)) hB
    cases hr : placeVertex M fuel v st with
    | error e =>
      rw [hr] at h1
      by_cases hp : e = .place
      · subst hp
        simp only [if_true]
        rcases placeError_spec (M := M) (s := st.store) (vs := all) with h2 | ⟨h2, w, hw, g, hg, h3⟩
        · exact .inr (.inl h2)
        · rw [h2]
          refine .inr (.inr ⟨(by decide), fun hT => hT.2 w hw g hg h3⟩)
      · simp only [if_neg hp]
        refine h1.imp id (Or.imp id (And.imp id (mt ?_)))
        rintro ⟨hT, _⟩
        have hn := hT.once
        rw [List.flatMap_cons] at hn
        exact ⟨hT.sane, hT.uniform v (by simp), (List.nodup_append.1 hn).1⟩
    | ok st1 =>
      rw [hr] at h1
      obtain ⟨as, hM, hB1⟩ := h1
      simp only
      have := ih (fun k w hw => hK k w (by simp [hw])) hB1
      cases hr2 : placeAll M fuel all vs st1 with
      | error e =>
        rw [hr2] at this
        exact this.imp id (Or.imp id (And.imp id (mt (fun h => ⟨h.1.next hM, h.2⟩))))
      | ok st' =>
        rw [hr2] at this
        obtain ⟨l', hC, hB'⟩ := this
        exact ⟨l', .cons hM hC, hB'⟩

/-! ### Everything -/

theorem book_initial {M : Machine} {s s' : Store} {st : State} {l : List Placement} (h : initial M s = .ok st)
    (hI : Inv s' l) : Book M { st with store := s' } l := by
  unfold initial at h
  split at h
  · cases h
  · cases h
    exact ⟨hI, by simpa using chips_nodup M, by simp, fun c hc => .inl (by simpa using hc), by simp⟩

theorem initial_store {M : Machine} {s : Store} {st : State} (h : initial M s = .ok st) : st.store = s := by
  unfold initial at h
  split at h
  · cases h
  · cases h
    rfl

/-- All that is placed. -/
theorem place_ok {M : Machine} (K : Prop) {fuel : Nat} (hO : Order M) (hG : Grid M) (hf : M.chips.length < fuel)
    {vs : List AppV} (hK : K → ∀ v ∈ vs, Covered M v.groups) {s s' : Store} {l : List Placement} (hI : Inv s l)
    (h : place M fuel vs s = .ok s') :
    ∃ fs l', AllNailed M l vs fs ∧ Inv s' l' ∧ Chain M K (l ++ fs) vs l' := by
  unfold place at h
  cases h0 : initial M s with
  | error e => rw [h0] at h; cases h
  | ok st =>
    rw [h0] at h
    simp only at h
    rw [initial_store h0] at h
    have h1 := fixedAll_spec hO (vs := vs) hI
    cases h2 : fixedAll M vs s with
    | error e => rw [h2] at h; cases h
    | ok s1 =>
      rw [h2] at h h1
      obtain ⟨fs, hI1, hN⟩ := h1
      simp only at h
      have h3 := placeAll_spec (all := vs) (fuel := fuel) hG hf hK (book_initial h0 hI1)
      cases h4 : placeAll M fuel vs vs { st with store := s1 } with
      | error e => rw [h4] at h; cases h
      | ok st' =>
        rw [h4] at h h3
        cases h
        obtain ⟨l', hC, hB⟩ := h3
        exact ⟨fs, l', hN, hB.inv, hC⟩

/-! ### What a chain gives -/

theorem Chain.prefix {M : Machine} {K : Prop} {l l' : List Placement} {vs : List AppV} (h : Chain M K l vs l') :
    ∃ as, l' = l ++ as ∧ (∀ a ∈ as, M.has (a.x, a.y) = true ∧ a.p ∈ M.cores (a.x, a.y)) ∧
      (∀ a ∈ as, ∃ v ∈ vs, a.vertex ∈ v.verts) := by
  induction h with
  | nil l => exact ⟨[], by simp, by simp, by simp⟩
  | @cons l as l' v vs hM hC ih =>
    obtain ⟨bs, h1, h2, h3⟩ := ih
    refine ⟨as ++ bs, by rw [h1, List.append_assoc], ?_, ?_⟩
    · intro a ha
      rcases List.mem_append.1 ha with ha | ha
      · exact hM.offered a ha
      · exact h2 a ha
    · intro a ha
      rcases List.mem_append.1 ha with ha | ha
      · exact ⟨v, by simp, hM.verts.subset (List.mem_map.2 ⟨a, ha, rfl⟩)⟩
      · obtain ⟨w, hw, h4⟩ := h3 a ha
        exact ⟨w, by simp [hw], h4⟩

theorem Chain.placed {M : Machine} {K : Prop} {l l' : List Placement} {vs : List AppV} (h : Chain M K l vs l') :
    ∀ v ∈ vs, ∀ g ∈ v.groups, ∀ u ∈ g.1, M.virtual u = false → u ∈ l'.map (·.vertex) := by
  induction h with
  | nil l => simp
  | @cons l as l' v vs hM hC ih =>
    intro w hw g hg u hu hv
    rcases List.mem_cons.1 hw with rfl | hw
    · obtain ⟨bs, h1, _⟩ := hC.prefix
      rw [h1, List.map_append, List.map_append, List.mem_append, List.mem_append]
      rcases hM.settled g hg with h2 | ⟨c, h2⟩
      · rcases h2 u hu with h3 | h3
        · exact .inl (.inl h3)
        · rw [hv] at h3
          cases h3
      · obtain ⟨_, a, ha, hau, _⟩ := h2 u hu
        exact .inl (.inr (List.mem_map.2 ⟨a, ha, hau⟩))
    · exact ih w hw g hg u hu hv

/-- Chips on which something new was put keep to their SDRAM. -/
theorem Chain.loads {M : Machine} {K : Prop} {l l' : List Placement} {vs : List AppV} (h : Chain M K l vs l') (k : K) :
    ∀ c, load M l' c ≤ M.sdram c ∨ (∃ bs, l' = l ++ bs ∧ ∀ a ∈ bs, (a.x, a.y) ≠ c) := by
  induction h with
  | nil l => exact fun c => .inr ⟨[], by simp, by simp⟩
  | @cons l as l' v vs hM hC ih =>
    intro c
    rcases ih c with h1 | ⟨bs, h1, h2⟩
    · exact .inl h1
    · by_cases hc : ∃ a ∈ as, (a.x, a.y) = c
      · obtain ⟨a, ha, rfl⟩ := hc
        refine .inl ?_
        rw [h1, load_other M _ h2]
        exact hM.loads k a ha
      · refine .inr ⟨as ++ bs, by rw [h1, List.append_assoc], ?_⟩
        intro a ha he
        rcases List.mem_append.1 ha with ha | ha
        · exact hc ⟨a, ha, he⟩
        · exact h2 a ha he

/-- The vertices that are not placed before are placed by the vertex that has them. -/
theorem Chain.made {M : Machine} {K : Prop} {l l' : List Placement} {vs : List AppV} (h : Chain M K l vs l')
    (hn : (vs.flatMap AppV.verts).Nodup) {v : AppV} (hv : v ∈ vs) (hl : ∀ u ∈ v.verts, u ∉ l.map (·.vertex)) :
    ∃ l1 as bs, l' = l1 ++ as ++ bs ∧ Made M K l1 v.groups as ∧ (∀ u ∈ v.verts, u ∉ l1.map (·.vertex)) ∧
      (∀ u ∈ v.verts, u ∉ bs.map (·.vertex)) := by
  induction h with
  | nil l => cases hv
  | @cons l as l' w vs hM hC ih =>
    rw [List.flatMap_cons] at hn
    have hn' := List.nodup_append.1 hn
    obtain ⟨bs, h1, _, h3⟩ := hC.prefix
    by_cases hvs : v ∈ vs
    · have hdis : ∀ u ∈ v.verts, u ∉ as.map (·.vertex) := by
        intro u hu hm
        exact hn'.2.2 u (hM.verts.subset hm) u (List.mem_flatMap.2 ⟨v, hvs, hu⟩) rfl
      refine ih hn'.2.1 hvs ?_
      intro u hu hm
      rw [List.map_append, List.mem_append] at hm
      rcases hm with hm | hm
      · exact hl u hu hm
      · exact hdis u hu hm
    · have hvw : v = w := by
        rcases List.mem_cons.1 hv with h4 | h4
        · exact h4
        · exact absurd h4 hvs
      subst hvw
      refine ⟨l, as, bs, h1, hM, hl, ?_⟩
      intro u hu hm
      obtain ⟨b, hb, rfl⟩ := List.mem_map.1 hm
      obtain ⟨w, hw, h5⟩ := h3 b hb
      exact hn'.2.2 _ hu _ (List.mem_flatMap.2 ⟨w, hw, h5⟩) rfl

end Pacman.Placer
