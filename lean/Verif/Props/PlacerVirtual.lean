import Verif.Props.Placer
/-
C102: vertices of external devices (virtual vertices) take no cores (false; partial).
-/

namespace Pacman.Placer

open Plc (Placement Store Inv)

/-- All vertices of a group are virtual, or none is. -/
def Pure (M : Machine) (g : List Nat × Nat) : Prop :=
  (∀ v ∈ g.1, M.virtual v = true) ∨ (∀ v ∈ g.1, M.virtual v = false)

theorem prepareLoop_real {M : Machine} {fuel : Nat} : ∀ {gs : List (List Nat × Nat)} {st st' : State}
    {acc acc' : List Placement}, (∀ g ∈ gs, Pure M g) → prepareLoop M fuel gs st acc = .ok (some acc', st') →
    (∀ a ∈ acc, M.virtual a.vertex = false) → ∀ a ∈ acc', M.virtual a.vertex = false := by
  intro gs
  induction gs with
  | nil =>
    intro st st' acc acc' _ h ha
    rw [prepareLoop] at h
    cases h
    exact ha
  | cons g gs ih =>
    intro st st' acc acc' hp h ha
    rw [prepareLoop] at h
    split at h
    · cases h
    · exact ih (fun x hx => hp x (List.mem_cons_of_mem _ hx)) h ha
    · rename_i v vs hv
      have hreal : ∀ u ∈ g.1, M.virtual u = false := by
        rcases hp g (by simp) with h0 | h0
        · unfold filterVertices at hv
          dsimp only at hv
          split at hv
          · cases hv
          · injection hv with hv
            have hm : v ∈ (g.1.filter (fun v => !Plc.isPlaced st.store v)).filter (fun v => !M.virtual v) := by
              rw [hv]; simp
            obtain ⟨h1, h2⟩ := List.mem_filter.1 hm
            rw [h0 v (List.mem_filter.1 h1).1] at h2
            cases h2
        · exact h0
      split at h
      · cases h
      · cases h
      · split at h
        · cases h
        · rename_i free as htk
          refine ih (fun x hx => hp x (List.mem_cons_of_mem _ hx)) h ?_
          intro a haa
          rcases List.mem_append.1 haa with haa | haa
          · exact ha a haa
          · refine hreal a.vertex ?_
            rw [← (takeCores_ok htk).1]
            exact List.mem_map.2 ⟨a, haa, rfl⟩

theorem attempts_real {M : Machine} {fuel : Nat} {gs : List (List Nat × Nat)} (hp : ∀ g ∈ gs, Pure M g) :
    ∀ {k : Nat} {st st' : State} {as : List Placement}, attempts M fuel gs k st = .ok (as, st') →
    ∀ a ∈ as, M.virtual a.vertex = false := by
  intro k
  induction k with
  | zero => intro st st' as h; cases h
  | succ k ih =>
    intro st st' as h
    rw [attempts] at h
    split at h
    · cases h
    · rename_i as' st1 h1
      cases h
      exact prepareLoop_real hp h1 (by intro a ha; cases ha)
    · exact ih h

theorem book_again {M : Machine} {l : List Placement} {st : State} (hB : Book M st l) :
    Book M { st with restored := st.restored ++ st.tried, tried := [] } l := by
  refine ⟨hB.inv, ?_, ?_, ?_, hB.full⟩
  · simp only [List.nil_append]
    refine (List.Perm.nodup_iff ?_).1 hB.nodup
    rw [← List.append_assoc]
    exact List.Perm.append_right _ List.perm_append_comm
  · intro c hc
    refine hB.sub c ?_
    simp only [List.nil_append, List.mem_append] at hc ⊢
    rcases hc with (h | h) | h
    · exact .inr (.inl h)
    · exact .inl h
    · exact .inr (.inr h)
  · intro c hc
    refine (hB.all c hc).imp ?_ id
    intro hc
    simp only [List.nil_append, List.mem_append] at hc ⊢
    rcases hc with h | h | h
    · exact .inl (.inr h)
    · exact .inl (.inl h)
    · exact .inr h

theorem placeVertex_real {M : Machine} {fuel : Nat} (hG : Grid M) (hf : M.chips.length < fuel) {v : AppV}
    (hp : ∀ g ∈ v.groups, Pure M g) {l : List Placement} {st st' : State} (hB : Book M st l)
    (h : placeVertex M fuel v st = .ok st') :
    ∃ as, Book M st' (l ++ as) ∧ ∀ a ∈ as, M.virtual a.vertex = false := by
  have hS := placeVertex_spec (K := False) hG hf (v := v) (fun k => k.elim) hB
  rw [h] at hS
  obtain ⟨as, hM, hB'⟩ := hS
  have hpl := placements_eq hB'.inv
  have key : ∀ bs, Plc.placements st'.store = l ++ bs → as = bs := by
    intro bs hbs
    rw [hpl] at hbs
    exact List.append_cancel_left hbs
  refine ⟨as, hB', ?_⟩
  unfold placeVertex at h
  split at h
  · cases h
    rw [key [] (by rw [List.append_nil]; exact placements_eq hB.inv)]
    intro a ha
    cases ha
  · split at h
    · cases h
    · rename_i bs st1 hat
      split at h
      · cases h
      · rename_i s hadd
        cases h
        have hB1 := book_again hB
        have hl := hB1.left
        have hA := attempts_spec (K := False) (k := fuel) hG hf (gs := v.groups) (fun k => k.elim) hB1 (by
          unfold State.left
          simp only [List.length_append, List.length_nil] at hl ⊢
          omega)
        rw [hat] at hA
        have h2 := (Plc.addAll_inv hA.2.inv bs).2 (by rw [hadd])
        rw [hadd] at h2
        rw [key bs (placements_eq h2)]
        exact attempts_real hp hat

theorem placeAll_real {M : Machine} {fuel : Nat} (hG : Grid M) (hf : M.chips.length < fuel) {all : List AppV} :
    ∀ {vs : List AppV} {l : List Placement} {st st' : State}, (∀ v ∈ vs, ∀ g ∈ v.groups, Pure M g) → Book M st l →
    placeAll M fuel all vs st = .ok st' → ∃ as, Inv st'.store (l ++ as) ∧ ∀ a ∈ as, M.virtual a.vertex = false := by
  intro vs
  induction vs with
  | nil =>
    intro l st st' _ hB h
    cases h
    exact ⟨[], by rw [List.append_nil]; exact hB.inv, by intro a ha; cases ha⟩
  | cons v vs ih =>
    intro l st st' hp hB h
    rw [placeAll] at h
    split at h
    · cases h
    · rename_i st1 h1
      obtain ⟨as, hB1, h2⟩ := placeVertex_real hG hf (hp v (by simp)) hB h1
      obtain ⟨bs, h3, h4⟩ := ih (fun u hu => hp u (List.mem_cons_of_mem _ hu)) hB1 h
      refine ⟨as ++ bs, by rw [← List.append_assoc]; exact h3, ?_⟩
      intro a ha
      rcases List.mem_append.1 ha with ha | ha
      · exact h2 a ha
      · exact h4 a ha

/-- C102 in full: the placer gives no core to a virtual vertex. -/
def C102_full : Prop :=
  ∀ (M : Machine) (fuel : Nat) (os : List Plc.Op) (vs : List AppV) (s' : Store), Order M → Grid M → M.chips.length < fuel →
    place M fuel vs (given os) = .ok s' → ∀ a ∈ Plc.placements s', a ∉ Plc.placements (given os) → M.virtual a.vertex = false

/-- C102 fails: virtual vertex 7 shares a group with vertex 1, and gets a core as well. If the chip has just one free
core, as counted, there is an IndexError (`C102_index`). -/
theorem C102_false : ¬ C102_full := by
  intro h
  have hp : listed (place demo 3 [⟨[([1, 7], 10)], false⟩] (given [])) = some [⟨1, 0, 0, 1⟩, ⟨7, 0, 0, 2⟩] := by
    decide +kernel
  unfold listed at hp
  split at hp
  · rename_i s' hs
    have hs' := Option.some.inj hp
    have := h demo 3 [] _ s' demo_order demo_grid (by decide +kernel) hs ⟨7, 0, 0, 2⟩ (by rw [hs']; decide) (by decide)
    exact absurd this (by decide)
  · cases hp

/-- C102: one core is counted for the group of vertex 1 and virtual vertex 7, and two are taken. -/
theorem C102_index :
    place { demo with cores := fun _ => [1] } 3 [⟨[([1, 7], 10)], false⟩] (given []) = .error .indexError := by
  decide +kernel

/-- C102, the part that holds: if in no group there are virtual vertices beside others, the placer gives no core to a
virtual vertex. Missing: groups with both (`C102_false`). -/
theorem C102_real_partial {M : Machine} {fuel : Nat} (hO : Order M) (hG : Grid M) (hf : M.chips.length < fuel)
    (os : List Plc.Op) (vs : List AppV)
    (hp : ∀ v ∈ vs, ∀ g ∈ v.groups, (∀ u ∈ g.1, M.virtual u = true) ∨ (∀ u ∈ g.1, M.virtual u = false)) {s' : Store}
    (h : place M fuel vs (given os) = .ok s') :
    ∀ a ∈ Plc.placements s', a ∉ Plc.placements (given os) → M.virtual a.vertex = false := by
  unfold place at h
  cases h0 : initial M (given os) with
  | error e => rw [h0] at h; cases h
  | ok st =>
    rw [h0] at h
    simp only at h
    rw [initial_store h0] at h
    have h1 := fixedAll_spec hO (vs := vs) (given_inv os)
    split at h
    · cases h
    · rename_i s1 h2
      rw [h2] at h1
      obtain ⟨fs, hI1, hN⟩ := h1
      split at h
      · cases h
      · rename_i st' h3
        cases h
        obtain ⟨as, h4, h5⟩ := placeAll_real hG hf hp (book_initial h0 hI1) h3
        rw [placements_eq h4]
        intro a ha hn
        rcases List.mem_append.1 ha with ha | ha
        · rcases List.mem_append.1 ha with ha | ha
          · exact absurd ha hn
          · exact (hN.verts a ha).2
        · exact h5 a ha

example : (∃ s', place demo 3 demoVs (given demoOs) = .ok s') ∧ (∃ v ∈ demoVs, ([7], 0) ∈ v.groups) ∧
    demo.virtual 7 = true ∧
    (∀ v ∈ demoVs, ∀ g ∈ v.groups, (∀ u ∈ g.1, demo.virtual u = true) ∨ (∀ u ∈ g.1, demo.virtual u = false)) :=
  ⟨demo_ok, ⟨demoVs[0], by decide, by decide⟩, rfl, by decide⟩

end Pacman.Placer
