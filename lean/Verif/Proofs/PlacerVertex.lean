import Verif.Proofs.PlacerPrepare
/-
The placement of one application vertex.
-/

namespace Pacman.Placer

open Plc (Placement Store Inv)

/-- What is placed for the groups of one vertex. -/
structure Made (M : Machine) (K : Prop) (l : List Placement) (gs : List (List Nat × Nat)) (as : List Placement) :
    Prop where
  settled : ∀ g ∈ gs, Settled M l as g
  verts : (as.map (·.vertex)).Sublist (gs.flatMap (·.1))
  fresh : ∀ a ∈ as, a.vertex ∉ l.map (·.vertex)
  offered : ∀ a ∈ as, M.has (a.x, a.y) = true ∧ a.p ∈ M.cores (a.x, a.y)
  loads : K → ∀ a ∈ as, load M (l ++ as) (a.x, a.y) ≤ M.sdram (a.x, a.y)
  way : ∃ s, ∀ a ∈ as, Way M (fun c => ∃ b ∈ as, (b.x, b.y) = c) s (a.x, a.y)
  locs : (∀ d, (M.cores d).Nodup) → ((l ++ as).map Placement.loc).Nodup

theorem Made.of_prepared {M : Machine} {K : Prop} {l as : List Placement} {gs : List (List Nat × Nat)} {st : State}
    (h : Prepared M K l [] gs as st) : Made M K l gs as ∧ Book M st l := by
  obtain ⟨bs, hb, hv, hn⟩ := h.grows
  rw [List.nil_append] at hb
  subst hb
  rcases h.prep with ⟨_, rfl, hB⟩ | ⟨U, c, hM, hU⟩
  · exact ⟨⟨h.settled, hv, hn, by simp, by simp, ⟨(0, 0), by simp⟩, fun _ => by simpa using hB.inv.locs⟩, hB⟩
  · refine ⟨⟨h.settled, hv, hn, ?_, ?_, ?_, hM.locs⟩, hM.book⟩
    · intro a ha
      exact ⟨hM.has _ (hM.accU a ha), hM.offered a ha⟩
    · intro k a ha
      exact hM.loads k _ (hM.accU a ha)
    · obtain ⟨s, hs⟩ := hM.way
      exact ⟨s, fun a ha => (hs _ (hM.accU a ha)).mono hU⟩

/-- How the placement of a vertex may fail. -/
def Err' (M : Machine) (l : List Placement) (gs : List (List Nat × Nat)) (e : PyErr) : Prop :=
  e = .tooBig ∨ e = .place ∨ (e ≠ .outOfFuel ∧ ¬ (Sane M l ∧ Uniform M l gs))

theorem attempts_spec {M : Machine} {K : Prop} {l : List Placement} {fuel : Nat} (hG : Grid M)
    (hf : M.chips.length < fuel) {gs : List (List Nat × Nat)} (hK : K → Covered M gs) {k : Nat} {st : State}
    (hB : Book M st l) (hk : st.left < k) :
    match attempts M fuel gs k st with
    | .ok (as, st') => Made M K l gs as ∧ Book M st' l
    | .error e => Err' M l gs e := by
  induction k generalizing st with
  | zero => omega
  | succ k ih =>
    rw [attempts]
    have hP : Prep M K l [] { st with prepared := [], cur := none } :=
      .inl ⟨rfl, rfl, ⟨hB.inv, hB.nodup, hB.sub, hB.all, hB.full⟩⟩
    have hS := prepareLoop_spec hG hf hK hP
    unfold prepare
    cases hp : prepareLoop M fuel gs { st with prepared := [], cur := none } [] with
    | error e =>
      rw [hp] at hS
      exact hS
    | ok r =>
      obtain ⟨oa, st'⟩ := r
      rw [hp] at hS
      cases oa with
      | some as => exact Made.of_prepared hS
      | none =>
        have hlt : st'.left < st.left := hS.2.2 rfl
        exact ih hS.1 (by omega)

theorem add_error {s s' : Store} {a : Placement} {e : PyErr} (h : Plc.add s a = (s', .error e)) :
    e = .processorOccupied ∨ e = .alreadyPlaced := by
  unfold Plc.add at h
  split at h
  · exact .inl (Except.error.inj (Prod.mk.inj h).2).symm
  · split at h
    · exact .inr (Except.error.inj (Prod.mk.inj h).2).symm
    · simp at h

theorem addAll_error {s : Store} {as : List Placement} {e : PyErr} (h : (Plc.addAll s as).2 = .error e) :
    e = .processorOccupied ∨ e = .alreadyPlaced := by
  induction as generalizing s with
  | nil => cases h
  | cons a as ih =>
    rw [Plc.addAll] at h
    cases ha : Plc.add s a with
    | mk s' r =>
      rw [ha] at h
      cases r with
      | error e' =>
        simp only at h
        cases h
        exact add_error ha
      | ok u => exact ih h

theorem placeVertex_spec {M : Machine} {K : Prop} {l : List Placement} {fuel : Nat} (hG : Grid M)
    (hf : M.chips.length < fuel) {v : AppV} (hK : K → Covered M v.groups) {st : State} (hB : Book M st l) :
    match placeVertex M fuel v st with
    | .ok st' => ∃ as, Made M K l v.groups as ∧ Book M st' (l ++ as)
    | .error e => e = .tooBig ∨ e = .place ∨
        (e ≠ .outOfFuel ∧ ¬ (Sane M l ∧ Uniform M l v.groups ∧ (v.groups.flatMap (·.1)).Nodup)) := by
  unfold placeVertex
  by_cases hg : v.groups = []
  · rw [if_pos hg]
    refine ⟨[], ⟨by simp [hg], by simp, by simp, by simp, by simp, ⟨(0, 0), by simp⟩, fun _ => by simpa using hB.inv.locs⟩,
      by simpa using hB⟩
  · rw [if_neg hg]
    have hB1 : Book M { st with restored := st.restored ++ st.tried, tried := [] } l := by
      refine ⟨hB.inv, ?_, ?_, ?_, hB.full⟩
      · simp only [List.nil_append]
        refine (List.Perm.nodup_iff ?_).1 hB.nodup
        rw [← List.append_assoc]
        exact List.Perm.append_right _ List.perm_append_comm
      · intro c hc
        refine hB.sub c ?_
        simp only [List.nil_append, List.mem_append] at hc ⊢
        rcases hc with (h | h) | h
        · exact .inr (.inl h)
        · exact .inl h
        · exact .inr (.inr h)
      · intro c hc
        refine (hB.all c hc).imp ?_ id
        intro hc
        simp only [List.nil_append, List.mem_append] at hc ⊢
        rcases hc with h | h | h
        · exact .inl (.inr h)
        · exact .inl (.inl h)
        · exact .inr h
    have hl := hB1.left
    have hS := attempts_spec (k := fuel) hG hf hK hB1 (by
      unfold State.left
      simp only [List.length_append] at hl ⊢
      simp only [List.length_nil] at hl
      omega)
    cases ha : attempts M fuel v.groups fuel { st with restored := st.restored ++ st.tried, tried := [] } with
    | error e =>
      rw [ha] at hS
      exact hS.imp id (Or.imp id (And.imp id (mt (fun h => ⟨h.1, h.2.1⟩))))
    | ok r =>
      obtain ⟨as, st'⟩ := r
      rw [ha] at hS
      obtain ⟨hM, hB'⟩ := hS
      simp only
      obtain ⟨h1, h2⟩ := Plc.addAll_inv hB'.inv as
      cases hr : Plc.addAll st'.store as with
      | mk s res =>
        cases res with
        | error e =>
          simp only
          refine .inr (.inr ⟨?_, ?_⟩)
          · rcases addAll_error (s := st'.store) (as := as) (e := e) (by rw [hr]) with rfl | rfl <;> decide
          · rintro ⟨hS, _, hn⟩
            have := h1.2 ⟨hM.locs hS.cores, by
              rw [List.map_append, List.nodup_append]
              refine ⟨hB'.inv.verts, hn.sublist hM.verts, ?_⟩
              intro x hx y hy hxy
              subst hxy
              obtain ⟨a, ha, rfl⟩ := List.mem_map.1 hy
              exact hM.fresh a ha hx⟩
            rw [hr] at this
            cases this
        | ok u =>
          simp only
          have := h2 (by rw [hr])
          rw [hr] at this
          exact ⟨as, hM, this, hB'.nodup, hB'.sub, hB'.all, fun c hc => (hB'.full c hc).mono as⟩

end Pacman.Placer
