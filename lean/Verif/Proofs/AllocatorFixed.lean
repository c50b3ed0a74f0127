import Verif.Spec.Allocator
import Verif.Proofs.Dict
/-
What `__find_fixed` puts in the dictionary of fixed keys.
-/

namespace Pacman.Alloc

/-- Key of the dictionary for the application vertex. -/
abbrev ak (p : Part) : Nat × VId := (p.ident, .app p.pre)

theorem findMachine_ok (p : Part) : ∀ (vs : List MVertex) (s s' : FState) (f f' u : Bool),
    (vs.map (·.id)).Nodup → findMachine p vs s f u = .ok (s', f') →
    s'.allFixed = s.allFixed ∧ (s'.vert = vs.getLast?.or s.vert) ∧
    (((∀ v ∈ vs, v.fixed = none) ∧ s'.fixed = s.fixed ∧ f' = f ∧ (vs ≠ [] → f = false)) ∨
     (vs ≠ [] ∧ u = false ∧ f' = true ∧
      (∃ akm, p.fixed = some akm ∧ ∀ v ∈ vs, ∃ km, v.fixed = some km ∧ km.1 &&& akm.2 = akm.1 ∧
        s'.fixed.get? (mk p v) = some km) ∧
      ∀ k, (∀ v ∈ vs, k ≠ mk p v) → s'.fixed.get? k = s.fixed.get? k)) := by
  intro vs
  induction vs with
  | nil =>
    intro s s' f f' u _ h
    simp only [findMachine, Except.ok.injEq, Prod.mk.injEq] at h
    obtain ⟨rfl, rfl⟩ := h
    exact ⟨rfl, rfl, .inl ⟨by simp, rfl, rfl, by simp⟩⟩
  | cons v vs ih =>
    intro s s' f f' u hn h
    rw [List.map_cons, List.nodup_cons] at hn
    rw [findMachine] at h
    simp only at h
    have hlast : ((v :: vs).getLast?.or s.vert) = vs.getLast?.or (some v) := by
      rw [List.getLast?_cons]
      cases vs.getLast? <;> rfl
    split at h
    · rename_i km hv
      split at h
      · simp at h
      · rename_i hu
        split at h
        · simp at h
        · rename_i akm hp
          split at h
          · simp at h
          · rename_i hal
            have hal : km.1 &&& akm.2 = akm.1 := Classical.not_not.1 hal
            obtain ⟨h1, h2, h3⟩ := ih _ s' true f' u hn.2 h
            refine ⟨h1, by rw [hlast]; exact h2, .inr ?_⟩
            rcases h3 with ⟨k1, k2, k3, k4⟩ | ⟨k1, k2, k3, ⟨akm', k4, k5⟩, k6⟩
            · have hvs : vs = [] := by
                apply Classical.byContradiction
                intro hne
                simpa using k4 hne
              subst hvs
              refine ⟨by simp, by simpa using hu, k3, ⟨akm, hp, ?_⟩, ?_⟩
              · intro w hw
                rw [List.mem_singleton] at hw
                subst hw
                exact ⟨km, hv, hal, by rw [k2]; exact Dict.get?_set_self _ _ _⟩
              · intro k hk
                rw [k2]
                exact Dict.get?_set_ne _ _ (Ne.symm (hk v (by simp)))
            · rw [hp] at k4
              simp only [Option.some.injEq] at k4
              subst k4
              refine ⟨by simp, by simpa using hu, k3, ⟨akm, hp, ?_⟩, ?_⟩
              · intro w hw
                rw [List.mem_cons] at hw
                rcases hw with rfl | hw
                · refine ⟨km, hv, hal, ?_⟩
                  rw [k6]
                  · exact Dict.get?_set_self _ _ _
                  · intro w hw heq
                    simp only [Prod.mk.injEq, VId.mach.injEq, true_and] at heq
                    exact hn.1 (List.mem_map.2 ⟨w, hw, heq.symm⟩)
                · exact k5 w hw
              · intro k hk
                rw [k6 k (fun w hw => hk w (by simp [hw]))]
                exact Dict.get?_set_ne _ _ (Ne.symm (hk v (by simp)))
    · rename_i hv
      split at h
      · simp at h
      · rename_i hf
        obtain ⟨h1, h2, h3⟩ := ih _ s' f f' true hn.2 h
        refine ⟨h1, by rw [hlast]; exact h2, ?_⟩
        rcases h3 with ⟨k1, k2, k3, k4⟩ | ⟨_, k2, _⟩
        · left
          refine ⟨?_, k2, k3, fun _ => by simpa using hf⟩
          intro w hw
          rw [List.mem_cons] at hw
          rcases hw with rfl | hw
          · exact hv
          · exact k1 w hw
        · simp at k2

/-- What one partition puts in the dictionary. -/
structure OneFixed (p : Part) (d d' : Fixed) : Prop where
  none : p.fixed = none → d' = d ∧ ∀ v ∈ p.outgoing, v.fixed = none
  app : ∀ akm, p.fixed = some akm → d'.get? (ak p) = some akm
  mach : ∀ akm, p.fixed = some akm → ∀ v ∈ p.outgoing,
    d'.get? (mk p v) = some (v.fixed.getD akm) ∧ (v.fixed.getD akm).1 &&& akm.2 = akm.1
  frame : ∀ k, k ≠ ak p → (∀ v ∈ p.outgoing, k ≠ mk p v) → d'.get? k = d.get? k

theorem findOne_ok {p : Part} {s s' : FState} (hn : (p.outgoing.map (·.id)).Nodup)
    (hv : ∀ akm, p.fixed = some akm → akm.1 &&& akm.2 = akm.1)
    (he : p.outgoing = [] → p.fixed = none) (h : findOne s p = .ok s') :
    OneFixed p s.fixed s'.fixed ∧ s'.allFixed = (s.allFixed && p.fixed.isSome) := by
  unfold findOne at h
  cases hm : findMachine p p.outgoing s false false with
  | error e => rw [hm] at h; simp [bind, Except.bind] at h
  | ok r =>
    obtain ⟨s1, f1⟩ := r
    rw [hm] at h
    simp only [bind, Except.bind, pure, Except.pure] at h
    obtain ⟨h1, h2, h3⟩ := findMachine_ok p p.outgoing s s1 false f1 false hn hm
    cases hp : p.fixed with
    | none =>
      rw [hp] at h
      simp only [Except.ok.injEq] at h
      subst h
      rcases h3 with ⟨k1, k2, _⟩ | ⟨_, _, _, ⟨akm, k4, _⟩, _⟩
      · refine ⟨⟨fun _ => ⟨k2, k1⟩, ?_, ?_, fun k _ _ => by simp only [k2]⟩, by simp⟩
        · intro akm h; rw [hp] at h; simp at h
        · intro akm h; rw [hp] at h; simp at h
      · rw [hp] at k4; simp at k4
    | some akm =>
      rw [hp] at h
      simp only at h
      rcases h3 with ⟨k1, k2, rfl, _⟩ | ⟨_, _, rfl, ⟨akm', k4, k5⟩, k6⟩
      · simp only [Bool.false_eq_true, if_false] at h
        split at h
        · simp at h
        · rename_i hlen
          have hne : p.outgoing ≠ [] := fun h0 => by rw [he h0] at hp; simp at hp
          obtain ⟨v, hv1⟩ : ∃ v, p.outgoing = [v] := by
            cases hout : p.outgoing with
            | nil => exact absurd hout hne
            | cons a l =>
              rw [hout] at hlen
              cases l with
              | nil => exact ⟨a, rfl⟩
              | cons b l => simp at hlen
          have hvert : s1.vert = some v := by rw [h2, hv1]; rfl
          rw [hvert] at h
          simp only [Except.ok.injEq] at h
          subst h
          refine ⟨⟨?_, ?_, ?_, ?_⟩, by simp [h1]⟩
          · intro h; rw [hp] at h; simp at h
          · intro akm' h
            rw [hp] at h
            simp only [Option.some.injEq] at h
            subst h
            exact Dict.get?_set_self _ _ _
          · intro akm' h w hw
            rw [hp] at h
            simp only [Option.some.injEq] at h
            subst h
            have hw' := hw
            rw [hv1, List.mem_singleton] at hw
            subst hw
            have hnone := k1 w hw'
            refine ⟨?_, by rw [hnone]; exact hv akm hp⟩
            simp only [hnone, Option.getD_none]
            rw [Dict.get?_set_ne _ _ (by simp), Dict.get?_set_self]
          · intro k hk1 hk2
            simp only
            rw [Dict.get?_set_ne _ _ (Ne.symm hk1), Dict.get?_set_ne _ _
              (Ne.symm (hk2 v (by rw [hv1]; simp))), k2]
      · simp only [if_true, Except.ok.injEq] at h
        subst h
        rw [hp] at k4
        simp only [Option.some.injEq] at k4
        subst k4
        refine ⟨⟨?_, ?_, ?_, ?_⟩, by simp [h1]⟩
        · intro h; rw [hp] at h; simp at h
        · intro akm' h
          rw [hp] at h
          simp only [Option.some.injEq] at h
          subst h
          exact Dict.get?_set_self _ _ _
        · intro akm' h w hw
          rw [hp] at h
          simp only [Option.some.injEq] at h
          subst h
          obtain ⟨km, j1, j2, j3⟩ := k5 w hw
          simp only [j1, Option.getD_some]
          exact ⟨by rw [Dict.get?_set_ne _ _ (by simp)]; exact j3, j2⟩
        · intro k hk1 hk2
          simp only
          rw [Dict.get?_set_ne _ _ (Ne.symm hk1), k6 k hk2]

/-- The dictionary after all partitions. -/
structure AllFixed (ps : List Part) (d : Fixed) : Prop where
  none : ∀ p ∈ ps, p.fixed = none → d.get? (ak p) = none ∧
    ∀ v ∈ p.outgoing, d.get? (mk p v) = none ∧ v.fixed = none
  app : ∀ p ∈ ps, ∀ akm, p.fixed = some akm → d.get? (ak p) = some akm
  mach : ∀ p ∈ ps, ∀ akm, p.fixed = some akm → ∀ v ∈ p.outgoing,
    d.get? (mk p v) = some (v.fixed.getD akm) ∧ (v.fixed.getD akm).1 &&& akm.2 = akm.1

/-- The same, one partition against the others. -/
structure Own (p : Part) (ps : List Part) : Prop where
  ids : (p.outgoing.map (·.id)).Nodup
  app : ∀ q ∈ ps, ak q ≠ ak p
  mach : ∀ q ∈ ps, ∀ v ∈ p.outgoing, ∀ w ∈ q.outgoing, mk q w ≠ mk p v

theorem wf_cons {p : Part} {ps : List Part} (h : WF (p :: ps)) : Own p ps ∧ WF ps := by
  have h1 := h.pairs
  have h2 := h.machs
  rw [List.map_cons, List.nodup_cons] at h1
  rw [List.flatMap_cons, List.nodup_append] at h2
  refine ⟨⟨?_, ?_, ?_⟩, ⟨h1.2, h2.2.1, fun q hq => h.valid q (by simp [hq]),
    fun q hq => h.validM q (by simp [hq])⟩⟩
  · have := h2.1
    unfold List.Nodup at this ⊢
    rw [List.pairwise_map] at this ⊢
    refine this.imp ?_
    intro a b hab heq
    apply hab
    simp only [mk, heq]
  · intro q hq heq
    apply h1.1
    simp only [ak, Prod.mk.injEq, VId.app.injEq] at heq
    exact List.mem_map.2 ⟨q, hq, by rw [heq.1, heq.2]⟩
  · intro q hq v hv w hw heq
    exact h2.2.2 (mk p v) (List.mem_map.2 ⟨v, hv, rfl⟩) (mk q w)
      (List.mem_flatMap.2 ⟨q, hq, List.mem_map.2 ⟨w, hw, rfl⟩⟩) heq.symm

theorem findFixed_ok : ∀ (ps : List Part) (s s' : FState), WF ps →
    (∀ p ∈ ps, p.outgoing = [] → p.fixed = none) →
    (∀ p ∈ ps, s.fixed.get? (ak p) = none ∧ ∀ v ∈ p.outgoing, s.fixed.get? (mk p v) = none) →
    findFixed s ps = .ok s' →
    AllFixed ps s'.fixed ∧ s'.allFixed = (s.allFixed && ps.all (fun p => p.fixed.isSome)) ∧
    ∀ k, (∀ p ∈ ps, k ≠ ak p ∧ ∀ v ∈ p.outgoing, k ≠ mk p v) →
      s'.fixed.get? k = s.fixed.get? k := by
  intro ps
  induction ps with
  | nil =>
    intro s s' _ _ _ h
    simp only [findFixed, Except.ok.injEq] at h
    subst h
    exact ⟨⟨by simp, by simp, by simp⟩, by simp, fun _ _ => rfl⟩
  | cons p ps ih =>
    intro s s' hwf he hs h
    obtain ⟨hown, hwf'⟩ := wf_cons hwf
    rw [findFixed] at h
    cases h1 : findOne s p with
    | error e => rw [h1] at h; simp [bind, Except.bind] at h
    | ok s1 =>
      rw [h1] at h
      simp only [bind, Except.bind] at h
      obtain ⟨hone, hall⟩ := findOne_ok hown.ids (hwf.valid p (by simp)) (he p (by simp)) h1
      have hs1 : ∀ q ∈ ps, s1.fixed.get? (ak q) = none ∧
          ∀ v ∈ q.outgoing, s1.fixed.get? (mk q v) = none := by
        intro q hq
        obtain ⟨k1, k2⟩ := hs q (by simp [hq])
        refine ⟨?_, ?_⟩
        · rw [hone.frame _ (hown.app q hq) (by intro v _; simp [ak, mk])]; exact k1
        · intro w hw
          rw [hone.frame _ (by simp [ak, mk]) (fun v hv => hown.mach q hq v hv w hw)]
          exact k2 w hw
      obtain ⟨g1, g2, g3⟩ := ih s1 s' hwf' (fun q hq => he q (by simp [hq])) hs1 h
      have hpa : s'.fixed.get? (ak p) = s1.fixed.get? (ak p) := by
        apply g3
        intro q hq
        exact ⟨Ne.symm (hown.app q hq), fun v _ => by simp [ak, mk]⟩
      have hpm : ∀ v ∈ p.outgoing, s'.fixed.get? (mk p v) = s1.fixed.get? (mk p v) := by
        intro v hv
        apply g3
        intro q hq
        exact ⟨by simp [ak, mk], fun w hw => Ne.symm (hown.mach q hq v hv w hw)⟩
      refine ⟨⟨?_, ?_, ?_⟩, ?_, ?_⟩
      · intro q hq hnone
        rw [List.mem_cons] at hq
        rcases hq with rfl | hq
        · obtain ⟨j1, j2⟩ := hone.none hnone
          obtain ⟨k1, k2⟩ := hs q (by simp)
          refine ⟨by rw [hpa, j1]; exact k1, ?_⟩
          intro v hv
          exact ⟨by rw [hpm v hv, j1]; exact k2 v hv, j2 v hv⟩
        · exact g1.none q hq hnone
      · intro q hq akm hq'
        rw [List.mem_cons] at hq
        rcases hq with rfl | hq
        · rw [hpa]; exact hone.app akm hq'
        · exact g1.app q hq akm hq'
      · intro q hq akm hq' v hv
        rw [List.mem_cons] at hq
        rcases hq with rfl | hq
        · rw [hpm v hv]; exact hone.mach akm hq' v hv
        · exact g1.mach q hq akm hq' v hv
      · rw [g2, hall, List.all_cons, Bool.and_assoc]
      · intro k hk
        rw [g3 k (fun q hq => hk q (by simp [hq])),
          hone.frame k (hk p (by simp)).1 (hk p (by simp)).2]

end Pacman.Alloc
