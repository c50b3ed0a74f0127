import Verif.Proofs.RouterJoin
/-
Helper lemmas: the routes are always trees.
-/

namespace Pacman.RPath

/-- A new chip is hung on a routed one. -/
theorem forest_step {R : Routes} {c d : XY} (l : Nat) (hR : Forest R) (hc : Routed R c)
    (hd : ¬ Routed R d) : Forest (addChild (R.set d []) c (l, d)) := by
  have hne : d ≠ c := fun h => hd (h ▸ hc)
  obtain ⟨ch, hch⟩ := hc
  have hget : ∀ a, (addChild (R.set d []) c (l, d)).get? a =
      if c = a then some (ch ++ [(l, d)]) else if d = a then some [] else R.get? a := by
    intro a
    unfold addChild
    rw [Dict.get?_set, Dict.get?_set_ne _ _ hne, hch, Dict.get?_set]
    rfl
  have hdn : R.get? d = none := by
    cases h : R.get? d with
    | none => rfl
    | some x => exact absurd ⟨x, h⟩ hd
  refine forest_extend hR (N := fun a k b => a = c ∧ k = l ∧ b = d)
    (D := fun x => if x = d then 1 else 0) ?_ ?_ ?_ ?_ ?_
  · rintro a k b ⟨ch', h1, h2⟩
    rw [hget] at h1
    split at h1
    · rename_i hca
      cases h1
      rcases List.mem_append.mp h2 with h2 | h2
      · exact Or.inl ⟨ch, hca ▸ hch, h2⟩
      · simp only [List.mem_singleton, Prod.mk.injEq] at h2
        exact Or.inr ⟨⟨hca.symm, h2.1, h2.2⟩, h2.2 ▸ hd⟩
    · split at h1
      · cases h1; cases h2
      · exact Or.inl ⟨ch', h1, h2⟩
  · intro a ch' h1
    rw [hget]
    split
    · rename_i hca
      rw [← hca, hch] at h1
      cases h1
      exact ⟨_, rfl⟩
    · split
      · rename_i hda
        rw [← hda, hdn] at h1
        cases h1
      · exact ⟨[], by rw [List.append_nil]; exact h1⟩
  · rintro a k a' k' b ⟨rfl, rfl, _⟩ ⟨rfl, rfl, _⟩
    exact ⟨rfl, rfl⟩
  · rintro a k b ⟨rfl, _, rfl⟩
    rw [if_pos rfl, if_neg (fun h => hne h.symm)]
    exact Nat.zero_lt_one
  · rintro a k b ⟨_, _, rfl⟩ _
    refine ⟨[], ?_⟩
    rw [hget, if_neg (fun h => hne h.symm), if_pos rfl]

theorem addNodes_forest (source : XY) (ns : List Node) : ∀ {R R' : Routes} {c : XY}, Forest R →
    Routed R c → addNodes source R c ns = .ok R' → Forest R' := by
  induction ns with
  | nil =>
    intro R R' c hR _ h
    simp only [addNodes] at h
    cases h
    exact hR
  | cons n ns ih =>
    obtain ⟨l, d⟩ := n
    intro R R' c hR hc h
    simp only [addNodes] at h
    split at h
    · split at h <;> cases h
    · rename_i hd
      have hd' : ¬ Routed R d := fun ⟨x, hx⟩ => hd (by rw [hx]; rfl)
      have hne : d ≠ c := fun h => hd' (h ▸ hc)
      refine ih (forest_step l hR hc hd') ⟨[], ?_⟩ h
      unfold addChild
      rw [Dict.get?_set_ne _ _ (fun h => hne h.symm), Dict.get?_set_self]

theorem forest_add {R : Routes} {c : XY} (hR : Forest R) :
    Forest (if (R.get? c).isSome then R else R.set c []) ∧
      Routed (if (R.get? c).isSome then R else R.set c []) c := by
  split
  · rename_i h
    exact ⟨hR, Option.isSome_iff_exists.mp h⟩
  · rename_i h
    have hn : R.get? c = none := by
      cases hc : R.get? c with
      | none => rfl
      | some x => rw [hc] at h; exact absurd rfl h
    refine ⟨forest_extend hR (N := fun _ _ _ => False) (D := fun _ => 0) ?_ ?_ (fun _ _ _ _ _ h => h.elim)
      (fun _ _ _ h => h.elim) (fun _ _ _ h => h.elim), ⟨[], Dict.get?_set_self _ _ _⟩⟩
    · rintro a l b ⟨ch, h1, h2⟩
      rw [Dict.get?_set] at h1
      split at h1
      · cases h1; cases h2
      · exact Or.inl ⟨ch, h1, h2⟩
    · intro a ch h1
      rw [Dict.get?_set]
      split
      · rename_i hca
        rw [← hca, hn] at h1; cases h1
      · exact ⟨[], by rw [List.append_nil]; exact h1⟩

/-- `_route_pre_to_post` keeps trees, whatever the way. -/
theorem preToPost_forest {T : Topo} {source dest : XY} {R R' : Routes} {vec : Int × Int × Int}
    {all targets : List XY} {pre post : XY} (hR : Forest R)
    (h : preToPost T source dest R vec all targets = .ok (R', pre, post)) : Forest R' := by
  unfold preToPost at h
  cases hf : withoutErrors T source (longestFirst T vec.1 vec.2.1 vec.2.2 source) with
  | error e => rw [hf] at h; cases h
  | ok fixed =>
    rw [hf] at h
    simp only at h
    obtain ⟨h1, h2⟩ := forest_add (c := (trimPre all R source fixed).2) hR
    generalize (if (R.get? (trimPre all R source fixed).2).isSome then R
      else R.set (trimPre all R source fixed).2 []) = R1 at h h1 h2
    cases ha : addNodes source R1 (trimPre all R source fixed).2
        (trimPost targets dest (trimPre all R source fixed).1).1 with
    | error e => rw [ha] at h; cases h
    | ok R2 =>
      rw [ha] at h
      simp only [Except.ok.injEq, Prod.mk.injEq] at h
      rw [← h.1]
      exact addNodes_forest _ _ h1 h2 ha

end Pacman.RPath
