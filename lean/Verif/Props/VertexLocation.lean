import Verif.Model.VertexLocation
/-
C95: fixed locations and labels of vertices.
-/

namespace Pacman.VLoc

theorem get_set (W : World) (k j : Bool) (v u : Nat) (x : Vertex) :
    (W.set k v x).get j u = if j = k ∧ u = v then x else W.get j u := by
  unfold World.set World.get
  cases k <;> cases j <;> simp

theorem set_appOf (W : World) (k : Bool) (v : Nat) (x : Vertex) : (W.set k v x).appOf = W.appOf := by
  unfold World.set
  split <;> rfl

/-- What calls may do to a vertex. -/
structure Later (a b : Vertex) : Prop where
  fixed : ∀ l, a.fixed = some l → b.fixed = some l
  added : a.added = true → b.added = true
  label : a.added = true → b.label = a.label

theorem Later.refl (a : Vertex) : Later a a := ⟨fun _ h => h, fun h => h, fun _ => rfl⟩

theorem later_step (W : World) (o : Op) (j : Bool) (u : Nat) : Later (W.get j u) ((step W o).1.get j u) := by
  cases o with
  | setFixed k v l =>
    unfold step
    rw [get_set]
    split
    · rename_i h
      rw [← h.1, ← h.2]
      unfold setFixed
      split
      · split <;> exact .refl _
      · rename_i hn
        exact ⟨fun l' h' => (by rw [hn] at h'; cases h'), fun h' => h', fun _ => rfl⟩
    · exact .refl _
  | setLabel k v l =>
    unfold step
    rw [get_set]
    split
    · rename_i h
      rw [← h.1, ← h.2]
      unfold setLabel
      split
      · exact .refl _
      · rename_i hn
        exact ⟨fun _ h' => h', fun h' => h', fun h' => absurd h' hn⟩
    · exact .refl _
  | setAdded k v =>
    unfold step
    rw [get_set]
    split
    · rename_i h
      rw [← h.1, ← h.2]
      exact ⟨fun _ h' => h', fun _ => rfl, fun _ => rfl⟩
    · exact .refl _

theorem later_run (os : List Op) (j : Bool) (u : Nat) : ∀ W : World, Later (W.get j u) ((run W os).get j u) := by
  induction os with
  | nil => intro W; exact .refl _
  | cons o os ih =>
    intro W
    have h1 := later_step W o j u
    have h2 := ih (step W o).1
    refine ⟨fun l h => h2.fixed l (h1.fixed l h), fun h => h2.added (h1.added h), fun h => ?_⟩
    exact (h2.label (h1.added h)).trans (h1.label h)

theorem appOf_run (os : List Op) : ∀ W : World, (run W os).appOf = W.appOf := by
  induction os with
  | nil => intro W; rfl
  | cons o os ih =>
    intro W
    refine (ih _).trans ?_
    cases o <;> exact set_appOf W _ _ _

/-- C95: the fixed location of an application vertex, once set, never changes. -/
theorem C95_app_stays (W : World) (os : List Op) {v : Nat} {l : Loc} (h : appLocation W v = some l) :
    appLocation (run W os) v = some l := (later_run os false v W).fixed l h

/-- C95: setting a location gives exactly that location or raises; where it raises, nothing changes, and another one was
set. -/
theorem C95_set (v : Vertex) (l : Loc) :
    ((setFixed v l).2 = .ok () → (setFixed v l).1.fixed = some l) ∧
    (∀ e, (setFixed v l).2 = .error e → (setFixed v l).1 = v ∧ ∃ k, v.fixed = some k ∧ k ≠ l) := by
  unfold setFixed
  cases hv : v.fixed with
  | none => exact ⟨fun _ => rfl, fun e h => by cases h⟩
  | some k =>
    simp only
    split
    · rename_i h
      exact ⟨fun _ => by rw [hv, h], fun e h => by cases h⟩
    · rename_i h
      refine ⟨fun h0 => (by cases h0), fun e _ => ⟨rfl, k, rfl, fun h0 => h h0.symm⟩⟩

/-- C95, as far as it holds: the fixed location of a machine vertex, once there, never changes, if it was set on the
machine vertex itself or that is never done. Missing: machine vertices given a location of their own after their
application vertex, for which it is false (see `C95_machine_moves`). -/
theorem C95_machine_stays_partial (W : World) (os : List Op) {m : Nat} {l : Loc} (h : machLocation W m = some l)
    (hown : (W.mach m).fixed ≠ none ∨ ((run W os).mach m).fixed = none) : machLocation (run W os) m = some l := by
  unfold machLocation at h
  cases hm : (W.mach m).fixed with
  | some k =>
    rw [hm] at h
    injection h with h
    subst h
    unfold machLocation
    have : ((run W os).mach m).fixed = some k := (later_run os true m W).fixed k hm
    rw [this]
  | none =>
    rw [hm] at h
    have hr : ((run W os).mach m).fixed = none := by
      rcases hown with h0 | h0
      · exact absurd hm h0
      · exact h0
    unfold machLocation
    rw [hr, appOf_run]
    cases ha : W.appOf m with
    | none => rw [ha] at h; cases h
    | some v =>
      rw [ha] at h
      exact C95_app_stays W os h

/-- C95 does not hold for all machine vertices: one that has the location of its application vertex can be given another,
without an exception. -/
theorem C95_machine_moves :
    let W : World := ⟨fun _ => ⟨none, false, some ⟨0, 0, none⟩⟩, fun _ => ⟨none, false, none⟩, fun _ => some 0⟩
    machLocation W 3 = some ⟨0, 0, none⟩ ∧ (step W (.setFixed true 3 ⟨1, 1, some 4⟩)).2 = .ok () ∧
    machLocation (step W (.setFixed true 3 ⟨1, 1, some 4⟩)).1 3 = some ⟨1, 1, some 4⟩ := by decide

/-- C95: whether a vertex has a fixed location never goes back to no. -/
theorem C95_has_stays (W : World) (os : List Op) {v : Nat} {ms : List Nat} (h : hasFixed W v ms = true) :
    hasFixed (run W os) v ms = true := by
  unfold hasFixed at *
  rw [Bool.or_eq_true] at *
  rcases h with h | h
  · left
    obtain ⟨l, hl⟩ := Option.isSome_iff_exists.1 h
    rw [C95_app_stays W os hl]
    rfl
  · right
    rw [List.any_eq_true] at *
    obtain ⟨m, hm, h⟩ := h
    refine ⟨m, hm, ?_⟩
    obtain ⟨l, hl⟩ := Option.isSome_iff_exists.1 h
    cases hr : ((run W os).mach m).fixed with
    | some k =>
      unfold machLocation
      rw [hr]
      rfl
    | none =>
      rw [C95_machine_stays_partial W os hl (Or.inr hr)]
      rfl

/-- C95: the label of a vertex that has been added to a graph never changes. -/
theorem C95_label_stays (W : World) (os : List Op) (k : Bool) (v : Nat) (h : (W.get k v).added = true) :
    ((run W os).get k v).label = (W.get k v).label := (later_run os k v W).label h

example :
    let W : World := ⟨fun _ => ⟨none, false, none⟩, fun _ => ⟨none, false, none⟩, fun m => some (m / 2)⟩
    let W1 := run W [.setLabel false 0 7, .setFixed false 0 ⟨1, 2, none⟩, .setAdded false 0, .setLabel false 0 8,
      .setFixed true 3 ⟨4, 4, some 2⟩, .setFixed true 3 ⟨4, 4, some 3⟩]
    machLocation W1 1 = some ⟨1, 2, none⟩ ∧ machLocation W1 3 = some ⟨4, 4, some 2⟩ ∧ machLocation W1 4 = none ∧
    hasFixed W1 1 [2, 3] = true ∧ hasFixed W1 2 [4, 5] = false ∧ (W1.app 0).label = some 7 := by decide

end Pacman.VLoc
