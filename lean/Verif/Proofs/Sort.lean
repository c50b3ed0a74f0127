import Verif.Model.Base
/-
The stable sort of `Model/Base.lean` is a permutation and sorts.
-/

namespace Pacman

theorem insertBy_perm {α : Type} (le : α → α → Bool) (x : α) (l : List α) :
    (insertBy le x l).Perm (x :: l) := by
  induction l with
  | nil => exact List.Perm.refl _
  | cons y ys ih =>
    unfold insertBy
    split
    · exact List.Perm.refl _
    · exact (List.Perm.cons y ih).trans (List.Perm.swap x y ys)

theorem stableSort_perm {α : Type} (le : α → α → Bool) (l : List α) :
    (stableSort le l).Perm l := by
  induction l with
  | nil => exact List.Perm.refl _
  | cons x xs ih => exact (insertBy_perm le x _).trans (List.Perm.cons x ih)

theorem insertBy_sorted {α : Type} (le : α → α → Bool)
    (htot : ∀ a b, le a b = true ∨ le b a = true)
    (htr : ∀ a b c, le a b = true → le b c = true → le a c = true) (x : α) (l : List α)
    (h : l.Pairwise (fun a b => le a b = true)) :
    (insertBy le x l).Pairwise (fun a b => le a b = true) := by
  induction l with
  | nil => simp [insertBy]
  | cons y ys ih =>
    rw [List.pairwise_cons] at h
    unfold insertBy
    split
    · next hxy =>
      refine List.pairwise_cons.2 ⟨?_, List.pairwise_cons.2 h⟩
      intro z hz
      rcases List.mem_cons.1 hz with rfl | hz
      · exact hxy
      · exact htr _ _ _ hxy (h.1 z hz)
    · next hxy =>
      refine List.pairwise_cons.2 ⟨?_, ih h.2⟩
      intro z hz
      rcases List.mem_cons.1 ((insertBy_perm le x ys).mem_iff.1 hz) with rfl | hz
      · rcases htot z y with h' | h'
        · exact absurd h' hxy
        · exact h'
      · exact h.1 z hz

theorem stableSort_sorted {α : Type} (le : α → α → Bool)
    (htot : ∀ a b, le a b = true ∨ le b a = true)
    (htr : ∀ a b c, le a b = true → le b c = true → le a c = true) (l : List α) :
    (stableSort le l).Pairwise (fun a b => le a b = true) := by
  induction l with
  | nil => simp [stableSort]
  | cons x xs ih => exact insertBy_sorted le htot htr x _ ih

theorem stableSort_same {α : Type} (le : α → α → Bool) (l : List α) (h : l.Pairwise (fun a b => le a b = true)) :
    stableSort le l = l := by
  induction l with
  | nil => rfl
  | cons x xs ih =>
    rw [List.pairwise_cons] at h
    unfold stableSort
    rw [ih h.2]
    cases xs with
    | nil => rfl
    | cons y ys =>
      unfold insertBy
      rw [if_pos (h.1 y List.mem_cons_self)]

/-- Elements which are in order keep their relative order. -/
theorem stableSort_filter_of {α : Type} (le : α → α → Bool) (p : α → Bool) (l : List α)
    (hp : l.Pairwise (fun a b => p a = true → p b = true → le a b = true)) :
    (stableSort le l).filter p = l.filter p := by
  have ins : ∀ (x : α) (l : List α), (∀ y ∈ l, p x = true → p y = true → le x y = true) →
      (insertBy le x l).filter p = if p x = true then x :: l.filter p else l.filter p := by
    intro x l
    induction l with
    | nil => intro _; simp [insertBy, List.filter_cons]
    | cons y ys ih =>
      intro hp
      unfold insertBy
      split
      · simp [List.filter_cons]
      · next hxy =>
        rw [List.filter_cons, ih (fun z hz => hp z (List.mem_cons_of_mem _ hz))]
        by_cases hx : p x = true
        · have hy : ¬ p y = true := fun hy => hxy (hp y List.mem_cons_self hx hy)
          simp [hx, hy]
        · simp [hx, List.filter_cons]
  induction l with
  | nil => rfl
  | cons x xs ih =>
    rw [List.pairwise_cons] at hp
    unfold stableSort
    rw [ins _ _ (fun y hy => hp.1 y ((stableSort_perm le xs).mem_iff.1 hy)), ih hp.2, List.filter_cons]

/-- Elements which the order does not separate from each other keep their relative order. -/
theorem stableSort_filter {α : Type} (le : α → α → Bool) (p : α → Bool)
    (hp : ∀ a b, p a = true → p b = true → le a b = true) (l : List α) :
    (stableSort le l).filter p = l.filter p :=
  stableSort_filter_of le p l (List.pairwise_of_forall (fun a b => hp a b))

theorem forE_ok {ε α : Type} {f : α → Except ε Unit} {l : List α} :
    forE f l = .ok () ↔ ∀ a ∈ l, f a = .ok () := by
  induction l with
  | nil => simp [forE]
  | cons a l ih =>
    rw [forE]
    cases h : f a with
    | error e => simp [h]
    | ok u => simp [h, ih]

end Pacman
