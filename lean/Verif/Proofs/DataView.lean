import Verif.Spec.DataView
/-
Lemmas on the data view.
-/

namespace Pacman.View

theorem run_append (w : World) (a b : List Op) : run w (a ++ b) = run (run w a) b := by
  induction a generalizing w with
  | nil => rfl
  | cons o a ih => exact ih _

theorem run_snoc (w : World) (a : List Op) (o : Op) : run w (a ++ [o]) = (step (run w a) o).1 := by
  rw [run_append]; rfl

/-- Induction from the end. -/
theorem snoc_ind {α : Type} {P : List α → Prop} (h0 : P []) (h1 : ∀ l a, P l → P (l ++ [a])) : ∀ l, P l := by
  intro l
  rw [← List.reverse_reverse l]
  induction l.reverse with
  | nil => exact h0
  | cons a l ih => rw [List.reverse_cons]; exact h1 _ _ ih

theorem snoc_split {α : Type} {l pre post : List α} {a o : α} (h : l ++ [a] = pre ++ o :: post) :
    (post = [] ∧ l = pre ∧ a = o) ∨ ∃ post', post = post' ++ [a] ∧ l = pre ++ o :: post' := by
  rcases List.eq_nil_or_concat post with h1 | ⟨post', b, h1⟩
  · subst h1
    have := List.append_inj' h rfl
    exact Or.inl ⟨rfl, this.1, by simpa using this.2⟩
  · rw [List.concat_eq_append] at h1
    subst h1
    rw [← List.cons_append, ← List.append_assoc] at h
    have := List.append_inj' h rfl
    have h3 : a = b := by simpa using this.2
    subst h3
    exact Or.inr ⟨post', rfl, this.1⟩

section
variable {α : Type} {sets : Op → α → Prop} {wipes : Op → Prop}

theorem lastSince_nil (a : α) : ¬ LastSince [] sets wipes a := by
  rintro ⟨pre, o, post, h, _⟩
  cases pre <;> cases h

theorem lastSince_snoc (hd : ∀ o a, sets o a → ¬ wipes o) (hu : ∀ o a b, sets o a → sets o b → a = b)
    (ops : List Op) (o : Op) (a : α) :
    LastSince (ops ++ [o]) sets wipes a ↔
      sets o a ∨ (¬ wipes o ∧ (∀ b, ¬ sets o b) ∧ LastSince ops sets wipes a) := by
  constructor
  · rintro ⟨pre, o', post, h, h1, h2⟩
    rcases snoc_split h with ⟨h3, h4, h5⟩ | ⟨post', h3, h4⟩
    · subst h5; exact Or.inl h1
    · subst h3
      obtain ⟨h5, h6⟩ := h2 o (by simp)
      exact Or.inr ⟨h5, h6, pre, o', post', h4, h1, fun x hx => h2 x (by simp [hx])⟩
  · rintro (h | ⟨h1, h2, pre, o', post, h3, h4, h5⟩)
    · exact ⟨ops, o, [], rfl, h, by simp⟩
    · refine ⟨pre, o', post ++ [o], by simp [h3], h4, ?_⟩
      intro x hx
      rcases List.mem_append.1 hx with hx | hx
      · exact h5 x hx
      · rw [List.mem_singleton] at hx; subst hx; exact ⟨h1, h2⟩

/-- A field that calls set or forget has what was set last. -/
theorem field_last (f : World → Option α) (w : World) (h0 : f w = none)
    (hd : ∀ o a, sets o a → ¬ wipes o) (hu : ∀ o a b, sets o a → sets o b → a = b)
    (hw : ∀ w o, wipes o → f (step w o).1 = none)
    (hs : ∀ w o a, sets o a → f (step w o).1 = some a)
    (hk : ∀ w o, ¬ wipes o → (∀ a, ¬ sets o a) → f (step w o).1 = f w)
    (ops : List Op) (a : α) : f (run w ops) = some a ↔ LastSince ops sets wipes a := by
  induction ops using snoc_ind with
  | h0 => rw [run, h0]; exact ⟨fun h => (by cases h), fun h => absurd h (lastSince_nil a)⟩
  | h1 ops o ih =>
    rw [run_snoc, lastSince_snoc hd hu]
    by_cases h1 : wipes o
    · rw [hw _ _ h1]
      refine ⟨fun h => (by cases h), ?_⟩
      rintro (h | h)
      · exact absurd h1 (hd _ _ h)
      · exact absurd h1 h.1
    · by_cases h2 : ∃ b, sets o b
      · obtain ⟨b, hb⟩ := h2
        rw [hs _ _ _ hb]
        constructor
        · intro h
          injection h with h
          subst h
          exact Or.inl hb
        · rintro (h | h)
          · rw [hu _ _ _ hb h]
          · exact absurd hb (h.2.1 b)
      · have h2' : ∀ a, ¬ sets o a := fun a h => h2 ⟨a, h⟩
        rw [hk _ _ h1 h2', ih]
        constructor
        · intro h; exact Or.inr ⟨h1, h2', h⟩
        · rintro (h | h)
          · exact absurd h (h2' a)
          · exact h.2.2

/-- No call has set it since the last that forgets. -/
def NoneSince (ops : List Op) (sets : Op → α → Prop) (wipes : Op → Prop) : Prop :=
  ∃ pre mid, ops = pre ++ mid ∧ Fresh pre wipes ∧ ∀ o' ∈ mid, ¬ wipes o' ∧ ∀ b, ¬ sets o' b

/-- A field that can be set once has what was set first. -/
theorem field_first (f : World → Option α) (w : World) (h0 : f w = none)
    (hd : ∀ o a, sets o a → ¬ wipes o)
    (hw : ∀ w o, wipes o → f (step w o).1 = none)
    (hs : ∀ w o a, sets o a → f w = none → f (step w o).1 = some a)
    (hs' : ∀ w o, ¬ wipes o → f w ≠ none → f (step w o).1 = f w)
    (hk : ∀ w o, ¬ wipes o → (∀ a, ¬ sets o a) → f (step w o).1 = f w)
    (ops : List Op) :
    (f (run w ops) = none → NoneSince ops sets wipes) ∧
    (∀ a, f (run w ops) = some a → FirstSince ops sets wipes a) := by
  induction ops using snoc_ind with
  | h0 => rw [run, h0]; exact ⟨fun _ => ⟨[], [], rfl, Or.inl rfl, by simp⟩, fun a h => (by cases h)⟩
  | h1 ops o ih =>
    rw [run_snoc]
    by_cases h1 : wipes o
    · rw [hw _ _ h1]
      exact ⟨fun _ => ⟨ops ++ [o], [], by simp, Or.inr ⟨ops, o, rfl, h1⟩, by simp⟩, fun a h => (by cases h)⟩
    · cases hf : f (run w ops) with
      | some b =>
        rw [hs' _ _ h1 (by rw [hf]; simp), hf]
        refine ⟨fun h => (by cases h), fun a h => ?_⟩
        injection h with h
        subst h
        obtain ⟨pre, mid, o', post, h3, h4, h5, h6, h7⟩ := ih.2 b hf
        refine ⟨pre, mid, o', post ++ [o], by simp [h3], h4, h5, h6, ?_⟩
        intro x hx
        rcases List.mem_append.1 hx with hx | hx
        · exact h7 x hx
        · rw [List.mem_singleton] at hx; subst hx; exact h1
      | none =>
        obtain ⟨pre, mid, h3, h4, h5⟩ := ih.1 hf
        by_cases h2 : ∃ b, sets o b
        · obtain ⟨b, hb⟩ := h2
          rw [hs _ _ _ hb hf]
          refine ⟨fun h => (by cases h), fun a h => ?_⟩
          injection h with h
          subst h
          exact ⟨pre, mid, o, [], by simp [h3], h4, hb, h5, by simp⟩
        · have h2' : ∀ a, ¬ sets o a := fun a h => h2 ⟨a, h⟩
          rw [hk _ _ h1 h2', hf]
          refine ⟨fun _ => ⟨pre, mid ++ [o], by simp [h3], h4, ?_⟩, fun a h => (by cases h)⟩
          intro x hx
          rcases List.mem_append.1 hx with hx | hx
          · exact h5 x hx
          · rw [List.mem_singleton] at hx; subst hx; exact ⟨h1, h2'⟩

/-- The part since the last call that forgets is the same, however it is found. -/
theorem fresh_unique {pre mid pre' mid' : List Op} (h : pre ++ mid = pre' ++ mid')
    (hp : Fresh pre wipes) (hp' : Fresh pre' wipes) (hm : ∀ o ∈ mid, ¬ wipes o) (hm' : ∀ o ∈ mid', ¬ wipes o) :
    pre = pre' ∧ mid = mid' := by
  have key : ∀ {p m p' m' : List Op}, p ++ m = p' ++ m' → Fresh p' wipes → (∀ o ∈ m, ¬ wipes o) →
      p'.length ≤ p.length := by
    intro p m p' m' h hp' hm
    by_cases hl : p'.length ≤ p.length
    · exact hl
    · exfalso
      rcases hp' with h1 | ⟨q, o, h1, h2⟩
      · subst h1; simp at hl
      · subst h1
        have h3 : (p ++ m)[q.length]? = some o := by
          rw [h, List.append_assoc]; simp
        rw [List.getElem?_append_right (by simp at hl; omega)] at h3
        exact hm o (List.mem_of_getElem? h3) h2
  have h1 := key h hp' hm
  have h2 := key h.symm hp hm'
  exact List.append_inj h (by omega)

theorem noneSince_not_first (hd : ∀ o a, sets o a → ¬ wipes o) {ops : List Op} (h : NoneSince ops sets wipes) (a : α) :
    ¬ FirstSince ops sets wipes a := by
  rintro ⟨pre', mid', o, post, h1, h2, h3, h4, h5⟩
  obtain ⟨pre, mid, h6, h7, h8⟩ := h
  rw [h6, List.append_assoc] at h1
  obtain ⟨h9, h10⟩ := fresh_unique h1 h7 h2 (fun o ho => (h8 o ho).1) (by
    intro x hx
    rcases List.mem_append.1 hx with hx | hx
    · exact (h4 x hx).1
    · rcases List.mem_cons.1 hx with hx | hx
      · subst hx; exact hd _ _ h3
      · exact h5 x hx)
  exact (h8 o (by rw [h10]; simp)).2 a h3

theorem first_unique (hd : ∀ o a, sets o a → ¬ wipes o) (hu : ∀ o a b, sets o a → sets o b → a = b) {ops : List Op}
    {a b : α} (ha : FirstSince ops sets wipes a) (hb : FirstSince ops sets wipes b) : a = b := by
  obtain ⟨pre, mid, o, post, h1, h2, h3, h4, h5⟩ := ha
  obtain ⟨pre', mid', o', post', h1', h2', h3', h4', h5'⟩ := hb
  have hall : ∀ {mid post : List Op} {o : Op} {a : α}, sets o a → (∀ o' ∈ mid, ¬ wipes o' ∧ ∀ b, ¬ sets o' b) →
      (∀ o' ∈ post, ¬ wipes o') → ∀ x ∈ mid ++ o :: post, ¬ wipes x := by
    intro mid post o a h3 h4 h5 x hx
    rcases List.mem_append.1 hx with hx | hx
    · exact (h4 x hx).1
    · rcases List.mem_cons.1 hx with hx | hx
      · subst hx; exact hd _ _ h3
      · exact h5 x hx
  rw [h1, List.append_assoc, List.append_assoc] at h1'
  obtain ⟨_, h6⟩ := fresh_unique h1' h2 h2' (hall h3 h4 h5) (hall h3' h4' h5')
  have key : ∀ {m p m' p' : List Op} {o o' : Op} {a : α}, m ++ o :: p = m' ++ o' :: p' →
      (∀ x ∈ m', ∀ b, ¬ sets x b) → sets o a → m'.length ≤ m.length := by
    intro m p m' p' o o' a h hm hs
    by_cases hl : m'.length ≤ m.length
    · exact hl
    · exfalso
      have h7 : (m' ++ o' :: p')[m.length]? = some o := by rw [← h]; simp
      rw [List.getElem?_append_left (by omega)] at h7
      exact hm o (List.mem_of_getElem? h7) a hs
  have l1 := key h6 (fun x hx => (h4' x hx).2) h3
  have l2 := key h6.symm (fun x hx => (h4 x hx).2) h3'
  obtain ⟨_, h8⟩ := List.append_inj h6 (by omega)
  injection h8 with h8 _
  subst h8
  exact hu _ _ _ h3 h3'

end

/-- Among any calls there is a last one that forgets, or a beginning. -/
theorem fresh_exists (wipes : Op → Prop) (ops : List Op) :
    ∃ pre post, ops = pre ++ post ∧ Fresh pre wipes ∧ ∀ o ∈ post, ¬ wipes o := by
  induction ops using snoc_ind with
  | h0 => exact ⟨[], [], rfl, Or.inl rfl, by simp⟩
  | h1 ops o ih =>
    by_cases h : wipes o
    · exact ⟨ops ++ [o], [], by simp, Or.inr ⟨ops, o, rfl, h⟩, by simp⟩
    · obtain ⟨pre, post, h1, h2, h3⟩ := ih
      refine ⟨pre, post ++ [o], by simp [h1], h2, ?_⟩
      intro x hx
      rcases List.mem_append.1 hx with hx | hx
      · exact h3 x hx
      · rw [List.mem_singleton] at hx; subst hx; exact h

end Pacman.View
