import Verif.Model.RouteWord
/-
C55: route words.
-/

namespace Pacman.RouteWord

theorem testBit_add_pow (i : Nat) : ∀ (v j : Nat), v.testBit i = false →
    (v + 2 ^ i).testBit j = (decide (i = j) || v.testBit j) := by
  induction i with
  | zero =>
    intro v j h
    rw [Nat.testBit_zero] at h
    have h : v % 2 = 0 := by simpa using h
    cases j with
    | zero =>
      rw [Nat.testBit_zero]
      simp
      omega
    | succ j =>
      rw [Nat.testBit_succ, Nat.testBit_succ]
      have : (v + 2 ^ 0) / 2 = v / 2 := by
        rw [Nat.pow_zero]
        omega
      rw [this]
      simp
  | succ i ih =>
    intro v j h
    rw [Nat.testBit_succ] at h
    have hd : (v + 2 ^ (i + 1)) / 2 = v / 2 + 2 ^ i := by
      rw [Nat.pow_succ]
      omega
    cases j with
    | zero =>
      rw [Nat.testBit_zero, Nat.testBit_zero]
      have : (v + 2 ^ (i + 1)) % 2 = v % 2 := by
        rw [Nat.pow_succ]
        omega
      rw [this]
      simp
    | succ j =>
      rw [Nat.testBit_succ, Nat.testBit_succ, hd, ih _ _ h]
      simp

theorem fold_testBit (f : Nat → Nat) (hf : ∀ a b, f a = f b → a = b) (l : List Nat) (hn : l.Nodup) (v : Nat)
    (hv : ∀ a ∈ l, v.testBit (f a) = false) (j : Nat) :
    (l.foldl (fun v a => v + 1 <<< f a) v).testBit j = (v.testBit j || decide (∃ a ∈ l, f a = j)) := by
  induction l generalizing v with
  | nil => simp
  | cons a l ih =>
    rw [List.foldl_cons, Nat.one_shiftLeft]
    have ha := hv a List.mem_cons_self
    have hn' := List.nodup_cons.1 hn
    rw [ih hn'.2]
    · rw [testBit_add_pow _ _ _ ha]
      by_cases h1 : f a = j
      · simp [h1]
      · simp [h1]
    · intro b hb
      rw [testBit_add_pow _ _ _ ha, hv b (List.mem_cons_of_mem _ hb)]
      have : f a ≠ f b := fun h => hn'.1 (hf a b h ▸ hb)
      simp [this]

/-- The bits of the route word: bit `i` below 6 is set if and only if link `i` is in the set, bit `i + 6` if and
only if processor `i` is. -/
theorem C55_bits (processors links : List Nat) (hp : processors.Nodup) (hl : links.Nodup)
    (h6 : ∀ l ∈ links, l < 6) :
    (∀ i, i < 6 → ((reduceRoute processors links).testBit i = true ↔ i ∈ links)) ∧
    (∀ i, (reduceRoute processors links).testBit (i + 6) = true ↔ i ∈ processors) := by
  have e1 : ∀ j, (addLinks 0 links).testBit j = decide (j ∈ links) := by
    intro j
    unfold addLinks
    rw [fold_testBit (fun a => a) (fun _ _ h => h) links hl 0 (fun _ _ => Nat.zero_testBit _)]
    simp
  have e2 : ∀ j, (reduceRoute processors links).testBit j =
      (decide (j ∈ links) || decide (∃ a ∈ processors, a + 6 = j)) := by
    intro j
    unfold reduceRoute addProcessors
    rw [fold_testBit (fun a => a + 6) (fun a b (h : a + 6 = b + 6) => by omega) processors hp _ (by
      intro a _
      rw [e1]
      simp only [decide_eq_false_iff_not]
      intro hm
      have := h6 _ hm
      omega), e1]
  refine ⟨?_, ?_⟩
  · intro i hi
    rw [e2]
    simp only [Bool.or_eq_true, decide_eq_true_eq]
    constructor
    · rintro (h | ⟨a, _, h⟩)
      · exact h
      · omega
    · exact Or.inl
  · intro i
    rw [e2]
    simp only [Bool.or_eq_true, decide_eq_true_eq]
    constructor
    · rintro (h | ⟨a, ha, h⟩)
      · have := h6 _ h
        omega
      · have : a = i := by omega
        exact this ▸ ha
    · exact fun h => Or.inr ⟨i, h, rfl⟩

/-- C55: the route word determines the links and processors. -/
theorem C55_word_determines (ps ls ps' ls' : List Nat) (hp : ps.Nodup) (hl : ls.Nodup) (hp' : ps'.Nodup)
    (hl' : ls'.Nodup) (h6 : ∀ l ∈ ls, l < 6) (h6' : ∀ l ∈ ls', l < 6) :
    reduceRoute ps ls = reduceRoute ps' ls' ↔ ps.Perm ps' ∧ ls.Perm ls' := by
  obtain ⟨a1, a2⟩ := C55_bits ps ls hp hl h6
  obtain ⟨b1, b2⟩ := C55_bits ps' ls' hp' hl' h6'
  constructor
  · intro h
    refine ⟨(List.perm_ext_iff_of_nodup hp hp').2 ?_, (List.perm_ext_iff_of_nodup hl hl').2 ?_⟩
    · intro i
      rw [← a2, ← b2, h]
    · intro i
      by_cases hi : i < 6
      · rw [← a1 i hi, ← b1 i hi, h]
      · exact ⟨fun hm => absurd (h6 i hm) hi, fun hm => absurd (h6' i hm) hi⟩
  · rintro ⟨h1, h2⟩
    apply Nat.eq_of_testBit_eq
    intro j
    rw [Bool.eq_iff_iff]
    by_cases hj : j < 6
    · rw [a1 j hj, b1 j hj]
      exact h2.mem_iff
    · obtain ⟨i, rfl⟩ : ∃ i, j = i + 6 := ⟨j - 6, by omega⟩
      rw [a2, b2]
      exact h1.mem_iff

example : reduceRoute [17, 3] [5, 0] = 2 ^ 23 + 2 ^ 9 + 2 ^ 5 + 1 := by decide +kernel

end Pacman.RouteWord
