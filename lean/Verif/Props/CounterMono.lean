import Verif.Props.ChipCounter
/-
C146: needing less never takes more chips.
-/

namespace Pacman.Counter

/-- The second list of cores less some of them, and others with less SDRAM. -/
inductive Lighter : List Int → List Int → Prop
  | nil : Lighter [] []
  | drop {a : Int} {l' l : List Int} (h : Lighter l' l) : Lighter l' (a :: l)
  | keep {a' a : Int} {l' l : List Int} (ha : a' ≤ a) (h : Lighter l' l) : Lighter (a' :: l') (a :: l)

/-- The first counter is not behind the second: it has fewer chips, or as many and as much room on the open one. -/
structure Ahead (k m k' m' : Int) (c' c : Counter) : Prop where
  cp : c.coresPer = k
  sp : c.sdramPer = m
  cp' : c'.coresPer = k'
  sp' : c'.sdramPer = m'
  free : 0 ≤ c.coresFree
  free' : 0 ≤ c'.coresFree
  cores : 0 < c.nChips → c.coresFree ≤ k
  sdram : 0 < c.nChips → c.sdramFree ≤ m
  ahead : c'.nChips < c.nChips ∨ c'.nChips = c.nChips ∧ c.coresFree ≤ c'.coresFree ∧ c.sdramFree ≤ c'.sdramFree

theorem Ahead.drop {k m k' m' a : Int} (hk : 0 < k) {c' c : Counter} (h0 : 0 ≤ a) (h : Ahead k m k' m' c' c) :
    Ahead k m k' m' c' (c.add a) := by
  obtain ⟨h1, h2, h3, h4, h5, h6, h7, h8, h9⟩ := h
  unfold Counter.add
  by_cases hn : c.coresFree = 0 ∨ c.sdramFree < a
  · rw [if_pos hn]
    unfold Counter.open
    exact ⟨h1, h2, h3, h4, by dsimp only; omega, h6, by dsimp only; omega, by dsimp only; omega,
      by dsimp only; omega⟩
  · rw [if_neg hn]
    exact ⟨h1, h2, h3, h4, by dsimp only; omega, h6, by dsimp only; omega, by dsimp only; omega,
      by dsimp only; omega⟩

theorem Ahead.keep {k m k' m' a a' : Int} (hk : 0 < k) (hkk : k ≤ k') (hmm : m ≤ m') {c' c : Counter} (h0 : 0 ≤ a)
    (ha : a' ≤ a) (h : Ahead k m k' m' c' c) : Ahead k m k' m' (c'.add a') (c.add a) := by
  obtain ⟨h1, h2, h3, h4, h5, h6, h7, h8, h9⟩ := h
  unfold Counter.add
  by_cases hn : c.coresFree = 0 ∨ c.sdramFree < a <;> by_cases hn' : c'.coresFree = 0 ∨ c'.sdramFree < a'
  · rw [if_pos hn, if_pos hn']
    unfold Counter.open
    exact ⟨h1, h2, h3, h4, by dsimp only; omega, by dsimp only; omega, by dsimp only; omega, by dsimp only; omega,
      by dsimp only; omega⟩
  · rw [if_pos hn, if_neg hn']
    unfold Counter.open
    exact ⟨h1, h2, h3, h4, by dsimp only; omega, by dsimp only; omega, by dsimp only; omega, by dsimp only; omega,
      by dsimp only; omega⟩
  · rw [if_neg hn, if_pos hn']
    unfold Counter.open
    exact ⟨h1, h2, h3, h4, by dsimp only; omega, by dsimp only; omega, by dsimp only; omega, by dsimp only; omega,
      by dsimp only; omega⟩
  · rw [if_neg hn, if_neg hn']
    exact ⟨h1, h2, h3, h4, by dsimp only; omega, by dsimp only; omega, by dsimp only; omega, by dsimp only; omega,
      by dsimp only; omega⟩

/-- **C146.** Leaving out cores, lowering the SDRAM they need, or having more cores or SDRAM on a chip never makes the
counter count more chips, whether or not all cores fit on a chip. -/
theorem C146_less {cores sdram cores' sdram' : Int} (hc : 0 < cores) (hcc : cores ≤ cores') (hss : sdram ≤ sdram')
    {l l' : List Int} (hl : ∀ a ∈ l, 0 ≤ a) (h : Lighter l' l) :
    ((Counter.new cores' sdram').addAll l').nChips ≤ ((Counter.new cores sdram).addAll l).nChips := by
  have main : ∀ c' c : Counter, Ahead cores sdram cores' sdram' c' c →
      (c'.addAll l').nChips ≤ (c.addAll l).nChips := by
    induction h with
    | nil =>
      intro c' c hA
      have := hA.ahead
      change c'.nChips ≤ c.nChips
      omega
    | drop h ih =>
      intro c' c hA
      exact ih (fun a ha => hl a (List.mem_cons_of_mem _ ha)) c' (c.add _) (hA.drop hc (hl _ List.mem_cons_self))
    | keep ha h ih =>
      intro c' c hA
      exact ih (fun a ha => hl a (List.mem_cons_of_mem _ ha)) (c'.add _) (c.add _)
        (hA.keep hc hcc hss (hl _ List.mem_cons_self) ha)
  refine main _ _ ⟨rfl, rfl, rfl, rfl, Int.le_refl _, Int.le_refl _, ?_, ?_, .inr ⟨rfl, Int.le_refl _, Int.le_refl _⟩⟩
  · intro h; exact absurd h (by simp [Counter.new])
  · intro h; exact absurd h (by simp [Counter.new])

/-- **C146**, two graphs: counting them together takes no more chips than one after the other, and no fewer than
either. -/
theorem C146_together {cores sdram : Int} (hc : 0 < cores) {l l' : List Int} (hl : ∀ a ∈ l, 0 ≤ a ∧ a ≤ sdram)
    (hl' : ∀ a ∈ l', 0 ≤ a ∧ a ≤ sdram) :
    ((Counter.new cores sdram).addAll (l ++ l')).nChips ≤
      ((Counter.new cores sdram).addAll l).nChips + ((Counter.new cores sdram).addAll l').nChips ∧
    ((Counter.new cores sdram).addAll l).nChips ≤ ((Counter.new cores sdram).addAll (l ++ l')).nChips ∧
    ((Counter.new cores sdram).addAll l').nChips ≤ ((Counter.new cores sdram).addAll (l ++ l')).nChips := by
  have hall : ∀ a ∈ l ++ l', 0 ≤ a ∧ a ≤ sdram := fun a ha => (List.mem_append.1 ha).elim (hl a) (hl' a)
  have hself : ∀ l : List Int, Lighter l l := fun l => by
    induction l with
    | nil => exact .nil
    | cons a l ih => exact .keep (Int.le_refl _) ih
  have hnone : ∀ l : List Int, Lighter [] l := fun l => by
    induction l with
    | nil => exact .nil
    | cons a l ih => exact .drop ih
  refine ⟨?_, ?_, ?_⟩
  · obtain ⟨runs, hp, hn⟩ := C53_feasible hc l (fun a ha => (hl a ha).2)
    obtain ⟨runs', hp', hn'⟩ := C53_feasible hc l' (fun a ha => (hl' a ha).2)
    have := C53_least (l ++ l') (fun a ha => (hall a ha).1) (runs ++ runs') (cores := cores) (sdram := sdram)
      ⟨by rw [List.flatten_append, hp.all, hp'.all], fun r hr => (List.mem_append.1 hr).elim (hp.busy r) (hp'.busy r),
       fun r hr => (List.mem_append.1 hr).elim (hp.cores r) (hp'.cores r),
       fun r hr => (List.mem_append.1 hr).elim (hp.sdram r) (hp'.sdram r)⟩
    rw [hn, hn', ← List.length_append]
    exact this
  · refine C146_less hc (Int.le_refl _) (Int.le_refl _) (fun a ha => (hall a ha).1) ?_
    have h1 := hself l
    clear hl hall
    induction l with
    | nil => exact hnone l'
    | cons a l ih => exact .keep (Int.le_refl _) (ih (hself l))
  · refine C146_less hc (Int.le_refl _) (Int.le_refl _) (fun a ha => (hall a ha).1) ?_
    clear hl hall
    induction l with
    | nil => exact hself l'
    | cons a l ih => exact .drop ih

example : Lighter [3, 8, 1] [4, 9, 8, 3] ∧ ((Counter.new 3 10).addAll [3, 8, 1]).nChips = 2 ∧
    ((Counter.new 2 10).addAll [4, 9, 8, 3]).nChips = 4 :=
  ⟨.keep (by decide) (.drop (.keep (by decide) (.keep (by decide) .nil))), by decide, by decide⟩

end Pacman.Counter
