import Verif.Model.ChipCounter
/-
C53: the chip counter.
-/

namespace Pacman.Counter

/-- A packing of cores with the SDRAM they need: consecutive runs, one per chip, none empty. -/
structure Packing (cores sdram : Int) (l : List Int) (runs : List (List Int)) : Prop where
  all : runs.flatten = l
  busy : ∀ r ∈ runs, r ≠ []
  cores : ∀ r ∈ runs, (r.length : Int) ≤ cores
  sdram : ∀ r ∈ runs, r.sum ≤ sdram

/-- The runs so far, with the last one still open. -/
structure Inv (cores sdram : Int) (c : Counter) (l : List Int) (runs : List (List Int)) (last : List Int) : Prop where
  cp : c.coresPer = cores
  sp : c.sdramPer = sdram
  n : c.nChips = runs.length + 1
  pack : Packing cores sdram l (runs ++ [last])
  cf : c.coresFree = cores - last.length
  sf : c.sdramFree = sdram - last.sum

theorem add_new {cores sdram a : Int} {c : Counter} (hc : 0 < cores) (ha : a ≤ sdram)
    (cp : c.coresPer = cores) (sp : c.sdramPer = sdram) (h : c.coresFree = 0 ∨ c.sdramFree < a)
    {l : List Int} {runs : List (List Int)} (hr : Packing cores sdram l runs) (hn : c.nChips = runs.length) :
    Inv cores sdram (c.add a) (l ++ [a]) runs [a] := by
  unfold Counter.add
  rw [if_pos h]
  refine ⟨cp, sp, by simp [Counter.open, hn], ⟨?_, ?_, ?_, ?_⟩, by simp [Counter.open, cp], by simp [Counter.open, sp]⟩
  · rw [List.flatten_append, hr.all]
    rfl
  · intro r hr'
    rcases List.mem_append.1 hr' with h | h
    · exact hr.busy r h
    · rw [List.mem_singleton] at h
      subst h
      simp
  · intro r hr'
    rcases List.mem_append.1 hr' with h | h
    · exact hr.cores r h
    · rw [List.mem_singleton] at h
      subst h
      simp
      omega
  · intro r hr'
    rcases List.mem_append.1 hr' with h | h
    · exact hr.sdram r h
    · rw [List.mem_singleton] at h
      subst h
      simpa using ha

theorem add_inv {cores sdram a : Int} {c : Counter} {l : List Int} {runs : List (List Int)} {last : List Int}
    (hc : 0 < cores) (ha : a ≤ sdram) (h : Inv cores sdram c l runs last) :
    ∃ runs' last', Inv cores sdram (c.add a) (l ++ [a]) runs' last' := by
  by_cases hn : c.coresFree = 0 ∨ c.sdramFree < a
  · exact ⟨runs ++ [last], [a], add_new hc ha h.cp h.sp hn h.pack (by rw [h.n]; simp)⟩
  · have hlast := h.pack.cores last (by simp)
    have h1 : c.coresFree ≠ 0 := fun h => hn (Or.inl h)
    have h2 : ¬ c.sdramFree < a := fun h => hn (Or.inr h)
    have h3 := h.cf
    have h4 := h.sf
    refine ⟨runs, last ++ [a], ?_⟩
    unfold Counter.add
    rw [if_neg hn]
    refine ⟨h.cp, h.sp, h.n, ⟨?_, ?_, ?_, ?_⟩, ?_, ?_⟩
    · rw [← h.pack.all, List.flatten_append, List.flatten_append]
      simp
    · intro r hr
      rcases List.mem_append.1 hr with hr | hr
      · exact h.pack.busy r (List.mem_append_left _ hr)
      · rw [List.mem_singleton] at hr
        subst hr
        simp
    · intro r hr
      rcases List.mem_append.1 hr with hr | hr
      · exact h.pack.cores r (List.mem_append_left _ hr)
      · rw [List.mem_singleton] at hr
        subst hr
        simp
        omega
    · intro r hr
      rcases List.mem_append.1 hr with hr | hr
      · exact h.pack.sdram r (List.mem_append_left _ hr)
      · rw [List.mem_singleton] at hr
        subst hr
        simp
        omega
    · simp
      omega
    · simp
      omega

theorem addAll_inv {cores sdram : Int} (hc : 0 < cores) (l' : List Int) (hl : ∀ a ∈ l', a ≤ sdram) {c : Counter}
    {l : List Int} {runs : List (List Int)} {last : List Int} (h : Inv cores sdram c l runs last) :
    ∃ runs' last', Inv cores sdram (c.addAll l') (l ++ l') runs' last' := by
  induction l' generalizing c l runs last with
  | nil => exact ⟨runs, last, by simpa [Counter.addAll] using h⟩
  | cons a l' ih =>
    obtain ⟨r1, l1, h1⟩ := add_inv hc (hl a List.mem_cons_self) h
    obtain ⟨r2, l2, h2⟩ := ih (fun b hb => hl b (List.mem_cons_of_mem _ hb)) h1
    refine ⟨r2, l2, ?_⟩
    rw [List.append_assoc] at h2
    exact h2

/-- C53: when every core fits on an empty chip, the number of chips is that of a packing of the cores in the order
added. -/
theorem C53_feasible {cores sdram : Int} (hc : 0 < cores) (l : List Int) (hl : ∀ a ∈ l, a ≤ sdram) :
    ∃ runs, Packing cores sdram l runs ∧ ((Counter.new cores sdram).addAll l).nChips = runs.length := by
  cases l with
  | nil => exact ⟨[], ⟨rfl, by simp, by simp, by simp⟩, rfl⟩
  | cons a l =>
    have h1 := add_new (c := Counter.new cores sdram) hc (hl a List.mem_cons_self) rfl rfl (Or.inl rfl)
      (l := []) (runs := []) ⟨rfl, by simp, by simp, by simp⟩ rfl
    obtain ⟨runs, last, h⟩ := addAll_inv hc l (fun b hb => hl b (List.mem_cons_of_mem _ hb)) h1
    exact ⟨runs ++ [last], h.pack, by rw [List.length_append]; exact h.n⟩

theorem add_nChips (c : Counter) (a : Int) : c.nChips ≤ (c.add a).nChips ∧ (c.add a).nChips ≤ c.nChips + 1 := by
  unfold Counter.add
  split <;> simp [Counter.open]

/-- C53: the number of chips never exceeds the number of cores added, whatever their costs. -/
theorem C53_at_most_cores (cores sdram : Int) (l : List Int) :
    ((Counter.new cores sdram).addAll l).nChips ≤ l.length := by
  have : ∀ (l : List Int) (c : Counter), (c.addAll l).nChips ≤ c.nChips + l.length := by
    intro l
    induction l with
    | nil => intro c; exact Nat.le_refl _
    | cons a l ih =>
      intro c
      have h1 := ih (c.add a)
      have h2 := (add_nChips c a).2
      change ((c.add a).addAll l).nChips ≤ _
      simp only [List.length_cons]
      omega
  simpa [Counter.new] using this l (Counter.new cores sdram)

theorem add_limits (c : Counter) (a : Int) : (c.add a).coresPer = c.coresPer ∧ (c.add a).sdramPer = c.sdramPer := by
  unfold Counter.add
  split <;> simp [Counter.open]

/-- On a chip with room for the whole run nothing is opened. -/
theorem addAll_fits (r : List Int) (hpos : ∀ a ∈ r, 0 ≤ a) (c : Counter) (h1 : (r.length : Int) ≤ c.coresFree)
    (h2 : r.sum ≤ c.sdramFree) : (c.addAll r).nChips = c.nChips := by
  induction r generalizing c with
  | nil => rfl
  | cons a r ih =>
    have hs : 0 ≤ r.sum := by
      have hr : ∀ b ∈ r, 0 ≤ b := fun b hb => hpos b (List.mem_cons_of_mem _ hb)
      clear ih h1 h2
      induction r with
      | nil => simp
      | cons b r ihr =>
        have := ihr (by
          intro x hx
          rcases List.mem_cons.1 hx with rfl | hx
          · exact hpos _ List.mem_cons_self
          · exact hr x (List.mem_cons_of_mem _ hx)) (fun x hx => hr x (List.mem_cons_of_mem _ hx))
        have := hr b List.mem_cons_self
        simp only [List.sum_cons]
        omega
    simp only [List.length_cons, List.sum_cons] at h1 h2
    have hn : ¬ (c.coresFree = 0 ∨ c.sdramFree < a) := by
      rintro (h | h)
      · rw [h] at h1; omega
      · omega
    change ((c.add a).addAll r).nChips = _
    have hadd : c.add a = { c with coresFree := c.coresFree - 1, sdramFree := c.sdramFree - a } := by
      unfold Counter.add
      rw [if_neg hn]
    rw [hadd, ih (fun b hb => hpos b (List.mem_cons_of_mem _ hb)) _ (by simp; omega) (by simp; omega)]

/-- A run that fits on one chip needs at most one more chip. -/
theorem addAll_run (r : List Int) (hpos : ∀ a ∈ r, 0 ≤ a) (c : Counter) (h1 : (r.length : Int) ≤ c.coresPer)
    (h2 : r.sum ≤ c.sdramPer) : (c.addAll r).nChips ≤ c.nChips + 1 := by
  induction r generalizing c with
  | nil => exact Nat.le_succ _
  | cons a r ih =>
    have ha := hpos a List.mem_cons_self
    simp only [List.length_cons, List.sum_cons] at h1 h2
    change ((c.add a).addAll r).nChips ≤ _
    have hr : ∀ b ∈ r, 0 ≤ b := fun b hb => hpos b (List.mem_cons_of_mem _ hb)
    by_cases hn : c.coresFree = 0 ∨ c.sdramFree < a
    · have hadd : c.add a = { c.open with coresFree := c.coresPer - 1, sdramFree := c.sdramPer - a } := by
        unfold Counter.add
        rw [if_pos hn]
        rfl
      rw [addAll_fits r hr _ (by rw [hadd]; simp; omega) (by rw [hadd]; simp; omega), hadd]
      exact Nat.le_refl _
    · have hadd : (c.add a).nChips = c.nChips := by
        unfold Counter.add
        rw [if_neg hn]
      have := ih hr (c.add a) (by rw [(add_limits c a).1]; omega) (by rw [(add_limits c a).2]; omega)
      rw [hadd] at this
      exact this

/-- C53: no packing of the cores in the order added takes fewer chips than are counted. -/
theorem C53_least {cores sdram : Int} (l : List Int) (hpos : ∀ a ∈ l, 0 ≤ a) (runs : List (List Int))
    (hr : Packing cores sdram l runs) : ((Counter.new cores sdram).addAll l).nChips ≤ runs.length := by
  have lim : ∀ (r : List Int) (c : Counter), (c.addAll r).coresPer = c.coresPer ∧ (c.addAll r).sdramPer = c.sdramPer := by
    intro r
    induction r with
    | nil => intro c; exact ⟨rfl, rfl⟩
    | cons a r ih =>
      intro c
      obtain ⟨i1, i2⟩ := ih (c.add a)
      obtain ⟨j1, j2⟩ := add_limits c a
      exact ⟨i1.trans j1, i2.trans j2⟩
  have main : ∀ (runs : List (List Int)) (c : Counter), (∀ r ∈ runs, ∀ a ∈ r, 0 ≤ a) →
      (∀ r ∈ runs, (r.length : Int) ≤ c.coresPer) → (∀ r ∈ runs, r.sum ≤ c.sdramPer) →
      (c.addAll runs.flatten).nChips ≤ c.nChips + runs.length := by
    intro runs
    induction runs with
    | nil => intro c _ _ _; exact Nat.le_refl _
    | cons r runs ih =>
      intro c p1 p2 p3
      have happ : c.addAll (r :: runs).flatten = (c.addAll r).addAll runs.flatten := by
        unfold Counter.addAll
        rw [List.flatten_cons, List.foldl_append]
      obtain ⟨l1, l2⟩ := lim r c
      have h1 := addAll_run r (p1 r List.mem_cons_self) c (p2 r List.mem_cons_self) (p3 r List.mem_cons_self)
      have h2 := ih (c.addAll r) (fun r' h => p1 r' (List.mem_cons_of_mem _ h))
        (fun r' h => by rw [l1]; exact p2 r' (List.mem_cons_of_mem _ h))
        (fun r' h => by rw [l2]; exact p3 r' (List.mem_cons_of_mem _ h))
      rw [happ]
      simp only [List.length_cons]
      omega
  have := main runs (Counter.new cores sdram) (by
    intro r hr' a ha
    exact hpos a (by rw [← hr.all]; exact List.mem_flatten.2 ⟨r, hr', ha⟩)) hr.cores hr.sdram
  rw [hr.all] at this
  simpa [Counter.new] using this

/-- Without usable cores on a chip the counter packs cores all the same: the hypothesis of `C53_feasible` is
needed. -/
theorem C53_no_cores : ((Counter.new 0 100).addAll [1, 1, 1]).nChips = 1 := by decide

example : ((Counter.new 2 10).addAll [4, 4, 1, 8, 3]).nChips = 3 ∧
    Packing 2 10 [4, 4, 1, 8, 3] [[4, 4], [1, 8], [3]] :=
  ⟨by decide, by decide, by decide, by decide, by decide⟩

end Pacman.Counter
