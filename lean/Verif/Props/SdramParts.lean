import Verif.Spec.SdramParts
import Verif.Props.Sdram
/-
C117: fixed costs, costs per timestep and totals.
-/

namespace Pacman.Sdram

mutual
theorem fixed_parts : ∀ c : Cost, fixed c = ((parts c).map (·.1)).sum
  | .const n => by rw [fixed, parts]; simp
  | .var f p => by rw [fixed, parts]; simp
  | .shared sh pc => by
    rw [fixed, parts, fixedSh_parts sh, fixed_parts pc, List.map_append, List.sum_append]
  | .multi c => by rw [fixed, parts, fixed_parts c]
theorem fixedSh_parts : ∀ (sh : List (String × Cost)) (r : Int), fixedSh r sh = r + ((partsSh sh).map (·.1)).sum
  | [], r => by rw [fixedSh, partsSh]; simp
  | (k, c) :: l, r => by
    rw [fixedSh, partsSh, fixedSh_parts l, fixed_parts c, List.map_append, List.sum_append]
    omega
end

mutual
theorem per_parts : ∀ c : Cost, perTimestep c = sumQ ((parts c).map (·.2))
  | .const n => by rw [perTimestep, parts, List.map_cons, sumQ, List.map_nil, sumQ, Rat.add_zero]
  | .var f p => by rw [perTimestep, parts, List.map_cons, sumQ, List.map_nil, sumQ, Rat.add_zero]
  | .shared sh pc => by
    rw [perTimestep, parts, perSh_parts sh, per_parts pc, List.map_append, sumQ_append]
  | .multi c => by rw [perTimestep, parts, per_parts c]
theorem perSh_parts : ∀ (sh : List (String × Cost)) (r : Rat), perSh r sh = r + sumQ ((partsSh sh).map (·.2))
  | [], r => by rw [perSh, partsSh, List.map_nil, sumQ, Rat.add_zero]
  | (k, c) :: l, r => by
    rw [perSh, partsSh, perSh_parts l, per_parts c, List.map_append, sumQ_append, Rat.add_assoc]
end

mutual
theorem total_parts (n : Nat) : ∀ c : Cost,
    total (some n) c = .ok ((parts c).map (fun q => ((q.1 : Rat) + q.2 * (n : Rat)).ceil)).sum
  | .const m => by
    rw [total, parts]
    simp [Rat.zero_mul, Rat.add_zero, Rat.ceil_intCast]
  | .var f p => by
    rw [total, parts, varTotal]
    simp
  | .shared sh pc => by
    rw [total, parts, total_parts n pc]
    dsimp only
    rw [totalSh_parts n sh, List.map_append, List.sum_append]
  | .multi c => by rw [total, parts, total_parts n c]
theorem totalSh_parts (n : Nat) : ∀ (sh : List (String × Cost)) (r : Int),
    totalSh (some n) r sh = .ok (r + ((partsSh sh).map (fun q => ((q.1 : Rat) + q.2 * (n : Rat)).ceil)).sum)
  | [], r => by rw [totalSh, partsSh]; simp
  | (k, c) :: l, r => by
    rw [totalSh, partsSh, total_parts n c]
    dsimp only
    rw [totalSh_parts n l, List.map_append, List.sum_append]
    congr 1
    omega
end

mutual
theorem none_parts : ∀ c : Cost,
    total none c = if ∀ q ∈ parts c, q.2 = 0 then .ok ((parts c).map (·.1)).sum else .error .configuration
  | .const m => by
    rw [total, parts, if_pos (by simp)]
    simp
  | .var f p => by
    rw [total, parts, varTotal]
    by_cases h : p = 0
    · rw [if_pos h, if_pos (by simp [h])]; simp
    · rw [if_neg h, if_neg (by simp [h])]
  | .shared sh pc => by
    rw [total, parts, none_parts pc]
    by_cases h : ∀ q ∈ parts pc, q.2 = 0
    · rw [if_pos h]
      dsimp only
      rw [noneSh_parts sh]
      by_cases h2 : ∀ q ∈ partsSh sh, q.2 = 0
      · rw [if_pos h2, if_pos, List.map_append, List.sum_append]
        intro q hq
        rcases List.mem_append.mp hq with h3 | h3
        · exact h q h3
        · exact h2 q h3
      · rw [if_neg h2, if_neg]
        intro h3
        exact h2 (fun q hq => h3 q (List.mem_append.mpr (Or.inr hq)))
    · rw [if_neg h, if_neg]
      intro h3
      exact h (fun q hq => h3 q (List.mem_append.mpr (Or.inl hq)))
  | .multi c => by rw [total, parts, none_parts c]
theorem noneSh_parts : ∀ (sh : List (String × Cost)) (r : Int), totalSh none r sh =
    if ∀ q ∈ partsSh sh, q.2 = 0 then .ok (r + ((partsSh sh).map (·.1)).sum) else .error .configuration
  | [], r => by
    rw [totalSh, partsSh, if_pos (by simp)]
    simp
  | (k, c) :: l, r => by
    rw [totalSh, partsSh, none_parts c]
    by_cases h : ∀ q ∈ parts c, q.2 = 0
    · rw [if_pos h]
      dsimp only
      rw [noneSh_parts l]
      by_cases h2 : ∀ q ∈ partsSh l, q.2 = 0
      · rw [if_pos h2, if_pos, List.map_append, List.sum_append]
        · congr 1
          omega
        · intro q hq
          rcases List.mem_append.mp hq with h3 | h3
          · exact h q h3
          · exact h2 q h3
      · rw [if_neg h2, if_neg]
        intro h3
        exact h2 (fun q hq => h3 q (List.mem_append.mpr (Or.inr hq)))
    · rw [if_neg h, if_neg]
      intro h3
      exact h (fun q hq => h3 q (List.mem_append.mpr (Or.inl hq)))
end

mutual
theorem parts_ne_nil : ∀ c : Cost, parts c ≠ []
  | .const m => by rw [parts]; intro h; cases h
  | .var f p => by rw [parts]; intro h; cases h
  | .shared sh pc => by
    rw [parts]
    intro h
    exact parts_ne_nil pc (List.append_eq_nil_iff.mp h).1
  | .multi c => by rw [parts]; exact parts_ne_nil c
end

/-- The rounding of a list of parts. -/
theorem sum_ceil (n : Nat) (l : List (Int × Rat)) :
    (((l.map (·.1)).sum : Int) : Rat) + sumQ (l.map (·.2)) * (n : Rat)
      ≤ (((l.map (fun q => ((q.1 : Rat) + q.2 * (n : Rat)).ceil)).sum : Int) : Rat) ∧
    (l ≠ [] → (((l.map (fun q => ((q.1 : Rat) + q.2 * (n : Rat)).ceil)).sum : Int) : Rat)
      < (((l.map (·.1)).sum : Int) : Rat) + sumQ (l.map (·.2)) * (n : Rat) + (l.length : Rat)) := by
  induction l with
  | nil =>
    refine ⟨?_, fun h => absurd rfl h⟩
    simp [sumQ]
    grind
  | cons q l ih =>
    obtain ⟨h1, h2⟩ := ih
    have h3 := Rat.le_ceil (x := (q.1 : Rat) + q.2 * (n : Rat))
    have h4 := Rat.ceil_lt (x := (q.1 : Rat) + q.2 * (n : Rat))
    have h5 : (((l.map (fun q => ((q.1 : Rat) + q.2 * (n : Rat)).ceil)).sum : Int) : Rat)
      ≤ (((l.map (·.1)).sum : Int) : Rat) + sumQ (l.map (·.2)) * (n : Rat) + (l.length : Rat) := by
      cases hl : l with
      | nil => simp [sumQ]; grind
      | cons a b => rw [← hl]; exact Rat.le_of_lt (h2 (by rw [hl]; intro h; cases h))
    simp only [List.map_cons, List.sum_cons, sumQ, List.length_cons]
    push_cast
    have hm : (q.2 + sumQ (l.map (·.2))) * (n : Rat) = q.2 * (n : Rat) + sumQ (l.map (·.2)) * (n : Rat) := Rat.add_mul ..
    rw [hm]
    refine ⟨by grind, fun _ => by grind⟩

/-- C117, without timesteps the total is the fixed cost. -/
theorem C117_zero (c : Cost) : total (some 0) c = .ok (fixed c) := by
  rw [total_parts, fixed_parts]
  congr 2
  apply List.map_congr_left
  intro q _
  have : ((0 : Nat) : Rat) = 0 := rfl
  rw [this, Rat.mul_zero, Rat.add_zero, Rat.ceil_intCast]

/-- C117, the total for a number of timesteps is never less than the fixed cost and that of the timesteps, and more by less than one
byte for each of the parts. -/
theorem C117_bounds (c : Cost) (n : Nat) : ∃ x, total (some n) c = .ok x ∧
    (fixed c : Rat) + perTimestep c * (n : Rat) ≤ (x : Rat) ∧
    (x : Rat) < (fixed c : Rat) + perTimestep c * (n : Rat) + ((parts c).length : Rat) := by
  refine ⟨_, total_parts n c, ?_, ?_⟩
  · rw [fixed_parts, per_parts]; exact (sum_ceil n (parts c)).1
  · rw [fixed_parts, per_parts]; exact (sum_ceil n (parts c)).2 (parts_ne_nil c)

theorem plain_one {c : Cost} (h : Plain c) : ∃ q, parts c = [q] := by
  match c, h with
  | .const n, _ => exact ⟨_, by rw [parts]⟩
  | .var f p, _ => exact ⟨_, by rw [parts]⟩
  | .multi c, h =>
    obtain ⟨q, hq⟩ := plain_one (c := c) h
    exact ⟨q, by rw [parts, hq]⟩

/-- C117, partial: the total of a cost without shared blocks is the fixed cost and that of the timesteps, rounded up. Missing:
shared blocks, which are rounded up one by one. -/
theorem C117_partial {c : Cost} (h : Plain c) (n : Nat) :
    total (some n) c = .ok ((fixed c : Rat) + perTimestep c * (n : Rat)).ceil := by
  obtain ⟨q, hq⟩ := plain_one h
  rw [total_parts, fixed_parts, per_parts, hq]
  simp [sumQ, Rat.add_zero]

example : Plain (.multi (.var 7 (1 / 3))) ∧ total (some 10) (.multi (.var 7 (1 / 3))) = .ok 11 := by
  refine ⟨trivial, ?_⟩
  rw [total, total]
  decide +kernel

/-- C117, where costs per timestep are whole numbers: the total is the fixed cost and that of the timesteps. -/
theorem C117_whole_numbers {c : Cost} (h : ∀ q ∈ parts c, ∃ i : Int, q.2 = (i : Rat)) (n : Nat) :
    ∃ x, total (some n) c = .ok x ∧ (x : Rat) = (fixed c : Rat) + perTimestep c * (n : Rat) := by
  refine ⟨_, total_parts n c, ?_⟩
  rw [fixed_parts, per_parts]
  generalize parts c = l at h
  induction l with
  | nil => simp [sumQ]; grind
  | cons q l ih =>
    obtain ⟨i, hi⟩ := h q List.mem_cons_self
    have h1 := ih (fun x hx => h x (List.mem_cons_of_mem _ hx))
    have h2 : ((q.1 : Rat) + q.2 * (n : Rat)).ceil = q.1 + i * n := by
      rw [hi]
      have : ((q.1 : Rat) + (i : Rat) * (n : Rat)) = ((q.1 + i * n : Int) : Rat) := by
        push_cast
        rfl
      rw [this, Rat.ceil_intCast]
    simp only [List.map_cons, List.sum_cons, sumQ]
    rw [h2]
    push_cast
    rw [h1, hi]
    grind

example : (∀ q ∈ parts (.multi (.shared [("a.weights", .var 100 3)] (.var 7 2))), ∃ i : Int, q.2 = (i : Rat)) ∧
    total (some 10) (.multi (.shared [("a.weights", .var 100 3)] (.var 7 2))) = .ok 157 := by
  refine ⟨?_, ?_⟩
  · intro q hq
    rw [parts, parts, parts, partsSh, parts, partsSh] at hq
    simp only [List.mem_cons, List.append_nil, List.mem_append, List.not_mem_nil, or_false] at hq
    rcases hq with rfl | rfl
    · exact ⟨2, rfl⟩
    · exact ⟨3, rfl⟩
  · rw [total, total, total]
    decide +kernel

/-- C117 is false: blocks are rounded up one by one, so that the total may be more than what fixed cost and cost per timestep say. -/
theorem C117_false :
    total (some 1) (.shared [("k", .var 0 (1 / 2))] (.var 0 (1 / 2))) = .ok 2 ∧
    fixed (.shared [("k", .var 0 (1 / 2))] (.var 0 (1 / 2))) = 0 ∧
    perTimestep (.shared [("k", .var 0 (1 / 2))] (.var 0 (1 / 2))) = 1 := by
  refine ⟨?_, ?_, ?_⟩
  · simp only [total, totalSh]
    decide +kernel
  · simp [fixed, fixedSh]
  · simp only [perTimestep, perSh]
    decide +kernel

/-- C117, without a number of timesteps: the total is the fixed cost if no part needs more for each timestep, else it raises. -/
theorem C117_unknown (c : Cost) :
    total none c = if ∀ q ∈ parts c, q.2 = 0 then .ok (fixed c) else .error .configuration := by
  rw [fixed_parts]; exact none_parts c

theorem sumQ_nonneg {l : List Rat} (h : ∀ a ∈ l, 0 ≤ a) : 0 ≤ sumQ l ∧ (sumQ l = 0 → ∀ a ∈ l, a = 0) := by
  induction l with
  | nil => exact ⟨Rat.le_refl, fun _ a ha => by cases ha⟩
  | cons x l ih =>
    obtain ⟨h1, h2⟩ := ih (fun a ha => h a (List.mem_cons_of_mem _ ha))
    have hx := h x List.mem_cons_self
    rw [sumQ]
    refine ⟨by grind, fun h0 a ha => ?_⟩
    rcases List.mem_cons.mp ha with rfl | ha
    · grind
    · exact h2 (by grind) a ha

/-- C117: so, unless costs per timestep are negative, a cost can run for ever exactly if its `per_timestep` is 0. -/
theorem C117_for_ever {c : Cost} (h : ∀ q ∈ parts c, 0 ≤ q.2) :
    (perTimestep c = 0 → total none c = .ok (fixed c)) ∧ (perTimestep c ≠ 0 → total none c = .error .configuration) := by
  have hn : ∀ a ∈ (parts c).map (·.2), 0 ≤ a := by
    intro a ha
    obtain ⟨q, hq, rfl⟩ := List.mem_map.mp ha
    exact h q hq
  rw [C117_unknown, per_parts]
  refine ⟨fun h0 => if_pos (fun q hq => (sumQ_nonneg hn).2 h0 _ (List.mem_map.mpr ⟨q, hq, rfl⟩)), fun h0 => if_neg (fun h1 => h0 ?_)⟩
  have : ∀ l : List (Int × Rat), (∀ q ∈ l, q.2 = 0) → sumQ (l.map (·.2)) = 0 := by
    intro l
    induction l with
    | nil => intro _; rfl
    | cons q l ih =>
      intro hl
      rw [List.map_cons, sumQ, hl q List.mem_cons_self, ih (fun x hx => hl x (List.mem_cons_of_mem _ hx)), Rat.add_zero]
  exact this _ h1

example : (∀ q ∈ parts (.shared [("k", .var 0 (1 / 2))] (.const 8)), 0 ≤ q.2) ∧
    perTimestep (.shared [("k", .var 0 (1 / 2))] (.const 8)) ≠ 0 ∧
    total none (.shared [("k", .var 0 (1 / 2))] (.const 8)) = .error .configuration := by
  refine ⟨?_, ?_, ?_⟩
  · intro q hq
    rw [parts, parts, partsSh, parts, partsSh] at hq
    simp only [List.mem_cons, List.append_nil, List.mem_append, List.not_mem_nil, or_false] at hq
    rcases hq with rfl | rfl <;> decide +kernel
  · simp only [perTimestep, perSh]
    decide +kernel
  · simp only [total, totalSh]
    decide +kernel

end Pacman.Sdram
