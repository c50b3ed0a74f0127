import Verif.Props.SdramParts

/-!
# C158: SDRAM for longer runs
-/

namespace Pacman.Sdram

theorem ceil_le_ceil {x y : Rat} (h : x ≤ y) : x.ceil ≤ y.ceil :=
  Rat.ceil_le_iff.2 (Rat.le_trans h Rat.le_ceil)

theorem sum_pointwise {α : Type} {f g : α → Int} : ∀ (l : List α), (∀ a ∈ l, f a ≤ g a) → (l.map f).sum ≤ (l.map g).sum := by
  intro l
  induction l with
  | nil => intro _; simp
  | cons a l ih =>
    intro h
    simp only [List.map_cons, List.sum_cons]
    have h1 := h a List.mem_cons_self
    have h2 := ih (fun b hb => h b (List.mem_cons_of_mem _ hb))
    omega

/-- **C158.** If no part of the cost goes down with the timesteps, a longer run never needs less. -/
theorem C158_longer {c : Cost} (h : ∀ q ∈ parts c, 0 ≤ q.2) {n n' : Nat} (hn : n ≤ n') :
    ∃ x x', total (some n) c = .ok x ∧ total (some n') c = .ok x' ∧ x ≤ x' := by
  refine ⟨_, _, total_parts n c, total_parts n' c, sum_pointwise _ fun q hq => ceil_le_ceil ?_⟩
  have h1 : (n : Rat) ≤ (n' : Rat) := by exact_mod_cast hn
  have h2 := Rat.mul_le_mul_of_nonneg_left h1 (h q hq)
  grind

theorem sum_map_add {α : Type} (f g : α → Int) (l : List α) : (l.map (fun a => f a + g a)).sum = (l.map f).sum + (l.map g).sum := by
  induction l with
  | nil => rfl
  | cons a l ih =>
    simp only [List.map_cons, List.sum_cons]
    omega

/-- **C158.** A run needs no more than two runs that are together as long, of which one is without the fixed cost. -/
theorem C158_apart (c : Cost) (n m : Nat) : ∃ x y z, total (some (n + m)) c = .ok x ∧ total (some n) c = .ok y ∧
    total (some m) c = .ok z ∧ x + fixed c ≤ y + z := by
  refine ⟨_, _, _, total_parts _ c, total_parts n c, total_parts m c, ?_⟩
  rw [fixed_parts, ← sum_map_add, ← sum_map_add]
  refine sum_pointwise _ fun q _ => ?_
  rw [← Rat.ceil_add_intCast]
  refine Rat.ceil_le_iff.2 ?_
  have h1 := Rat.le_ceil (x := (q.1 : Rat) + q.2 * (n : Rat))
  have h2 := Rat.le_ceil (x := (q.1 : Rat) + q.2 * (m : Rat))
  have h3 : q.2 * ((n + m : Nat) : Rat) = q.2 * (n : Rat) + q.2 * (m : Rat) := by
    push_cast
    exact Rat.mul_add ..
  push_cast at h3 ⊢
  rw [h3]
  grind

/-- **C158.** So `k` runs of `n` timesteps without the fixed cost have room for one of `k` times `n`. -/
theorem C158_times (c : Cost) (n : Nat) : ∀ k : Nat, ∃ x y, total (some (k * n)) c = .ok x ∧ total (some n) c = .ok y ∧
    x - fixed c ≤ k * (y - fixed c) := by
  intro k
  induction k with
  | zero =>
    refine ⟨_, _, by rw [Nat.zero_mul]; exact C117_zero c, total_parts n c, ?_⟩
    simp
  | succ k ih =>
    obtain ⟨x, y, h1, h2, h3⟩ := ih
    obtain ⟨a, b, d, h4, h5, h6, h7⟩ := C158_apart c (k * n) n
    rw [h1] at h5
    rw [h2] at h6
    cases h5
    cases h6
    refine ⟨a, y, by rw [Nat.succ_mul]; exact h4, h2, ?_⟩
    have : ((k + 1 : Nat) : Int) * (y - fixed c) = k * (y - fixed c) + (y - fixed c) := by
      push_cast
      rw [Int.add_mul, Int.one_mul]
    rw [this]
    omega

/-- The case: 7 bytes, and a third of a byte per timestep, with a shared block of half a byte per timestep. -/
example : (∀ q ∈ parts (.shared [("k", .var 2 (1 / 2))] (.var 7 (1 / 3))), 0 ≤ q.2) ∧
    total (some 1) (.shared [("k", .var 2 (1 / 2))] (.var 7 (1 / 3))) = .ok 11 ∧
    total (some 6) (.shared [("k", .var 2 (1 / 2))] (.var 7 (1 / 3))) = .ok 14 ∧
    fixed (.shared [("k", .var 2 (1 / 2))] (.var 7 (1 / 3))) = 9 := by
  refine ⟨?_, ?_, ?_, ?_⟩
  · simp only [parts, partsSh]
    decide +kernel
  · simp only [total, totalSh]
    decide +kernel
  · simp only [total, totalSh]
    decide +kernel
  · simp [fixed, fixedSh]

/-- **C158**, of costs that go down with the timesteps, which the constructors accept, the first sentence is not so. -/
theorem C158_negative : total (some 1) (.var 5 (-1)) = .ok 4 ∧ total (some 2) (.var 5 (-1)) = .ok 3 := by
  refine ⟨?_, ?_⟩ <;> simp only [total] <;> decide +kernel

end Pacman.Sdram
