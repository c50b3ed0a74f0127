import Verif.Spec.RoundAtoms
/-
C127: `ApplicationVertex.round_n_atoms` (the exception for NaN and infinities is another; partial).
-/

namespace Pacman.Round

/-- The float that the code compares with. -/
theorem near_eq : near = thousandth := by decide +kernel

theorem near_lt : near < 1 / 2 := by decide +kernel

/-- An integer that is less than one half away is the one rounded to. -/
theorem roundEven_eq {q : Rat} {n : Int} (h1 : q - 1 / 2 < n) (h2 : (n : Rat) < q + 1 / 2) : roundEven q = n := by
  have h3 := Rat.floor_le q
  have h4 := Rat.lt_floor_add_one q
  rw [Rat.intCast_add] at h4
  have h5 : q.floor ≤ n := by
    have : (q.floor : Rat) < ((n + 1 : Int) : Rat) := by rw [Rat.intCast_add]; grind
    have := Rat.intCast_lt_intCast.1 this
    omega
  have h6 : n ≤ q.floor + 1 := by
    have : (n : Rat) < ((q.floor + 2 : Int) : Rat) := by rw [Rat.intCast_add]; grind
    have := Rat.intCast_lt_intCast.1 this
    omega
  have h7 : n = q.floor ∨ n = q.floor + 1 := by omega
  unfold roundEven
  rcases h7 with h7 | h7
  · rw [h7] at h1
    rw [if_pos (by grind), h7]
  · rw [h7, Rat.intCast_add] at h2
    rw [if_neg (by grind), if_pos (by grind), h7]

theorem abs_lt {x y : Rat} : x.abs < y ↔ -y < x ∧ x < y := by
  unfold Rat.abs
  split <;> grind

/-- **C127 (part).** An integer is returned exactly if the number given is less than the float 0.001 away from it, and there is a
warning exactly if it is not that number. -/
theorem C127_returns_partial (x : Num) (n : Int) (warned : Bool) :
    roundNAtoms x = .ok (n, warned) ↔ Close x n ∧ (warned = true ↔ ¬ Whole x n) := by
  cases x with
  | int m =>
    simp only [roundNAtoms, Except.ok.injEq, Prod.mk.injEq, Close, Whole]
    constructor
    · rintro ⟨rfl, rfl⟩; simp
    · rintro ⟨rfl, h⟩; simp at h; simp [h]
  | nan => simp [roundNAtoms, Close]
  | inf b => simp [roundNAtoms, Close]
  | float q =>
    simp only [roundNAtoms, Close, Whole, ← near_eq]
    constructor
    · intro h
      split at h
      · rename_i hlt
        rw [abs_lt] at hlt
        cases h
        exact ⟨by grind, by simp⟩
      · cases h
    · rintro ⟨⟨h1, h2⟩, h3⟩
      have hn := near_lt
      have he : roundEven q = n := roundEven_eq (by grind) (by grind)
      rw [he, if_pos (by rw [abs_lt]; grind)]
      congr 2
      cases warned <;> simp_all

example : roundNAtoms (.float (49999 / 10000 + 1 / 20000)) = .ok (5, true) :=
  (C127_returns_partial _ _ _).2 ⟨⟨by decide +kernel, by decide +kernel⟩, by simp only [Whole, true_iff]; decide +kernel⟩

/-- **C127.** No two integers are so near. -/
theorem C127_unique {x : Num} {n n' : Int} (h : Close x n) (h' : Close x n') : n = n' := by
  cases x with
  | int m => exact Eq.trans h (Eq.symm h')
  | nan => cases h
  | inf b => cases h
  | float q =>
    obtain ⟨h1, h2⟩ := h
    obtain ⟨h3, h4⟩ := h'
    rw [← near_eq] at h1 h2 h3 h4
    have hn := near_lt
    rw [← roundEven_eq (q := q) (n := n) (by grind) (by grind), roundEven_eq (q := q) (n := n') (by grind) (by grind)]

example (n : Int) (h : Close (.float (9999 / 10000)) n) : n = 1 :=
  C127_unique h ⟨by decide +kernel, by decide +kernel⟩

/-- C127: whatever is not so near to an integer is refused with a `PacmanInvalidParameterException`. -/
def C127_full : Prop := ∀ x, (∀ n, ¬ Close x n) → roundNAtoms x = .error .invalidParameter

/-- C127 is false of NaN and of infinities, for which `round` raises. -/
theorem C127_false : ¬ C127_full := by
  intro h
  have := h .nan (fun _ h => h)
  cases this

theorem C127_infinity (b : Bool) : roundNAtoms (.inf b) = .error .overflowError ∧ ∀ n, ¬ Close (.inf b) n :=
  ⟨rfl, fun _ h => h⟩

/-- **C127 (part).** Other floats are refused so exactly if no integer is so near. Missing: NaN and infinities, see `C127_false`. -/
theorem C127_refused_partial (q : Rat) :
    roundNAtoms (.float q) = .error .invalidParameter ↔ ∀ n, ¬ Close (.float q) n := by
  constructor
  · intro h n hn
    cases hw : decide ((n : Rat) = q) with
    | true =>
      rw [(C127_returns_partial (.float q) n false).2 ⟨hn, by simpa [Whole] using hw⟩] at h
      cases h
    | false =>
      rw [(C127_returns_partial (.float q) n true).2 ⟨hn, by simpa [Whole] using hw⟩] at h
      cases h
  · intro h
    simp only [roundNAtoms]
    split
    · rename_i hlt
      rw [abs_lt] at hlt
      exact absurd ⟨by rw [← near_eq]; grind, by rw [← near_eq]; grind⟩ (h (roundEven q))
    · rfl

/-- Half of an atom, and the numbers just over the bound. -/
example : roundNAtoms (.float (5 / 2)) = .error .invalidParameter ∧
    roundNAtoms (.float (3 + thousandth)) = .error .invalidParameter := by
  refine ⟨(C127_refused_partial _).2 (fun n h => ?_), by decide +kernel⟩
  obtain ⟨h1, h2⟩ := h
  rw [← near_eq] at h1 h2
  have h3 : (2 : Int) < n := Rat.intCast_lt_intCast.1 (by
    have := near_lt
    grind)
  have h4 : n < (3 : Int) := Rat.intCast_lt_intCast.1 (by
    have := near_lt
    grind)
  omega

end Pacman.Round
