import Verif.Model.Text
/-
Helper lemmas about strings.
-/

namespace Pacman.Text

theorem natStr_digit {n : Nat} {c : Char} (h : c ∈ natStr n) : c.isDigit = true :=
  Nat.isDigit_of_mem_toDigits (by omega) (by omega) h

theorem natStr_ne_nil (n : Nat) : natStr n ≠ [] := Nat.toDigits_ne_nil

theorem digit_toNat {c : Char} (h : c.isDigit = true) : 48 ≤ c.toNat ∧ c.toNat ≤ 57 := by
  simp only [Char.isDigit, Bool.and_eq_true, decide_eq_true_eq, ge_iff_le, UInt32.le_iff_toNat_le] at h
  exact h

theorem digit_ne {c : Char} (h : c.isDigit = true) (d : Char) (hd : d.isDigit = false) : c ≠ d := by
  intro he
  rw [he, hd] at h
  cases h

theorem digitVal_digit {c : Char} (h : c.isDigit = true) : digitVal c = some (c.toNat - 48) := by
  rw [digitVal, if_pos h]

theorem scan_digits {b : Nat} (hb : 10 ≤ b) {l : Str} (hl : ∀ c ∈ l, c.isDigit = true) (d : Bool) (acc : Nat)
    (hd : d = true ∨ l ≠ []) : scan b d acc l = some (Nat.ofDigitChars b l acc, []) := by
  induction l generalizing d acc with
  | nil =>
    cases hd with
    | inl h => rw [scan, h]; simp
    | inr h => exact absurd rfl h
  | cons c cs ih =>
    have hc := hl c (List.mem_cons_self ..)
    have h1 := digit_toNat hc
    rw [scan, if_neg (digit_ne hc '_' (by decide)), digitVal_digit hc]
    dsimp only
    rw [if_pos (by omega), ih (fun x hx => hl x (List.mem_cons_of_mem _ hx)) true _ (Or.inl rfl), Nat.ofDigitChars_cons]
    have : '0'.toNat = 48 := rfl
    rw [this, Nat.mul_comm]

theorem digits_natStr (n : Nat) : digits 10 (natStr n) = .ok n := by
  rw [digits, scan_digits (by omega) (fun c hc => natStr_digit hc) false 0 (Or.inr (natStr_ne_nil n))]
  have : Nat.ofDigitChars 10 (natStr n) 0 = n := Nat.ofDigitChars_ten_toDigits
  rw [this]
  rfl

theorem unsigned_ten (s : Str) : unsigned 10 s = digits 10 s := by
  unfold unsigned
  split
  · exact if_neg (by intro h; exact absurd h.1 (by omega))
  · exact if_neg (by intro h; exact absurd h.1 (by omega))
  · rfl

theorem isSpace_digit {c : Char} (h : c.isDigit = true) : isSpace c = false := by
  have h1 := digit_toNat h
  simp only [isSpace, Bool.or_eq_false_iff, Bool.and_eq_false_iff, decide_eq_false_iff_not]
  refine ⟨digit_ne h ' ' (by decide), Or.inr (by omega)⟩

theorem pyInt_natStr (n : Nat) : pyInt 10 (natStr n) = .ok (n : Int) := by
  unfold pyInt
  have hne := natStr_ne_nil n
  have hd := fun c hc => natStr_digit (n := n) (c := c) hc
  have hv := digits_natStr n
  generalize natStr n = l at *
  cases l with
  | nil => exact absurd rfl hne
  | cons c cs =>
    have hc := hd c (List.mem_cons_self ..)
    rw [List.dropWhile_cons, if_neg (by rw [isSpace_digit hc]; decide)]
    split
    · rename_i r heq
      cases heq
      exact absurd hc (by decide)
    · rename_i r heq
      cases heq
      exact absurd hc (by decide)
    · rw [unsigned_ten, hv]
      rfl

theorem pyInt_neg (n : Nat) : pyInt 10 ('-' :: natStr n) = .ok (-(n : Int)) := by
  unfold pyInt
  rw [List.dropWhile_cons, if_neg (by decide)]
  show (unsigned 10 (natStr n)).map (fun n : Nat => -(n : Int)) = _
  rw [unsigned_ten, digits_natStr]
  rfl

/-- Reading what was written. -/
theorem pyInt_intStr (a : Int) : pyInt 10 (intStr a) = .ok a := by
  cases a with
  | ofNat n => exact pyInt_natStr n
  | negSucc n =>
    show pyInt 10 ('-' :: natStr (n + 1)) = _
    rw [pyInt_neg]
    rfl

theorem pyInt_space (b : Nat) (s : Str) : pyInt b (' ' :: s) = pyInt b s := by
  unfold pyInt
  rw [List.dropWhile_cons, if_pos (by decide)]

theorem pyInt_nil (b : Nat) : pyInt b [] = .error .valueError := rfl

theorem intStr_mem {a : Int} {c : Char} (h : c ∈ intStr a) : c = '-' ∨ c.isDigit = true := by
  cases a with
  | ofNat n => exact Or.inr (natStr_digit h)
  | negSucc n =>
    have h' : c ∈ '-' :: natStr (n + 1) := h
    rcases List.mem_cons.mp h' with h1 | h1
    · exact Or.inl h1
    · exact Or.inr (natStr_digit h1)

/-- Characters that are in no number. -/
theorem not_mem_intStr {a : Int} {c : Char} (h1 : c ≠ '-') (h2 : c.isDigit = false) : c ∉ intStr a := by
  intro h
  rcases intStr_mem h with h3 | h3
  · exact h1 h3
  · rw [h2] at h3
    cases h3

theorem intStr_ne_nil (a : Int) : intStr a ≠ [] := by
  cases a with
  | ofNat n => exact natStr_ne_nil n
  | negSucc n => intro h; cases h

/-! ### Splitting -/

theorem split_none {c : Char} {p : Str} (h : c ∉ p) : split c p = [p] := by
  induction p with
  | nil => rfl
  | cons x xs ih =>
    rw [split, if_neg (by intro he; exact h (he ▸ List.mem_cons_self ..)),
      ih (fun hm => h (List.mem_cons_of_mem _ hm))]

theorem split_append {c : Char} {p : Str} (h : c ∉ p) (r : Str) : split c (p ++ c :: r) = p :: split c r := by
  induction p with
  | nil => rw [List.nil_append, split, if_pos rfl]
  | cons x xs ih =>
    rw [List.cons_append, split, if_neg (by intro he; exact h (he ▸ List.mem_cons_self ..)),
      ih (fun hm => h (List.mem_cons_of_mem _ hm))]

theorem split_ne_nil (c : Char) (s : Str) : split c s ≠ [] := by
  cases s with
  | nil => intro h; cases h
  | cons x xs =>
    rw [split]
    split
    · intro h; cases h
    · split
      · intro h; cases h
      · intro h; cases h

end Pacman.Text
