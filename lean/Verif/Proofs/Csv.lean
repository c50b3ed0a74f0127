import Verif.Proofs.Text
import Verif.Spec.Csv
/-
Helper lemmas about rows of text.
-/

namespace Pacman.Csv

open Text Tables

theorem char_small {P : Char → Prop} {k : Nat} (h : ∀ n : Fin k, P (Char.ofNat n)) (c : Char) (hc : c.toNat < k) : P c := by
  have := h ⟨c.toNat, hc⟩
  rw [Char.ofNat_toNat] at this
  exact this

theorem hex_val {c : Char} (h : c ∈ hexChars) : digitVal c = some (hexDigit c) ∧ hexDigit c < 16 ∧ c ≠ '_' ∧ c ≠ '-' ∧ c ≠ '+' ∧
    isSpace c = false ∧ c ≠ 'x' ∧ c ≠ 'X' := by
  have : ∀ c ∈ hexChars, digitVal c = some (hexDigit c) ∧ hexDigit c < 16 ∧ c ≠ '_' ∧ c ≠ '-' ∧ c ≠ '+' ∧
    isSpace c = false ∧ c ≠ 'x' ∧ c ≠ 'X' := by decide +kernel
  exact this c h

theorem blank_val {c : Char} (h : c ∈ blanks) : digitVal c = none ∧ c ≠ '_' ∧ isSpace c = true ∧ c ≠ 'x' ∧ c ≠ 'X' := by
  have : ∀ c ∈ blanks, digitVal c = none ∧ c ≠ '_' ∧ isSpace c = true ∧ c ≠ 'x' ∧ c ≠ 'X' := by decide +kernel
  exact this c h

theorem scan_hex {ds b : Str} (hds : ∀ c ∈ ds, c ∈ hexChars) (hb : ∀ c ∈ b, c ∈ blanks) (d : Bool) (acc : Nat)
    (hd : d = true ∨ ds ≠ []) :
    scan 16 d acc (ds ++ b) = some (ds.foldl (fun a c => 16 * a + hexDigit c) acc, b) := by
  induction ds generalizing d acc with
  | nil =>
    have hd' : d = true := by
      cases hd with
      | inl h => exact h
      | inr h => exact absurd rfl h
    rw [List.nil_append, hd']
    cases b with
    | nil => rfl
    | cons c cs =>
      obtain ⟨h1, h2, -⟩ := blank_val (hb c (List.mem_cons_self ..))
      rw [scan, if_neg h2, h1]
      rfl
  | cons c cs ih =>
    obtain ⟨h1, h2, h3, -⟩ := hex_val (hds c (List.mem_cons_self ..))
    rw [List.cons_append, scan, if_neg h3, h1]
    dsimp only
    rw [if_pos h2, ih (fun x hx => hds x (List.mem_cons_of_mem _ hx)) true _ (Or.inl rfl), List.foldl_cons, Nat.mul_comm acc 16]

theorem digits_hex {ds b : Str} (hne : ds ≠ []) (hds : ∀ c ∈ ds, c ∈ hexChars) (hb : ∀ c ∈ b, c ∈ blanks) :
    digits 16 (ds ++ b) = .ok (value ds) := by
  unfold digits
  rw [scan_hex hds hb false 0 (Or.inr hne)]
  dsimp only
  rw [if_pos]
  · rfl
  · exact List.all_eq_true.mpr (fun c hc => (blank_val (hb c hc)).2.2.1)

theorem unsigned_prefix (x : Char) (hx : x = 'x' ∨ x = 'X') {c : Char} (hc : c ≠ '_') (r : Str) :
    unsigned 16 ('0' :: x :: c :: r) = digits 16 (c :: r) := by
  unfold unsigned
  split
  · rename_i y r' heq
    cases heq
    exact absurd rfl hc
  · rename_i y r' _ heq
    cases heq
    rw [if_pos ⟨rfl, hx⟩]
  · rename_i h1 h2
    exact absurd rfl (h2 x (c :: r))

theorem unsigned_plain {s : Str} (h : ∀ c ∈ s, c ≠ 'x' ∧ c ≠ 'X') : unsigned 16 s = digits 16 s := by
  unfold unsigned
  split
  · rename_i y r
    rw [if_neg]
    rintro ⟨-, h1 | h1⟩
    · exact (h y (by simp)).1 h1
    · exact (h y (by simp)).2 h1
  · rename_i y r _
    rw [if_neg]
    rintro ⟨-, h1 | h1⟩
    · exact (h y (by simp)).1 h1
    · exact (h y (by simp)).2 h1
  · rfl

theorem dropWhile_spaces {a r : Str} (ha : ∀ c ∈ a, c ∈ blanks) : (a ++ r).dropWhile isSpace = r.dropWhile isSpace := by
  induction a with
  | nil => rfl
  | cons c cs ih =>
    rw [List.cons_append, List.dropWhile_cons, if_pos (blank_val (ha c (List.mem_cons_self ..))).2.2.1,
      ih (fun x hx => ha x (List.mem_cons_of_mem _ hx))]

theorem pyInt_head {b : Nat} {c : Char} {r : Str} (h1 : isSpace c = false) (h2 : c ≠ '-') (h3 : c ≠ '+') :
    pyInt b (c :: r) = (unsigned b (c :: r)).map (fun n : Nat => (n : Int)) := by
  unfold pyInt
  rw [List.dropWhile_cons, if_neg (by rw [h1]; decide)]
  split
  · rename_i r' heq
    cases heq
    exact absurd rfl h2
  · rename_i r' heq
    cases heq
    exact absurd rfl h3
  · rfl

/-- A cell with a number is read as that number. -/
theorem pyInt_hex {s : Str} {n : Nat} (h : Hex s n) : pyInt 16 s = .ok (n : Int) := by
  obtain ⟨a, p, ds, b, rfl, ha, hp, hne, hds, hb, rfl⟩ := h
  have hdrop : pyInt 16 (a ++ (p ++ (ds ++ b))) = pyInt 16 (p ++ (ds ++ b)) := by
    unfold pyInt
    rw [dropWhile_spaces ha]
  rw [hdrop]
  have hd := digits_hex hne hds hb
  cases ds with
  | nil => exact absurd rfl hne
  | cons c cs =>
    obtain ⟨-, -, h3, h4, h5, h6, -⟩ := hex_val (hds c (List.mem_cons_self ..))
    have hx : ∀ x, (x = 'x' ∨ x = 'X') → pyInt 16 ('0' :: x :: (c :: cs ++ b)) = .ok ((value (c :: cs) : Nat) : Int) := by
      intro x hx
      rw [pyInt_head (by decide) (by decide) (by decide)]
      rw [List.cons_append, unsigned_prefix x hx h3, ← List.cons_append, hd]
      rfl
    rcases hp with rfl | rfl | rfl
    · rw [List.nil_append, List.cons_append, pyInt_head h6 h4 h5, ← List.cons_append, unsigned_plain, hd]
      · rfl
      · intro x hx
        rcases List.mem_append.mp hx with h | h
        · obtain ⟨-, -, -, -, -, -, h7, h8⟩ := hex_val (hds x h)
          exact ⟨h7, h8⟩
        · obtain ⟨-, -, -, h7, h8⟩ := blank_val (hb x h)
          exact ⟨h7, h8⟩
    · exact hx 'x' (Or.inl rfl)
    · exact hx 'X' (Or.inr rfl)

/-! ### Cells without a number -/

/-- The characters of numbers. -/
def numChars : List Char := hexChars ++ "xX_+- \t\n\r\x0b\x0c".toList

theorem digit_hexChar {c : Char} {v : Nat} (h : digitVal c = some v) (hv : v < 16) : c ∈ hexChars := by
  have hc : c.toNat < 128 := by
    unfold digitVal at h
    split at h
    · rename_i hd
      have := digit_toNat hd
      omega
    · split at h
      · omega
      · split at h
        · omega
        · cases h
  have : ∀ c : Char, c.toNat < 128 → ((digitVal c).any (fun v => decide (v < 16)) = true → c ∈ hexChars) :=
    fun c hc => char_small (P := fun c => (digitVal c).any (fun v => decide (v < 16)) = true → c ∈ hexChars) (by decide +kernel) c hc
  exact this c hc (by rw [h]; exact decide_eq_true hv)

theorem space_numChar {c : Char} (h : isSpace c = true) : c ∈ numChars := by
  have hc : c.toNat < 128 := by
    unfold isSpace at h
    rcases Bool.or_eq_true_iff.mp h with h | h
    · rw [of_decide_eq_true h]; decide
    · have := (Bool.and_eq_true_iff.mp h).2
      have := of_decide_eq_true this
      omega
  exact char_small (P := fun c => isSpace c = true → c ∈ numChars) (by decide +kernel) c hc h

theorem scan_chars {d : Bool} {acc n : Nat} {s r : Str} (h : scan 16 d acc s = some (n, r)) :
    ∀ c ∈ s, c ∈ numChars ∨ c ∈ r := by
  induction s generalizing d acc with
  | nil => intro c hc; cases hc
  | cons x xs ih =>
    rw [scan] at h
    intro c hc
    by_cases hx : x = '_'
    · rw [if_pos hx] at h
      split at h
      · rcases List.mem_cons.mp hc with h1 | h1
        · rw [h1, hx]; exact Or.inl (by decide)
        · exact ih h c h1
      · cases h
    · rw [if_neg hx] at h
      cases hv : digitVal x with
      | none =>
        rw [hv] at h
        dsimp only at h
        split at h
        · cases h; exact Or.inr hc
        · cases h
      | some v =>
        rw [hv] at h
        dsimp only at h
        split at h
        · rename_i hlt
          rcases List.mem_cons.mp hc with h1 | h1
          · rw [h1]; exact Or.inl (List.mem_append.mpr (Or.inl (digit_hexChar hv hlt)))
          · exact ih h c h1
        · split at h
          · cases h; exact Or.inr hc
          · cases h

theorem digits_chars {s : Str} {n : Nat} (h : digits 16 s = .ok n) : ∀ c ∈ s, c ∈ numChars := by
  intro c hc
  unfold digits at h
  cases h1 : scan 16 false 0 s with
  | none => rw [h1] at h; cases h
  | some x =>
    obtain ⟨m, r⟩ := x
    rw [h1] at h
    dsimp only at h
    split at h
    · rename_i hall
      rcases scan_chars h1 c hc with h2 | h2
      · exact h2
      · exact space_numChar (List.all_eq_true.mp hall c h2)
    · cases h

theorem unsigned_chars {s : Str} {n : Nat} (h : unsigned 16 s = .ok n) : ∀ c ∈ s, c ∈ numChars := by
  intro c hc
  unfold unsigned at h
  split at h
  · split at h
    · rename_i y r hy
      rcases List.mem_cons.mp hc with h1 | h1
      · rw [h1]; decide
      · rcases List.mem_cons.mp h1 with h2 | h2
        · rw [h2]
          rcases hy.2 with h3 | h3
          · rw [h3]; decide
          · rw [h3]; decide
        · rcases List.mem_cons.mp h2 with h3 | h3
          · rw [h3]; decide
          · exact digits_chars h c h3
    · exact digits_chars h c hc
  · split at h
    · rename_i hy
      rcases List.mem_cons.mp hc with h1 | h1
      · rw [h1]; decide
      · rcases List.mem_cons.mp h1 with h2 | h2
        · rw [h2]
          rcases hy.2 with h3 | h3
          · rw [h3]; decide
          · rw [h3]; decide
        · exact digits_chars h c h2
    · exact digits_chars h c hc
  · exact digits_chars h c hc

theorem map_ok {α β : Type} {x : Except PyErr α} {f : α → β} {b : β} (h : x.map f = .ok b) : ∃ a, x = .ok a := by
  cases x with
  | error e => cases h
  | ok a => exact ⟨a, rfl⟩

theorem pyInt_chars {s : Str} {n : Int} (h : pyInt 16 s = .ok n) : ∀ c ∈ s, c ∈ numChars := by
  intro c hc
  have hsplit : c ∈ s.takeWhile isSpace ++ s.dropWhile isSpace := by rw [List.takeWhile_append_dropWhile]; exact hc
  rcases List.mem_append.mp hsplit with h1 | h1
  · exact space_numChar (by
      have := List.all_takeWhile (p := isSpace) (l := s)
      exact List.all_eq_true.mp this c h1)
  · unfold pyInt at h
    split at h
    · rename_i r heq
      rw [heq] at h1
      obtain ⟨a, ha⟩ := map_ok h
      rcases List.mem_cons.mp h1 with h2 | h2
      · rw [h2]; decide
      · exact unsigned_chars ha c h2
    · rename_i r heq
      rw [heq] at h1
      obtain ⟨a, ha⟩ := map_ok h
      rcases List.mem_cons.mp h1 with h2 | h2
      · rw [h2]; decide
      · exact unsigned_chars ha c h2
    · obtain ⟨a, ha⟩ := map_ok h
      exact unsigned_chars ha c h1

theorem digits_err {b : Nat} {s : Str} {e : PyErr} (h : digits b s = .error e) : e = .valueError := by
  unfold digits at h
  split at h
  · split at h
    · cases h
    · cases h; rfl
  · cases h; rfl

theorem unsigned_err {b : Nat} {s : Str} {e : PyErr} (h : unsigned b s = .error e) : e = .valueError := by
  unfold unsigned at h
  split at h
  · split at h
    · exact digits_err h
    · exact digits_err h
  · split at h
    · exact digits_err h
    · exact digits_err h
  · exact digits_err h

theorem map_error {α β : Type} {x : Except PyErr α} {f : α → β} {e : PyErr} (h : x.map f = .error e) : x = .error e := by
  cases x with
  | error e' => cases h; rfl
  | ok a => cases h

theorem pyInt_err {b : Nat} {s : Str} {e : PyErr} (h : pyInt b s = .error e) : e = .valueError := by
  unfold pyInt at h
  split at h
  · exact unsigned_err (map_error h)
  · exact unsigned_err (map_error h)
  · exact unsigned_err (map_error h)

theorem pyInt_noNumber {s : Str} (h : NoNumber s) : pyInt 16 s = .error .valueError := by
  cases h1 : pyInt 16 s with
  | error e => rw [pyInt_err h1]
  | ok n =>
    rcases h with rfl | ⟨c, hc, hn⟩
    · cases h1
    · exact absurd (pyInt_chars h1 c hc) hn

/-! ### Rows -/

theorem cells_columns {r : List Str} {a b c : Str} (h : Columns r a b c) : cells r = some (a, b, c) := by
  rcases h with rfl | ⟨x, y, z, rfl⟩
  · rfl
  · rfl

theorem cells_none {r : List Str} (h3 : r.length ≠ 3) (h6 : r.length ≠ 6) : cells r = none := by
  unfold cells
  split
  · exact absurd rfl h3
  · exact absurd rfl h6
  · rfl

theorem row_holds {same : Entry → Entry → Bool} {mk : Int → Int → Int → Except PyErr Entry} {r : List Str} {k m : Word} {w : Nat}
    (h : Holds r k m w) (t : UTable) : row same mk t r = (mk k.toNat m.toNat w).bind (fun e => t.add same e) := by
  obtain ⟨a, b, c, hc, h1, h2, h3⟩ := h
  unfold row
  rw [cells_columns hc]
  dsimp only
  rw [pyInt_hex h1, pyInt_hex h2, pyInt_hex h3]
  rfl

theorem row_other {same : Entry → Entry → Bool} {mk : Int → Int → Int → Except PyErr Entry} {r : List Str}
    (h : Other r) (t : UTable) : row same mk t r = .ok t ∨ row same mk t r = .error .valueError := by
  unfold row
  rcases h with ⟨h3, h6⟩ | ⟨a, b, c, hc, h⟩
  · rw [cells_none h3 h6]
    exact Or.inl rfl
  · rw [cells_columns hc]
    dsimp only
    refine Or.inr ?_
    cases ha : pyInt 16 a with
    | error e => rw [pyInt_err ha]; rfl
    | ok ka =>
      cases hb : pyInt 16 b with
      | error e => rw [pyInt_err hb]; rfl
      | ok kb =>
        rcases h with h | h | h
        · rw [pyInt_noNumber h] at ha; cases ha
        · rw [pyInt_noNumber h] at hb; cases hb
        · rw [pyInt_noNumber h]; rfl

theorem rows_other {same : Entry → Entry → Bool} {mk : Int → Int → Int → Except PyErr Entry} {r : List Str}
    (h : Other r) (t : UTable) (rs : List (List Str)) : rows same mk t (r :: rs) = rows same mk t rs := by
  rw [rows]
  rcases row_other (same := same) (mk := mk) h t with h1 | h1
  · rw [h1]
  · rw [h1]
    rfl

theorem add_error {same : Entry → Entry → Bool} {t : UTable} {e : Entry} {x : PyErr} (h : t.add same e = .error x) :
    x = .alreadyExists := by
  unfold UTable.add at h
  split at h
  · split at h
    · cases h
    · cases h; rfl
  · cases h

theorem rows_holds {same : Entry → Entry → Bool} {mk : Int → Int → Int → Except PyErr Entry} (hmk : Contract mk) {r : List Str}
    {k m : Word} {w : Nat} (h : Holds r k m w) (hf : Fits (k, m, w)) (t : UTable) (rs : List (List Str)) :
    rows same mk t (r :: rs) = (t.add same (entry (k, m, w))).bind (fun t' => rows same mk t' rs) := by
  rw [rows, row_holds h, hmk, if_pos (show k &&& m = k from hf)]
  show (match t.add same (entry (k, m, w)) with
    | .ok t' => rows same mk t' rs
    | .error e => if isValueError e then rows same mk t rs else .error e) = _
  cases ha : t.add same (entry (k, m, w)) with
  | ok t' => rfl
  | error e => rw [add_error ha]; rfl

end Pacman.Csv
