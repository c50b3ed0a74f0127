import Verif.Proofs.Text
import Verif.Spec.SliceText
/-
Helper lemmas about slices as strings.
-/

namespace Pacman.SliceText

open Text

/-- A range without its first parenthesis. -/
def piece (a b : Int) : Str := intStr a ++ ':' :: (intStr b ++ [')'])

theorem rangeStr_eq (a b : Int) : rangeStr a b = '(' :: piece a b := by
  unfold rangeStr piece
  rw [List.cons_append, List.cons_append, List.append_assoc]
  rfl

/-- What is between the parentheses of a tuple. -/
def body : List Int → Str
  | [] => []
  | [a] => intStr a ++ [',']
  | l => join (lit ", ") (l.map intStr)

theorem tupleStr_eq (l : List Int) : tupleStr l = '(' :: (body l ++ [')']) := by
  match l with
  | [] => rfl
  | [a] =>
    show ('(' :: intStr a) ++ lit ",)" = '(' :: ((intStr a ++ [',']) ++ [')'])
    rw [List.append_assoc]
    rfl
  | a :: b :: l => rfl

theorem open_not_piece (a b : Int) : '(' ∉ piece a b := by
  unfold piece
  intro h
  rcases List.mem_append.mp h with h | h
  · exact not_mem_intStr (by decide) (by decide) h
  · rcases List.mem_cons.mp h with h | h
    · exact absurd h (by decide)
    · rcases List.mem_append.mp h with h | h
      · exact not_mem_intStr (by decide) (by decide) h
      · exact absurd h (by decide)

theorem split_ranges {p : Str} (hp : '(' ∉ p) (l : List (Int × Int)) :
    split '(' (p ++ l.flatMap (fun d => rangeStr d.1 d.2)) = p :: l.map (fun d => piece d.1 d.2) := by
  induction l generalizing p with
  | nil => rw [List.flatMap_nil, List.append_nil, split_none hp]; rfl
  | cons d l ih =>
    rw [List.flatMap_cons, rangeStr_eq, List.cons_append, split_append hp, ih (open_not_piece _ _)]
    rfl

theorem split_piece (a b : Int) : split ':' (piece a b) = [intStr a, intStr b ++ [')']] := by
  unfold piece
  rw [split_append (not_mem_intStr (by decide) (by decide)), split_none]
  intro h
  rcases List.mem_append.mp h with h | h
  · exact not_mem_intStr (by decide) (by decide) h
  · exact absurd h (by decide)

theorem parts_pieces (l : List (Int × Int)) :
    parts (l.map (fun d => piece d.1 d.2)) = .ok (l.map (fun d => (d.1, d.2 - d.1))) := by
  induction l with
  | nil => rfl
  | cons d l ih =>
    rw [List.map_cons, parts, split_piece]
    dsimp only
    rw [pyInt_intStr, List.dropLast_concat, pyInt_intStr, ih]
    rfl

theorem body_mem {l : List Int} {c : Char} (h : c ∈ body l) : c = ',' ∨ c = ' ' ∨ c = '-' ∨ c.isDigit = true := by
  have hjoin : ∀ l : List Int, c ∈ join (lit ", ") (l.map intStr) → c = ',' ∨ c = ' ' ∨ c = '-' ∨ c.isDigit = true := by
    intro l
    induction l with
    | nil => intro h; cases h
    | cons a l ih =>
      intro h
      cases l with
      | nil => exact Or.inr (Or.inr (intStr_mem h))
      | cons b l =>
        have h' : c ∈ (intStr a ++ lit ", ") ++ join (lit ", ") ((b :: l).map intStr) := h
        rcases List.mem_append.mp h' with h1 | h1
        · rcases List.mem_append.mp h1 with h2 | h2
          · exact Or.inr (Or.inr (intStr_mem h2))
          · have h3 : c ∈ [',', ' '] := h2
            rcases List.mem_cons.mp h3 with h4 | h4
            · exact Or.inl h4
            · exact Or.inr (Or.inl (List.mem_singleton.mp h4))
        · exact ih h1
  match l, h with
  | [], h => cases h
  | [a], h =>
    have h' : c ∈ intStr a ++ [','] := h
    rcases List.mem_append.mp h' with h1 | h1
    · exact Or.inr (Or.inr (intStr_mem h1))
    · exact Or.inl (List.mem_singleton.mp h1)
  | a :: b :: l, h => exact hjoin (a :: b :: l) h

theorem open_not_body (l : List Int) : '(' ∉ body l ++ [')'] := by
  intro h
  rcases List.mem_append.mp h with h | h
  · rcases body_mem h with h | h | h | h
    · exact absurd h (by decide)
    · exact absurd h (by decide)
    · exact absurd h (by decide)
    · exact absurd h (by decide)
  · exact absurd h (by decide)

theorem split_join (a : Int) (l : List Int) (pre : Str) (hpre : ',' ∉ pre) :
    split ',' (pre ++ join (lit ", ") ((a :: l).map intStr)) = (pre ++ intStr a) :: l.map (fun b => ' ' :: intStr b) := by
  induction l generalizing a pre with
  | nil =>
    show split ',' (pre ++ intStr a) = _
    rw [split_none]
    · rfl
    · intro h
      rcases List.mem_append.mp h with h | h
      · exact hpre h
      · exact not_mem_intStr (by decide) (by decide) h
  | cons b l ih =>
    have he : pre ++ join (lit ", ") ((a :: b :: l).map intStr)
        = (pre ++ intStr a) ++ ',' :: ([' '] ++ join (lit ", ") ((b :: l).map intStr)) := by
      show pre ++ ((intStr a ++ [',', ' ']) ++ join (lit ", ") ((b :: l).map intStr)) = _
      simp only [List.append_assoc, List.cons_append, List.nil_append]
    rw [he, split_append, ih b [' '] (by decide)]
    · rfl
    · intro h
      rcases List.mem_append.mp h with h | h
      · exact hpre h
      · exact not_mem_intStr (by decide) (by decide) h

theorem ints_spaced (l : List Int) : ints (l.map (fun b => ' ' :: intStr b)) = .ok l := by
  induction l with
  | nil => rfl
  | cons a l ih => rw [List.map_cons, ints, pyInt_space, pyInt_intStr, ih]; rfl

theorem ints_body (l : List Int) :
    ints (split ',' (body l)) = if l.length < 2 then .error .valueError else .ok l := by
  match l with
  | [] => rfl
  | [a] =>
    show ints (split ',' (intStr a ++ ',' :: [])) = _
    rw [split_append (not_mem_intStr (by decide) (by decide)), ints, pyInt_intStr]
    rfl
  | a :: b :: l =>
    have := split_join a (b :: l) [] (by intro h; cases h)
    rw [List.nil_append, List.nil_append] at this
    show ints (split ',' (join (lit ", ") ((a :: b :: l).map intStr))) = _
    rw [this, ints, pyInt_intStr, ints_spaced, if_neg (by simp only [List.length_cons]; omega)]
    rfl

theorem zip_start {start shape : List Int} (h : shape.length = start.length) :
    (((start.zip shape).map (fun d => (d.1, d.1 + d.2))).map (fun d => (d.1, d.2 - d.1))).map (·.1) = start ∧
    (((start.zip shape).map (fun d => (d.1, d.1 + d.2))).map (fun d => (d.1, d.2 - d.1))).map (·.2) = shape := by
  induction start generalizing shape with
  | nil =>
    cases shape with
    | nil => exact ⟨rfl, rfl⟩
    | cons a l => cases h
  | cons a start ih =>
    cases shape with
    | nil => cases h
    | cons b shape =>
      have h' : shape.length = start.length := Nat.succ.inj h
      obtain ⟨h1, h2⟩ := ih h'
      refine ⟨?_, ?_⟩
      · rw [List.zip_cons_cons, List.map_cons, List.map_cons, List.map_cons, h1]
      · rw [List.zip_cons_cons, List.map_cons, List.map_cons, List.map_cons, h2]
        congr 1
        show a + b - a = b
        omega

/-- What reading the string of an `MDSlice` does. -/
theorem fromStringMD_str {s : S} {d : Dims} (hs : Made s) (hd : s.md = some d) :
    fromStringMD s.str = if d.atoms.length < 2 then .error .valueError
      else mkMD s.lo (s.lo + prod d.shape - 1) d.shape d.start d.atoms := by
  have hstr : s.str = intStr s.lo ++ '(' :: ((body d.atoms ++ [')']) ++ s.dimension.flatMap (fun d => rangeStr d.1 d.2)) := by
    unfold S.str
    rw [hd]
    dsimp only
    rw [tupleStr_eq, List.append_assoc, List.cons_append]
  have hdim : s.dimension = (d.start.zip d.shape).map (fun d => (d.1, d.1 + d.2)) := by
    unfold S.dimension S.start S.shape
    rw [hd]
  have hsplit : split '(' s.str = intStr s.lo :: (body d.atoms ++ [')']) :: s.dimension.map (fun d => piece d.1 d.2) := by
    rw [hstr, split_append (not_mem_intStr (by decide) (by decide)), split_ranges (open_not_body _)]
  have hlen := hs.2 d hd
  obtain ⟨hz1, hz2⟩ := zip_start hlen
  have hhead : ∃ c cs, s.str = c :: cs ∧ c ≠ '(' := by
    rw [hstr]
    have hne := intStr_ne_nil (s.lo : Int)
    have hm := not_mem_intStr (a := (s.lo : Int)) (c := '(') (by decide) (by decide)
    generalize intStr (s.lo : Int) = l at hne hm
    cases l with
    | nil => exact absurd rfl hne
    | cons c cs => exact ⟨c, _, rfl, fun he => hm (he ▸ List.mem_cons_self ..)⟩
  obtain ⟨c, cs, hc, hcne⟩ := hhead
  unfold fromStringMD
  rw [hsplit, hc]
  dsimp only
  rw [if_neg hcne, pyInt_intStr, List.dropLast_concat, ints_body, parts_pieces, hdim]
  by_cases h2 : d.atoms.length < 2
  · rw [if_pos h2, if_pos h2]
    rfl
  · rw [if_neg h2, if_neg h2]
    show mkMD s.lo _ _ _ _ = _
    rw [hz1, hz2]

/-- What reading the string of a `Slice` does. -/
theorem fromString_range (a b : Int) : fromString (rangeStr a b) = mkSlice a b := by
  have hb : (piece a b).dropLast = intStr a ++ ':' :: intStr b := by
    unfold piece
    rw [← List.cons_append, ← List.append_assoc, List.dropLast_concat]
  rw [rangeStr_eq]
  unfold fromString
  dsimp only
  rw [if_neg (by intro h; exact h rfl)]
  rw [List.drop_succ_cons, List.drop_zero, hb, split_append (not_mem_intStr (by decide) (by decide)),
    split_none (not_mem_intStr (by decide) (by decide))]
  dsimp only
  rw [pyInt_intStr, pyInt_intStr]
  rfl

end Pacman.SliceText
