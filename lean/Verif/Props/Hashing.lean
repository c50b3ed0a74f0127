import Verif.Model.Hashing
import Verif.Props.SliceText
/-
C123: objects in sets and as keys of dictionaries.
-/

namespace Pacman.Hashing

/-- Specification: objects of the classes that compare all of their fields and look at the class of the
other object. -/
def Plain : Val → Prop
  | .chipAndCore .. | .keyAndMask .. | .placement .. | .revTag .. | .slice .. => True
  | _ => False

/-- Specification: an `IPtagResource`. -/
def IsTag : Val → Prop
  | .ipTag .. => True
  | _ => False

/-- Specification: objects that may be put together into one set: plain ones of any classes, or only IP
tags. -/
def Group (xs : List Obj) : Prop := (∀ x ∈ xs, Plain x.val) ∨ (∀ x ∈ xs, IsTag x.val)

/-- One object has one value (nothing is changed while it is in a set). -/
def Stable (xs : List Obj) : Prop := ∀ x ∈ xs, ∀ y ∈ xs, x.id = y.id → x.val = y.val

/-- **C123.** Two plain objects, or two IP tags, compare equal exactly if they have the same class and the same
fields; no comparison of them raises. -/
theorem C123_eq (P : Py) (a b : Val) (h : (Plain a ∧ Plain b) ∨ (IsTag a ∧ IsTag b)) :
    ∃ r, eq P a b = .ok r ∧ (r = true ↔ a = b) := by
  cases a <;> cases b <;> simp [Plain, IsTag] at h <;>
    first
    | (refine ⟨false, rfl, ?_⟩; simp; done)
    | (refine ⟨_, rfl, ?_⟩; simp; done)
    | (refine ⟨_, rfl, ?_⟩; simp [SliceText.C114_eq_iff]; done)
    | (refine ⟨_, rfl, ?_⟩; simp [and_assoc]; done)
    | (refine ⟨_, rfl, ?_⟩
       simp only [Bool.and_eq_true, decide_eq_true_eq, Val.placement.injEq]
       exact ⟨fun ⟨⟨⟨a, b⟩, c⟩, d⟩ => ⟨d, a, b, c⟩, fun ⟨d, a, b, c⟩ => ⟨⟨⟨a, b⟩, c⟩, d⟩⟩)

theorem hash_ok (P : Py) (a : Obj) (h : Plain a.val ∨ IsTag a.val) : ∃ n, hash P a = .ok n := by
  unfold hash
  cases hv : a.val <;> rw [hv] at h <;> simp [Plain, IsTag] at h <;> exact ⟨_, rfl⟩

/-- **C123.** Objects that compare equal have the same hash. -/
theorem C123_hash (P : Py) (a b : Obj) (h : (Plain a.val ∧ Plain b.val) ∨ (IsTag a.val ∧ IsTag b.val))
    (he : eq P a.val b.val = .ok true) : hash P a = hash P b := by
  obtain ⟨r, hr, hiff⟩ := C123_eq P a.val b.val h
  rw [hr] at he
  cases he
  have hv := hiff.1 rfl
  unfold hash
  rw [← hv]
  cases ha : a.val <;> rw [ha] at h <;> simp [Plain, IsTag] at h <;> rfl

theorem group_pair {xs : List Obj} (h : Group xs) {x y : Obj} (hx : x ∈ xs) (hy : y ∈ xs) :
    (Plain x.val ∧ Plain y.val) ∨ (IsTag x.val ∧ IsTag y.val) := by
  rcases h with h | h
  · exact .inl ⟨h x hx, h y hy⟩
  · exact .inr ⟨h x hx, h y hy⟩

theorem group_hash (P : Py) {xs : List Obj} (h : Group xs) {x : Obj} (hx : x ∈ xs) :
    ∃ n, hash P x = .ok n := by
  apply hash_ok
  rcases h with h | h
  · exact .inl (h x hx)
  · exact .inr (h x hx)

theorem sameIn_ok (P : Py) {xs : List Obj} (hg : Group xs) (hs : Stable xs) {x y : Obj} (hx : x ∈ xs)
    (hy : y ∈ xs) {h : Int} (hh : hash P x = .ok h) :
    ∃ r, sameIn P h x y = .ok r ∧ (r = true ↔ y.val = x.val) := by
  obtain ⟨r, hr, hiff⟩ := C123_eq P y.val x.val (group_pair hg hy hx)
  obtain ⟨h', hh'⟩ := group_hash P hg hy
  unfold sameIn
  rw [hh']
  simp only
  by_cases he : h' = h
  · rw [if_pos he]
    by_cases hi : y.id = x.id
    · rw [if_pos hi]
      exact ⟨true, rfl, by simp [hs y hy x hx hi]⟩
    · rw [if_neg hi]
      exact ⟨r, hr, hiff⟩
  · rw [if_neg he]
    refine ⟨false, rfl, ?_⟩
    simp only [Bool.false_eq_true, false_iff]
    intro hv
    have hrt : eq P y.val x.val = .ok true := by rw [hr, hiff.2 hv]
    have := C123_hash P y x (group_pair hg hy hx) hrt
    rw [hh, hh'] at this
    exact he (Except.ok.inj this)

theorem search_ok (P : Py) {xs : List Obj} (hg : Group xs) (hs : Stable xs) {x : Obj} (hx : x ∈ xs) {h : Int}
    (hh : hash P x = .ok h) (s : List Obj) (hsub : ∀ y ∈ s, y ∈ xs) :
    ∃ r, search P h x s = .ok r ∧ (r = true ↔ ∃ y ∈ s, y.val = x.val) := by
  induction s with
  | nil => exact ⟨false, rfl, by simp⟩
  | cons y ys ih =>
    obtain ⟨r, hr, hiff⟩ := sameIn_ok P hg hs hx (hsub y List.mem_cons_self) hh
    obtain ⟨r', hr', hiff'⟩ := ih (fun z hz => hsub z (List.mem_cons_of_mem _ hz))
    unfold search
    rw [hr]
    cases r with
    | true => exact ⟨true, rfl, by simp [hiff.1 rfl]⟩
    | false =>
      refine ⟨r', hr', ?_⟩
      have hno : ¬ y.val = x.val := fun h' => by have := hiff.2 h'; cases this
      simp [hiff', hno]

theorem contains_ok (P : Py) {xs : List Obj} (hg : Group xs) (hs : Stable xs) {x : Obj} (hx : x ∈ xs)
    (s : List Obj) (hsub : ∀ y ∈ s, y ∈ xs) :
    ∃ r, contains P s x = .ok r ∧ (r = true ↔ ∃ y ∈ s, y.val = x.val) := by
  obtain ⟨h, hh⟩ := group_hash P hg hx
  unfold contains
  rw [hh]
  exact search_ok P hg hs hx hh s hsub

theorem addAll_ok (P : Py) {xs : List Obj} (hg : Group xs) (hs : Stable xs) (ys s : List Obj)
    (hys : ∀ y ∈ ys, y ∈ xs) (hsub : ∀ y ∈ s, y ∈ xs) (hd : s.Pairwise (fun a b => a.val ≠ b.val)) :
    ∃ t, addAll P s ys = .ok t ∧ (∀ y ∈ t, y ∈ s ∨ y ∈ ys) ∧ t.Pairwise (fun a b => a.val ≠ b.val) ∧
      (∀ y, y ∈ s ∨ y ∈ ys → ∃ z ∈ t, z.val = y.val) := by
  induction ys generalizing s with
  | nil =>
    exact ⟨s, rfl, fun y h => .inl h, hd, fun y h => ⟨y, h.resolve_right (List.not_mem_nil), rfl⟩⟩
  | cons x xs' ih =>
    have hx := hys x List.mem_cons_self
    obtain ⟨r, hr, hiff⟩ := contains_ok P hg hs hx s hsub
    unfold addAll add
    rw [hr]
    cases r with
    | true =>
      obtain ⟨z, hz, hzx⟩ := hiff.1 rfl
      obtain ⟨t, ht, h1, h2, h3⟩ := ih s (fun y h => hys y (List.mem_cons_of_mem _ h)) hsub hd
      refine ⟨t, ht, ?_, h2, ?_⟩
      · intro y hy
        rcases h1 y hy with h | h
        · exact .inl h
        · exact .inr (List.mem_cons_of_mem _ h)
      · intro y hy
        rcases hy with h | h
        · exact h3 y (.inl h)
        · rcases List.mem_cons.1 h with rfl | h
          · obtain ⟨w, hw, e⟩ := h3 z (.inl hz)
            exact ⟨w, hw, e.trans hzx⟩
          · exact h3 y (.inr h)
    | false =>
      have hno : ∀ y ∈ s, y.val ≠ x.val := by
        intro y hy he
        have := hiff.2 ⟨y, hy, he⟩
        cases this
      obtain ⟨t, ht, h1, h2, h3⟩ := ih (s ++ [x]) (fun y h => hys y (List.mem_cons_of_mem _ h))
        (by
          intro y hy
          rcases List.mem_append.1 hy with h | h
          · exact hsub y h
          · rw [List.mem_singleton.1 h]; exact hx)
        (by
          rw [List.pairwise_append]
          exact ⟨hd, List.pairwise_singleton _ _, fun a ha b hb => by
            rw [List.mem_singleton.1 hb]; exact hno a ha⟩)
      refine ⟨t, ht, ?_, h2, ?_⟩
      · intro y hy
        rcases h1 y hy with h | h
        · rcases List.mem_append.1 h with h | h
          · exact .inl h
          · rw [List.mem_singleton.1 h]; exact .inr List.mem_cons_self
        · exact .inr (List.mem_cons_of_mem _ h)
      · intro y hy
        apply h3 y
        rcases hy with h | h
        · exact .inl (List.mem_append_left _ h)
        · rcases List.mem_cons.1 h with rfl | h
          · exact .inl (List.mem_append_right _ (List.mem_singleton.2 rfl))
          · exact .inr h

/-- **C123.** Put objects into a set, plain ones of any classes or only IP tags. Whatever the hashes of tuples
are, no call raises, no two objects in the set are equal, and another object is found in the set exactly if
it is equal to one that was put in. Missing: routing tables, SDRAM costs, and IP tags together with other
objects, where this is false. -/
theorem C123_found_partial (P : Py) (xs : List Obj) (x : Obj) (hg : Group (x :: xs)) (hs : Stable (x :: xs)) :
    ∃ s, addAll P [] xs = .ok s ∧ (∀ y ∈ s, y ∈ xs) ∧
      s.Pairwise (fun a b => eq P a.val b.val = .ok false) ∧
      ∃ r, contains P s x = .ok r ∧ (r = true ↔ ∃ y ∈ xs, eq P y.val x.val = .ok true) := by
  obtain ⟨s, h1, h2, h3, h4⟩ := addAll_ok P hg hs xs [] (fun y h => List.mem_cons_of_mem _ h)
    (fun y h => absurd h List.not_mem_nil) List.Pairwise.nil
  have hsub : ∀ y ∈ s, y ∈ xs := fun y h => (h2 y h).resolve_left List.not_mem_nil
  refine ⟨s, h1, hsub, ?_, ?_⟩
  · apply List.Pairwise.imp_of_mem _ h3
    intro a b ha hb hne
    obtain ⟨r, hr, hiff⟩ := C123_eq P a.val b.val
      (group_pair hg (List.mem_cons_of_mem _ (hsub a ha)) (List.mem_cons_of_mem _ (hsub b hb)))
    cases r with
    | true => exact absurd (hiff.1 rfl) hne
    | false => exact hr
  · obtain ⟨r, hr, hiff⟩ := contains_ok P hg hs List.mem_cons_self s
      (fun y h => List.mem_cons_of_mem _ (hsub y h))
    refine ⟨r, hr, hiff.trans ?_⟩
    have heq : ∀ y ∈ xs, (eq P y.val x.val = .ok true ↔ y.val = x.val) := by
      intro y hy
      obtain ⟨r, hr, hiff⟩ := C123_eq P y.val x.val
        (group_pair hg (List.mem_cons_of_mem _ hy) List.mem_cons_self)
      rw [hr, ← hiff]
      simp
    constructor
    · rintro ⟨y, hy, e⟩
      exact ⟨y, hsub y hy, (heq y (hsub y hy)).2 e⟩
    · rintro ⟨y, hy, e⟩
      obtain ⟨z, hz, e'⟩ := h4 y (.inr hy)
      exact ⟨z, hz, e'.trans ((heq y hy).1 e)⟩

/-- A hash of tuples that is the same for all of them. -/
def poor : Py := ⟨fun _ _ => 7, fun a b => decide (a = b)⟩

/-- Five objects of three classes, two of them equal. -/
def five : List Obj :=
  [⟨1, .chipAndCore 0 1 none⟩, ⟨2, .keyAndMask 0x10 0xF0⟩, ⟨3, .chipAndCore 0 1 (some 2)⟩,
   ⟨4, .keyAndMask 0x10 0xF0⟩, ⟨5, .placement 9 0 1 2⟩]

example : Group (⟨6, .chipAndCore 0 1 (some 2)⟩ :: five) ∧ Stable (⟨6, .chipAndCore 0 1 (some 2)⟩ :: five) := by
  constructor
  · left
    intro x hx
    simp only [five, List.mem_cons, List.not_mem_nil, or_false] at hx
    rcases hx with rfl | rfl | rfl | rfl | rfl | rfl <;> trivial
  · intro x hx y hy
    simp only [five, List.mem_cons, List.not_mem_nil, or_false] at hx hy
    rcases hx with rfl | rfl | rfl | rfl | rfl | rfl <;> rcases hy with rfl | rfl | rfl | rfl | rfl | rfl <;>
      simp

/-- The set has four objects; an equal object is found, another is not, though all hashes of tuples are
equal. -/
example : (match addAll poor [] five with
    | .ok s => s.map (·.id) | .error _ => []) = [1, 2, 3, 5] ∧
    (match addAll poor [] five with
    | .ok s => (contains poor s ⟨6, .chipAndCore 0 1 (some 2)⟩, contains poor s ⟨7, .placement 9 0 1 3⟩)
    | .error e => (.error e, .error e)) = (.ok true, .ok false) := by
  constructor <;> rfl

/-- **C123 is false of routing tables.** Tables that compare equal have different hashes (their identities), so
that an equal table is not found in a set. -/
theorem C123_tables (P : Py) (hr : ∀ e, P.same e e = true) :
    ∃ a b : Obj, eq P a.val b.val = .ok true ∧ eq P b.val a.val = .ok true ∧
      contains P [a] b = .ok false ∧
    ∃ c d : Obj, eq P c.val d.val = .ok true ∧ eq P d.val c.val = .ok true ∧ contains P [c] d = .ok false := by
  refine ⟨⟨1, .uTable ⟨0, 0, [((1, 1), ⟨1, 1, 1, false⟩)], 0⟩⟩,
    ⟨2, .uTable ⟨0, 0, [((1, 1), ⟨1, 1, 1, false⟩)], 0⟩⟩, ?_, ?_, rfl,
    ⟨1, .cTable ⟨0, 0, [⟨1, 1, 1, false⟩], 0⟩⟩, ⟨2, .cTable ⟨0, 0, [⟨1, 1, 1, false⟩], 0⟩⟩, ?_, ?_, rfl⟩
  · simp [eq, Tables.UTable.eq, Tables.dictEq, Dict.get?, hr]
  · simp [eq, Tables.UTable.eq, Tables.dictEq, Dict.get?, hr]
  · simp [eq, Tables.CTable.eq, hr]
  · simp [eq, Tables.CTable.eq, hr]

example : ∀ e, poor.same e e = true := by simp [poor]

/-- **C123.** Nor is equality of routing tables transitive: of three tables with the same entries, each of two
pairs shares a coordinate, the third pair shares none. -/
theorem C123_tables_not_transitive (P : Py) (hr : ∀ e, P.same e e = true) :
    ∃ a b c : Val, eq P a b = .ok true ∧ eq P b c = .ok true ∧ eq P a c = .ok false := by
  refine ⟨.uTable ⟨0, 0, [((1, 1), ⟨1, 1, 1, false⟩)], 0⟩, .uTable ⟨0, 1, [((1, 1), ⟨1, 1, 1, false⟩)], 0⟩,
    .uTable ⟨1, 1, [((1, 1), ⟨1, 1, 1, false⟩)], 0⟩, ?_, ?_, ?_⟩
  · simp [eq, Tables.UTable.eq, Tables.dictEq, Dict.get?, hr]
  · simp [eq, Tables.UTable.eq, Tables.dictEq, Dict.get?, hr]
  · simp [eq, Tables.UTable.eq]

/-- **C123.** SDRAM costs can be compared but not hashed: neither may they be put into a set nor be looked for
in one. -/
theorem C123_sdram (P : Py) (s : List Obj) (i : Nat) (n : Int) :
    contains P s ⟨i, .sdram n⟩ = .error .typeError ∧ add P s ⟨i, .sdram n⟩ = .error .typeError ∧
    eq P (.sdram n) (.sdram n) = .ok true := by
  refine ⟨rfl, rfl, ?_⟩
  simp [eq]

/-- **C123.** An IP tag compared with anything else raises an `AttributeError`; so does looking for an object in
a set with an IP tag in it, if the hashes happen to be the same. -/
theorem C123_tag_and_other (P : Py) (t x : Obj) (ht : IsTag t.val) (hx : ¬ IsTag x.val) (hi : t.id ≠ x.id) :
    eq P t.val x.val = .error .attributeError ∧
    (∀ h, hash P x = .ok h → hash P t = .ok h → contains P [t] x = .error .attributeError) := by
  have he : eq P t.val x.val = .error .attributeError := by
    cases htv : t.val <;> rw [htv] at ht <;> simp [IsTag] at ht
    cases hxv : x.val <;> rw [hxv] at hx <;> simp [IsTag] at hx <;> rfl
  refine ⟨he, ?_⟩
  intro h h1 h2
  unfold contains search sameIn
  rw [h1]
  simp only
  rw [h2]
  simp only [if_true]
  rw [if_neg hi, he]

example : contains poor [⟨1, .ipTag 5 none true (some 1) 0⟩] ⟨2, .placement 9 0 1 2⟩ = .error .attributeError ∧
    contains poor [⟨1, .ipTag 5 none true (some 1) 0⟩] ⟨2, .ipTag 5 none true (some 1) 0⟩ = .ok true := by
  constructor <;> rfl

end Pacman.Hashing
