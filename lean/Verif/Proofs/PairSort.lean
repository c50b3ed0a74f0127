import Verif.Proofs.PairCompressor
import Verif.Proofs.Sort
/-
Both sorts of the pair compressor put the entries of each route together, those of frequent
routes behind those of rare ones.
-/

namespace Pacman.Pair

/-! ### Exchanges -/

theorem swapE_get {α : Type} (l : List α) (i j : Nat) (hi : i < l.length) (hj : j < l.length)
    (l' : List α) (h : swapE l i j = .ok l') :
    l'.length = l.length ∧ ∀ k : Nat, l'[k]? = if k = j then l[i]? else if k = i then l[j]? else l[k]? := by
  have : l' = (l.set i l[j]).set j l[i] := by
    unfold swapE getE setE at h
    simp [hi, hj, bind, Except.bind] at h
    exact h.symm
  subst this
  refine ⟨by simp, ?_⟩
  intro k
  rw [List.getElem?_set, List.getElem?_set]
  by_cases h1 : j = k
  · subst h1; simp [hi, hj]
  · by_cases h2 : i = k
    · subst h2
      have h3 : ¬ i = j := fun h => h1 h.symm
      simp [h1, h3, hi, hj]
    · have h3 : ¬ k = j := fun h => h1 h.symm
      have h4 : ¬ k = i := fun h => h2 h.symm
      simp [h1, h2, h3, h4]

/-- The places from `a` to before `b` of the list satisfy `p`. -/
def Part {α : Type} (l : List α) (a b : Nat) (p : α → Prop) : Prop :=
  ∀ k x, a ≤ k → k < b → l[k]? = some x → p x

/-- The lists differ at most in the order of what stands from `a` to `b` inclusive. -/
structure Within {α : Type} (l l' : List α) (a b : Nat) : Prop where
  len : l'.length = l.length
  out : ∀ k : Nat, k < a ∨ b < k → l'[k]? = l[k]?
  into : ∀ k : Nat, a ≤ k → k ≤ b → ∃ j : Nat, a ≤ j ∧ j ≤ b ∧ l'[k]? = l[j]?

theorem Within.refl {α : Type} (l : List α) (a b : Nat) : Within l l a b :=
  ⟨rfl, fun _ _ => rfl, fun k h1 h2 => ⟨k, h1, h2, rfl⟩⟩

theorem Within.trans {α : Type} {l l1 l2 : List α} {a b : Nat} (h : Within l l1 a b)
    (h' : Within l1 l2 a b) : Within l l2 a b where
  len := h'.len.trans h.len
  out := fun k hk => (h'.out k hk).trans (h.out k hk)
  into := by
    intro k h1 h2
    obtain ⟨j, j1, j2, e⟩ := h'.into k h1 h2
    obtain ⟨i, i1, i2, e'⟩ := h.into j j1 j2
    exact ⟨i, i1, i2, e.trans e'⟩

theorem Within.wider {α : Type} {l l1 : List α} {a b a' b' : Nat} (h : Within l l1 a b)
    (ha : a' ≤ a) (hb : b ≤ b') : Within l l1 a' b' where
  len := h.len
  out := fun k hk => h.out k (by omega)
  into := by
    intro k h1 h2
    by_cases hk : k < a ∨ b < k
    · exact ⟨k, h1, h2, h.out k hk⟩
    · obtain ⟨j, j1, j2, e⟩ := h.into k (by omega) (by omega)
      exact ⟨j, by omega, by omega, e⟩

theorem swap_within {α : Type} {l l' : List α} {i j a b : Nat} (hi : i < l.length)
    (hj : j < l.length) (h : swapE l i j = .ok l') (h1 : a ≤ i) (h2 : i ≤ b) (h3 : a ≤ j)
    (h4 : j ≤ b) : Within l l' a b := by
  obtain ⟨hl, hg⟩ := swapE_get l i j hi hj l' h
  refine ⟨hl, ?_, ?_⟩
  · intro k hk
    rw [hg, if_neg (by omega), if_neg (by omega)]
  · intro k k1 k2
    rw [hg]
    by_cases e1 : k = j
    · exact ⟨i, h1, h2, by rw [if_pos e1]⟩
    · by_cases e2 : k = i
      · exact ⟨j, h3, h4, by rw [if_neg e1, if_pos e2]⟩
      · exact ⟨k, k1, k2, by rw [if_neg e1, if_neg e2]⟩

/-- The comparison tells on which side of the pivot value an element is. -/
def Signs {α : Type} (f : α → Int) (v : Int) (c : α → Except PyErr Int) (l : List α) : Prop :=
  ∀ x ∈ l, ∃ s, c x = .ok s ∧ (s < 0 ↔ f x < v) ∧ (s > 0 ↔ v < f x)

theorem Signs.perm {α : Type} {f : α → Int} {v : Int} {c : α → Except PyErr Int} {l l' : List α}
    (h : Signs f v c l) (hp : l'.Perm l) : Signs f v c l' :=
  fun x hx => h x (hp.mem_iff.1 hx)

/-- The three parts after the loop of the partition. -/
theorem partitionLoop_parts {α : Type} (f : α → Int) (v : Int) (cmp : α → Except PyErr Int)
    (l : List α) (low check high : Nat) (low0 high0 : Nat) (h0 : low0 ≤ low) (h1 : low < check)
    (h2 : check ≤ high + 1) (h3 : high0 < l.length) (h4 : high ≤ high0)
    (hc : Signs f v cmp l)
    (p1 : Part l low0 low (fun x => f x < v)) (p2 : Part l low check (fun x => f x = v))
    (p3 : Part l (high + 1) (high0 + 1) (fun x => v < f x)) :
    ∃ l' low' check', partitionLoop cmp l low check high = .ok (l', low', check') ∧
      l'.Perm l ∧ Within l l' low0 high0 ∧ low0 ≤ low' ∧ low' < check' ∧ check' ≤ high0 + 1 ∧
      check ≤ check' ∧
      Part l' low0 low' (fun x => f x < v) ∧ Part l' low' check' (fun x => f x = v) ∧
      Part l' check' (high0 + 1) (fun x => v < f x) := by
  have sgn : ∀ {l : List α} {check : Nat} {c : Int} (hlt : check < l.length),
      Signs f v cmp l → (do let x ← getE l check; cmp x) = .ok c →
      (c < 0 ↔ f l[check] < v) ∧ (c > 0 ↔ v < f l[check]) := by
    intro l check c hlt hs he
    obtain ⟨s, e1, e2⟩ := hs l[check] (List.getElem_mem hlt)
    simp only [getE, List.getElem?_eq_getElem hlt, bind, Except.bind, e1] at he
    cases he
    exact e2
  fun_induction partitionLoop cmp l low check high with
  | case1 l low check high hle e he =>
    exfalso
    have hlt : check < l.length := by omega
    obtain ⟨c, hc', _⟩ := hc _ (List.getElem_mem hlt)
    simp [getE, hlt, bind, Except.bind, hc'] at he
  | case2 l low check high hle c he hneg e hs =>
    exfalso
    obtain ⟨l', h, _⟩ := swapE_spec l low check (by omega) (by omega)
    simp [h] at hs
  | case3 l low check high hle c he hneg l' hs ih =>
    have hlt : check < l.length := by omega
    have hsg := sgn hlt hc he
    obtain ⟨l2, h, hp⟩ := swapE_spec l low check (by omega) (by omega)
    have : l2 = l' := by simpa [h] using hs
    subst this
    obtain ⟨hl, hg⟩ := swapE_get l low check (by omega) hlt l2 h
    have hw := swap_within (a := low0) (b := high0) (by omega) hlt h (by omega) (by omega)
      (by omega) (by omega)
    obtain ⟨r, a, b, hr, hrp, hrw, x1, x2, x3, x4, x5, x6, x7⟩ := ih (by omega) (by omega)
      (by omega) (by rw [hl]; exact h3) h4 (hc.perm hp)
      (by intro k x k1 k2 hk
          rw [hg] at hk
          by_cases e1 : k = low
          · rw [if_neg (by omega), if_pos e1, List.getElem?_eq_getElem hlt] at hk
            cases hk; exact hsg.1.1 hneg
          · rw [if_neg (by omega), if_neg e1] at hk
            exact p1 k x k1 (by omega) hk)
      (by intro k x k1 k2 hk
          rw [hg] at hk
          by_cases e1 : k = check
          · rw [if_pos e1] at hk
            exact p2 low x (Nat.le_refl _) h1 hk
          · rw [if_neg e1, if_neg (by omega)] at hk
            exact p2 k x (by omega) (by omega) hk)
      (by intro k x k1 k2 hk
          rw [hg, if_neg (by omega), if_neg (by omega)] at hk
          exact p3 k x k1 k2 hk)
    exact ⟨r, a, b, hr, hrp.trans hp, hw.trans hrw, by omega, x2, x3, by omega, x5, x6, x7⟩
  | case4 l low check high hle c he hneg hpos e hs =>
    exfalso
    obtain ⟨l', h, _⟩ := swapE_spec l high check (by omega) (by omega)
    simp [h] at hs
  | case5 l low check he0 c hneg hpos l' hs hle =>
    omega
  | case6 l low check high hle c he hneg hpos l' hs hh ih =>
    have hlt : check < l.length := by omega
    have hsg := sgn hlt hc he
    obtain ⟨l2, h, hp⟩ := swapE_spec l high check (by omega) (by omega)
    have : l2 = l' := by simpa [h] using hs
    subst this
    obtain ⟨hl, hg⟩ := swapE_get l high check (by omega) hlt l2 h
    have hw := swap_within (a := low0) (b := high0) (by omega) hlt h (by omega) (by omega)
      (by omega) (by omega)
    obtain ⟨r, a, b, hr, hrp, hrw, x1, x2, x3, x4, x5, x6, x7⟩ := ih h0 h1 (by omega)
      (by rw [hl]; exact h3) (by omega) (hc.perm hp)
      (by intro k x k1 k2 hk
          rw [hg, if_neg (by omega), if_neg (by omega)] at hk
          exact p1 k x k1 k2 hk)
      (by intro k x k1 k2 hk
          rw [hg, if_neg (by omega), if_neg (by omega)] at hk
          exact p2 k x k1 k2 hk)
      (by intro k x k1 k2 hk
          rw [hg] at hk
          by_cases e1 : k = high
          · have e3 : l[check]? = some x := by
              by_cases e2 : k = check
              · rw [if_pos e2] at hk; rw [← e2, e1]; exact hk
              · rw [if_neg e2, if_pos e1] at hk; exact hk
            rw [List.getElem?_eq_getElem hlt] at e3
            cases e3; exact hsg.2.1 hpos
          · rw [if_neg (by omega), if_neg e1] at hk
            exact p3 k x (by omega) k2 hk)
    exact ⟨r, a, b, hr, hrp.trans hp, hw.trans hrw, x1, x2, x3, x4, x5, x6, x7⟩
  | case7 l low check high hle c he hneg hpos ih =>
    have hlt : check < l.length := by omega
    have hsg := sgn hlt hc he
    obtain ⟨r, a, b, hr, hrp, hrw, x1, x2, x3, x4, x5, x6, x7⟩ := ih h0 (by omega) (by omega) h3 h4
      hc p1
      (by intro k x k1 k2 hk
          by_cases e1 : k = check
          · rw [e1, List.getElem?_eq_getElem hlt] at hk
            cases hk
            have n1 := fun h => hneg (hsg.1.2 h)
            have n2 := fun h => hpos (hsg.2.2 h)
            omega
          · exact p2 k x k1 (by omega) hk)
      p3
    exact ⟨r, a, b, hr, hrp, hrw, x1, x2, x3, by omega, x5, x6, x7⟩
  | case8 l low check high hle =>
    have : check = high + 1 := by omega
    subst this
    exact ⟨l, low, high + 1, rfl, List.Perm.refl _, Within.refl _ _ _, h0, h1, by omega,
      Nat.le_refl _, p1, p2, p3⟩

/-- The places from `a` to `b` inclusive are in rising order of `f`. -/
def Rising {α : Type} (f : α → Int) (l : List α) (a b : Nat) : Prop :=
  ∀ i j x y, a ≤ i → i ≤ j → j ≤ b → l[i]? = some x → l[j]? = some y → f x ≤ f y

theorem part_within {α : Type} {l l' : List α} {a b c d : Nat} {p : α → Prop}
    (h : Part l c d p) (hw : Within l l' a b) (hin : (c ≤ a ∧ b < d) ∨ d ≤ a ∨ b < c) :
    Part l' c d p := by
  intro k x k1 k2 hk
  by_cases ho : k < a ∨ b < k
  · rw [hw.out k ho] at hk
    exact h k x k1 k2 hk
  · obtain ⟨j, j1, j2, e⟩ := hw.into k (by omega) (by omega)
    rw [e] at hk
    exact h j x (by omega) (by omega) hk

theorem quicksort_rises {α : Type} (f : α → Int) (cmp : α → α → Except PyErr Int) :
    ∀ (fuel : Nat) (l : List α) (low high : Nat), high - low ≤ fuel →
    (low < high → high < l.length) →
    (∀ p ∈ l, Signs f (f p) (fun x => cmp x p) l) →
    ∃ l', quicksort cmp fuel l low high = .ok l' ∧ l'.Perm l ∧ Within l l' low high ∧
      Rising f l' low high := by
  have small : ∀ (l : List α) (low high : Nat), ¬ low < high → Rising f l low high := by
    intro l low high h i j x y h1 h2 h3 hx hy
    have : i = j := by omega
    subst this
    rw [hx] at hy; cases hy; omega
  intro fuel
  induction fuel with
  | zero =>
    intro l low high hf hh hc
    unfold quicksort
    have : ¬ low < high := by omega
    simp only [this, if_false]
    exact ⟨l, rfl, List.Perm.refl _, Within.refl _ _ _, small l low high this⟩
  | succ fuel ih =>
    intro l low high hf hh hc
    unfold quicksort
    by_cases hlt : low < high
    · have hlen := hh hlt
      have hlow : low < l.length := by omega
      simp only [hlt, if_true]
      have hg : getE l low = .ok l[low] := by simp [getE, hlow]
      rw [hg]
      simp only [bind, Except.bind]
      obtain ⟨l1, left, right, h1, hp1, hw1, a1, a2, a3, a4, q1, q2, q3⟩ := partitionLoop_parts f
        (f l[low]) (fun x => cmp x l[low]) l low (low + 1) high low high (Nat.le_refl _)
        (by omega) (by omega) hlen (Nat.le_refl _) (hc _ (List.getElem_mem hlow))
        (by intro k x k1 k2; omega)
        (by intro k x k1 k2 hk
            have : k = low := by omega
            subst this
            rw [List.getElem?_eq_getElem hlow] at hk
            cases hk; rfl)
        (by intro k x k1 k2; omega)
      rw [h1]
      simp only
      obtain ⟨l2, h2, hp2, hw2, r2⟩ := ih l1 low (left - 1) (by omega)
        (by intro h; rw [hp1.length_eq]; omega)
        (fun p hp => (hc p (hp1.mem_iff.1 hp)).perm hp1)
      rw [h2]
      simp only
      obtain ⟨l3, h3, hp3, hw3, r3⟩ := ih l2 right high (by omega)
        (by intro h; rw [hp2.length_eq, hp1.length_eq]; omega)
        (fun p hp => ((hc p (hp1.mem_iff.1 (hp2.mem_iff.1 hp))).perm hp1).perm hp2)
      have hw2' : Within l1 l2 low high := hw2.wider (Nat.le_refl _) (by omega)
      refine ⟨l3, h3, hp3.trans (hp2.trans hp1),
        hw1.trans (hw2'.trans (hw3.wider (by omega) (Nat.le_refl _))), ?_⟩
      -- the parts of the final list
      by_cases hleft : left = low
      · -- no smaller elements: the first call does nothing
        have e2 : l2 = l1 := by
          have hq : quicksort cmp fuel l1 low (left - 1) = .ok l1 := by
            have hn : ¬ low < left - 1 := by omega
            unfold quicksort
            simp only [hn, if_false]
          rw [hq] at h2
          cases h2; rfl
        subst e2
        have m2 : Part l3 left right (fun x => f x = f l[low]) :=
          part_within q2 hw3 (by omega)
        have m3 : Part l3 right (high + 1) (fun x => f l[low] < f x) :=
          part_within q3 hw3 (by omega)
        intro i j x y i1 i2 i3 hx hy
        by_cases c1 : right ≤ i
        · exact r3 i j x y c1 i2 i3 hx hy
        · have hxv := m2 i x (by omega) (by omega) hx
          simp only at hxv
          by_cases c2 : right ≤ j
          · have hyv := m3 j y c2 (by omega) hy
            simp only at hyv
            omega
          · have hyv := m2 j y (by omega) (by omega) hy
            simp only at hyv
            omega
      · have m1 : Part l3 low left (fun x => f x < f l[low]) :=
          part_within (part_within q1 hw2 (by omega)) hw3 (by omega)
        have m2 : Part l3 left right (fun x => f x = f l[low]) :=
          part_within (part_within q2 hw2 (by omega)) hw3 (by omega)
        have m3 : Part l3 right (high + 1) (fun x => f l[low] < f x) :=
          part_within (part_within q3 hw2 (by omega)) hw3 (by omega)
        intro i j x y i1 i2 i3 hx hy
        by_cases c1 : right ≤ i
        · exact r3 i j x y c1 i2 i3 hx hy
        · by_cases c2 : j < left
          · rw [hw3.out i (by omega)] at hx
            rw [hw3.out j (by omega)] at hy
            exact r2 i j x y i1 i2 (by omega) hx hy
          · have hxv : f x ≤ f l[low] := by
              by_cases c3 : i < left
              · have := m1 i x i1 c3 hx
                simp only at this; omega
              · have := m2 i x (by omega) (by omega) hx
                simp only at this; omega
            have hyv : f l[low] ≤ f y := by
              by_cases c3 : j < right
              · have := m2 j y (by omega) c3 hy
                simp only at this; omega
              · have := m3 j y (by omega) (by omega) hy
                simp only at this; omega
            omega
    · simp only [hlt, if_false]
      exact ⟨l, rfl, List.Perm.refl _, Within.refl _ _ _, small l low high hlt⟩

/-- The whole of a list sorted by the quicksort. -/
theorem quicksort_sorts {α : Type} (f : α → Int) (cmp : α → α → Except PyErr Int) (l : List α)
    (hc : ∀ p ∈ l, Signs f (f p) (fun x => cmp x p) l) :
    ∃ l', quicksort cmp l.length l 0 (l.length - 1) = .ok l' ∧ l'.Perm l ∧
      l'.Pairwise (fun a b => f a ≤ f b) := by
  obtain ⟨l', h1, h2, _, h3⟩ := quicksort_rises f cmp l.length l 0 (l.length - 1) (by omega)
    (by omega) hc
  refine ⟨l', h1, h2, ?_⟩
  rw [List.pairwise_iff_getElem]
  intro i j hi hj hij
  have := h2.length_eq
  exact h3 i j _ _ (by omega) (by omega) (by omega) (List.getElem?_eq_getElem hi)
    (List.getElem?_eq_getElem hj)


/-! ### The histogram counts -/

/-- How many entries of the table have the route. -/
def occurs (t : List Entry) (r : Nat) : Nat := t.countP (fun e => e.route == r)

theorem updateFrequency_counts (n : Nat) (h : Histogram) (es : List Entry) (e : Entry)
    (hi : HistInv n h es) (hc : ∀ rf ∈ h, rf.2 = occurs es rf.1) (h' : Histogram)
    (hu : updateFrequency n h e = .ok h') : ∀ rf ∈ h', rf.2 = occurs (es ++ [e]) rf.1 := by
  unfold updateFrequency at hu
  split at hu
  · cases hu
    intro rf hrf
    obtain ⟨rf0, h0, rfl⟩ := List.mem_map.1 hrf
    have := hc rf0 h0
    unfold occurs at *
    rw [List.countP_append]
    by_cases hr : rf0.1 = e.route
    · simp [hr]; rw [this, hr]
    · have h1 : (rf0.1 == e.route) = false := by simpa using hr
      have h2 : (e.route == rf0.1) = false := by simpa using fun h => hr h.symm
      simp [h1, h2, this]
  · next hany =>
    split at hu
    · cases hu
      have hno : ∀ rf ∈ h, ¬ rf.1 = e.route := by
        intro rf hrf heq
        exact hany (List.any_eq_true.2 ⟨rf, hrf, by simpa using heq⟩)
      intro rf hrf
      unfold occurs at *
      rw [List.countP_append]
      rcases List.mem_append.1 hrf with h1 | h1
      · have h2 : (e.route == rf.1) = false := by simpa using fun h => hno rf h1 h.symm
        simp [h2, hc rf h1]
      · simp at h1
        subst h1
        have : es.countP (fun x => x.route == e.route) = 0 := by
          rw [List.countP_eq_zero]
          intro x hx hxe
          obtain ⟨rf, hrf, hrr⟩ := List.mem_map.1 (hi.mem x hx)
          exact hno rf hrf (hrr.trans (by simpa using hxe))
        simp [this]
    · cases hu

theorem histogram_counts (n : Nat) (es h) (hh : histogram n es = .ok h) :
    ∀ rf ∈ h, rf.2 = occurs es rf.1 := by
  have gen : ∀ (es2 es1 : List Entry) (h1 : Histogram), HistInv n h1 es1 →
      (∀ rf ∈ h1, rf.2 = occurs es1 rf.1) →
      ∀ h, es2.foldlM (updateFrequency n) h1 = .ok h → ∀ rf ∈ h, rf.2 = occurs (es1 ++ es2) rf.1 := by
    intro es2
    induction es2 with
    | nil =>
      intro es1 h1 hi hc h hf
      simp [pure, Except.pure] at hf
      subst hf; simpa using hc
    | cons e es2 ih =>
      intro es1 h1 hi hc h hf
      simp only [List.foldlM_cons, bind, Except.bind] at hf
      split at hf
      · cases hf
      · next h2 heq =>
        have := ih (es1 ++ [e]) h2 (updateFrequency_spec n h1 es1 e hi h2 heq)
          (updateFrequency_counts n h1 es1 e hi hc h2 heq) h hf
        simpa using this
  have := gen es [] [] ⟨by simp, by simp, by simp, by simp⟩ (by simp) h hh
  simpa using this

/-! ### The order of the routes -/

/-- `compareRoutes` compares the places of the routes in the list, the other way round. -/
theorem compareRoutes_signs (routes : List Nat) (a b : Nat) (ha : a ∈ routes) :
    ∃ s, compareRoutes routes a b = .ok s ∧
      (s < 0 ↔ routes.idxOf b < routes.idxOf a) ∧ (s > 0 ↔ routes.idxOf a < routes.idxOf b) := by
  induction routes with
  | nil => simp at ha
  | cons r rs ih =>
    unfold compareRoutes
    by_cases hab : a = b
    · subst hab; simp
    · have h0 : (a == b) = false := by simpa using hab
      simp only [h0, Bool.false_eq_true, if_false]
      by_cases hra : r = a
      · subst hra
        have : (r == b) = false := by simpa using hab
        simp [List.idxOf_cons, this]
      · have h1 : (r == a) = false := by simpa using hra
        simp only [h1, Bool.false_eq_true, if_false]
        by_cases hrb : r = b
        · subst hrb
          simp [List.idxOf_cons, h1]
        · have h2 : (r == b) = false := by simpa using hrb
          simp only [h2, Bool.false_eq_true, if_false]
          obtain ⟨s, e1, e2, e3⟩ := ih (by
            rcases List.mem_cons.1 ha with h | h
            · exact absurd h.symm hra
            · exact h)
          refine ⟨s, e1, ?_, ?_⟩
          · rw [e2]; simp [List.idxOf_cons, h1, h2]
          · rw [e3]; simp [List.idxOf_cons, h1, h2]

theorem compareRoutes_le (routes : List Nat) (a b : Nat) :
    (match compareRoutes routes a b with
      | .ok c => decide (c ≤ 0)
      | .error _ => true) = decide (routes.idxOf b ≤ routes.idxOf a) := by
  induction routes with
  | nil =>
    unfold compareRoutes
    by_cases hab : a = b
    · subst hab; simp
    · have h0 : (a == b) = false := by simpa using hab
      simp [h0]
  | cons r rs ih =>
    by_cases hab : a = b
    · subst hab; unfold compareRoutes; simp
    · have h0 : (a == b) = false := by simpa using hab
      unfold compareRoutes
      simp only [h0, Bool.false_eq_true, if_false]
      by_cases hra : r = a
      · subst hra
        have : (r == b) = false := by simpa using hab
        simp [List.idxOf_cons, this]
      · have h1 : (r == a) = false := by simpa using hra
        simp only [h1, Bool.false_eq_true, if_false]
        by_cases hrb : r = b
        · subst hrb
          simp [List.idxOf_cons, h1]
        · have h2 : (r == b) = false := by simpa using hrb
          simp only [h2, Bool.false_eq_true, if_false]
          rw [ih]
          simp [List.idxOf_cons, h1, h2]

/-- In a histogram in falling order of frequency, a route that stands before another is as
frequent. -/
theorem idx_counts (t : List Entry) (h : Histogram) (hs : h.Pairwise (fun a b => b.2 ≤ a.2))
    (hc : ∀ rf ∈ h, rf.2 = occurs t rf.1) (a b : Nat) (ha : a ∈ h.map (·.1))
    (hb : b ∈ h.map (·.1)) (hle : (h.map (·.1)).idxOf a ≤ (h.map (·.1)).idxOf b) :
    occurs t b ≤ occurs t a := by
  have la := List.idxOf_lt_length_of_mem ha
  have lb := List.idxOf_lt_length_of_mem hb
  have ga := List.getElem_idxOf la
  have gb := List.getElem_idxOf lb
  rw [List.getElem_map] at ga gb
  rw [List.length_map] at la lb
  have ca := hc _ (List.getElem_mem la)
  have cb := hc _ (List.getElem_mem lb)
  rw [ga] at ca
  rw [gb] at cb
  rw [← ca, ← cb]
  rcases Nat.lt_or_eq_of_le hle with h1 | h1
  · exact (List.pairwise_iff_getElem.1 hs) _ _ la lb h1
  · simp only [h1]
    exact Nat.le_refl _

theorem stableSort_as {α : Type} (le le2 : α → α → Bool) (h : ∀ a b, le a b = le2 a b)
    (htot : ∀ a b, le2 a b = true ∨ le2 b a = true)
    (htr : ∀ a b c, le2 a b = true → le2 b c = true → le2 a c = true) (l : List α) :
    (stableSort le l).Pairwise (fun a b => le2 a b = true) := by
  have : le = le2 := by funext a b; exact h a b
  subst this
  exact stableSort_sorted le htot htr l

/-- Both sorts: the table in falling order of the places of the routes in a list that starts
with the most frequent routes. -/
theorem sorts_spec (useC : Bool) (n : Nat) (t : List Entry) (h : Histogram)
    (hh : histogram n t = .ok h) (es : List Entry)
    (he : (if useC then cSort h t else pySort n h t) = .ok es) :
    es.Perm t ∧ ∃ pos : Nat → Nat,
      es.Pairwise (fun a b => pos b.route ≤ pos a.route) ∧
      (∀ a ∈ es, ∀ b ∈ es, pos a.route = pos b.route → a.route = b.route) ∧
      (∀ a ∈ es, ∀ b ∈ es, pos a.route ≤ pos b.route → occurs t b.route ≤ occurs t a.route) := by
  have hi := histogram_inv n t h hh
  have hcnt := histogram_counts n t h hh
  have fin : ∀ (h' : Histogram) (es : List Entry), h'.Perm h → h'.Pairwise (fun a b => b.2 ≤ a.2) →
      es.Perm t →
      es.Pairwise (fun a b => (h'.map (·.1)).idxOf b.route ≤ (h'.map (·.1)).idxOf a.route) →
      es.Perm t ∧ ∃ pos : Nat → Nat,
      es.Pairwise (fun a b => pos b.route ≤ pos a.route) ∧
      (∀ a ∈ es, ∀ b ∈ es, pos a.route = pos b.route → a.route = b.route) ∧
      (∀ a ∈ es, ∀ b ∈ es, pos a.route ≤ pos b.route → occurs t b.route ≤ occurs t a.route) := by
    intro h' es hp hs hpe hpw
    have hmem : ∀ a ∈ es, a.route ∈ h'.map (·.1) := fun a ha =>
      (hp.map (·.1)).mem_iff.2 (hi.mem a (hpe.mem_iff.1 ha))
    refine ⟨hpe, fun r => (h'.map (·.1)).idxOf r, hpw, ?_, ?_⟩
    · intro a ha b hb hab
      simp only at hab
      have ga := List.getElem_idxOf (List.idxOf_lt_length_of_mem (hmem a ha))
      have gb := List.getElem_idxOf (List.idxOf_lt_length_of_mem (hmem b hb))
      rw [← ga, ← gb]
      simp only [hab]
    · intro a ha b hb hab
      exact idx_counts t h' hs (fun rf hrf => hcnt rf (hp.mem_iff.1 hrf)) _ _ (hmem a ha)
        (hmem b hb) hab
  cases useC with
  | false =>
    simp only [Bool.false_eq_true, if_false] at he
    unfold pySort at he
    split at he
    · cases he
    · simp only at he
      split at he
      · cases he
        refine fin (stableSort (fun a b => decide (b.2 ≤ a.2)) h) _ (stableSort_perm _ _) ?_
          (stableSort_perm _ _) ?_
        · have := stableSort_sorted (fun (a b : Nat × Nat) => decide (b.2 ≤ a.2))
            (by intro a b; simp only [decide_eq_true_eq]; omega)
            (by intro a b c; simp only [decide_eq_true_eq]; omega) h
          exact this.imp (fun {a b} h => by simpa using h)
        · refine (stableSort_as _ (fun (a b : Entry) => decide
            (((stableSort (fun a b => decide (b.2 ≤ a.2)) h).map (·.1)).idxOf b.route ≤
              ((stableSort (fun a b => decide (b.2 ≤ a.2)) h).map (·.1)).idxOf a.route))
            (fun a b => compareRoutes_le _ _ _) ?_ ?_ t).imp (fun {a b} h => of_decide_eq_true h)
          · intro a b; simp only [decide_eq_true_eq]; omega
          · intro a b c; simp only [decide_eq_true_eq]; omega
      · cases he
  | true =>
    simp only [if_true] at he
    unfold cSort at he
    obtain ⟨h', hq, hp, hs⟩ := quicksort_sorts (fun (x : Nat × Nat) => -(x.2 : Int))
      (fun (x p : Nat × Nat) => (.ok (if x.2 > p.2 then -1 else if x.2 < p.2 then 1 else 0) :
        Except PyErr Int)) h
      (by intro p _ x _
          refine ⟨_, rfl, ?_, ?_⟩ <;> simp only <;> (split <;> try split) <;> omega)
    rw [hq] at he
    simp only [bind, Except.bind] at he
    obtain ⟨es', hq2, hp2, hs2⟩ := quicksort_sorts
      (fun (x : Entry) => -((h'.map (·.1)).idxOf x.route : Int))
      (fun x p => compareRoutes (h'.map (·.1)) x.route p.route) t
      (by intro p _ x hx
          obtain ⟨s, e1, e2, e3⟩ := compareRoutes_signs (h'.map (·.1)) x.route p.route
            ((hp.map (·.1)).mem_iff.2 (hi.mem x hx))
          exact ⟨s, e1, by rw [e2]; simp only; omega, by rw [e3]; simp only; omega⟩)
    rw [hq2] at he
    cases he
    exact fin h' _ hp (hs.imp (fun {a b} h => by omega)) hp2 (hs2.imp (fun {a b} h => by omega))

end Pacman.Pair
