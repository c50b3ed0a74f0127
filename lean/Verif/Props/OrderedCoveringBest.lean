import Verif.Props.OrderedCoveringAgain
/-
C137: the merge that is applied is the best one left. C138: without a target ordered covering goes on until none is left.
-/

namespace Pacman.OC

/-- All entries with a route, as indices of the table. -/
def withRoute (t : List Entry) (r : Nat) : List Nat :=
  (List.range t.length).filter (fun j =>
    match t[j]? with
    | some o => decide (o.route = r)
    | none => false)

/-- What is left of the merge of all entries with a route when it is refined, with nothing to be better than. -/
def refined (t : List Entry) (a : Aliases) (r : Nat) : Except PyErr Merge := do
  let m ← mkMerge t (withRoute t r)
  refineMerge (t.length + 1) t a 0 m

/-! ### The candidates -/

theorem mem_withRoute {t : List Entry} {r j : Nat} : j ∈ withRoute t r ↔ ∃ o, t[j]? = some o ∧ o.route = r := by
  unfold withRoute
  rw [List.mem_filter, List.mem_range]
  constructor
  · rintro ⟨h1, h2⟩
    rw [List.getElem?_eq_getElem h1] at h2 ⊢
    exact ⟨_, rfl, by simpa using h2⟩
  · rintro ⟨o, h1, h2⟩
    refine ⟨(List.getElem?_eq_some_iff.1 h1).1, ?_⟩
    rw [h1]
    simpa using h2

theorem sameRoute_all {t : List Entry} {i : Nat} {e : Entry} (he : t[i]? = some e)
    (hnew : ∀ k o, k < i → t[k]? = some o → o.route ≠ e.route) : sameRoute t i e = withRoute t e.route := by
  have hi : i < t.length := (List.getElem?_eq_some_iff.1 he).1
  unfold sameRoute withRoute
  have hsplit : List.range t.length = List.range i ++ i :: (List.range t.length).drop (i + 1) := by
    have h1 : (List.range t.length).take i = List.range i := by
      rw [List.take_range]; congr 1; omega
    have h2 : (List.range t.length).drop i = i :: (List.range t.length).drop (i + 1) := by
      rw [List.drop_eq_getElem_cons (by simpa using hi)]
      simp
    rw [← h1, ← h2, List.take_append_drop]
  rw [hsplit, List.filter_append, List.filter_cons]
  have h0 : (List.range i).filter (fun j =>
      match t[j]? with
      | some o => decide (o.route = e.route)
      | none => false) = [] := by
    rw [List.filter_eq_nil_iff]
    intro k hk
    rw [List.mem_range] at hk
    rw [List.getElem?_eq_getElem (by omega)]
    simpa using hnew k _ hk (List.getElem?_eq_getElem (by omega))
  rw [h0, he, List.nil_append, if_pos (by simp), ← hsplit]
  congr 1
  refine List.filter_congr (fun j _ => ?_)
  cases t[j]? with
  | none => rfl
  | some o => simp only [eq_comm]

theorem allMerges_iff {t : List Entry} : ∀ (rest : List Entry) (i : Nat) (considered : List Nat), t.drop i = rest →
    (∀ j o, i ≤ j → t[j]? = some o → (j ∈ considered ↔ ∃ k q, k < i ∧ t[k]? = some q ∧ q.route = o.route)) →
    ∀ c, c ∈ allMerges t i rest considered ↔
      ∃ r, c = withRoute t r ∧ 2 ≤ c.length ∧ ∀ j ∈ c, i ≤ j := by
  intro rest
  induction rest with
  | nil =>
    intro i cs hd _ c
    have hlen : t.length ≤ i := by simpa using hd
    simp only [allMerges, List.not_mem_nil, false_iff]
    rintro ⟨r, rfl, h2, h3⟩
    cases hw : withRoute t r with
    | nil => rw [hw] at h2; simp at h2
    | cons j l =>
      have hj : j ∈ withRoute t r := by rw [hw]; exact List.mem_cons_self
      obtain ⟨o, ho, -⟩ := mem_withRoute.1 hj
      have := (List.getElem?_eq_some_iff.1 ho).1
      have := h3 j hj
      omega
  | cons e rest ih =>
    intro i cs hd hcs c
    have hi : t[i]? = some e := by
      have : (t.drop i)[0]? = some e := by rw [hd]; rfl
      simpa using this
    have hd' : t.drop (i + 1) = rest := by
      rw [← List.drop_drop, hd]; rfl
    rw [allMerges]
    by_cases hic : i ∈ cs
    · rw [if_pos hic]
      obtain ⟨k, q, hk, hq, hqe⟩ := (hcs i e (Nat.le_refl _) hi).1 hic
      rw [ih (i + 1) cs hd' (fun j o hj ho => ?_) c]
      · constructor
        · rintro ⟨r, h1, h2, h3⟩
          exact ⟨r, h1, h2, fun j hj => by have := h3 j hj; omega⟩
        · rintro ⟨r, rfl, h2, h3⟩
          refine ⟨r, rfl, h2, fun j hj => ?_⟩
          rcases Nat.lt_or_ge i j with h | h
          · exact h
          · have hji : j = i := by have := h3 j hj; omega
            subst hji
            obtain ⟨o, ho, hor⟩ := mem_withRoute.1 hj
            rw [hi] at ho
            cases ho
            have := h3 k (mem_withRoute.2 ⟨q, hq, by rw [hqe, hor]⟩)
            omega
      · rw [hcs j o (by omega) ho]
        constructor
        · rintro ⟨k, q, h1, h2⟩
          exact ⟨k, q, by omega, h2⟩
        · rintro ⟨k', q', h1, h2, h3⟩
          rcases Nat.lt_or_ge k' i with h | h
          · exact ⟨k', q', h, h2, h3⟩
          · have : k' = i := by omega
            subst this
            rw [hi] at h2
            cases h2
            exact ⟨k, q, hk, hq, by rw [hqe, h3]⟩
    · rw [if_neg hic]
      have hnew : ∀ k o, k < i → t[k]? = some o → o.route ≠ e.route := by
        intro k o hk ho he
        exact hic ((hcs i e (Nat.le_refl _) hi).2 ⟨k, o, hk, ho, he⟩)
      have hrest := ih (i + 1) (cs ++ sameRoute t i e) hd' (fun j o hj ho => by
        rw [List.mem_append, hcs j o (by omega) ho, sameRoute_all hi hnew, mem_withRoute]
        constructor
        · rintro (⟨k, q, h1, h2⟩ | ⟨o', h1, h2⟩)
          · exact ⟨k, q, by omega, h2⟩
          · rw [ho] at h1
            cases h1
            exact ⟨i, e, by omega, hi, h2.symm⟩
        · rintro ⟨k, q, h1, h2, h3⟩
          rcases Nat.lt_or_ge k i with h | h
          · exact Or.inl ⟨k, q, h, h2, h3⟩
          · have : k = i := by omega
            subst this
            rw [hi] at h2
            cases h2
            exact Or.inr ⟨o, ho, h3.symm⟩) c
      have hlow : ∀ j ∈ withRoute t e.route, i ≤ j := by
        intro j hj
        obtain ⟨o, ho, hor⟩ := mem_withRoute.1 hj
        rcases Nat.lt_or_ge j i with h | h
        · exact absurd hor (hnew j o h ho)
        · exact h
      have hboth : (∃ r, c = withRoute t r ∧ 2 ≤ c.length ∧ ∀ j ∈ c, i ≤ j) ↔
          (c = withRoute t e.route ∧ 2 ≤ c.length) ∨ ∃ r, c = withRoute t r ∧ 2 ≤ c.length ∧ ∀ j ∈ c, i + 1 ≤ j := by
        constructor
        · rintro ⟨r, rfl, h2, h3⟩
          by_cases hr : r = e.route
          · subst hr; exact Or.inl ⟨rfl, h2⟩
          · refine Or.inr ⟨r, rfl, h2, fun j hj => ?_⟩
            rcases Nat.lt_or_ge i j with h | h
            · exact h
            · have hji : j = i := by have := h3 j hj; omega
              subst hji
              obtain ⟨o, ho, hor⟩ := mem_withRoute.1 hj
              rw [hi] at ho
              cases ho
              exact absurd hor.symm hr
        · rintro (⟨rfl, h2⟩ | ⟨r, h1, h2, h3⟩)
          · exact ⟨_, rfl, h2, hlow⟩
          · exact ⟨r, h1, h2, fun j hj => by have := h3 j hj; omega⟩
      rw [hboth, ← hrest, sameRoute_all hi hnew]
      simp only
      by_cases hl : (withRoute t e.route).length > 1
      · rw [if_pos hl, List.mem_cons]
        constructor
        · rintro (rfl | h)
          · exact Or.inl ⟨rfl, hl⟩
          · exact Or.inr h
        · rintro (⟨h, -⟩ | h)
          · exact Or.inl h
          · exact Or.inr h
      · rw [if_neg hl]
        constructor
        · exact Or.inr
        · rintro (⟨rfl, h⟩ | h)
          · omega
          · exact h

/-- The candidates are the sets of all entries with a route, where these are two or more. -/
theorem mem_allMerges {t : List Entry} {c : List Nat} : c ∈ allMerges t 0 t [] ↔ ∃ r, c = withRoute t r ∧ 2 ≤ c.length := by
  rw [allMerges_iff t 0 [] rfl (by
    intro j o _ _
    simp only [List.not_mem_nil, false_iff]
    rintro ⟨k, q, h, -⟩
    omega)]
  constructor
  · rintro ⟨r, h1, h2, -⟩
    exact ⟨r, h1, h2⟩
  · rintro ⟨r, h1, h2⟩
    exact ⟨r, h1, h2, fun _ _ => Nat.zero_le _⟩

/-! ### What there is to be better than does not matter -/

/-- `x` is found if nothing is to be better than, `y` if something as good as `g` is. -/
def AsGood (g : Int) (x y : Merge) : Prop := (x.goodness > g → y = x) ∧ (x.goodness ≤ g → y.goodness ≤ g)

theorem empty_good {t : List Entry} {m : Merge} (h : mkMerge t [] = .ok m) : m.goodness = -1 := by
  unfold mkMerge at h
  simp only [bind, Except.bind, getAll, pure, Except.pure] at h
  split at h
  · cases h
  · cases h; rfl

theorem good_le {t : List Entry} {m r : Merge} (hm : IsMerge t m) (hr : IsMerge t r) (h : r.entries.Sublist m.entries) :
    r.goodness ≤ m.goodness := by
  have := hm.good
  have := hr.good
  have := h.length_le
  omega

theorem downcheck_thr {t : List Entry} (ht : t ≠ []) (a : Aliases) {g : Int} (hg : 0 ≤ g) :
    ∀ (fuel : Nat) (m x : Merge), IsMerge t m → m.entries.length < fuel → downcheck t a 0 fuel m = .ok x →
    ∃ y, downcheck t a g fuel m = .ok y ∧ AsGood g x y := by
  intro fuel
  induction fuel with
  | zero => intro m _ _ h; omega
  | succ fuel ih =>
    intro m x hm hf h
    obtain ⟨m0, h01, h02, h03⟩ := mkMerge_ok (is := []) ht (by simp)
    have hlow := empty_good h01
    by_cases hc : m.goodness > g
    · rw [downcheck, if_pos (show m.goodness > 0 by omega)] at h
      rw [downcheck, if_pos hc]
      simp only [bind, Except.bind, pure, Except.pure] at h ⊢
      obtain ⟨hs1, hs2, hs3⟩ := foldl_stringent (covered t a m) (33, []) (strInv_init m.km.2)
      generalize hS : (covered t a m).foldl (stringent m.km.2) (33, []) = s at *
      by_cases h33 : s.1 = 33
      · rw [if_pos h33] at h ⊢
        cases h
        exact ⟨_, rfl, fun _ => rfl, fun h => h⟩
      · rw [if_neg h33] at h ⊢
        by_cases h0 : s.1 = 0
        · rw [if_pos h0] at h ⊢
          exact ⟨x, h, fun _ => rfl, fun h => h⟩
        · rw [if_neg h0] at h ⊢
          obtain ⟨y, hy⟩ := List.exists_mem_of_ne_nil _ (hs1.2 h33 h0)
          obtain ⟨r, hr1, hr2, hr3, hr4⟩ := removeLoop_lt ht (bits := sortedBits s.2) hm
            (hm.ne_of_good hg hc)
            (List.ne_nil_of_mem (mem_sortedBits hy (hs1.1 y hy).1))
            (fun y hy => hs1.1 y (sortedBits_mem hy))
          rw [hr1] at h ⊢
          exact ih r x hr2 (by omega) h
    · obtain ⟨r, k1, k2, k3, -⟩ := downcheck_ok ht a (Int.le_refl 0) (fuel + 1) m hm hf
      rw [h] at k1
      cases k1
      have := good_le hm k2 k3
      refine ⟨m0, by rw [downcheck, if_neg hc]; exact h01, fun h => by omega, fun _ => by omega⟩

theorem upcheckLoop_le {t : List Entry} (ht : t ≠ []) (g : Int) (is : List Nat) : ∀ (m : Merge) (ch : Bool), IsMerge t m →
    (∀ i ∈ is, i < t.length) → ∃ r ch', upcheckLoop t g is m ch = .ok (r, ch') ∧ IsMerge t r ∧
      r.entries.Sublist m.entries := by
  induction is with
  | nil => intro m ch hm _; exact ⟨m, ch, rfl, hm, List.Sublist.refl _⟩
  | cons i is ih =>
    intro m ch hm hlt
    have hlt' : ∀ j ∈ is, j < t.length := fun j hj => hlt j (List.mem_cons_of_mem _ hj)
    rw [upcheckLoop, getE_ok (hlt i List.mem_cons_self)]
    simp only [bind, Except.bind]
    split
    · obtain ⟨m1, h1, h2, h3⟩ := mkMerge_ok (is := m.entries.filter (fun j => decide (j ≠ i))) ht
        (fun j hj => hm.lt j (List.mem_filter.1 hj).1)
      rw [h1]
      simp only
      split
      · obtain ⟨m0, h01, h02, h03⟩ := mkMerge_ok (is := []) ht (by simp)
        rw [h01]
        exact ⟨m0, true, rfl, h03, by rw [h02]; exact List.nil_sublist _⟩
      · obtain ⟨r, ch', k1, k2, k3⟩ := ih m1 true h3 hlt'
        exact ⟨r, ch', k1, k2, k3.trans (by rw [h2]; exact List.filter_sublist)⟩
    · exact ih m ch hm hlt'

theorem upcheckLoop_thr {t : List Entry} (ht : t ≠ []) {g : Int} (hg : 0 ≤ g) (is : List Nat) : ∀ (m : Merge) (ch : Bool)
    (x : Merge) (c : Bool), IsMerge t m → (∀ i ∈ is, i < t.length) → m.goodness > g →
    upcheckLoop t 0 is m ch = .ok (x, c) →
    ∃ y c', upcheckLoop t g is m ch = .ok (y, c') ∧ AsGood g x y ∧ (x.goodness > g → c' = c) := by
  induction is with
  | nil =>
    intro m ch x c hm _ _ h
    rw [upcheckLoop] at h
    cases h
    exact ⟨m, ch, rfl, ⟨fun _ => rfl, fun h => h⟩, fun _ => rfl⟩
  | cons i is ih =>
    intro m ch x c hm hlt hgm h
    have hlt' : ∀ j ∈ is, j < t.length := fun j hj => hlt j (List.mem_cons_of_mem _ hj)
    rw [upcheckLoop, getE_ok (hlt i List.mem_cons_self)] at h ⊢
    simp only [bind, Except.bind] at h ⊢
    split at h
    · rename_i hany
      rw [if_pos hany]
      obtain ⟨m1, h1, h2, h3⟩ := mkMerge_ok (is := m.entries.filter (fun j => decide (j ≠ i))) ht
        (fun j hj => hm.lt j (List.mem_filter.1 hj).1)
      rw [h1] at h ⊢
      simp only at h ⊢
      obtain ⟨m0, h01, h02, h03⟩ := mkMerge_ok (is := []) ht (by simp)
      have hlow := empty_good h01
      rw [h01] at h ⊢
      simp only [pure, Except.pure] at h ⊢
      by_cases hgood : m1.goodness ≤ g
      · rw [if_pos hgood]
        have hx : x.goodness ≤ g := by
          split at h
          · cases h; omega
          · obtain ⟨r, ch', k1, k2, k3⟩ := upcheckLoop_le ht 0 is m1 true h3 hlt'
            rw [h] at k1
            cases k1
            have := good_le h3 k2 k3
            omega
        exact ⟨m0, true, rfl, ⟨fun h => by omega, fun _ => by omega⟩, fun h => by omega⟩
      · rw [if_neg hgood]
        rw [if_neg (by omega)] at h
        exact ih m1 true x c h3 hlt' (by omega) h
    · rename_i hany
      rw [if_neg hany]
      exact ih m ch x c hm hlt' hgm h

theorem refine_thr {t : List Entry} (ht : t ≠ []) (a : Aliases) {g : Int} (hg : 0 ≤ g) {fuel : Nat} {m x : Merge}
    (hm : IsMerge t m) (hf : m.entries.length < fuel) (h : refineMerge fuel t a 0 m = .ok x) :
    ∃ y, refineMerge fuel t a g m = .ok y ∧ AsGood g x y := by
  unfold refineMerge at h ⊢
  obtain ⟨x1, h1, h2, h3, -⟩ := downcheck_ok ht a (Int.le_refl 0) fuel m hm hf
  obtain ⟨y1, q1, q2⟩ := downcheck_thr ht a hg fuel m x1 hm hf h1
  rw [h1] at h
  rw [q1]
  simp only [bind, Except.bind, pure, Except.pure] at h ⊢
  have hups := fun i (hi : i ∈ x1.entries.reverse) => h2.lt i (List.mem_reverse.1 hi)
  obtain ⟨x2, c2, u1, u2, u3⟩ := upcheckLoop_le ht 0 x1.entries.reverse x1 false h2 hups
  have hf2 : x2.entries.length < fuel := by
    have := u3.length_le
    have := h3.length_le
    omega
  obtain ⟨x3, d1, d2, d3, -⟩ := downcheck_ok ht a (Int.le_refl 0) fuel x2 u2 hf2
  unfold upcheck at h ⊢
  rw [u1] at h
  simp only at h
  rw [d1] at h
  have g1 := good_le h2 u2 u3
  have g2 := good_le u2 d2 d3
  by_cases hx1 : x1.goodness > g
  · have hy := q2.1 hx1
    subst hy
    rw [if_pos hx1]
    rw [if_pos (by omega)] at h
    obtain ⟨y2, c', v1, v2, v3⟩ := upcheckLoop_thr ht hg _ _ _ _ _ h2 hups hx1 u1
    rw [v1]
    simp only
    by_cases hx2 : x2.goodness > g
    · have e1 := v2.1 hx2
      have e2 := v3 hx2
      subst e1 e2
      by_cases hc : c' = true
      · rw [if_pos ⟨hc, hx2⟩]
        rw [if_pos ⟨hc, by omega⟩] at h
        cases h
        exact downcheck_thr ht a hg fuel _ _ u2 hf2 d1
      · rw [if_neg (fun h => hc h.1)]
        rw [if_neg (fun h => hc h.1)] at h
        cases h
        exact ⟨_, rfl, fun _ => rfl, fun h => h⟩
    · have hy2 := v2.2 (by omega)
      rw [if_neg (fun h => by omega)]
      have hx : x.goodness ≤ x2.goodness := by
        split at h
        · cases h; exact g2
        · cases h; exact Int.le_refl _
      exact ⟨_, rfl, fun h => by omega, fun _ => hy2⟩
  · have hy1 := q2.2 (by omega)
    rw [if_neg (by omega)]
    have hx : x.goodness ≤ x1.goodness := by
      split at h
      · split at h
        · cases h; omega
        · cases h; exact g1
      · cases h; exact Int.le_refl _
    exact ⟨_, rfl, fun h => by omega, fun _ => hy1⟩

/-! ### The best merge -/

theorem withRoute_length (t : List Entry) (r : Nat) : (withRoute t r).length ≤ t.length := by
  unfold withRoute
  have := List.length_filter_le (fun j =>
    match t[j]? with
    | some o => decide (o.route = r)
    | none => false) (List.range t.length)
  simpa using this

theorem withRoute_lt {t : List Entry} {r i : Nat} (h : i ∈ withRoute t r) : i < t.length := by
  obtain ⟨o, ho, -⟩ := mem_withRoute.1 h
  exact (List.getElem?_eq_some_iff.1 ho).1

theorem refined_ok {t : List Entry} (ht : t ≠ []) (hs : Sorted t) (a : Aliases) (r : Nat) :
    ∃ m x, mkMerge t (withRoute t r) = .ok m ∧ IsMerge t m ∧ m.entries = withRoute t r ∧ m.entries.length < t.length + 1 ∧
      refined t a r = .ok x ∧ refineMerge (t.length + 1) t a 0 m = .ok x ∧ IsMerge t x ∧ x.entries.Sublist m.entries := by
  obtain ⟨m, h1, h2, h3⟩ := mkMerge_ok (is := withRoute t r) ht (fun i hi => withRoute_lt hi)
  have hl : m.entries.length < t.length + 1 := by
    rw [h2]
    have := withRoute_length t r
    omega
  obtain ⟨x, k1, k2, k3, -⟩ := refineMerge_ok ht hs a (Int.le_refl 0) h3 hl
  refine ⟨m, x, h1, h3, h2, hl, ?_, k1, k2, k3⟩
  unfold refined
  rw [h1]
  exact k1

theorem bestLoop_best {t : List Entry} (ht : t ≠ []) (hs : Sorted t) (a : Aliases) (rs : List Nat) :
    ∀ (best : Merge) (g : Int), 0 ≤ g → (best.goodness = g ∨ g = 0 ∧ best.goodness ≤ 0) →
    ∃ b, bestLoop (t.length + 1) t a (rs.map (withRoute t)) best g = .ok b ∧
      (∀ r ∈ rs, ∀ x, refined t a r = .ok x → x.goodness ≤ b.goodness ∨ x.goodness ≤ 0) ∧
      (best.goodness ≤ b.goodness) ∧ (b = best ∨ ∃ r ∈ rs, refined t a r = .ok b) := by
  induction rs with
  | nil =>
    intro best g _ _
    exact ⟨best, rfl, fun _ hr => (by cases hr), Int.le_refl _, Or.inl rfl⟩
  | cons r rs ih =>
    intro best g hg hb
    obtain ⟨m, x, h1, h2, h3, h4, h5, h6, h7, h8⟩ := refined_ok ht hs a r
    have hle := good_le h2 h7 h8
    rw [List.map_cons, bestLoop, h1]
    simp only [bind, Except.bind]
    have hskip : x.goodness ≤ g → ∃ b, bestLoop (t.length + 1) t a (rs.map (withRoute t)) best g = .ok b ∧
        (∀ r' ∈ r :: rs, ∀ x, refined t a r' = .ok x → x.goodness ≤ b.goodness ∨ x.goodness ≤ 0) ∧
        (best.goodness ≤ b.goodness) ∧ (b = best ∨ ∃ r' ∈ r :: rs, refined t a r' = .ok b) := by
      intro hx
      obtain ⟨b, k1, k2, k3, k4⟩ := ih best g hg hb
      refine ⟨b, k1, ?_, k3, ?_⟩
      · intro r' hr' x' hx'
        rcases List.mem_cons.1 hr' with rfl | hr'
        · rw [h5] at hx'
          cases hx'
          rcases hb with hb | ⟨hb, -⟩ <;> omega
        · exact k2 r' hr' x' hx'
      · rcases k4 with k4 | ⟨r', k4, k5⟩
        · exact Or.inl k4
        · exact Or.inr ⟨r', List.mem_cons_of_mem _ k4, k5⟩
    split
    · exact hskip (by omega)
    · obtain ⟨y, y1, y2, y3⟩ := refine_thr ht a hg h2 h4 h6
      rw [y1]
      simp only
      split
      · rename_i hgood
        have hxg : x.goodness > g := by
          rcases Int.lt_or_le g x.goodness with h | h
          · exact h
          · have := y3 h; omega
        have hy := y2 hxg
        subst hy
        obtain ⟨b, k1, k2, k3, k4⟩ := ih y y.goodness (by omega) (Or.inl rfl)
        refine ⟨b, k1, ?_, by rcases hb with hb | ⟨hb, hb2⟩ <;> omega, ?_⟩
        · intro r' hr' x' hx'
          rcases List.mem_cons.1 hr' with rfl | hr'
          · rw [h5] at hx'
            cases hx'
            exact Or.inl k3
          · exact k2 r' hr' x' hx'
        · rcases k4 with rfl | ⟨r', k4, k5⟩
          · exact Or.inr ⟨r, List.mem_cons_self, h5⟩
          · exact Or.inr ⟨r', List.mem_cons_of_mem _ k4, k5⟩
      · rename_i hgood
        refine hskip ?_
        rcases Int.lt_or_le g x.goodness with h | h
        · have := y2 h; subst this; omega
        · exact h

theorem maps_of {t : List Entry} : ∀ l : List (List Nat), (∀ c ∈ l, ∃ r, c = withRoute t r ∧ 2 ≤ c.length) →
    ∃ rs : List Nat, l = rs.map (withRoute t) := by
  intro l
  induction l with
  | nil => intro _; exact ⟨[], rfl⟩
  | cons c l ih =>
    intro h
    obtain ⟨r, h1, -⟩ := h c List.mem_cons_self
    obtain ⟨rs, h2⟩ := ih (fun c hc => h c (List.mem_cons_of_mem _ hc))
    exact ⟨r :: rs, by rw [List.map_cons, h1, h2]⟩

/-- **C137.** The merge chosen is, unless none has two entries, what is left of the merge of all entries with some route, and
for no route is more left. -/
theorem C137_best_merge {t : List Entry} (ht : t ≠ []) (hs : Sorted t) (a : Aliases) :
    ∃ b, bestMerge (t.length + 1) t a = .ok b ∧
      (b.goodness > 0 → ∃ r, refined t a r = .ok b) ∧
      ∀ r, ∃ x, refined t a r = .ok x ∧ (x.goodness ≤ b.goodness ∨ x.goodness ≤ 0) := by
  obtain ⟨m0, h01, h02, h03⟩ := mkMerge_ok (is := []) ht (by simp)
  have hlow := empty_good h01
  obtain ⟨rs, hrs⟩ := maps_of (allMerges t 0 t []) (fun c hc => mem_allMerges.1 hc)
  obtain ⟨b, k1, k2, -, k4⟩ := bestLoop_best ht hs a rs m0 0 (Int.le_refl _) (Or.inr ⟨rfl, by omega⟩)
  refine ⟨b, ?_, fun hb => ?_, fun r => ?_⟩
  · unfold bestMerge
    rw [h01, hrs]
    exact k1
  · rcases k4 with rfl | ⟨r, -, h⟩
    · omega
    · exact ⟨r, h⟩
  · obtain ⟨m, x, h1, h2, h3, h4, h5, h6, h7, h8⟩ := refined_ok ht hs a r
    refine ⟨x, h5, ?_⟩
    by_cases hl : 2 ≤ (withRoute t r).length
    · have hc := mem_allMerges.2 ⟨r, rfl, hl⟩
      rw [hrs] at hc
      obtain ⟨r', hr', he⟩ := List.mem_map.1 hc
      refine k2 r' hr' x ?_
      unfold refined
      rw [he, h1]
      exact h6
    · have := good_le h2 h7 h8
      have := h2.good
      rw [h3] at this
      exact Or.inr (by omega)

/-- No merge of two entries or more is left for any route. -/
def Spent (t : List Entry) (a : Aliases) : Prop := ∀ r, ∃ x, refined t a r = .ok x ∧ x.goodness ≤ 0

theorem spent_iff {t : List Entry} (ht : t ≠ []) (hs : Sorted t) {a : Aliases} {b : Merge}
    (h : bestMerge (t.length + 1) t a = .ok b) : Spent t a ↔ b.goodness ≤ 0 := by
  obtain ⟨b', h1, h2, h3⟩ := C137_best_merge ht hs a
  rw [h] at h1
  cases h1
  constructor
  · intro hsp
    rcases Int.lt_or_le 0 b.goodness with h0 | h0
    · obtain ⟨r, hr⟩ := h2 h0
      obtain ⟨x, hx, hx0⟩ := hsp r
      rw [hr] at hx
      cases hx
      exact hx0
    · exact h0
  · intro h0 r
    obtain ⟨x, hx, hx0⟩ := h3 r
    exact ⟨x, hx, by omega⟩

theorem mainLoop_spent {target : Option Nat} {timeUp : Nat → Bool} : ∀ (fuel round : Nat) (t : List Entry) (a : Aliases)
    (t' : List Entry) (a' : Aliases), t.length < fuel → t ≠ [] → Sorted t →
    mainLoop target timeUp fuel round t a = .ok (t', a') →
    t' ≠ [] ∧ Sorted t' ∧ (Spent t' a' ∨ ∃ n, target = some n ∧ t'.length ≤ n) := by
  intro fuel
  induction fuel with
  | zero => intro r t a t' a' h; omega
  | succ fuel ih =>
    intro round t a t' a' hf hne hs h
    rw [mainLoop] at h
    by_cases hc : target.all (fun n => decide (t.length > n)) = true
    · rw [if_pos hc] at h
      simp only [bind, Except.bind, pure, Except.pure] at h
      obtain ⟨m, h1, h2⟩ := bestMerge_ok hne hs a (Nat.lt_succ_self t.length)
      rw [h1] at h
      simp only at h
      split at h
      · rename_i hg
        cases h
        exact ⟨hne, hs, Or.inl ((spent_iff hne hs h1).2 hg)⟩
      · rename_i hg
        have hu := h2 (by omega)
        obtain ⟨t1, a1, h3, ⟨h4⟩⟩ := apply_ok hu
        rw [h3] at h
        simp only at h
        have hlen := h4.len
        have htwo := hu.two
        have hpos : 0 < t.length := List.length_pos_iff.2 hne
        split at h
        · cases h
        · exact ih (round + 1) t1 a1 t' a' (by omega) (by rw [h4.eq]; simp) (applied_sorted hs hu h4) h
    · rw [if_neg hc] at h
      cases h
      refine ⟨hne, hs, Or.inr ?_⟩
      cases target with
      | none => simp at hc
      | some n => exact ⟨n, rfl, by simpa using hc⟩

theorem mainLoop_fuel {target : Option Nat} : ∀ (f f' round round' : Nat) (t : List Entry) (a : Aliases), t.length < f →
    t.length < f' → t ≠ [] → Sorted t →
    mainLoop target (fun _ => false) f round t a = mainLoop target (fun _ => false) f' round' t a := by
  intro f
  induction f with
  | zero => intro f' r r' t a h; omega
  | succ f ih =>
    intro f' round round' t a hf hf' hne hs
    cases f' with
    | zero => omega
    | succ f' =>
      rw [mainLoop, mainLoop]
      split
      · obtain ⟨m, h1, h2⟩ := bestMerge_ok hne hs a (Nat.lt_succ_self t.length)
        rw [h1]
        simp only [bind, Except.bind, pure, Except.pure]
        split
        · rfl
        · have hu := h2 (by omega)
          obtain ⟨t1, a1, h3, ⟨h4⟩⟩ := apply_ok hu
          rw [h3]
          have hlen := h4.len
          have htwo := hu.two
          have hpos : 0 < t.length := List.length_pos_iff.2 hne
          exact ih f' (round + 1) (round' + 1) t1 a1 (by omega) (by omega) (by rw [h4.eq]; simp) (applied_sorted hs hu h4)
      · rfl

/-- Stopped at a target, the loop goes on as if it had not been stopped. -/
theorem mainLoop_resume {n : Nat} : ∀ (f f' round : Nat) (t : List Entry) (a : Aliases) (t1 : List Entry) (a1 : Aliases),
    t.length < f → t.length < f' → t ≠ [] → Sorted t →
    mainLoop (some n) (fun _ => false) f round t a = .ok (t1, a1) →
    mainLoop none (fun _ => false) f' 0 t1 a1 = mainLoop none (fun _ => false) f' 0 t a := by
  intro f
  induction f with
  | zero => intro f' r t a t1 a1 h; omega
  | succ f ih =>
    intro f' round t a t1 a1 hf hf' hne hs h
    rw [mainLoop] at h
    split at h
    · obtain ⟨m, h1, h2⟩ := bestMerge_ok hne hs a (Nat.lt_succ_self t.length)
      rw [h1] at h
      simp only [bind, Except.bind, pure, Except.pure] at h
      split at h
      · cases h; rfl
      · rename_i hg
        have hu := h2 (by omega)
        obtain ⟨t2, a2, h3, ⟨h4⟩⟩ := apply_ok hu
        rw [h3] at h
        have hlen := h4.len
        have htwo := hu.two
        have hpos : 0 < t.length := List.length_pos_iff.2 hne
        have hne2 : t2 ≠ [] := by rw [h4.eq]; simp
        have hs2 := applied_sorted hs hu h4
        rw [ih f' (round + 1) t2 a2 t1 a1 (by omega) (by omega) hne2 hs2 h]
        cases f' with
        | zero => omega
        | succ f' =>
          have hrhs : mainLoop none (fun _ => false) (f' + 1) 0 t a = mainLoop none (fun _ => false) f' 1 t2 a2 := by
            rw [mainLoop, h1]
            simp only [bind, Except.bind, pure, Except.pure]
            rw [if_pos (by rfl), if_neg hg, h3]
            rfl
          rw [hrhs]
          exact mainLoop_fuel _ _ _ _ _ _ (by omega) (by omega) hne2 hs2
    · cases h; rfl

theorem covering_loop {fuel : Nat} {timeUp : Nat → Bool} {t : List Entry} {target : Option Nat} {a : Aliases} {noRaise : Bool}
    {t' : List Entry} {a' : Aliases} (h : orderedCovering fuel timeUp t target a noRaise = .ok (t', a')) :
    mainLoop target timeUp fuel 0 (sortGen t) a = .ok (t', a') := by
  unfold orderedCovering at h
  cases hm : mainLoop target timeUp fuel 0 (sortGen t) a with
  | error e => rw [hm] at h; cases h
  | ok r =>
    obtain ⟨t2, a2⟩ := r
    rw [hm] at h
    simp only [bind, Except.bind, pure, Except.pure] at h
    split at h
    · cases h
    · cases h; rfl

theorem sortGen_ne {t : List Entry} (h : t ≠ []) : sortGen t ≠ [] := by
  intro h0
  have hp := sortGen_perm t
  rw [h0] at hp
  exact h hp.nil_eq.symm

/-- **C138.** When ordered covering returns, on any table and with any aliases, its target is met or no merge is left. -/
theorem C138_spent {fuel : Nat} {timeUp : Nat → Bool} {t : List Entry} {target : Option Nat} {a : Aliases} {noRaise : Bool}
    {t' : List Entry} {a' : Aliases} (hf : t.length < fuel) (hne : t ≠ [])
    (h : orderedCovering fuel timeUp t target a noRaise = .ok (t', a')) :
    Spent t' a' ∨ ∃ n, target = some n ∧ t'.length ≤ n :=
  (mainLoop_spent fuel 0 _ a t' a' (by rw [(sortGen_perm t).length_eq]; exact hf) (sortGen_ne hne) (sortGen_sorted t)
    (covering_loop h)).2.2

/-- **C138.** Called without a target, ordered covering returns what a further call with its aliases leaves as it is,
whatever the target. -/
theorem C138_again {fuel : Nat} {timeUp : Nat → Bool} {t : List Entry} {a : Aliases} {noRaise : Bool} {t' : List Entry}
    {a' : Aliases} (hf : t.length < fuel) (hne : t ≠ [])
    (h : orderedCovering fuel timeUp t none a noRaise = .ok (t', a')) (f : Nat) (timeUp' : Nat → Bool) (target : Option Nat) :
    orderedCovering (f + 1) timeUp' t' target a' true = .ok (t', a') := by
  obtain ⟨h1, h2, h3⟩ := mainLoop_spent fuel 0 _ a t' a' (by rw [(sortGen_perm t).length_eq]; exact hf) (sortGen_ne hne)
    (sortGen_sorted t) (covering_loop h)
  have hsp : Spent t' a' := by
    rcases h3 with h3 | ⟨n, h3, -⟩
    · exact h3
    · cases h3
  obtain ⟨m, k1, -⟩ := bestMerge_ok h1 h2 a' (Nat.lt_succ_self t'.length)
  have hloop : mainLoop target timeUp' (f + 1) 0 t' a' = .ok (t', a') := by
    rw [mainLoop]
    split
    · rw [k1]
      simp only [bind, Except.bind, pure, Except.pure]
      rw [if_pos ((spent_iff h1 h2 k1).1 hsp)]
    · rfl
  unfold orderedCovering
  rw [sortGen_same h2, hloop]
  rfl

/-- **C138.** Stopped at a target and called again without one, with what was returned, ordered covering returns what it
would have returned if it had not been stopped. -/
theorem C138_resumed {fuel : Nat} {t : List Entry} {n : Nat} {a : Aliases} {noRaise : Bool} {t1 : List Entry} {a1 : Aliases}
    (hf : t.length < fuel) (hne : t ≠ [])
    (h : orderedCovering fuel (fun _ => false) t (some n) a noRaise = .ok (t1, a1)) :
    orderedCovering fuel (fun _ => false) t1 none a1 true = orderedCovering fuel (fun _ => false) t none a true := by
  have hl : (sortGen t).length < fuel := by rw [(sortGen_perm t).length_eq]; exact hf
  obtain ⟨-, h2, -⟩ := mainLoop_spent fuel 0 _ a t1 a1 hl (sortGen_ne hne) (sortGen_sorted t) (covering_loop h)
  have := mainLoop_resume fuel fuel 0 _ a t1 a1 hl hl (sortGen_ne hne) (sortGen_sorted t) (covering_loop h)
  unfold orderedCovering
  rw [sortGen_same h2, this]

/-- Of the routes of the table two are those of two entries each; the first merge is of one of them. -/
example : ∃ b, bestMerge 5 (sortGen exTable) [] = .ok b ∧ b.goodness = 1 ∧ ∃ r, refined (sortGen exTable) [] r = .ok b := by
  obtain ⟨b, h1, h2, -⟩ := C137_best_merge (t := sortGen exTable) (sortGen_ne (by decide)) (sortGen_sorted _) []
  have h3 : (bestMerge 5 (sortGen exTable) []).toOption.map (·.goodness) = some 1 := by decide +kernel
  have h4 : bestMerge 5 (sortGen exTable) [] = .ok b := h1
  rw [h4] at h3
  have h5 : b.goodness = 1 := by simpa [Except.toOption] using h3
  exact ⟨b, h4, h5, h2 (by omega)⟩

/-- The table of four entries, stopped at three; without a target it gets to two. -/
example : ∃ t1 a1 t2 a2, orderedCovering 5 (fun _ => false) exTable (some 3) [] false = .ok (t1, a1) ∧ t1.length = 3 ∧
    orderedCovering 5 (fun _ => false) t1 none a1 true = .ok (t2, a2) ∧ t2.length = 2 ∧ Spent t2 a2 ∧
    orderedCovering 1 (fun _ => false) t2 (some 1) a2 true = .ok (t2, a2) := by
  refine ⟨_, _, _, _, rfl, by decide +kernel, (C138_resumed (t := exTable) (fuel := 5) (n := 3) (a := []) (noRaise := false)
    (by decide) (by decide) rfl).trans rfl, by decide +kernel, ?_,
    C138_again (t := exTable) (fuel := 5) (timeUp := fun _ => false) (a := []) (noRaise := true) (by decide) (by decide) rfl 0 _ _⟩
  rcases C138_spent (t := exTable) (fuel := 5) (timeUp := fun _ => false) (target := none) (a := []) (noRaise := true)
    (by decide) (by decide) rfl with h | ⟨n, h, -⟩
  · exact h
  · cases h

end Pacman.OC
