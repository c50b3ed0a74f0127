import Verif.Proofs.RouterPath
/-
Proofs about loop removal and longest-dimension-first vectors.
-/

namespace Pacman.RPath

theorem Walk.take {T : Topo} {s e : XY} {p : List Node} (h : Walk T s p e) : ∀ {k : Nat} {x : XY},
    (visits s p)[k]? = some x → Walk T s (p.take k) x := by
  induction h with
  | nil =>
    intro k x hx
    cases k with
    | zero =>
      simp only [visits, List.getElem?_cons_zero, Option.some.injEq] at hx
      subst hx; exact .nil
    | succ k => simp [visits] at hx
  | @cons s e l ns hl hk hc _ ih =>
    intro k x hx
    cases k with
    | zero =>
      simp only [visits, List.getElem?_cons_zero, Option.some.injEq] at hx
      subst hx; exact .nil
    | succ k =>
      rw [List.take_succ_cons]
      refine .cons hl hk hc (ih ?_)
      simpa [visits] using hx

theorem visits_append (s : XY) (p q : List Node) :
    visits s (p ++ q) = visits s p ++ q.map (·.2) := by
  simp [visits]

theorem visits_take (s : XY) (p : List Node) (k : Nat) :
    visits s (p.take k) = (visits s p).take (k + 1) := by
  simp [visits, List.map_take]

/-- What holds in the loop of `_path_without_loops`: `K` are the nodes before `i`, `R` those from
`i` on, `P` the chips of the given list visited up to `i`. -/
structure LInv (T : Topo) (s e : XY) (K R : List Node) (P : List XY) (seen : Dict XY Nat) :
    Prop where
  walk : ∃ c, Walk T s K c ∧ Walk T c R e
  index : ∀ k x, (visits s K)[k]? = some x → seen.get? x = some k
  valid : ∀ k x, seen.get? x = some k → (visits s K)[k]? = some x ∨ x ∉ R.map (·.2)
  nodup : (visits s K).Nodup
  sub : (visits s K).Sublist P
  noReturn : NoReturn (P ++ R.map (·.2))

theorem loopsLoop_spec {T : Topo} {s e : XY} (fuel : Nat) : ∀ {K R : List Node} {P : List XY}
    {seen : Dict XY Nat}, LInv T s e K R P seen → R.length ≤ fuel →
    ∃ r, loopsLoop fuel (K ++ R) K.length seen = .ok r ∧ Walk T s r e ∧ (visits s r).Nodup := by
  induction fuel with
  | zero =>
    intro K R P seen hI hl
    have hR : R = [] := List.length_eq_zero_iff.1 (by omega)
    subst hR
    obtain ⟨c, h1, h2⟩ := hI.walk
    cases h2
    refine ⟨K, ?_, h1, hI.nodup⟩
    unfold loopsLoop
    simp
  | succ fuel ih =>
    intro K R P seen hI hl
    cases R with
    | nil =>
      obtain ⟨c, h1, h2⟩ := hI.walk
      cases h2
      refine ⟨K, ?_, h1, hI.nodup⟩
      unfold loopsLoop
      simp
    | cons n R =>
      have hget : (K ++ n :: R)[K.length]? = some n := by simp
      unfold loopsLoop
      simp only [hget]
      obtain ⟨c, hw1, hw2⟩ := hI.walk
      cases hw2 with
      | @cons _ _ l _ hl6 hk hch hw3 =>
      generalize hx : T.over c l = x at *
      have hRl : R.length ≤ fuel := by simp only [List.length_cons] at hl; omega
      have hmap : ((l, x) :: R).map (·.2) = x :: R.map (·.2) := rfl
      cases hs : Dict.get? seen x with
      | some k =>
        simp only
        have hv : (visits s K)[k]? = some x := by
          rcases hI.valid k x hs with h | h
          · exact h
          · exact absurd (by rw [hmap]; exact List.mem_cons_self) h
        have hkK : k ≤ K.length := by
          obtain ⟨h1, _⟩ := List.getElem?_eq_some_iff.1 hv
          simp only [visits, List.length_cons, List.length_map] at h1
          omega
        have hnodes : (K ++ (l, x) :: R).take k ++ (K ++ (l, x) :: R).drop (max k (K.length + 1)) =
            K.take k ++ R := by
          rw [Nat.max_eq_right (by omega), List.take_append_of_le_length hkK,
            List.drop_append]
          have h1 : K.drop (K.length + 1) = [] := List.drop_eq_nil_of_le (by omega)
          have h2 : K.length + 1 - K.length = 1 := by omega
          rw [h1, h2]
          rfl
        have hlen : (K.take k).length = k := by rw [List.length_take]; omega
        rw [hnodes]
        have hI' : LInv T s e (K.take k) R (P ++ [x]) seen := by
          refine ⟨⟨x, hw1.take hv, hw3⟩, ?_, ?_, ?_, ?_, ?_⟩
          · intro j y hj
            rw [visits_take, List.getElem?_take] at hj
            by_cases hjk : j < k + 1
            · rw [if_pos hjk] at hj; exact hI.index j y hj
            · rw [if_neg hjk] at hj; cases hj
          · intro j y hj
            rcases hI.valid j y hj with h | h
            · by_cases hjk : j < k + 1
              · left
                rw [visits_take, List.getElem?_take, if_pos hjk]
                exact h
              · right
                -- y is on the loop that is cut out
                obtain ⟨hkl, hkx⟩ := List.getElem?_eq_some_iff.1 hv
                have hsplit : visits s K = (visits s K).take k ++ x :: (visits s K).drop (k + 1) := by
                  conv => lhs; rw [← List.take_append_drop k (visits s K)]
                  rw [List.drop_eq_getElem_cons hkl, hkx]
                have hyB : y ∈ (visits s K).drop (k + 1) := by
                  rw [List.mem_iff_getElem?]
                  refine ⟨j - (k + 1), ?_⟩
                  rw [List.getElem?_drop, ← h]
                  congr 1
                  omega
                have hyx : y ≠ x := by
                  intro hyx
                  subst hyx
                  have h1 := hI.index j y h
                  rw [hs] at h1
                  cases h1
                  omega
                have hsub := hI.sub
                rw [hsplit] at hsub
                obtain ⟨P1, P2, hP, _, hP2⟩ := List.append_sublist_iff.1 hsub
                obtain ⟨Q1, Q2, hQ, hQ1, hQ2⟩ := List.cons_sublist_iff.1 hP2
                obtain ⟨Q3, Q4, hQ34⟩ := List.append_of_mem hQ1
                have hno := hI.noReturn (P1 ++ Q3) (Q4 ++ Q2) (R.map (·.2)) x (by
                  rw [hP, hQ, hQ34, hmap]; simp)
                exact hno y (List.mem_append_right _ (hQ2.subset hyB)) hyx
            · right
              intro hh
              exact h (by rw [hmap]; exact List.mem_cons_of_mem _ hh)
          · rw [visits_take]
            exact List.Sublist.nodup (List.take_sublist _ _) hI.nodup
          · rw [visits_take]
            exact ((List.take_sublist _ _).trans hI.sub).trans (List.sublist_append_left _ _)
          · have := hI.noReturn
            rw [hmap] at this
            rw [List.append_assoc]
            exact this
        have := ih hI' hRl
        rw [hlen] at this
        exact this
      | none =>
        simp only
        have hnew : x ∉ visits s K := by
          intro hm
          obtain ⟨k, hk'⟩ := List.mem_iff_getElem?.1 hm
          have := hI.index k x hk'
          rw [hs] at this; cases this
        have hvis : visits s (K ++ [(l, x)]) = visits s K ++ [x] := by rw [visits_append]; rfl
        have hvlen : (visits s K).length = K.length + 1 := by simp [visits]
        have hI' : LInv T s e (K ++ [(l, x)]) R (P ++ [x]) (seen.set x (K.length + 1)) := by
          refine ⟨⟨x, ?_, hw3⟩, ?_, ?_, ?_, ?_, ?_⟩
          · have := hw1.snoc hl6 hk (by rw [hx]; exact hch)
            rw [hx] at this
            exact this
          · intro j y hj
            rw [hvis, List.getElem?_append] at hj
            by_cases hjl : j < (visits s K).length
            · rw [if_pos hjl] at hj
              rw [Dict.get?_set_ne]
              · exact hI.index j y hj
              · intro hxy
                subst hxy
                exact hnew (List.mem_iff_getElem?.2 ⟨j, hj⟩)
            · rw [if_neg hjl] at hj
              have hj0 : j - (visits s K).length = 0 := by
                cases hh : j - (visits s K).length with
                | zero => rfl
                | succ m => rw [hh] at hj; simp at hj
              rw [hj0] at hj
              simp only [List.getElem?_cons_zero, Option.some.injEq] at hj
              subst hj
              rw [Dict.get?_set_self]
              congr 1
              omega
          · intro j y hj
            by_cases hxy : x = y
            · subst hxy
              rw [Dict.get?_set_self] at hj
              cases hj
              left
              rw [hvis, List.getElem?_append, if_neg (by omega), hvlen]
              simp
            · rw [Dict.get?_set_ne _ _ hxy] at hj
              rcases hI.valid j y hj with h | h
              · left
                obtain ⟨h1, _⟩ := List.getElem?_eq_some_iff.1 h
                rw [hvis, List.getElem?_append, if_pos h1]
                exact h
              · right
                intro hh
                exact h (by rw [hmap]; exact List.mem_cons_of_mem _ hh)
          · rw [hvis, List.nodup_append]
            refine ⟨hI.nodup, by simp, ?_⟩
            intro a ha b hb
            rw [List.mem_singleton.1 hb]
            intro hab; exact hnew (hab ▸ ha)
          · rw [hvis]
            exact hI.sub.append (List.Sublist.refl _)
          · have := hI.noReturn
            rw [hmap] at this
            rw [List.append_assoc]
            exact this
        have := ih hI' hRl
        rw [List.append_assoc, List.length_append] at this
        exact this

theorem withoutLoops_spec {T : Topo} {s e : XY} {ns : List Node} (h : Walk T s ns e)
    (hn : NoReturn (visits s ns)) :
    ∃ r, withoutLoops s ns = .ok r ∧ Walk T s r e ∧ (visits s r).Nodup := by
  have hI : LInv T s e [] ns [s] [(s, 0)] := by
    refine ⟨⟨s, .nil, h⟩, ?_, ?_, by simp [visits], List.Sublist.refl _, hn⟩
    · intro k x hx
      cases k with
      | zero =>
        simp only [visits, List.getElem?_cons_zero, Option.some.injEq] at hx
        subst hx
        rw [Dict.get?_cons]; simp
      | succ k => simp [visits] at hx
    · intro k x hx
      rw [Dict.get?_cons] at hx
      by_cases hsx : s = x
      · rw [if_pos hsx] at hx
        cases hx
        left; simp [visits, hsx]
      · rw [if_neg hsx] at hx
        cases hx
  exact loopsLoop_spec ns.length hI (Nat.le_refl _)

/-- The loop always ends, with some of the nodes. -/
theorem loopsLoop_sublist (fuel : Nat) : ∀ (nodes : List Node) (i : Nat) (seen : Dict XY Nat),
    nodes.length ≤ i + fuel →
    ∃ r, loopsLoop fuel nodes i seen = .ok r ∧ r.Sublist nodes := by
  induction fuel with
  | zero =>
    intro nodes i seen hl
    unfold loopsLoop
    have : nodes[i]? = none := List.getElem?_eq_none_iff.2 (by omega)
    simp only [this]
    exact ⟨nodes, rfl, List.Sublist.refl _⟩
  | succ fuel ih =>
    intro nodes i seen hl
    unfold loopsLoop
    cases hg : nodes[i]? with
    | none => exact ⟨nodes, rfl, List.Sublist.refl _⟩
    | some n =>
      simp only
      have hi : i < nodes.length := (List.getElem?_eq_some_iff.1 hg).1
      cases hs : Dict.get? seen n.2 with
      | none => exact ih nodes (i + 1) _ (by omega)
      | some k =>
        simp only
        have hsub : (nodes.take k ++ nodes.drop (max k (i + 1))).Sublist nodes := by
          have h1 : (nodes.drop (max k (i + 1))).Sublist (nodes.drop k) :=
            List.drop_sublist_drop_left _ (Nat.le_max_left _ _)
          have h2 := (List.Sublist.refl (nodes.take k)).append h1
          rw [List.take_append_drop] at h2
          exact h2
        obtain ⟨r, hr, hr'⟩ := ih (nodes.take k ++ nodes.drop (max k (i + 1))) k seen (by
          rw [List.length_append, List.length_take, List.length_drop]
          omega)
        exact ⟨r, hr, hr'.trans hsub⟩

theorem loopsLoop_simple {s : XY} (fuel : Nat) : ∀ (K R : List Node) (seen : Dict XY Nat),
    (visits s (K ++ R)).Nodup → (∀ x, seen.get? x ≠ none → x ∈ visits s K) → R.length ≤ fuel →
    loopsLoop fuel (K ++ R) K.length seen = .ok (K ++ R) := by
  induction fuel with
  | zero =>
    intro K R seen hn hseen hl
    have hR : R = [] := List.length_eq_zero_iff.1 (by omega)
    subst hR
    unfold loopsLoop
    simp
  | succ fuel ih =>
    intro K R seen hn hseen hl
    cases R with
    | nil => unfold loopsLoop; simp
    | cons n R =>
      have hget : (K ++ n :: R)[K.length]? = some n := by simp
      unfold loopsLoop
      simp only [hget]
      have hnone : Dict.get? seen n.2 = none := by
        apply Classical.byContradiction
        intro hne
        have hm := hseen n.2 hne
        rw [visits_append, List.nodup_append] at hn
        exact hn.2.2 n.2 hm n.2 (by simp) rfl
      simp only [hnone]
      have := ih (K ++ [n]) R (seen.set n.2 (K.length + 1)) (by simpa using hn) (by
        intro x hx
        rw [visits_append]
        by_cases hxn : n.2 = x
        · exact List.mem_append_right _ (by simp [hxn])
        · rw [Dict.get?_set_ne _ _ hxn] at hx
          exact List.mem_append_left _ (hseen x hx)) (by simp only [List.length_cons] at hl; omega)
      rw [List.append_assoc, List.length_append] at this
      exact this

theorem withoutLoops_simple {s : XY} {ns : List Node} (h : (visits s ns).Nodup) :
    withoutLoops s ns = .ok ns := by
  have := loopsLoop_simple (s := s) ns.length [] ns [(s, 0)] h (by
    intro x hx
    rw [Dict.get?_cons] at hx
    by_cases hsx : s = x
    · simp [visits, hsx]
    · rw [if_neg hsx] at hx; exact absurd rfl hx) (Nat.le_refl _)
  exact this

/-! Vectors -/

theorem Chain.append {T : Topo} {a b c : XY} {p q : List Node} (h1 : Chain T a p b)
    (h2 : Chain T b q c) : Chain T a (p ++ q) c := by
  induction h1 with
  | nil => exact h2
  | cons h3 _ ih => exact .cons h3 (ih h2)

theorem linkFor_lt (d : Nat) (m : Int) : linkFor d m < 6 := by
  unfold linkFor
  split
  · split <;> omega
  · split
    · split <;> omega
    · split <;> omega

theorem move_chain {T : Topo} {l : Nat} (hl : l < 6) (n : Nat) : ∀ c : XY,
    Chain T c (move T l n c).2 (move T l n c).1 ∧ (move T l n c).2.map (·.1) = List.replicate n l := by
  induction n with
  | zero => intro c; exact ⟨.nil, rfl⟩
  | succ n ih =>
    intro c
    obtain ⟨h1, h2⟩ := ih (T.over c l)
    refine ⟨.cons hl h1, ?_⟩
    show l :: (move T l n (T.over c l)).2.map (·.1) = _
    rw [h2]; rfl

theorem wrap_wrap (w : Option Nat) (a b : Int) : wrap w (wrap w a + b) = wrap w (a + b) := by
  cases w with
  | none => rfl
  | some w => exact Int.emod_add_emod a w b

theorem move_end {T : Topo} {w h : Option Nat} (hg : Grid T w h) {l : Nat} (hl : l < 6) (n : Nat) :
    ∀ a b : Int, (move T l n (wrap w a, wrap h b)).1 =
      (wrap w (a + n * (linkAdd l).1), wrap h (b + n * (linkAdd l).2)) := by
  induction n with
  | zero => intro a b; simp [move]
  | succ n ih =>
    intro a b
    show (move T l n (T.over (wrap w a, wrap h b) l)).1 = _
    rw [hg _ l hl]
    simp only [wrap_wrap]
    rw [ih]
    have h1 : ∀ x y : Int, x + y + n * y = x + ((n + 1 : Nat) : Int) * y := by
      intro x y; rw [Int.natCast_add, Int.add_mul]; simp only [Int.natCast_one, Int.one_mul]; omega
    rw [h1, h1]

theorem vectorToNodes_chain {T : Topo} (v : List (Nat × Int)) : ∀ c : XY,
    ∃ e, Chain T c (vectorToNodes T v c) e ∧
      (vectorToNodes T v c).map (·.1) =
        v.flatMap (fun d => List.replicate d.2.natAbs (linkFor d.1 d.2)) := by
  induction v with
  | nil => intro c; exact ⟨c, .nil, rfl⟩
  | cons d v ih =>
    intro c
    obtain ⟨d, m⟩ := d
    unfold vectorToNodes
    by_cases hm : m = 0
    · rw [if_pos hm]
      obtain ⟨e, h1, h2⟩ := ih c
      refine ⟨e, h1, ?_⟩
      rw [h2, List.flatMap_cons, hm]
      rfl
    · rw [if_neg hm]
      obtain ⟨h3, h4⟩ := move_chain (T := T) (linkFor_lt d m) m.natAbs c
      obtain ⟨e, h1, h2⟩ := ih (move T (linkFor d m) m.natAbs c).1
      refine ⟨e, h3.append h1, ?_⟩
      show (_ ++ _ : List Node).map _ = _
      rw [List.map_append, h2, h4, List.flatMap_cons]

/-- How far one step in a dimension goes. -/
def dimAdd : Nat → Int × Int
  | 0 => (1, 0)
  | 1 => (0, 1)
  | _ => (-1, -1)

theorem linkFor_add (d : Nat) (m : Int) :
    (m.natAbs : Int) * (linkAdd (linkFor d m)).1 = m * (dimAdd d).1 ∧
    (m.natAbs : Int) * (linkAdd (linkFor d m)).2 = m * (dimAdd d).2 := by
  match d with
  | 0 =>
    unfold linkFor
    rw [if_pos rfl]
    by_cases h : m > 0
    · rw [if_pos h]; simp only [linkAdd, dimAdd]; omega
    · rw [if_neg h]; simp only [linkAdd, dimAdd]; omega
  | 1 =>
    unfold linkFor
    rw [if_neg (by decide), if_pos rfl]
    by_cases h : m > 0
    · rw [if_pos h]; simp only [linkAdd, dimAdd]; omega
    · rw [if_neg h]; simp only [linkAdd, dimAdd]; omega
  | d + 2 =>
    unfold linkFor
    rw [if_neg (by omega), if_neg (by omega)]
    by_cases h : m > 0
    · rw [if_pos h]; simp only [linkAdd, dimAdd]; omega
    · rw [if_neg h]; simp only [linkAdd, dimAdd]; omega

theorem Chain.end_unique {T : Topo} {a b c : XY} {p : List Node} (h1 : Chain T a p b)
    (h2 : Chain T a p c) : b = c := by
  induction h1 with
  | nil => cases h2; rfl
  | cons _ _ ih => cases h2 with
    | cons _ h => exact ih h

theorem vectorToNodes_end {T : Topo} {w h : Option Nat} (hg : Grid T w h) (v : List (Nat × Int)) :
    ∀ a b : Int, Chain T (wrap w a, wrap h b) (vectorToNodes T v (wrap w a, wrap h b))
      (wrap w (a + (v.map (fun d => d.2 * (dimAdd d.1).1)).sum),
       wrap h (b + (v.map (fun d => d.2 * (dimAdd d.1).2)).sum)) := by
  induction v with
  | nil => intro a b; simp only [List.map_nil, List.sum_nil, Int.add_zero]; exact .nil
  | cons d v ih =>
    intro a b
    obtain ⟨d, m⟩ := d
    unfold vectorToNodes
    simp only [List.map_cons, List.sum_cons]
    by_cases hm : m = 0
    · rw [if_pos hm, hm, Int.zero_mul, Int.zero_mul, Int.zero_add, Int.zero_add]
      exact ih a b
    · rw [if_neg hm]
      obtain ⟨h3, _⟩ := move_chain (T := T) (linkFor_lt d m) m.natAbs (wrap w a, wrap h b)
      have h4 := move_end hg (linkFor_lt d m) m.natAbs a b
      obtain ⟨h5, h6⟩ := linkFor_add d m
      rw [h5, h6] at h4
      rw [h4] at h3
      show Chain T _ ((move T (linkFor d m) m.natAbs (wrap w a, wrap h b)).2 ++
        vectorToNodes T v (move T (linkFor d m) m.natAbs (wrap w a, wrap h b)).1) _
      rw [h4]
      have := h3.append (ih (a + m * (dimAdd d).1) (b + m * (dimAdd d).2))
      rw [Int.add_assoc, Int.add_assoc] at this
      exact this

theorem sumI_perm {l m : List Int} (h : l.Perm m) : l.sum = m.sum := by
  induction h with
  | nil => rfl
  | cons x _ ih => rw [List.sum_cons, List.sum_cons, ih]
  | swap x y l => simp only [List.sum_cons]; omega
  | trans _ _ ih1 ih2 => rw [ih1, ih2]

end Pacman.RPath
