import Verif.Spec.RouterTree
import Verif.Proofs.RouterPath
/-
Proofs about the building of routes.
-/

namespace Pacman.RPath

theorem Leads.trans {R : Routes} {a b c : XY} (h1 : Leads R a b) (h2 : Leads R b c) :
    Leads R a c := by
  induction h2 with
  | refl => exact h1
  | step _ h ih => exact .step ih h

theorem Edge.mono {R0 R : Routes} (h : Extends R0 R) {a b : XY} {l : Nat} (he : Edge R0 a l b) :
    Edge R a l b := by
  obtain ⟨ch, h1, h2⟩ := he
  obtain ⟨more, h3⟩ := h a ch h1
  exact ⟨_, h3, List.mem_append_left _ h2⟩

theorem Leads.mono {R0 R : Routes} (h : Extends R0 R) {a b : XY} (he : Leads R0 a b) :
    Leads R a b := by
  induction he with
  | refl => exact .refl
  | step _ h1 ih => exact .step ih (h1.mono h)

theorem Routed.mono {R0 R : Routes} (h : Extends R0 R) {a : XY} (he : Routed R0 a) :
    Routed R a := by
  obtain ⟨ch, h1⟩ := he
  obtain ⟨more, h3⟩ := h a ch h1
  exact ⟨_, h3⟩

theorem Extends.refl (R : Routes) : Extends R R := fun _ ch h => ⟨[], by simpa using h⟩

theorem Extends.trans {A B C : Routes} (h1 : Extends A B) (h2 : Extends B C) : Extends A C := by
  intro c ch h
  obtain ⟨m1, h3⟩ := h1 c ch h
  obtain ⟨m2, h4⟩ := h2 c _ h3
  exact ⟨m1 ++ m2, by rw [h4, List.append_assoc]⟩

theorem routed_iff {R : Routes} {c : XY} : (R.get? c).isSome = true ↔ Routed R c := by
  unfold Routed
  cases R.get? c <;> simp

theorem routed_false {R : Routes} {c : XY} : ¬ Routed R c ↔ R.get? c = none := by
  unfold Routed
  cases R.get? c <;> simp

theorem Edge.routed {R : Routes} {a b : XY} {l : Nat} (h : Edge R a l b) : Routed R a :=
  ⟨_, h.choose_spec.1⟩

theorem extends_new {R : Routes} {c : XY} (h : ¬ Routed R c) : Extends R (R.set c []) := by
  intro d ch hd
  refine ⟨[], ?_⟩
  rw [Dict.get?_set, if_neg, hd, List.append_nil]
  rintro rfl
  exact h ⟨ch, hd⟩

theorem edge_new {R : Routes} {c : XY} (h : ¬ Routed R c) {a b : XY} {l : Nat} :
    Edge (R.set c []) a l b ↔ Edge R a l b := by
  unfold Edge
  rw [Dict.get?_set]
  by_cases hc : c = a
  · rw [if_pos hc]
    subst hc
    rw [routed_false] at h
    simp [h]
  · rw [if_neg hc]

theorem routed_new {R : Routes} {c d : XY} : Routed (R.set c []) d ↔ d = c ∨ Routed R d := by
  unfold Routed
  rw [Dict.get?_set]
  by_cases hc : c = d
  · rw [if_pos hc]; simp [hc]
  · rw [if_neg hc]
    constructor
    · exact Or.inr
    · rintro (rfl | h)
      · exact absurd rfl hc
      · exact h

theorem extends_addChild (R : Routes) (p : XY) (n : Node) : Extends R (addChild R p n) := by
  intro c ch hc
  unfold addChild
  rw [Dict.get?_set]
  by_cases h : p = c
  · subst h
    rw [if_pos rfl, hc]
    exact ⟨[n], rfl⟩
  · rw [if_neg h]
    exact ⟨[], by simpa using hc⟩

theorem edge_addChild {R : Routes} {p : XY} {n : Node} {a b : XY} {l : Nat} :
    Edge (addChild R p n) a l b ↔ Edge R a l b ∨ (a = p ∧ n = (l, b)) := by
  unfold Edge addChild
  rw [Dict.get?_set]
  by_cases h : p = a
  · subst h
    rw [if_pos rfl]
    cases hg : R.get? p with
    | none => simp [eq_comm]
    | some ch => simp [eq_comm]
  · rw [if_neg h]
    constructor
    · exact Or.inl
    · rintro (h1 | ⟨h1, _⟩)
      · exact h1
      · exact absurd h1.symm h

theorem routed_addChild {R : Routes} {p : XY} {n : Node} {c : XY} :
    Routed (addChild R p n) c ↔ c = p ∨ Routed R c := by
  unfold Routed addChild
  rw [Dict.get?_set]
  by_cases h : p = c
  · rw [if_pos h]; simp [h]
  · rw [if_neg h]
    constructor
    · exact Or.inr
    · rintro (rfl | h1)
      · exact absurd rfl h
      · exact h1

/-- The edges that `linkBack` adds. -/
def backEdges (last : XY) : List (XY × Nat) → List (XY × Nat × XY)
  | [] => []
  | (p, l) :: rest => (p, l, last) :: backEdges p rest

theorem linkBack_extends (rev : List (XY × Nat)) (R : Routes) (last : XY) :
    Extends R (linkBack R last rev) := by
  induction rev generalizing R last with
  | nil => exact Extends.refl R
  | cons x rest ih => exact (extends_addChild R x.1 (x.2, last)).trans (ih _ _)

theorem linkBack_edge (rev : List (XY × Nat)) (R : Routes) (last : XY) {a b : XY} {l : Nat} :
    Edge (linkBack R last rev) a l b ↔ Edge R a l b ∨ (a, l, b) ∈ backEdges last rev := by
  induction rev generalizing R last with
  | nil => simp [linkBack, backEdges]
  | cons x rest ih =>
    obtain ⟨p, k⟩ := x
    rw [linkBack, ih, edge_addChild, backEdges]
    simp only [List.mem_cons, Prod.mk.injEq]
    constructor
    · rintro ((h | ⟨rfl, rfl, rfl⟩) | h)
      · exact Or.inl h
      · exact Or.inr (Or.inl ⟨rfl, rfl, rfl⟩)
      · exact Or.inr (Or.inr h)
    · rintro (h | ⟨rfl, rfl, rfl⟩ | h)
      · exact Or.inl (Or.inl h)
      · exact Or.inl (Or.inr ⟨rfl, rfl, rfl⟩)
      · exact Or.inr h

theorem linkBack_routed (rev : List (XY × Nat)) (R : Routes) (last : XY) {c : XY} :
    Routed (linkBack R last rev) c ↔ Routed R c ∨ ∃ l, (c, l) ∈ rev := by
  induction rev generalizing R last with
  | nil => simp [linkBack]
  | cons x rest ih =>
    obtain ⟨p, k⟩ := x
    rw [linkBack, ih, routed_addChild]
    simp only [List.mem_cons, Prod.mk.injEq]
    constructor
    · rintro ((rfl | h) | ⟨l, h⟩)
      · exact Or.inr ⟨k, Or.inl ⟨rfl, rfl⟩⟩
      · exact Or.inl h
      · exact Or.inr ⟨l, Or.inr h⟩
    · rintro (h | ⟨l, ⟨rfl, rfl⟩ | h⟩)
      · exact Or.inl (Or.inr h)
      · exact Or.inl (Or.inl rfl)
      · exact Or.inr ⟨l, h⟩

theorem backEdges_ends (rev : List (XY × Nat)) : ∀ {c a b : XY} {l : Nat},
    (a, l, b) ∈ backEdges c rev → b = c ∨ ∃ k, (b, k) ∈ rev := by
  induction rev with
  | nil => intro c a b l h; cases h
  | cons y r ih =>
    obtain ⟨p, k⟩ := y
    intro c a b l h
    rw [backEdges] at h
    rcases List.mem_cons.1 h with h | h
    · left
      have : a = p ∧ l = k ∧ b = c := by simpa using h
      exact this.2.2
    · right
      rcases ih h with rfl | ⟨k', hk⟩
      · exact ⟨k, List.mem_cons_self⟩
      · exact ⟨k', List.mem_cons_of_mem _ hk⟩

/-- The rest of a path, read backwards from chip `p`: it follows the parents of the search down to a
chip that is routed or where the search began. -/
def Rest (first : XY) (R0 R : Routes) (par : XY → Option (XY × Nat)) : List (XY × Nat) → XY → Prop
  | [], p => Routed R p ∨ p = first
  | (p', l) :: r, p => par p = some (p', l) ∧ ¬ Routed R0 p ∧ Rest first R0 R par r p'

/-- A path backwards from a chip that is queued. -/
def Back (first : XY) (R0 R : Routes) (T : Topo) (v : List XY) (par : XY → Option (XY × Nat)) :
    List (XY × Nat) → XY → Prop
  | [], c => c = first
  | (p, l) :: r, c => Wired T p l c ∧ p ∈ v ∧ Rest first R0 R par r p

theorem Rest.mono {first : XY} {R0 R R' : Routes} {par par' : XY → Option (XY × Nat)}
    (hR : Extends R R') (hp : ∀ c x, par c = some x → par' c = some x) :
    ∀ (r : List (XY × Nat)) (p : XY), Rest first R0 R par r p → Rest first R0 R' par' r p
  | [], p, h => h.elim (fun h => Or.inl (h.mono hR)) Or.inr
  | (_, _) :: r, _, h => ⟨hp _ _ h.1, h.2.1, Rest.mono hR hp r _ h.2.2⟩

theorem Back.mono {first : XY} {R0 R R' : Routes} {T : Topo} {v : List XY}
    {par par' : XY → Option (XY × Nat)} {x : XY} (hR : Extends R R')
    (hp : ∀ c x, par c = some x → par' c = some x) {r : List (XY × Nat)} {c : XY}
    (h : Back first R0 R T v par r c) : Back first R0 R' T (x :: v) par' r c := by
  cases r with
  | nil => exact h
  | cons y r =>
    obtain ⟨p, l⟩ := y
    exact ⟨h.1, List.mem_cons_of_mem _ h.2.1, Rest.mono hR hp r p h.2.2⟩

/-- What holds in the loop of `_route_to_xys`. `par` is the parent of each visited chip, `D` the
round in which it was visited. -/
structure RInv (T : Topo) (first : XY) (all targets : List XY) (R0 : Routes)
    (q : List (XY × List (XY × Nat))) (v todo : List XY) (R : Routes)
    (par : XY → Option (XY × Nat)) (D : XY → Nat) : Prop where
  queue : ∀ x ∈ q, Back first R0 R T v par x.2.reverse x.1
  parOk : ∀ b a l, par b = some (a, l) → b ∈ v ∧ a ∈ v ∧ D a < D b ∧ Wired T a l b
  dlt : ∀ c ∈ v, D c < v.length
  grows : Extends R0 R
  edges : ∀ a l b, Edge R a l b → Edge R0 a l b ∨ (par b = some (a, l) ∧ ¬ Routed R0 b)
  ends : ∀ a l b, Edge R a l b → Edge R0 a l b ∨ Routed R b
  rooted : ∀ c, Routed R c → Routed R0 c ∨
    (c ∈ v ∧ ∃ r, (Routed R0 r ∨ r = first) ∧ Leads R r c)
  start : first ∈ v ∨ ∃ p, (first, p) ∈ q
  next : ∀ c ∈ v, ∀ l, l < 6 → T.linkAt c l = true → T.over c l ∈ T.chips → T.over c l ∈ all →
    T.over c l ∈ v ∨ ∃ p, (T.over c l, p) ∈ q
  walkV : ∀ c ∈ v, WalkIn T (· ∈ all) first c
  walkQ : ∀ x ∈ q, WalkIn T (· ∈ all) first x.1
  todoOk : ∀ t, t ∈ todo ↔ t ∈ targets ∧ t ∉ v
  done : ∀ t ∈ targets, t ∈ v → Routed R t
  known : ∀ x ∈ q, x.1 ∈ first :: T.chips

theorem mem_spread {T : Topo} {all v : List XY} {c : XY} {p : List (XY × Nat)}
    {x : XY × List (XY × Nat)} :
    x ∈ spread T all v c p ↔ ∃ l, l < 6 ∧ T.linkAt c l = true ∧ T.over c l ∈ all ∧
      T.over c l ∉ v ∧ T.over c l ∈ T.chips ∧ x = (T.over c l, p ++ [(c, l)]) := by
  unfold spread
  rw [List.mem_filterMap]
  constructor
  · rintro ⟨l, hl, h⟩
    by_cases h1 : T.linkAt c l = true
    · rw [if_pos h1] at h
      by_cases h2 : isOpen T (T.over c l) all v = true
      · rw [if_pos h2] at h
        obtain ⟨h0, h3, h4⟩ := isOpen_iff.1 h2
        exact ⟨l, List.mem_range.1 hl, h1, h0, h3, h4, (Option.some.inj h).symm⟩
      · rw [if_neg h2] at h; cases h
    · rw [if_neg h1] at h; cases h
  · rintro ⟨l, hl, h1, h0, h2, h3, h4⟩
    refine ⟨l, List.mem_range.2 hl, ?_⟩
    rw [if_pos h1, if_pos (isOpen_iff.2 ⟨h0, h2, h3⟩), h4]

theorem spread_length {T : Topo} {all v : List XY} {c : XY} {p : List (XY × Nat)} :
    (spread T all v c p).length ≤ 6 := by
  unfold spread
  exact Nat.le_trans (List.length_filterMap_le _ _) (by simp)

/-- What `arrive` does to the routes: the edges it adds follow the parents, everything routed hangs
together. -/
theorem arrive_spec {T : Topo} {first : XY} {all targets : List XY} {R0 : Routes}
    {q : List (XY × List (XY × Nat))} {v todo : List XY} {R : Routes}
    {par : XY → Option (XY × Nat)} {D : XY → Nat} {xy : XY} {path : List (XY × Nat)}
    (h : RInv T first all targets R0 ((xy, path) :: q) v todo R par D) (hv : xy ∉ v) :
    Extends R (arrive targets R xy path).1 ∧
    (∀ a l b, Edge (arrive targets R xy path).1 a l b → Edge R a l b ∨
      ((if b = xy then path.reverse.head? else par b) = some (a, l) ∧ ¬ Routed R0 b)) ∧
    (∀ a l b, Edge (arrive targets R xy path).1 a l b → Edge R a l b ∨
      Routed (arrive targets R xy path).1 b) ∧
    (∀ c, Routed (arrive targets R xy path).1 c → Routed R c ∨
      (c ∈ xy :: v ∧ ∃ r, (Routed R0 r ∨ r = first) ∧ Leads (arrive targets R xy path).1 r c)) ∧
    (xy ∈ targets → Routed (arrive targets R xy path).1 xy) ∧
    Rest first R0 (arrive targets R xy path).1
      (fun c => if c = xy then path.reverse.head? else par c)
      (arrive targets R xy path).2.reverse xy := by
  have hb := h.queue _ List.mem_cons_self
  simp only at hb
  have hpar : ∀ c x, par c = some x → (if c = xy then path.reverse.head? else par c) = some x := by
    intro c x hx
    rw [if_neg, hx]
    rintro rfl
    obtain ⟨a, l⟩ := x
    exact hv (h.parOk c a l hx).1
  unfold arrive
  by_cases hR : (R.get? xy).isSome = true
  · rw [if_pos hR]
    rw [routed_iff] at hR
    refine ⟨Extends.refl R, fun a l b he => Or.inl he, fun a l b he => Or.inl he, fun c hc => Or.inl hc, fun _ => hR, ?_⟩
    exact Or.inl hR
  · rw [if_neg hR]
    rw [routed_iff] at hR
    have hR0 : ¬ Routed R0 xy := fun h0 => hR (h0.mono h.grows)
    by_cases ht : xy ∈ targets
    · rw [if_pos ht]
      simp only
      generalize hrev : path.reverse = rev at *
      have hext : Extends R (linkBack (R.set xy []) xy rev) :=
        (extends_new hR).trans (linkBack_extends _ _ _)
      -- the edges added
      have hE : ∀ (r : List (XY × Nat)) (c : XY), Rest first R0 R par r c → ∀ a l b,
          (a, l, b) ∈ backEdges c r → par b = some (a, l) ∧ ¬ Routed R0 b := by
        intro r
        induction r with
        | nil => intro c _ a l b hm; cases hm
        | cons y r ih =>
          obtain ⟨p, k⟩ := y
          intro c hr a l b hm
          rw [backEdges] at hm
          rcases List.mem_cons.1 hm with hm | hm
          · obtain ⟨rfl, rfl, rfl⟩ : a = p ∧ l = k ∧ b = c := by
              simpa using hm
            exact ⟨hr.1, hr.2.1⟩
          · exact ih p hr.2.2 a l b hm
      -- every chip on the path hangs on a root
      have hroot : ∀ (r : List (XY × Nat)) (c : XY), Rest first R0 R par r c →
          (∀ a l b, (a, l, b) ∈ backEdges c r → Edge (linkBack (R.set xy []) xy rev) a l b) →
          ∃ s, (Routed R0 s ∨ s = first) ∧ Leads (linkBack (R.set xy []) xy rev) s c := by
        intro r
        induction r with
        | nil =>
          intro c hr _
          rcases hr with hr | hr
          · rcases h.rooted c hr with h0 | ⟨_, s, hs, hl⟩
            · exact ⟨c, Or.inl h0, .refl⟩
            · exact ⟨s, hs, hl.mono hext⟩
          · exact ⟨c, Or.inr hr, .refl⟩
        | cons y r ih =>
          obtain ⟨p, k⟩ := y
          intro c hr hm
          obtain ⟨s, hs, hl⟩ := ih p hr.2.2 (fun a l b hab => hm a l b (by
            rw [backEdges]; exact List.mem_cons_of_mem _ hab))
          exact ⟨s, hs, .step hl (hm p k c (by rw [backEdges]; exact List.mem_cons_self))⟩
      have hvis : ∀ (r : List (XY × Nat)) (c : XY), Rest first R0 R par r c → ∀ p l, (p, l) ∈ r →
          p ∈ v ∧ ∃ r', Rest first R0 R par r' p ∧
            (∀ x, x ∈ backEdges p r' → x ∈ backEdges c r) := by
        intro r
        induction r with
        | nil => intro c _ p l hm; cases hm
        | cons y r ih =>
          obtain ⟨p', k⟩ := y
          intro c hr p l hm
          rcases List.mem_cons.1 hm with hm | hm
          · obtain ⟨rfl, rfl⟩ : p = p' ∧ l = k := by simpa using hm
            refine ⟨(h.parOk c p l hr.1).2.1, r, hr.2.2, ?_⟩
            intro x hx
            rw [backEdges]
            exact List.mem_cons_of_mem _ hx
          · obtain ⟨h1, r', h2, h3⟩ := ih p' hr.2.2 p l hm
            refine ⟨h1, r', h2, ?_⟩
            intro x hx
            rw [backEdges]
            exact List.mem_cons_of_mem _ (h3 x hx)
      refine ⟨hext, ?_, ?_, ?_, ?_, ?_⟩
      rotate_left
      · intro a l b he
        rw [linkBack_edge, edge_new hR] at he
        rcases he with he | he
        · exact Or.inl he
        · right
          rw [linkBack_routed, routed_new]
          rcases backEdges_ends _ he with h1 | h1
          · exact Or.inl (Or.inl h1)
          · exact Or.inr h1
      rotate_right
      · intro a l b he
        rw [linkBack_edge, edge_new hR] at he
        rcases he with he | he
        · exact Or.inl he
        · right
          cases rev with
          | nil => cases he
          | cons y r =>
            obtain ⟨p, k⟩ := y
            rw [backEdges] at he
            rcases List.mem_cons.1 he with he | he
            · obtain ⟨rfl, rfl, rfl⟩ : a = p ∧ l = k ∧ b = xy := by simpa using he
              exact ⟨by simp, hR0⟩
            · obtain ⟨h1, h2⟩ := hE r p hb.2.2 a l b he
              exact ⟨hpar b _ h1, h2⟩
      · intro c hc
        rw [linkBack_routed, routed_new] at hc
        rcases hc with (rfl | hc) | ⟨l, hc⟩
        · right
          refine ⟨List.mem_cons_self, ?_⟩
          cases rev with
          | nil => exact ⟨first, Or.inr rfl, hb ▸ .refl⟩
          | cons y r =>
            obtain ⟨p, k⟩ := y
            obtain ⟨s, hs, hl⟩ := hroot r p hb.2.2 (fun a l b hab => by
              rw [linkBack_edge, backEdges]
              exact Or.inr (List.mem_cons_of_mem _ hab))
            refine ⟨s, hs, .step hl (l := k) ?_⟩
            rw [linkBack_edge, backEdges]
            exact Or.inr List.mem_cons_self
        · exact Or.inl hc
        · right
          cases rev with
          | nil => cases hc
          | cons y r =>
            obtain ⟨p, k⟩ := y
            rcases List.mem_cons.1 hc with hc | hc
            · obtain ⟨rfl, rfl⟩ : c = p ∧ l = k := by simpa using hc
              refine ⟨List.mem_cons_of_mem _ hb.2.1, ?_⟩
              exact hroot r c hb.2.2 (fun a l' b hab => by
                rw [linkBack_edge, backEdges]
                exact Or.inr (List.mem_cons_of_mem _ hab))
            · obtain ⟨h1, r', h2, h3⟩ := hvis r p hb.2.2 c l hc
              refine ⟨List.mem_cons_of_mem _ h1, hroot r' c h2 (fun a l' b hab => ?_)⟩
              rw [linkBack_edge, backEdges]
              exact Or.inr (List.mem_cons_of_mem _ (h3 _ hab))
      · intro _
        rw [linkBack_routed, routed_new]
        exact Or.inl (Or.inl rfl)
      · left
        rw [linkBack_routed, routed_new]
        exact Or.inl (Or.inl rfl)
    · rw [if_neg ht]
      refine ⟨Extends.refl R, fun a l b he => Or.inl he, fun a l b he => Or.inl he, fun c hc => Or.inl hc,
        fun h => absurd h ht, ?_⟩
      simp only
      generalize hrev : path.reverse = rev at *
      cases rev with
      | nil => exact Or.inr hb
      | cons y r =>
        obtain ⟨p, k⟩ := y
        refine ⟨by simp, hR0, ?_⟩
        exact Rest.mono (Extends.refl R) hpar r p hb.2.2

/-- One round on a chip not yet visited. -/
theorem RInv.visit {T : Topo} {first : XY} {all targets : List XY} {R0 : Routes}
    {q : List (XY × List (XY × Nat))} {v todo : List XY} {R : Routes}
    {par : XY → Option (XY × Nat)} {D : XY → Nat} {xy : XY} {path : List (XY × Nat)}
    (h : RInv T first all targets R0 ((xy, path) :: q) v todo R par D) (hv : xy ∉ v) :
    RInv T first all targets R0
      (q ++ spread T all (xy :: v) xy (arrive targets R xy path).2) (xy :: v)
      (todo.filter (fun t => decide (t ≠ xy))) (arrive targets R xy path).1
      (fun c => if c = xy then path.reverse.head? else par c)
      (fun c => if c = xy then v.length else D c) := by
  obtain ⟨hext, hedge, hends, hrooted, htarget, hrest⟩ := arrive_spec h hv
  have hb := h.queue _ List.mem_cons_self
  simp only at hb
  have hpar : ∀ c x, par c = some x → (if c = xy then path.reverse.head? else par c) = some x := by
    intro c x hx
    rw [if_neg, hx]
    rintro rfl
    obtain ⟨a, l⟩ := x
    exact hv (h.parOk c a l hx).1
  have hD : ∀ c ∈ v, (if c = xy then v.length else D c) = D c := by
    intro c hc
    rw [if_neg]
    rintro rfl
    exact hv hc
  have hwalk : WalkIn T (· ∈ all) first xy := h.walkQ _ List.mem_cons_self
  refine ⟨?_, ?_, ?_, h.grows.trans hext, ?_, ?_, ?_, ?_, ?_, ?_, ?_, ?_, ?_, ?_⟩
  · intro x hx
    rcases List.mem_append.1 hx with hx | hx
    · exact (h.queue x (List.mem_cons_of_mem _ hx)).mono hext hpar
    · obtain ⟨l, hl, h1, h2, h3, h4, rfl⟩ := mem_spread.1 hx
      simp only [List.reverse_append, List.reverse_cons, List.reverse_nil, List.nil_append,
        List.singleton_append]
      exact ⟨⟨hl, h1, rfl, h4⟩, List.mem_cons_self, hrest⟩
  · intro b a l hba
    by_cases hx : b = xy
    · rw [if_pos hx] at hba
      subst hx
      generalize path.reverse = rev at *
      cases rev with
      | nil => cases hba
      | cons y r =>
        simp only [List.head?_cons, Option.some.injEq] at hba
        subst hba
        refine ⟨List.mem_cons_self, List.mem_cons_of_mem _ hb.2.1, ?_, hb.1⟩
        simp only
        rw [hD a hb.2.1, if_pos trivial]
        exact h.dlt a hb.2.1
    · rw [if_neg hx] at hba
      obtain ⟨h1, h2, h3, h4⟩ := h.parOk b a l hba
      refine ⟨List.mem_cons_of_mem _ h1, List.mem_cons_of_mem _ h2, ?_, h4⟩
      rw [hD a h2, hD b h1]
      exact h3
  · intro c hc
    rcases List.mem_cons.1 hc with rfl | hc
    · simp
    · rw [hD c hc]
      have := h.dlt c hc
      simp only [List.length_cons]
      omega
  · intro a l b he
    rcases hedge a l b he with he | he
    · rcases h.edges a l b he with h0 | ⟨h1, h2⟩
      · exact Or.inl h0
      · exact Or.inr ⟨hpar b _ h1, h2⟩
    · exact Or.inr he
  · intro a l b he
    rcases hends a l b he with he | he
    · rcases h.ends a l b he with h0 | h0
      · exact Or.inl h0
      · exact Or.inr (h0.mono hext)
    · exact Or.inr he
  · intro c hc
    rcases hrooted c hc with hc | hc
    · rcases h.rooted c hc with h0 | ⟨h1, r, h2, h3⟩
      · exact Or.inl h0
      · exact Or.inr ⟨List.mem_cons_of_mem _ h1, r, h2, h3.mono hext⟩
    · exact Or.inr hc
  · rcases h.start with hs | ⟨p, hp⟩
    · exact Or.inl (List.mem_cons_of_mem _ hs)
    · rcases List.mem_cons.1 hp with hp | hp
      · injection hp with h1 _
        exact Or.inl (h1 ▸ List.mem_cons_self)
      · exact Or.inr ⟨p, List.mem_append_left _ hp⟩
  · intro c hc l hl h1 h2 h3
    by_cases hin : T.over c l ∈ xy :: v
    · exact Or.inl hin
    · right
      rcases List.mem_cons.1 hc with rfl | hc
      · exact ⟨_, List.mem_append_right _ (mem_spread.2 ⟨l, hl, h1, h3, hin, h2, rfl⟩)⟩
      · rcases h.next c hc l hl h1 h2 h3 with h4 | ⟨p, hp⟩
        · exact absurd (List.mem_cons_of_mem _ h4) hin
        · rcases List.mem_cons.1 hp with hp | hp
          · injection hp with h5 _
            exact absurd (h5 ▸ List.mem_cons_self) hin
          · exact ⟨p, List.mem_append_left _ hp⟩
  · intro c hc
    rcases List.mem_cons.1 hc with rfl | hc
    · exact hwalk
    · exact h.walkV c hc
  · intro x hx
    rcases List.mem_append.1 hx with hx | hx
    · exact h.walkQ x (List.mem_cons_of_mem _ hx)
    · obtain ⟨l, hl, h1, h2, h3, h4, rfl⟩ := mem_spread.1 hx
      exact .snoc hwalk hl h1 h4 h2
  · intro t
    rw [List.mem_filter, h.todoOk]
    simp only [ne_eq, decide_not, Bool.not_eq_true', decide_eq_false_iff_not, List.mem_cons, not_or]
    constructor
    · rintro ⟨⟨h1, h2⟩, h3⟩; exact ⟨h1, h3, h2⟩
    · rintro ⟨h1, h3, h2⟩; exact ⟨⟨h1, h2⟩, h3⟩
  · intro t ht htv
    rcases List.mem_cons.1 htv with rfl | htv
    · exact htarget ht
    · exact (h.done t ht htv).mono hext
  · intro x hx
    rcases List.mem_append.1 hx with hx | hx
    · exact h.known x (List.mem_cons_of_mem _ hx)
    · obtain ⟨l, hl, h1, h2, h3, h4, rfl⟩ := mem_spread.1 hx
      exact List.mem_cons_of_mem _ h4

/-- A round on a chip already visited. -/
theorem RInv.skip {T : Topo} {first : XY} {all targets : List XY} {R0 : Routes}
    {q : List (XY × List (XY × Nat))} {v todo : List XY} {R : Routes}
    {par : XY → Option (XY × Nat)} {D : XY → Nat} {xy : XY} {path : List (XY × Nat)}
    (h : RInv T first all targets R0 ((xy, path) :: q) v todo R par D) (hv : xy ∈ v) :
    RInv T first all targets R0 q v (todo.filter (fun t => decide (t ≠ xy))) R par D := by
  refine ⟨fun x hx => h.queue x (List.mem_cons_of_mem _ hx), h.parOk, h.dlt, h.grows, h.edges,
    h.ends, h.rooted, ?_, ?_, h.walkV, fun x hx => h.walkQ x (List.mem_cons_of_mem _ hx), ?_, h.done,
    fun x hx => h.known x (List.mem_cons_of_mem _ hx)⟩
  · rcases h.start with hs | ⟨p, hp⟩
    · exact Or.inl hs
    · rcases List.mem_cons.1 hp with hp | hp
      · injection hp with h1 _
        exact Or.inl (h1 ▸ hv)
      · exact Or.inr ⟨p, hp⟩
  · intro c hc l hl h1 h2 h3
    rcases h.next c hc l hl h1 h2 h3 with h4 | ⟨p, hp⟩
    · exact Or.inl h4
    · rcases List.mem_cons.1 hp with hp | hp
      · injection hp with h5 _
        exact Or.inl (h5 ▸ hv)
      · exact Or.inr ⟨p, hp⟩
  · intro t
    rw [List.mem_filter, h.todoOk]
    simp only [ne_eq, decide_not, Bool.not_eq_true', decide_eq_false_iff_not]
    constructor
    · rintro ⟨h1, _⟩; exact h1
    · rintro h1
      refine ⟨h1, ?_⟩
      rintro rfl
      exact h1.2 hv

/-- What `_route_to_xys` leaves, and when it fails. -/
theorem routeLoop_spec {T : Topo} {first : XY} {all targets : List XY} {R0 : Routes}
    (fuel : Nat) {q : List (XY × List (XY × Nat))} {v todo : List XY} {R : Routes}
    {par : XY → Option (XY × Nat)} {D : XY → Nat}
    (h : RInv T first all targets R0 q v todo R par D)
    (hf : q.length + 6 * left (first :: T.chips) v ≤ fuel) :
    (∃ R' v' par' D', routeLoop T all targets fuel q v todo R = .ok R' ∧
      RInv T first all targets R0 [] v' [] R' par' D') ∨
    (∃ v' todo' R' par' D', routeLoop T all targets fuel q v todo R = .error .routing ∧
      todo' ≠ [] ∧ RInv T first all targets R0 [] v' todo' R' par' D') := by
  induction fuel generalizing q v todo R par D with
  | zero =>
    cases q with
    | nil =>
      unfold routeLoop
      by_cases ht : todo = []
      · rw [if_pos ht]; subst ht
        exact Or.inl ⟨_, _, _, _, rfl, h⟩
      · rw [if_neg ht]
        exact Or.inr ⟨_, _, _, _, _, rfl, ht, h⟩
    | cons x q => simp at hf
  | succ fuel ih =>
    cases q with
    | nil =>
      unfold routeLoop
      by_cases ht : todo = []
      · rw [if_pos ht]; subst ht
        exact Or.inl ⟨_, _, _, _, rfl, h⟩
      · rw [if_neg ht]
        exact Or.inr ⟨_, _, _, _, _, rfl, ht, h⟩
    | cons x q =>
      obtain ⟨xy, path⟩ := x
      rw [routeLoop]
      by_cases hv : xy ∈ v
      · simp only [if_pos hv]
        refine ih (h.skip hv) ?_
        simp only [List.length_cons] at hf
        omega
      · simp only [if_neg hv]
        refine ih (h.visit hv) ?_
        have h1 := left_cons (h.known _ List.mem_cons_self) hv
        have h2 := @spread_length T all (xy :: v) xy (arrive targets R xy path).2
        simp only [List.length_append, List.length_cons] at *
        omega

theorem routeToXys_spec (T : Topo) (first : XY) (all targets : List XY) (R0 : Routes) :
    (∃ R' v' par' D', routeToXys T first all R0 targets = .ok R' ∧
      RInv T first all targets R0 [] v' [] R' par' D') ∨
    (∃ v' todo' R' par' D', routeToXys T first all R0 targets = .error .routing ∧
      todo' ≠ [] ∧ RInv T first all targets R0 [] v' todo' R' par' D') := by
  refine routeLoop_spec (par := fun _ => none) (D := fun _ => 0) _
    ⟨?_, ?_, ?_, Extends.refl _, ?_, ?_, ?_, ?_, ?_, ?_, ?_, ?_, ?_, ?_⟩ ?_
  · intro x hx; rw [List.mem_singleton.1 hx]; exact rfl
  · intro b a l h; cases h
  · intro c hc; cases hc
  · exact fun a l b he => Or.inl he
  · exact fun a l b he => Or.inl he
  · exact fun c hc => Or.inl hc
  · exact Or.inr ⟨[], by simp⟩
  · intro c hc; cases hc
  · intro c hc; cases hc
  · intro x hx; rw [List.mem_singleton.1 hx]; exact .nil
  · intro t; simp
  · intro t _ ht; cases ht
  · intro x hx; rw [List.mem_singleton.1 hx]; exact List.mem_cons_self
  · have := left_le (first :: T.chips) []
    simp only [List.length_cons, List.length_nil] at *
    omega

/-- At the end exactly the chips that can be reached have been visited. -/
theorem RInv.complete {T : Topo} {first : XY} {all targets : List XY} {R0 : Routes}
    {v todo : List XY} {R : Routes} {par : XY → Option (XY × Nat)} {D : XY → Nat}
    (h : RInv T first all targets R0 [] v todo R par D) {c : XY} :
    c ∈ v ↔ WalkIn T (· ∈ all) first c := by
  refine ⟨h.walkV c, fun hw => ?_⟩
  induction hw with
  | nil =>
    rcases h.start with hs | ⟨p, hp⟩
    · exact hs
    · cases hp
  | snoc _ hl h1 h2 h3 ih =>
    rcases h.next _ ih _ hl h1 h2 h3 with h4 | ⟨p, hp⟩
    · exact h4
    · cases hp

end Pacman.RPath
