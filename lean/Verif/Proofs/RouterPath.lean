import Verif.Spec.RouterPath
import Verif.Proofs.Dict
import Verif.Proofs.Sort
/-
Proofs about the searches of the application router.
-/

namespace Pacman.RPath

theorem Walk.append {T : Topo} {a b c : XY} {p q : List Node} (h1 : Walk T a p b)
    (h2 : Walk T b q c) : Walk T a (p ++ q) c := by
  induction h1 with
  | nil => exact h2
  | cons h3 h4 h5 _ ih => exact .cons h3 h4 h5 (ih h2)

theorem Walk.snoc {T : Topo} {a b : XY} {p : List Node} {l : Nat} (h : Walk T a p b) (hl : l < 6)
    (hk : T.linkAt b l = true) (hc : T.over b l ∈ T.chips) :
    Walk T a (p ++ [(l, T.over b l)]) (T.over b l) :=
  h.append (.cons hl hk hc .nil)

/-- A walk seen from its end. -/
theorem Walk.rev {T : Topo} {a b : XY} {p : List Node} (h : Walk T a p b) :
    (p = [] ∧ a = b) ∨ ∃ q c l, p = q ++ [(l, b)] ∧ Walk T a q c ∧ l < 6 ∧ T.linkAt c l = true ∧
      b = T.over c l ∧ b ∈ T.chips := by
  induction h with
  | nil => exact Or.inl ⟨rfl, rfl⟩
  | @cons s e l ns hl hk hc hw ih =>
    rcases ih with ⟨h1, h2⟩ | ⟨q, c, l', h1, h2, h3, h4, h5, h6⟩
    · subst h1 h2
      exact Or.inr ⟨[], s, l, rfl, .nil, hl, hk, rfl, hc⟩
    · subst h1
      exact Or.inr ⟨(l, T.over s l) :: q, c, l', rfl, .cons hl hk hc h2, h3, h4, h5, h6⟩

theorem isOpen_iff {T : Topo} {c : XY} {a v : List XY} :
    isOpen T c a v = true ↔ c ∈ a ∧ c ∉ v ∧ c ∈ T.chips := by
  unfold isOpen Topo.chipAt
  rw [Bool.and_eq_true, Bool.and_eq_true, decide_eq_true_eq, decide_eq_true_eq, Bool.not_eq_true',
    decide_eq_false_iff_not, and_assoc]

theorem mem_expand {T : Topo} {v : List XY} {c : XY} {p : List Node} {x : XY × List Node} :
    x ∈ expand T v c p ↔ ∃ l, l < 6 ∧ T.linkAt c l = true ∧ T.over c l ∉ v ∧
      T.over c l ∈ T.chips ∧ x = (T.over c l, p ++ [(l, T.over c l)]) := by
  unfold expand
  rw [List.mem_filterMap]
  constructor
  · rintro ⟨l, hl, h⟩
    by_cases h1 : T.linkAt c l = true
    · rw [if_pos h1] at h
      by_cases h2 : isOpen T (T.over c l) [T.over c l] v = true
      · rw [if_pos h2] at h
        obtain ⟨_, h3, h4⟩ := isOpen_iff.1 h2
        exact ⟨l, List.mem_range.1 hl, h1, h3, h4, (Option.some.inj h).symm⟩
      · rw [if_neg h2] at h; cases h
    · rw [if_neg h1] at h; cases h
  · rintro ⟨l, hl, h1, h2, h3, h4⟩
    refine ⟨l, List.mem_range.2 hl, ?_⟩
    rw [if_pos h1, if_pos (isOpen_iff.2 ⟨List.mem_singleton.2 rfl, h2, h3⟩), h4]

theorem expand_length {T : Topo} {v : List XY} {c : XY} {p : List Node} :
    (expand T v c p).length ≤ 6 := by
  unfold expand
  exact Nat.le_trans (List.length_filterMap_le _ _) (by simp)

/-- How many chips of `L` are not yet visited. -/
def left (L v : List XY) : Nat := (L.filter (fun c => decide (c ∉ v))).length

theorem left_cons {L v : List XY} {c : XY} (hc : c ∈ L) (hv : c ∉ v) :
    left L (c :: v) + 1 ≤ left L v := by
  unfold left
  have hf : L.filter (fun a => decide (a ∉ c :: v)) =
      (L.filter (fun a => decide (a ∉ v))).filter (fun a => decide (a ≠ c)) := by
    rw [List.filter_filter]
    congr 1
    funext a
    simp [List.mem_cons, not_or]
  have hm : c ∈ L.filter (fun a => decide (a ∉ v)) :=
    List.mem_filter.2 ⟨hc, by simpa using hv⟩
  rw [hf]
  generalize L.filter (fun a => decide (a ∉ v)) = M at hm
  have hlt : (M.filter (fun a => decide (a ≠ c))).length < M.length := by
    apply Nat.lt_of_le_of_ne (List.length_filter_le _ _)
    intro heq
    have := List.length_filter_eq_length_iff.1 heq c hm
    simp at this
  omega

theorem left_le (L v : List XY) : left L v ≤ L.length := List.length_filter_le _ _

/-- What holds in the loop of `_find_path`. `D` is the number of hops to each visited chip. -/
structure FInv (T : Topo) (s target : XY) (q : List (XY × List Node)) (v : List XY)
    (D : XY → Nat) : Prop where
  walk : ∀ x ∈ q, Walk T s x.2 x.1
  sorted : q.Pairwise (fun a b => a.2.length ≤ b.2.length)
  span : ∀ x ∈ q.head?, ∀ y ∈ q, y.2.length ≤ x.2.length + 1
  start : s ∈ v ∨ (s, []) ∈ q
  least : ∀ c ∈ v, ∀ p, Walk T s p c → D c ≤ p.length
  next : ∀ c ∈ v, ∀ l, l < 6 → T.linkAt c l = true → T.over c l ∈ T.chips →
    T.over c l ∈ v ∨ ∃ p, (T.over c l, p) ∈ q ∧ p.length ≤ D c + 1
  target : target ∉ v
  known : ∀ x ∈ q, x.1 ∈ s :: T.chips

theorem FInv.find {T : Topo} {s target : XY} {q : List (XY × List Node)} {v : List XY}
    {D : XY → Nat} (hI : FInv T s target q v D) : ∀ (n : Nat) {c : XY} {p : List Node},
    p.length = n → Walk T s p c → c ∉ v → ∃ x ∈ q, x.2.length ≤ p.length := by
  intro n
  induction n with
  | zero =>
    intro c p hn hw hc
    have hp : p = [] := List.length_eq_zero_iff.1 hn
    subst hp
    cases hw
    rcases hI.start with h | h
    · exact absurd h hc
    · exact ⟨_, h, Nat.le_refl _⟩
  | succ n ih =>
    intro c p hn hw hc
    rcases hw.rev with ⟨h1, _⟩ | ⟨p', b, l, h1, h2, h3, h4, h5, h6⟩
    · subst h1; simp at hn
    · subst h1
      have hlen : p'.length = n := by simpa using hn
      by_cases hb : b ∈ v
      · rcases hI.next b hb l h3 h4 (h5 ▸ h6) with h7 | ⟨r, h7, h8⟩
        · exact absurd (h5 ▸ h7) hc
        · refine ⟨_, h7, ?_⟩
          have := hI.least b hb p' h2
          rw [List.length_append, List.length_singleton]
          show r.length ≤ _
          omega
      · obtain ⟨x, hx, h7⟩ := ih hlen h2 hb
        exact ⟨x, hx, by rw [List.length_append]; omega⟩

theorem head_least {q : List (XY × List Node)} {a : XY × List Node}
    (h : (a :: q).Pairwise (fun a b => a.2.length ≤ b.2.length)) :
    ∀ x ∈ a :: q, a.2.length ≤ x.2.length := by
  intro x hx
  rcases List.mem_cons.1 hx with hx | hx
  · rw [hx]; exact Nat.le_refl _
  · exact (List.pairwise_cons.1 h).1 x hx

theorem FInv.skip {T : Topo} {s target : XY} {q : List (XY × List Node)} {v : List XY}
    {D : XY → Nat} {c : XY} {p : List Node} (hI : FInv T s target ((c, p) :: q) v D) (hc : c ∈ v) :
    FInv T s target q v D := by
  obtain ⟨h1, h2⟩ := List.pairwise_cons.1 hI.sorted
  refine ⟨fun x hx => hI.walk x (List.mem_cons_of_mem _ hx), h2, ?_, ?_, hI.least, ?_, hI.target,
    fun x hx => hI.known x (List.mem_cons_of_mem _ hx)⟩
  · intro x hx y hy
    have hxq : x ∈ q := List.mem_of_mem_head? hx
    have := hI.span (c, p) (by simp) y (List.mem_cons_of_mem _ hy)
    have := h1 x hxq
    dsimp only at *
    omega
  · rcases hI.start with h | h
    · exact Or.inl h
    · rcases List.mem_cons.1 h with h | h
      · cases h; exact Or.inl hc
      · exact Or.inr h
  · intro b hb l hl hk hch
    rcases hI.next b hb l hl hk hch with h | ⟨r, h, h3⟩
    · exact Or.inl h
    · rcases List.mem_cons.1 h with h | h
      · left
        have : T.over b l = c := congrArg Prod.fst h
        rw [this]; exact hc
      · exact Or.inr ⟨r, h, h3⟩

theorem FInv.head {T : Topo} {s target : XY} {q : List (XY × List Node)} {v : List XY}
    {D : XY → Nat} {c : XY} {p : List Node} (hI : FInv T s target ((c, p) :: q) v D) (hc : c ∉ v)
    {r : List Node} (hr : Walk T s r c) : p.length ≤ r.length := by
  obtain ⟨x, hx, h1⟩ := hI.find _ rfl hr hc
  exact Nat.le_trans (head_least hI.sorted x hx) h1

theorem FInv.visit {T : Topo} {s target : XY} {q : List (XY × List Node)} {v : List XY}
    {D : XY → Nat} {c : XY} {p : List Node} (hI : FInv T s target ((c, p) :: q) v D) (hc : c ∉ v)
    (ht : c ≠ target) :
    FInv T s target (q ++ expand T (c :: v) c p) (c :: v)
      (fun x => if x = c then p.length else D x) := by
  obtain ⟨h1, h2⟩ := List.pairwise_cons.1 hI.sorted
  have hw : Walk T s p c := hI.walk (c, p) (by simp)
  have hlen : ∀ x ∈ expand T (c :: v) c p, x.2.length = p.length + 1 := by
    intro x hx
    obtain ⟨l, _, _, _, _, h⟩ := mem_expand.1 hx
    subst h
    simp
  have hq : ∀ x ∈ q, p.length ≤ x.2.length ∧ x.2.length ≤ p.length + 1 := by
    intro x hx
    exact ⟨h1 x hx, hI.span (c, p) (by simp) x (List.mem_cons_of_mem _ hx)⟩
  have hboth : ∀ x ∈ q ++ expand T (c :: v) c p, p.length ≤ x.2.length ∧ x.2.length ≤ p.length + 1 := by
    intro x hx
    rcases List.mem_append.1 hx with h | h
    · exact hq x h
    · have := hlen x h; omega
  refine ⟨?_, ?_, ?_, ?_, ?_, ?_, ?_, ?_⟩
  · intro x hx
    rcases List.mem_append.1 hx with h | h
    · exact hI.walk x (List.mem_cons_of_mem _ h)
    · obtain ⟨l, hl, hk, _, hch, he⟩ := mem_expand.1 h
      subst he
      exact hw.snoc hl hk hch
  · rw [List.pairwise_append]
    refine ⟨h2, ?_, ?_⟩
    · rw [List.pairwise_iff_forall_sublist]
      intro a b hab
      have ha := hab.subset (List.mem_cons_self)
      have hb := hab.subset (List.mem_cons_of_mem _ (List.mem_singleton.2 rfl))
      rw [hlen a ha, hlen b hb]
      exact Nat.le_refl _
    · intro a ha b hb
      rw [hlen b hb]
      exact (hq a ha).2
  · intro x hx y hy
    have := hboth x (List.mem_of_mem_head? hx)
    have := hboth y hy
    omega
  · rcases hI.start with h | h
    · exact Or.inl (List.mem_cons_of_mem _ h)
    · rcases List.mem_cons.1 h with h | h
      · cases h; exact Or.inl List.mem_cons_self
      · exact Or.inr (List.mem_append_left _ h)
  · intro b hb r hr
    by_cases hbc : b = c
    · subst hbc
      simp only [if_pos]
      exact hI.head hc hr
    · simp only [if_neg hbc]
      exact hI.least b ((List.mem_cons.1 hb).resolve_left hbc) r hr
  · intro b hb l hl hk hch
    by_cases hv : T.over b l ∈ c :: v
    · exact Or.inl hv
    · right
      by_cases hbc : b = c
      · subst hbc
        refine ⟨p ++ [(l, T.over b l)], List.mem_append_right _ (mem_expand.2
          ⟨l, hl, hk, hv, hch, rfl⟩), ?_⟩
        simp
      · simp only [if_neg hbc]
        rcases hI.next b ((List.mem_cons.1 hb).resolve_left hbc) l hl hk hch with h | ⟨r, h, h3⟩
        · exact absurd (List.mem_cons_of_mem _ h) hv
        · rcases List.mem_cons.1 h with h | h
          · have : T.over b l = c := congrArg Prod.fst h
            exact absurd (this ▸ List.mem_cons_self) hv
          · exact ⟨r, List.mem_append_left _ h, h3⟩
  · intro h
    rcases List.mem_cons.1 h with h | h
    · exact ht h.symm
    · exact hI.target h
  · intro x hx
    rcases List.mem_append.1 hx with h | h
    · exact hI.known x (List.mem_cons_of_mem _ h)
    · obtain ⟨l, hl, hk, _, hch, he⟩ := mem_expand.1 h
      subst he
      exact List.mem_cons_of_mem _ hch

theorem findLoop_spec {T : Topo} {s target : XY} (fuel : Nat) :
    ∀ {q : List (XY × List Node)} {v : List XY} {D : XY → Nat}, FInv T s target q v D →
    6 * left (s :: T.chips) v + q.length ≤ fuel →
    (∃ p, findLoop T target fuel q v = .ok p ∧ Walk T s p target ∧
      ∀ r, Walk T s r target → p.length ≤ r.length) ∨
    (findLoop T target fuel q v = .error .routing ∧ ∀ r, ¬ Walk T s r target) := by
  induction fuel with
  | zero =>
    intro q v D hI hm
    cases q with
    | cons a q => simp at hm
    | nil =>
      right
      refine ⟨rfl, fun r hr => ?_⟩
      obtain ⟨x, hx, _⟩ := hI.find _ rfl hr hI.target
      cases hx
  | succ fuel ih =>
    intro q v D hI hm
    cases q with
    | nil =>
      right
      refine ⟨rfl, fun r hr => ?_⟩
      obtain ⟨x, hx, _⟩ := hI.find _ rfl hr hI.target
      cases hx
    | cons a q =>
      obtain ⟨c, p⟩ := a
      simp only [findLoop]
      by_cases hc : c ∈ v
      · rw [if_pos hc]
        exact ih (hI.skip hc) (by simp only [List.length_cons] at hm; omega)
      · rw [if_neg hc]
        by_cases ht : c = target
        · rw [if_pos ht]
          subst ht
          exact Or.inl ⟨p, rfl, hI.walk (c, p) (by simp), fun r hr => hI.head hc hr⟩
        · rw [if_neg ht]
          refine ih (hI.visit hc ht) ?_
          have h1 : left (s :: T.chips) (c :: v) + 1 ≤ left (s :: T.chips) v :=
            left_cons (hI.known (c, p) (by simp)) hc
          have h2 : (expand T (c :: v) c p).length ≤ 6 := expand_length
          rw [List.length_append]
          simp only [List.length_cons] at hm
          omega

theorem findPath_spec (T : Topo) (s target : XY) :
    (∃ p, findPath T s target = .ok p ∧ Walk T s p target ∧
      ∀ r, Walk T s r target → p.length ≤ r.length) ∨
    (findPath T s target = .error .routing ∧ ∀ r, ¬ Walk T s r target) := by
  refine findLoop_spec (D := fun _ => 0) _ ⟨?_, ?_, ?_, ?_, ?_, ?_, ?_, ?_⟩ ?_
  · intro x hx; rw [List.mem_singleton.1 hx]; exact .nil
  · simp
  · intro x hx y hy
    rw [List.mem_singleton.1 hy]; simp
  · exact Or.inr (by simp)
  · intro c hc; cases hc
  · intro c hc; cases hc
  · simp
  · intro x hx; rw [List.mem_singleton.1 hx]; exact List.mem_cons_self
  · have := left_le (s :: T.chips) []
    simp only [List.length_cons, List.length_nil] at *
    omega

/-! `_find_reachable` -/

theorem mem_reachExpand {T : Topo} {a d v : List XY} {c x : XY} :
    x ∈ reachExpand T a d v c ↔ ∃ l, l < 6 ∧ T.linkAt c l = true ∧ x = T.over c l ∧ x ∈ a ∧ x ∉ d ∧
      x ∉ v ∧ x ∈ T.chips := by
  unfold reachExpand
  rw [List.mem_filterMap]
  constructor
  · rintro ⟨l, hl, h⟩
    by_cases h1 : T.linkAt c l = true
    · rw [if_pos h1] at h
      by_cases h2 : (isOpen T (T.over c l) a v && !decide (T.over c l ∈ d)) = true
      · rw [if_pos h2] at h
        rw [Bool.and_eq_true, isOpen_iff, Bool.not_eq_true', decide_eq_false_iff_not] at h2
        have he := Option.some.inj h
        subst he
        exact ⟨l, List.mem_range.1 hl, h1, rfl, h2.1.1, h2.2, h2.1.2.1, h2.1.2.2⟩
      · rw [if_neg h2] at h; cases h
    · rw [if_neg h1] at h; cases h
  · rintro ⟨l, hl, h1, h2, h3, h4, h5, h6⟩
    subst h2
    refine ⟨l, List.mem_range.2 hl, ?_⟩
    rw [if_pos h1, if_pos]
    rw [Bool.and_eq_true, isOpen_iff, Bool.not_eq_true', decide_eq_false_iff_not]
    exact ⟨⟨h3, h5, h6⟩, h4⟩

theorem reachLoop_spec {T : Topo} {s : XY} {a d : List XY} (fuel : Nat) :
    ∀ {q v : List XY}, (∀ x, x ∈ q ∨ x ∈ v → WalkIn T (fun c => c ∈ a ∧ c ∉ d) s x) →
    (s ∈ q ∨ s ∈ v) →
    (∀ c ∈ v, ∀ l, l < 6 → T.linkAt c l = true → T.over c l ∈ T.chips → T.over c l ∈ a →
      T.over c l ∉ d → T.over c l ∈ q ∨ T.over c l ∈ v) →
    (∀ x ∈ q, x ∈ s :: T.chips) →
    6 * left (s :: T.chips) v + q.length ≤ fuel →
    ∃ r, reachLoop T a d fuel q v = .ok r ∧
      ∀ x, x ∈ r ↔ WalkIn T (fun c => c ∈ a ∧ c ∉ d) s x := by
  have done : ∀ {v : List XY}, (∀ x, x ∈ ([] : List XY) ∨ x ∈ v → WalkIn T (fun c => c ∈ a ∧ c ∉ d) s x) →
      (s ∈ ([] : List XY) ∨ s ∈ v) →
      (∀ c ∈ v, ∀ l, l < 6 → T.linkAt c l = true → T.over c l ∈ T.chips → T.over c l ∈ a →
        T.over c l ∉ d → T.over c l ∈ ([] : List XY) ∨ T.over c l ∈ v) →
      ∀ x, x ∈ v ↔ WalkIn T (fun c => c ∈ a ∧ c ∉ d) s x := by
    intro v h1 h2 h3 x
    constructor
    · intro hx; exact h1 x (Or.inr hx)
    · intro hw
      induction hw with
      | nil => exact h2.resolve_left (by simp)
      | snoc _ hl hk hch hok ih =>
        exact (h3 _ ih _ hl hk hch hok.1 hok.2).resolve_left (by simp)
  induction fuel with
  | zero =>
    intro q v h1 h2 h3 h4 hm
    cases q with
    | cons a q => simp at hm
    | nil => exact ⟨v, rfl, done h1 h2 h3⟩
  | succ fuel ih =>
    intro q v h1 h2 h3 h4 hm
    cases q with
    | nil => exact ⟨v, rfl, done h1 h2 h3⟩
    | cons c q =>
      simp only [reachLoop]
      by_cases hc : c ∈ v
      · rw [if_pos hc]
        refine ih ?_ ?_ ?_ (fun x hx => h4 x (List.mem_cons_of_mem _ hx))
          (by simp only [List.length_cons] at hm; omega)
        · intro x hx
          exact h1 x (hx.imp (List.mem_cons_of_mem _) id)
        · rcases h2 with h | h
          · rcases List.mem_cons.1 h with h | h
            · exact Or.inr (h ▸ hc)
            · exact Or.inl h
          · exact Or.inr h
        · intro b hb l hl hk hch ha hd
          rcases h3 b hb l hl hk hch ha hd with h | h
          · rcases List.mem_cons.1 h with h | h
            · exact Or.inr (h ▸ hc)
            · exact Or.inl h
          · exact Or.inr h
      · rw [if_neg hc]
        have hwc := h1 c (Or.inl List.mem_cons_self)
        refine ih ?_ ?_ ?_ ?_ ?_
        · intro x hx
          rcases hx with hx | hx
          · rcases List.mem_append.1 hx with hx | hx
            · obtain ⟨l, hl, hk, he, ha, hd, _, hch⟩ := mem_reachExpand.1 (List.mem_reverse.1 hx)
              subst he
              exact .snoc hwc hl hk hch ⟨ha, hd⟩
            · exact h1 x (Or.inl (List.mem_cons_of_mem _ hx))
          · rcases List.mem_cons.1 hx with hx | hx
            · rw [hx]; exact hwc
            · exact h1 x (Or.inr hx)
        · rcases h2 with h | h
          · rcases List.mem_cons.1 h with h | h
            · exact Or.inr (h ▸ List.mem_cons_self)
            · exact Or.inl (List.mem_append_right _ h)
          · exact Or.inr (List.mem_cons_of_mem _ h)
        · intro b hb l hl hk hch ha hd
          by_cases hv : T.over b l ∈ c :: v
          · exact Or.inr hv
          · left
            rcases List.mem_cons.1 hb with hb | hb
            · subst hb
              exact List.mem_append_left _ (List.mem_reverse.2 (mem_reachExpand.2
                ⟨l, hl, hk, rfl, ha, hd, hv, hch⟩))
            · rcases h3 b hb l hl hk hch ha hd with h | h
              · rcases List.mem_cons.1 h with h | h
                · exact absurd (h ▸ List.mem_cons_self) hv
                · exact List.mem_append_right _ h
              · exact absurd (List.mem_cons_of_mem _ h) hv
        · intro x hx
          rcases List.mem_append.1 hx with hx | hx
          · obtain ⟨l, hl, hk, he, ha, hd, _, hch⟩ := mem_reachExpand.1 (List.mem_reverse.1 hx)
            exact List.mem_cons_of_mem _ hch
          · exact h4 x (List.mem_cons_of_mem _ hx)
        · have h5 := left_cons (h4 c List.mem_cons_self) hc
          have h6 : (reachExpand T a d (c :: v) c).length ≤ 6 := by
            unfold reachExpand
            exact Nat.le_trans (List.length_filterMap_le _ _) (by simp)
          rw [List.length_append, List.length_reverse]
          simp only [List.length_cons] at hm
          omega

theorem findReachable_spec (T : Topo) (s : XY) (a d : List XY) :
    ∃ r, findReachable T s a d = .ok r ∧
      ∀ x, x ∈ r ↔ WalkIn T (fun c => c ∈ a ∧ c ∉ d) s x := by
  refine reachLoop_spec _ ?_ (Or.inl (by simp)) ?_ ?_ ?_
  · intro x hx
    rcases hx with hx | hx
    · rw [List.mem_singleton.1 hx]; exact .nil
    · cases hx
  · intro c hc; cases hc
  · intro x hx; rw [List.mem_singleton.1 hx]; exact List.mem_cons_self
  · have := left_le (s :: T.chips) []
    simp only [List.length_cons, List.length_nil] at *
    omega

/-! `_path_without_errors` -/

theorem isOk_iff {T : Topo} {c : XY} {n : Node} :
    isOk T c n = true ↔ T.linkAt c n.1 = true ∧ n.2 ∈ T.chips := by
  unfold isOk Topo.chipAt
  rw [Bool.and_eq_true, decide_eq_true_eq]

theorem takeOk_spec {T : Topo} (ns : List Node) : ∀ {c e : XY}, Chain T c ns e →
    Walk T c (takeOk T c ns).1 (takeOk T c ns).2.1 ∧
    Chain T (takeOk T c ns).2.1 (takeOk T c ns).2.2 e ∧
    (takeOk T c ns).1 ++ (takeOk T c ns).2.2 = ns ∧
    ∀ x ∈ (takeOk T c ns).2.2.head?, isOk T (takeOk T c ns).2.1 x = false := by
  induction ns with
  | nil =>
    intro c e h
    refine ⟨.nil, h, rfl, ?_⟩
    intro x hx; cases hx
  | cons n ns ih =>
    intro c e h
    cases h with
    | @cons _ _ l _ hl hch =>
      unfold takeOk
      by_cases hok : isOk T c (l, T.over c l) = true
      · rw [if_pos hok]
        obtain ⟨h1, h2, h3, h4⟩ := ih hch
        obtain ⟨h5, h6⟩ := isOk_iff.1 hok
        refine ⟨.cons hl h5 h6 h1, h2, ?_, h4⟩
        show _ :: _ ++ _ = _
        rw [List.cons_append, h3]
      · rw [if_neg hok]
        refine ⟨.nil, .cons hl hch, rfl, ?_⟩
        intro x hx
        cases hx
        cases hh : isOk T c (l, T.over c l) with
        | true => exact absurd hh hok
        | false => rfl

theorem skipBad_spec {T : Topo} (ns : List Node) : ∀ {c e : XY}, Chain T c ns e →
    Chain T (skipBad T c ns).1 (skipBad T c ns).2 e ∧
    (skipBad T c ns).2.length ≤ ns.length ∧
    ((skipBad T c ns).2.length = ns.length → (skipBad T c ns).1 = c) ∧
    (∀ x ∈ ns.head?, isOk T c x = false → (skipBad T c ns).2.length < ns.length) ∧
    (skipBad T c ns).1 ∈ visits c ns ∧
    (∀ x ∈ (skipBad T c ns).2, x ∈ ns) := by
  induction ns with
  | nil =>
    intro c e h
    exact ⟨h, Nat.le_refl _, fun _ => rfl, fun x hx => (by cases hx), List.mem_cons_self,
      fun x hx => hx⟩
  | cons n ns ih =>
    intro c e h
    cases h with
    | @cons _ _ l _ hl hch =>
      unfold skipBad
      by_cases hok : isOk T c (l, T.over c l) = true
      · rw [if_pos hok]
        refine ⟨.cons hl hch, Nat.le_refl _, fun _ => rfl, ?_, List.mem_cons_self, fun x hx => hx⟩
        intro x hx hx'
        cases hx
        rw [hok] at hx'; cases hx'
      · rw [if_neg hok]
        obtain ⟨h1, h2, _, _, h5, h6⟩ := ih hch
        refine ⟨h1, ?_, ?_, ?_, ?_, ?_⟩
        · simp only [List.length_cons]; omega
        · intro heq; simp only [List.length_cons] at heq; omega
        · intro x hx _; simp only [List.length_cons]; omega
        · unfold visits at *
          rcases List.mem_cons.1 h5 with h5 | h5
          · rw [h5]; simp
          · simp [h5]
        · intro x hx; exact List.mem_cons_of_mem _ (h6 x hx)

theorem visits_mono {s t : XY} {ns ms : List Node} (h : ∀ x ∈ ms, x ∈ ns) (ht : t ∈ visits s ns) :
    ∀ x ∈ visits t ms, x ∈ visits s ns := by
  intro x hx
  unfold visits at hx
  rcases List.mem_cons.1 hx with hx | hx
  · rw [hx]; exact ht
  · obtain ⟨n, hn, he⟩ := List.mem_map.1 hx
    unfold visits
    exact List.mem_cons_of_mem _ (List.mem_map.2 ⟨n, h n hn, he⟩)

theorem takeOk_visits {T : Topo} (ns : List Node) : ∀ {c : XY},
    (takeOk T c ns).2.1 ∈ visits c ns ∧ ∀ x ∈ (takeOk T c ns).2.2, x ∈ ns := by
  induction ns with
  | nil => intro c; exact ⟨List.mem_cons_self, fun x hx => hx⟩
  | cons n ns ih =>
    intro c
    unfold takeOk
    by_cases hok : isOk T c n = true
    · rw [if_pos hok]
      obtain ⟨h1, h2⟩ := ih (c := n.2)
      refine ⟨?_, fun x hx => List.mem_cons_of_mem _ (h2 x hx)⟩
      unfold visits at *
      rcases List.mem_cons.1 h1 with h1 | h1
      · simp [h1]
      · simp [h1]
    · rw [if_neg hok]
      exact ⟨List.mem_cons_self, fun x hx => hx⟩

theorem fixLoop_spec {T : Topo} {s : XY} (fuel : Nat) : ∀ {c e : XY} {ns acc : List Node},
    Chain T c ns e → Walk T s acc c → ns.length ≤ fuel →
    (∃ r, fixLoop T fuel c ns acc = .ok r ∧ Walk T s r e) ∨
    (fixLoop T fuel c ns acc = .error .routing ∧
      ∃ a ∈ visits c ns, ∃ b ∈ visits c ns, ∀ r, ¬ Walk T a r b) := by
  induction fuel with
  | zero =>
    intro c e ns acc hc hw hl
    cases ns with
    | nil => cases hc; exact Or.inl ⟨acc, rfl, hw⟩
    | cons n ns => simp at hl
  | succ fuel ih =>
    intro c e ns acc hc hw hl
    cases ns with
    | nil => cases hc; exact Or.inl ⟨acc, rfl, hw⟩
    | cons n ns =>
      simp only [fixLoop]
      obtain ⟨t1, t2, t3, t4⟩ := takeOk_spec (n :: ns) hc
      obtain ⟨v1, v2⟩ := takeOk_visits (T := T) (n :: ns) (c := c)
      generalize hA : takeOk T c (n :: ns) = A at *
      obtain ⟨pre, c1, r1⟩ := A
      simp only at t1 t2 t3 t4 v1 v2 ⊢
      obtain ⟨k1, k2, k3, k4, k5, k6⟩ := skipBad_spec r1 t2
      generalize hB : skipBad T c1 r1 = B at *
      obtain ⟨c2, r2⟩ := B
      simp only at k1 k2 k3 k4 k5 k6 ⊢
      have hsub : ∀ x ∈ r2, x ∈ n :: ns := fun x hx => v2 x (k6 x hx)
      have hv2 : c2 ∈ visits c (n :: ns) := visits_mono v2 v1 c2 k5
      have hlen : r2.length ≤ fuel := by
        have hr1 : pre.length + r1.length = ns.length + 1 := by
          rw [← List.length_append, t3, List.length_cons]
        simp only [List.length_cons] at hl
        cases r1 with
        | nil => simp only [List.length_nil] at k2; omega
        | cons x r1 =>
          have := k4 x (by simp) (t4 x (by simp))
          omega
      have lift : ∀ {acc' : List Node}, Walk T s acc' c2 →
          (∃ r, fixLoop T fuel c2 r2 acc' = .ok r ∧ Walk T s r e) ∨
          (fixLoop T fuel c2 r2 acc' = .error .routing ∧
            ∃ a ∈ visits c (n :: ns), ∃ b ∈ visits c (n :: ns), ∀ r, ¬ Walk T a r b) := by
        intro acc' hw'
        rcases ih k1 hw' hlen with h | ⟨h, a, ha, b, hb, hno⟩
        · exact Or.inl h
        · exact Or.inr ⟨h, a, visits_mono hsub hv2 a ha, b, visits_mono hsub hv2 b hb, hno⟩
      by_cases hne : r2.length ≠ r1.length
      · rw [if_pos hne]
        rcases findPath_spec T c1 c2 with ⟨p, hp, hwp, _⟩ | ⟨hp, hno⟩
        · simp only [hp]
          exact lift ((hw.append t1).append hwp)
        · simp only [hp]
          exact Or.inr ⟨trivial, c1, v1, c2, hv2, hno⟩
      · rw [if_neg hne]
        have heq : c2 = c1 := k3 (by omega)
        exact lift (heq ▸ hw.append t1)

theorem fixErrors_spec {T : Topo} {s e : XY} {ns : List Node} (h : Chain T s ns e) :
    (∃ r, fixErrors T s ns = .ok r ∧ Walk T s r e) ∨
    (fixErrors T s ns = .error .routing ∧
      ∃ a ∈ visits s ns, ∃ b ∈ visits s ns, ∀ r, ¬ Walk T a r b) :=
  fixLoop_spec _ h .nil (Nat.le_refl _)

end Pacman.RPath
