import Verif.Proofs.RouterTree
import Verif.Proofs.RouterLoops
/-
Proofs about `_route_pre_to_post`.
-/

namespace Pacman.RPath

/-- The edges of a hop list from `c`. -/
def hops (c : XY) : List Node → List (XY × Nat × XY)
  | [] => []
  | (l, d) :: ns => (c, l, d) :: hops d ns

theorem addNodes_spec (source : XY) (ns : List Node) : ∀ (R : Routes) (c : XY),
    (∀ n ∈ ns, ¬ Routed R n.2) → (visits c ns).Nodup → Routed R c →
    ∃ R', addNodes source R c ns = .ok R' ∧ Extends R R' ∧
      (∀ a l b, Edge R' a l b ↔ Edge R a l b ∨ (a, l, b) ∈ hops c ns) ∧
      (∀ d, Routed R' d ↔ Routed R d ∨ ∃ n ∈ ns, n.2 = d) := by
  induction ns with
  | nil =>
    intro R c _ _ _
    exact ⟨R, rfl, Extends.refl R, by simp [hops], by simp⟩
  | cons n ns ih =>
    obtain ⟨l, d⟩ := n
    intro R c hfree hnd hc
    have hd : ¬ Routed R d := hfree (l, d) List.mem_cons_self
    rw [addNodes, if_neg (fun h => hd (routed_iff.1 h))]
    simp only [visits, List.map_cons, List.nodup_cons, List.mem_cons, not_or] at hnd
    obtain ⟨⟨hcd, hcn⟩, hdn, hnn⟩ := hnd
    obtain ⟨R', h1, h2, h3, h4⟩ := ih (addChild (R.set d []) c (l, d)) d (by
      intro n hn hr
      rw [routed_addChild, routed_new] at hr
      rcases hr with hr | hr | hr
      · exact hcn (hr ▸ List.mem_map_of_mem hn)
      · exact hdn (hr ▸ List.mem_map_of_mem hn)
      · exact hfree n (List.mem_cons_of_mem _ hn) hr) (by
      simp only [visits, List.nodup_cons]
      exact ⟨hdn, hnn⟩) (by
      rw [routed_addChild, routed_new]
      exact Or.inr (Or.inl rfl))
    refine ⟨R', h1, ((extends_new hd).trans (extends_addChild _ _ _)).trans h2, ?_, ?_⟩
    · intro a k b
      rw [h3, edge_addChild, edge_new hd, hops]
      simp only [List.mem_cons, Prod.mk.injEq]
      constructor
      · rintro ((h | ⟨rfl, rfl, rfl⟩) | h)
        · exact Or.inl h
        · exact Or.inr (Or.inl ⟨rfl, rfl, rfl⟩)
        · exact Or.inr (Or.inr h)
      · rintro (h | ⟨rfl, rfl, rfl⟩ | h)
        · exact Or.inl (Or.inl h)
        · exact Or.inl (Or.inr ⟨rfl, rfl, rfl⟩)
        · exact Or.inr h
    · intro e
      rw [h4, routed_addChild, routed_new]
      simp only [List.mem_cons]
      constructor
      · rintro ((rfl | rfl | h) | ⟨n, hn, rfl⟩)
        · exact Or.inl hc
        · exact Or.inr ⟨(l, e), Or.inl rfl, rfl⟩
        · exact Or.inl h
        · exact Or.inr ⟨n, Or.inr hn, rfl⟩
      · rintro (h | ⟨n, rfl | hn, rfl⟩)
        · exact Or.inl (Or.inr (Or.inr h))
        · exact Or.inl (Or.inr (Or.inl rfl))
        · exact Or.inr ⟨n, hn, rfl⟩

/-- The trimmed nodes start where the chip found is left; none of them is of the source or routed. -/
theorem trimPre_spec {T : Topo} {allSource : List XY} {R : Routes} {source dest : XY}
    (ns : List Node) : ∀ {s : XY}, Walk T s ns dest → (visits s ns).Nodup → s = source ∨
      (∃ n ∈ ns, n.2 ∈ allSource ∨ Routed R n.2) →
    Walk T (trimPre allSource R source ns).2 (trimPre allSource R source ns).1 dest ∧
    (visits (trimPre allSource R source ns).2 (trimPre allSource R source ns).1).Nodup ∧
    ((trimPre allSource R source ns).2 = source ∨ (trimPre allSource R source ns).2 ∈ allSource ∨
      Routed R (trimPre allSource R source ns).2) ∧
    (∀ n ∈ (trimPre allSource R source ns).1, n.2 ∉ allSource ∧ ¬ Routed R n.2) := by
  induction ns with
  | nil =>
    intro s hw hnd hs
    rcases hs with rfl | ⟨n, hn, _⟩
    · exact ⟨hw, hnd, Or.inl rfl, by intro n hn; cases hn⟩
    · cases hn
  | cons n ns ih =>
    intro s hw hnd hs
    rw [trimPre]
    have hw' : Walk T n.2 ns dest := by
      cases hw with
      | cons _ _ _ h => exact h
    have hnd' : (visits n.2 ns).Nodup := by
      simp only [visits, List.map_cons, List.nodup_cons] at hnd ⊢
      exact hnd.2
    by_cases h1 : (ns.any (fun m => decide (m.2 ∈ allSource) || (R.get? m.2).isSome)) = true
    · rw [if_pos h1]
      refine ih hw' hnd' (Or.inr ?_)
      obtain ⟨m, hm, h2⟩ := List.any_eq_true.1 h1
      rw [Bool.or_eq_true, decide_eq_true_eq, routed_iff] at h2
      exact ⟨m, hm, h2⟩
    · rw [if_neg h1]
      have hfree : ∀ m ∈ ns, m.2 ∉ allSource ∧ ¬ Routed R m.2 := by
        intro m hm
        have h2 := List.any_eq_false.1 (Bool.not_eq_true _ ▸ h1) m hm
        rw [Bool.or_eq_true, decide_eq_true_eq, routed_iff, not_or] at h2
        exact h2
      by_cases h2 : (decide (n.2 ∈ allSource) || (R.get? n.2).isSome) = true
      · rw [if_pos h2]
        rw [Bool.or_eq_true, decide_eq_true_eq, routed_iff] at h2
        exact ⟨hw', hnd', Or.inr h2, hfree⟩
      · rw [if_neg h2]
        rw [Bool.or_eq_true, decide_eq_true_eq, routed_iff, not_or] at h2
        rcases hs with rfl | ⟨m, hm, h3⟩
        · refine ⟨hw, hnd, Or.inl rfl, ?_⟩
          intro m hm
          rcases List.mem_cons.1 hm with rfl | hm
          · exact h2
          · exact hfree m hm
        · exfalso
          rcases List.mem_cons.1 hm with rfl | hm
          · rcases h3 with h3 | h3
            · exact h2.1 h3
            · exact h2.2 h3
          · rcases h3 with h3 | h3
            · exact (hfree m hm).1 h3
            · exact (hfree m hm).2 h3

theorem trimPost_spec {T : Topo} {targets : List XY} {dest : XY} (ns : List Node) : ∀ {s : XY},
    Walk T s ns dest →
    Walk T s (trimPost targets dest ns).1 (trimPost targets dest ns).2 ∧
    ((trimPost targets dest ns).2 ∈ targets ∨ (trimPost targets dest ns).2 = dest) ∧
    (∀ n ∈ (trimPost targets dest ns).1.dropLast, n.2 ∉ targets) ∧
    (trimPost targets dest ns).1.Sublist ns := by
  induction ns with
  | nil =>
    intro s hw
    cases hw
    exact ⟨.nil, Or.inr rfl, (by intro n hn; cases hn), List.Sublist.refl _⟩
  | cons n ns ih =>
    intro s hw
    rw [trimPost]
    cases hw with
    | @cons _ _ l _ hl hk hc hw =>
      by_cases h1 : T.over s l ∈ targets
      · rw [if_pos h1]
        exact ⟨.cons hl hk hc .nil, Or.inl h1, (by intro n hn; cases hn), by simp⟩
      · rw [if_neg h1]
        obtain ⟨h2, h3, h4, h5⟩ := ih hw
        refine ⟨.cons hl hk hc h2, h3, ?_, List.Sublist.cons_cons _ h5⟩
        intro m hm
        simp only at hm
        cases hr : (trimPost targets dest ns).1 with
        | nil => rw [hr] at hm; cases hm
        | cons x xs =>
          rw [hr] at hm h4
          rw [List.dropLast_cons_of_ne_nil (by simp)] at hm
          rcases List.mem_cons.1 hm with rfl | hm
          · exact h1
          · exact h4 m hm

/-- Along a hop list in the routes one comes to its end. -/
theorem leads_hops {T : Topo} {R : Routes} {a b : XY} {ns : List Node} (h : Walk T a ns b)
    (he : ∀ x l y, (x, l, y) ∈ hops a ns → Edge R x l y) :
    Leads R a b ∧ ∀ n ∈ ns, Leads R a n.2 := by
  have key : ∀ {s : XY}, Leads R s a → Leads R s b ∧ ∀ n ∈ ns, Leads R s n.2 := by
    induction h with
    | nil => exact fun h => ⟨h, by intro n hn; cases hn⟩
    | @cons x y l ns hl hk hc _ ih =>
      intro s hs
      have h1 : Leads R s (T.over x l) := .step hs (he x l _ List.mem_cons_self)
      obtain ⟨h2, h3⟩ := ih (fun a k b hab => he a k b (List.mem_cons_of_mem _ hab)) h1
      refine ⟨h2, ?_⟩
      intro n hn
      rcases List.mem_cons.1 hn with rfl | hn
      · exact h1
      · exact h3 n hn
  exact key .refl

theorem hops_wired {T : Topo} {a b : XY} {ns : List Node} (h : Walk T a ns b) :
    ∀ x l y, (x, l, y) ∈ hops a ns → Wired T x l y ∧ ∃ n ∈ ns, n.2 = y := by
  induction h with
  | nil => intro x l y hm; cases hm
  | @cons s e k ns hl hk hc _ ih =>
    intro x l y hm
    rcases List.mem_cons.1 hm with hm | hm
    · obtain ⟨rfl, rfl, rfl⟩ : x = s ∧ l = k ∧ y = T.over s k := by simpa using hm
      exact ⟨⟨hl, hk, rfl, hc⟩, _, List.mem_cons_self, rfl⟩
    · obtain ⟨h1, n, hn, h2⟩ := ih x l y hm
      exact ⟨h1, n, List.mem_cons_of_mem _ hn, h2⟩

/-- All of `_route_pre_to_post`, where the repaired hops are a walk that passes no chip twice. -/
theorem preToPost_spec {T : Topo} {source dest : XY} {R : Routes} {vec : Int × Int × Int}
    {allSource targets : List XY} {fixed : List Node}
    (hf : withoutErrors T source (longestFirst T vec.1 vec.2.1 vec.2.2 source) = .ok fixed)
    (hw : Walk T source fixed dest) (hnd : (visits source fixed).Nodup) :
    ∃ R' pre post ns, preToPost T source dest R vec allSource targets = .ok (R', pre, post) ∧
      Walk T pre ns post ∧ (visits pre ns).Nodup ∧
      (pre = source ∨ pre ∈ allSource ∨ Routed R pre) ∧ (post ∈ targets ∨ post = dest) ∧
      (∀ n ∈ ns, n.2 ∉ allSource ∧ ¬ Routed R n.2) ∧ (∀ n ∈ ns.dropLast, n.2 ∉ targets) ∧
      Extends R R' ∧ (∀ a l b, Edge R' a l b ↔ Edge R a l b ∨ (a, l, b) ∈ hops pre ns) ∧
      (∀ d, Routed R' d ↔ Routed R d ∨ d = pre ∨ ∃ n ∈ ns, n.2 = d) := by
  obtain ⟨h1, h2, h3, h4⟩ := trimPre_spec (allSource := allSource) (R := R) fixed hw hnd (Or.inl rfl)
  obtain ⟨h5, h6, h7, h8⟩ := trimPost_spec (targets := targets) (trimPre allSource R source fixed).1 h1
  unfold preToPost
  rw [hf]
  simp only
  generalize hpre : (trimPre allSource R source fixed).2 = pre at *
  generalize hns0 : (trimPre allSource R source fixed).1 = ns0 at *
  generalize hns : (trimPost targets dest ns0).1 = ns at *
  generalize hpost : (trimPost targets dest ns0).2 = post at *
  have hnd2 : (visits pre ns).Nodup := by
    refine List.Nodup.sublist ?_ h2
    unfold visits
    exact List.Sublist.cons_cons _ (h8.map _)
  have hprens : ∀ n ∈ ns, n.2 ≠ pre := by
    intro n hn he
    simp only [visits, List.nodup_cons] at hnd2
    exact hnd2.1 (he ▸ List.mem_map_of_mem hn)
  have hfree : ∀ n ∈ ns, n.2 ∉ allSource ∧ ¬ Routed R n.2 := fun n hn => h4 n (h8.subset hn)
  by_cases hr : (R.get? pre).isSome = true
  · rw [if_pos hr]
    obtain ⟨R', g1, g2, g3, g4⟩ := addNodes_spec source ns R pre (fun n hn => (hfree n hn).2) hnd2
      (routed_iff.1 hr)
    refine ⟨R', pre, post, ns, by rw [g1], h5, hnd2, h3, h6, hfree, h7, g2, g3, ?_⟩
    intro d
    rw [g4]
    constructor
    · rintro (h | h)
      · exact Or.inl h
      · exact Or.inr (Or.inr h)
    · rintro (h | rfl | h)
      · exact Or.inl h
      · exact Or.inl (routed_iff.1 hr)
      · exact Or.inr h
  · rw [if_neg hr]
    rw [routed_iff] at hr
    obtain ⟨R', g1, g2, g3, g4⟩ := addNodes_spec source ns (R.set pre []) pre (by
      intro n hn hh
      rw [routed_new] at hh
      rcases hh with hh | hh
      · exact hprens n hn hh
      · exact (hfree n hn).2 hh) hnd2 (by rw [routed_new]; exact Or.inl rfl)
    refine ⟨R', pre, post, ns, by rw [g1], h5, hnd2, h3, h6, hfree, h7, (extends_new hr).trans g2,
      ?_, ?_⟩
    · intro a l b
      rw [g3, edge_new hr]
    · intro d
      rw [g4, routed_new]
      constructor
      · rintro ((h | h) | h)
        · exact Or.inr (Or.inl h)
        · exact Or.inl h
        · exact Or.inr (Or.inr h)
      · rintro (h | h | h)
        · exact Or.inl (Or.inr h)
        · exact Or.inl (Or.inl h)
        · exact Or.inr h

/-- Adding edges to new chips, each with one parent and going up in some order, keeps a forest. -/
theorem forest_extend {R R' : Routes} (hR : Forest R) {N : XY → Nat → XY → Prop} {D : XY → Nat}
    (hedge : ∀ a l b, Edge R' a l b → Edge R a l b ∨ (N a l b ∧ ¬ Routed R b))
    (hext : Extends R R') (hone : ∀ a l a' l' b, N a l b → N a' l' b → a = a' ∧ l = l')
    (hD : ∀ a l b, N a l b → D a < D b) (hcl : ∀ a l b, N a l b → Edge R' a l b → Routed R' b) :
    Forest R' := by
  have hout : ∀ a l b, Edge R' a l b → ¬ Routed R a → N a l b ∧ ¬ Routed R b := by
    intro a l b he ha
    rcases hedge a l b he with h | h
    · exact absurd h.routed ha
    · exact h
  have hup : ∀ {x y : XY}, Leads R' x y → ¬ Routed R x → ¬ Routed R y ∧ D x ≤ D y := by
    intro x y h hx
    induction h with
    | refl => exact ⟨hx, Nat.le_refl _⟩
    | step _ he ih =>
      obtain ⟨h1, h2⟩ := ih
      obtain ⟨h3, h4⟩ := hout _ _ _ he h1
      have := hD _ _ _ h3
      exact ⟨h4, by omega⟩
  have hdown : ∀ {x y : XY}, Leads R' x y → Routed R y → Leads R x y ∧ Routed R x := by
    intro x y h
    induction h with
    | refl => exact fun hy => ⟨.refl, hy⟩
    | step _ he ih =>
      intro hy
      rcases hedge _ _ _ he with h1 | ⟨_, h1⟩
      · obtain ⟨h2, h3⟩ := ih h1.routed
        exact ⟨.step h2 h1, h3⟩
      · exact absurd hy h1
  refine ⟨?_, ?_, ?_⟩
  · intro a l b he
    rcases hedge a l b he with h | ⟨h, _⟩
    · exact (hR.closed a l b h).mono hext
    · exact hcl a l b h he
  · intro a l a' l' b h1 h2
    rcases hedge a l b h1 with h3 | ⟨h3, h4⟩
    · rcases hedge a' l' b h2 with h5 | ⟨h5, h6⟩
      · exact hR.oneParent a l a' l' b h3 h5
      · exact absurd (hR.closed a l b h3) h6
    · rcases hedge a' l' b h2 with h5 | ⟨h5, h6⟩
      · exact absurd (hR.closed a' l' b h5) h4
      · exact hone a l a' l' b h3 h5
  · intro a l b he hback
    rcases hedge a l b he with h | ⟨h, hb⟩
    · obtain ⟨h1, _⟩ := hdown hback h.routed
      exact hR.acyclic a l b h h1
    · obtain ⟨h1, h2⟩ := hup hback hb
      have := hD a l b h
      omega

theorem hops_rank (ns : List Node) : ∀ (c : XY), (visits c ns).Nodup →
    ∃ D : XY → Nat, ∀ a l b, (a, l, b) ∈ hops c ns → D a < D b := by
  induction ns with
  | nil => exact fun c _ => ⟨fun _ => 0, by intro a l b h; cases h⟩
  | cons n ns ih =>
    obtain ⟨l, d⟩ := n
    intro c hnd
    simp only [visits, List.map_cons, List.nodup_cons, List.mem_cons, not_or] at hnd
    obtain ⟨D, hD⟩ := ih d (by simp only [visits, List.nodup_cons]; exact hnd.2)
    have hmem : ∀ (ns : List Node) (d a : XY) (l : Nat) (b : XY), (a, l, b) ∈ hops d ns →
        b ∈ ns.map (·.2) ∧ (a = d ∨ a ∈ ns.map (·.2)) := by
      intro ns
      induction ns with
      | nil => intro d a l b h; cases h
      | cons m ns ih =>
        obtain ⟨k, e⟩ := m
        intro d a l b h
        rcases List.mem_cons.1 h with h | h
        · obtain ⟨rfl, rfl, rfl⟩ : a = d ∧ l = k ∧ b = e := by simpa using h
          exact ⟨by simp, Or.inl rfl⟩
        · obtain ⟨h1, h2⟩ := ih e a l b h
          refine ⟨List.mem_cons_of_mem _ h1, Or.inr ?_⟩
          rcases h2 with rfl | h2
          · simp
          · exact List.mem_cons_of_mem _ h2
    refine ⟨fun x => if x = c then 0 else D x + 1, ?_⟩
    intro a k b h
    rcases List.mem_cons.1 h with h | h
    · obtain ⟨rfl, rfl, rfl⟩ : a = c ∧ k = l ∧ b = d := by simpa using h
      show (if a = a then 0 else D a + 1) < (if b = a then 0 else D b + 1)
      rw [if_pos rfl, if_neg (fun hh => hnd.1.1 hh.symm)]
      omega
    · obtain ⟨h1, h2⟩ := hmem ns d a k b h
      have hb : b ≠ c := fun hh => hnd.1.2 (hh ▸ h1)
      have ha : a ≠ c := by
        rintro rfl
        rcases h2 with h2 | h2
        · exact hnd.1.1 h2
        · exact hnd.1.2 h2
      show (if a = c then 0 else D a + 1) < (if b = c then 0 else D b + 1)
      rw [if_neg hb, if_neg ha]
      have := hD a k b h
      omega

theorem hops_one (ns : List Node) : ∀ (c : XY), (visits c ns).Nodup →
    ∀ a l a' l' b, (a, l, b) ∈ hops c ns → (a', l', b) ∈ hops c ns → a = a' ∧ l = l' := by
  have hmem : ∀ (ns : List Node) (d a : XY) (l : Nat) (b : XY), (a, l, b) ∈ hops d ns →
      b ∈ ns.map (·.2) := by
    intro ns
    induction ns with
    | nil => intro d a l b h; cases h
    | cons m ns ih =>
      obtain ⟨k, e⟩ := m
      intro d a l b h
      rcases List.mem_cons.1 h with h | h
      · obtain ⟨rfl, rfl, rfl⟩ : a = d ∧ l = k ∧ b = e := by simpa using h
        simp
      · exact List.mem_cons_of_mem _ (ih e a l b h)
  induction ns with
  | nil => intro c _ a l a' l' b h; cases h
  | cons n ns ih =>
    obtain ⟨k, d⟩ := n
    intro c hnd a l a' l' b h1 h2
    simp only [visits, List.map_cons, List.nodup_cons, List.mem_cons, not_or] at hnd
    rcases List.mem_cons.1 h1 with e1 | e1
    · obtain ⟨rfl, rfl, rfl⟩ : a = c ∧ l = k ∧ b = d := by simpa using e1
      rcases List.mem_cons.1 h2 with e2 | e2
      · obtain ⟨rfl, rfl, _⟩ : a' = a ∧ l' = l ∧ b = b := by simpa using e2
        exact ⟨rfl, rfl⟩
      · exact absurd (hmem _ _ _ _ _ e2) hnd.2.1
    · rcases List.mem_cons.1 h2 with e2 | e2
      · obtain ⟨rfl, rfl, rfl⟩ : a' = c ∧ l' = k ∧ b = d := by simpa using e2
        exact absurd (hmem _ _ _ _ _ e1) hnd.2.1
      · exact ih d (by simp only [visits, List.nodup_cons]; exact hnd.2) a l a' l' b e1 e2

end Pacman.RPath
