import Verif.Proofs.RouterOnly
/-
Helper lemmas: which chips the routes lead into.
-/

namespace Pacman.RPath

/-- The chip is one that `_route_to_xys` may lead into. -/
def Inner (first : XY) (all : List XY) (c : XY) : Prop := c ∈ all ∧ c ≠ first

/-- A queued chip with its path: after the chip where the path begins all chips are inner ones. -/
def Inwards (first : XY) (all : List XY) (x : XY × List (XY × Nat)) : Prop :=
  x.2 = [] ∨ (Inner first all x.1 ∧ ∀ p ∈ x.2.tail, Inner first all p.1)

theorem backEdges_into (rev : List (XY × Nat)) : ∀ {c a b : XY} {l : Nat},
    (a, l, b) ∈ backEdges c rev → b = c ∨ ∃ k, (b, k) ∈ rev.dropLast := by
  induction rev with
  | nil => intro c a b l h; cases h
  | cons y r ih =>
    obtain ⟨p, k⟩ := y
    intro c a b l h
    rw [backEdges] at h
    rcases List.mem_cons.1 h with h | h
    · left
      have : a = p ∧ l = k ∧ b = c := by simpa using h
      exact this.2.2
    · right
      cases r with
      | nil => cases h
      | cons z r =>
        rw [List.dropLast_cons_of_ne_nil (by simp)]
        rcases ih h with rfl | ⟨k', hk⟩
        · exact ⟨k, List.mem_cons_self⟩
        · exact ⟨k', List.mem_cons_of_mem _ hk⟩

theorem arrive_into {first : XY} {all targets : List XY} {R : Routes} {xy : XY}
    {path : List (XY × Nat)} (hx : Inwards first all (xy, path)) {a b : XY} {l : Nat}
    (he : Edge (arrive targets R xy path).1 a l b) : Edge R a l b ∨ Inner first all b := by
  unfold arrive at he
  split at he
  · exact Or.inl he
  · rename_i hR
    rw [routed_iff] at hR
    split at he
    · simp only at he
      rw [linkBack_edge, edge_new hR] at he
      rcases he with he | he
      · exact Or.inl he
      · right
        rcases hx with hx | ⟨h1, h2⟩
        · simp only at hx
          subst hx
          cases he
        · rcases backEdges_into _ he with rfl | ⟨k, hk⟩
          · exact h1
          · rw [List.dropLast_reverse, List.mem_reverse] at hk
            exact h2 _ hk
    · exact Or.inl he

theorem routeLoop_into {T : Topo} {first : XY} {all targets : List XY} (fuel : Nat) :
    ∀ {q : List (XY × List (XY × Nat))} {v todo : List XY} {R R' : Routes},
    (first ∈ v ∨ ∀ x ∈ q, x.1 = first) → (∀ x ∈ q, Inwards first all x) →
    routeLoop T all targets fuel q v todo R = .ok R' →
    ∀ a l b, Edge R' a l b → Edge R a l b ∨ Inner first all b := by
  induction fuel with
  | zero =>
    intro q v todo R R' _ _ h a l b he
    cases q with
    | nil =>
      unfold routeLoop at h
      split at h
      · cases h; exact Or.inl he
      · cases h
    | cons x q => unfold routeLoop at h; cases h
  | succ fuel ih =>
    intro q v todo R R' hv hq h a l b he
    cases q with
    | nil =>
      unfold routeLoop at h
      split at h
      · cases h; exact Or.inl he
      · cases h
    | cons x q =>
      obtain ⟨xy, path⟩ := x
      rw [routeLoop] at h
      by_cases hxv : xy ∈ v
      · simp only [if_pos hxv] at h
        exact ih (hv.imp id (fun h x hx => h x (List.mem_cons_of_mem _ hx)))
          (fun x hx => hq x (List.mem_cons_of_mem _ hx)) h a l b he
      · simp only [if_neg hxv] at h
        have hfirst : first ∈ xy :: v := by
          rcases hv with hv | hv
          · exact List.mem_cons_of_mem _ hv
          · rw [← hv _ List.mem_cons_self]
            exact List.mem_cons_self
        have hin := hq _ List.mem_cons_self
        rcases ih (Or.inl hfirst) (by
          intro x hx
          rcases List.mem_append.1 hx with hx | hx
          · exact hq x (List.mem_cons_of_mem _ hx)
          · obtain ⟨l, hl, h1, h2, h3, h4, rfl⟩ := mem_spread.1 hx
            refine Or.inr ⟨⟨h2, fun h0 => h3 (by simp only at h0; rw [h0]; exact hfirst)⟩, ?_⟩
            intro p hp
            have key : ∀ path', (path' = [] ∨ path' = path) →
                ∀ p ∈ (path' ++ [(xy, l)]).tail, Inner first all p.1 := by
              rintro path' (rfl | rfl) p hp
              · simp at hp
              · rcases hin with hin | ⟨h5, h6⟩
                · simp only at hin
                  subst hin
                  simp at hp
                · cases path' with
                  | nil => simp at hp
                  | cons y r =>
                    simp only [List.cons_append, List.tail_cons, List.mem_append,
                      List.mem_singleton] at hp
                    rcases hp with hp | rfl
                    · exact h6 p hp
                    · exact h5
            refine key _ ?_ p hp
            unfold arrive
            split
            · exact Or.inl rfl
            · split
              · exact Or.inl rfl
              · exact Or.inr rfl) h a l b he with h0 | h0
        · exact arrive_into hin h0
        · exact Or.inr h0

/-- The edges that `_route_to_xys` adds lead into the chips given, but not into the first one. -/
theorem routeToXys_into {T : Topo} {first : XY} {all targets : List XY} {R R' : Routes}
    (h : routeToXys T first all R targets = .ok R') {a b : XY} {l : Nat} (he : Edge R' a l b) :
    Edge R a l b ∨ (b ∈ all ∧ b ≠ first) :=
  routeLoop_into _ (Or.inr (fun x hx => by rw [List.mem_singleton.1 hx]))
    (fun x hx => by rw [List.mem_singleton.1 hx]; exact Or.inl rfl) h a l b he

end Pacman.RPath

namespace Pacman.Router

open Alloc (VId)
open RPath

/-- No edge of the routes leads into one of the chips. -/
def NoEnter (all : List XY) (R : Routes) : Prop := ∀ a l b, Edge R a l b → b ∉ all

theorem noEnter_empty (all : List XY) : NoEnter all [] := by
  rintro a l b ⟨ch, h, _⟩; cases h

theorem noEnter_routeToXys {T : Topo} {first : XY} {all given targets : List XY} {R R' : Routes}
    (hR : NoEnter all R) (hg : ∀ c ∈ given, c ≠ first → c ∉ all)
    (h : routeToXys T first given R targets = .ok R') : NoEnter all R' := by
  intro a l b he
  rcases routeToXys_into h he with h0 | ⟨h1, h2⟩
  · exact hR a l b h0
  · exact hg b h1 h2

theorem findTarget_overlaps {C : Ctx} (hi : ∀ l, (C.iter l).Perm l) {targets : List XY} {R : Routes}
    {M : Mapping} {t : XY} {o : Option (List XY)} (h : findTarget C targets R M = .ok (t, o)) :
    (o = none → ∀ c ∈ targets, (M.get? c).isSome = true → c = t) ∧
    ∀ os, o = some os → ∀ c ∈ targets, (M.get? c).isSome = true → c ∈ os := by
  have hov : ∀ c ∈ targets, (M.get? c).isSome = true →
      c ∈ C.iter (targets.filter (fun c => (M.get? c).isSome)) := by
    intro c hc hm
    exact (hi _).mem_iff.mpr (List.mem_filter.mpr ⟨hc, hm⟩)
  unfold findTarget at h
  simp only at h
  split at h
  · rename_i c d r ho
    cases h
    refine ⟨(fun h0 => by cases h0), fun os hos c hc hm => ?_⟩
    cases hos
    rw [← ho]
    exact hov c hc hm
  · rename_i c ho
    cases h
    refine ⟨fun _ c hc hm => ?_, (fun os hos => by cases hos)⟩
    have := hov c hc hm
    rw [ho] at this
    exact List.mem_singleton.mp this
  · rename_i ho
    have hno : ∀ c ∈ targets, ¬ (M.get? c).isSome = true := by
      intro c hc hm
      have := hov c hc hm
      rw [ho] at this
      cases this
    split at h
    · cases h
      exact ⟨fun _ c hc hm => absurd hm (hno c hc), (fun os hos => by cases hos)⟩
    · split at h
      · cases h
        exact ⟨fun _ c hc hm => absurd hm (hno c hc), (fun os hos => by cases hos)⟩
      · cases h

theorem chooseTarget_overlaps {C : Ctx} (hi : ∀ l, (C.iter l).Perm l) {targets : List XY} {R : Routes}
    {M : Mapping} {t : XY} {o : Option (List XY)} (h : chooseTarget C targets R M = .ok (t, o)) :
    (o = none → ∀ c ∈ targets, (M.get? c).isSome = true → c = t) ∧
    ∀ os, o = some os → ∀ c ∈ targets, (M.get? c).isSome = true → c ∈ os := by
  unfold chooseTarget at h
  split at h
  · cases h
    refine ⟨fun _ c hc _ => List.mem_singleton.mp hc, (fun os hos => by cases hos)⟩
  · exact findTarget_overlaps hi h

/-- If the destination is itself a chip of the source, nothing is added to the way. -/
theorem preToPost_stay {C : Ctx} {P : Partition} (hC : Contract C P) (hn : NoReturns C) {s t : XY}
    (hs : s ∈ C.T.chips) (ht : t ∈ C.T.chips) {R R' : Routes} {all targets : List XY}
    {pre post : XY} (hta : t ∈ all)
    (hr : preToPost C.T s t R (C.vector s t) all targets = .ok (R', pre, post)) : post = t := by
  obtain ⟨fixed, hf⟩ := preToPost_fixed hr
  obtain ⟨hw, hnd⟩ := good_way hC hn hs ht hf
  obtain ⟨h1, h2, h3, h4⟩ := trimPre_spec (allSource := all) (R := R) fixed hw hnd (Or.inl rfl)
  unfold preToPost at hr
  rw [hf] at hr
  simp only at hr
  have hnil : ∀ {a : XY} {ns : List Node} {b : XY}, Walk C.T a ns b → (∀ n ∈ ns, n.2 ≠ b) → ns = [] := by
    intro a ns b hw
    induction hw with
    | nil => exact fun _ => rfl
    | @cons x y l ns hl hk hc hw ih =>
      intro hne
      have h0 := ih (fun n hn => hne n (List.mem_cons_of_mem _ hn))
      subst h0
      cases hw
      exact absurd rfl (hne _ List.mem_cons_self)
  have hns : (trimPre all R s fixed).1 = [] :=
    hnil h1 (fun n hn he => (h4 n hn).1 (he ▸ hta))
  rw [hns] at hr
  simp only [trimPost, addNodes] at hr
  simp only [Except.ok.injEq, Prod.mk.injEq] at hr
  exact hr.2.2.symm

theorem noEnter_preToPost {C : Ctx} {P : Partition} (hC : Contract C P) (hn : NoReturns C) {s t : XY}
    (hs : s ∈ C.T.chips) (ht : t ∈ C.T.chips) {R R' : Routes} {all targets : List XY}
    {pre post : XY} (hR : NoEnter all R)
    (hr : preToPost C.T s t R (C.vector s t) all targets = .ok (R', pre, post)) : NoEnter all R' := by
  obtain ⟨fixed, hf⟩ := preToPost_fixed hr
  obtain ⟨hw, hnd⟩ := good_way hC hn hs ht hf
  obtain ⟨R1, pre1, post1, ns, h1, h2, h3, h4, h5, h6, h7, h8, h9, h10⟩ :=
    preToPost_spec (R := R) (allSource := all) (targets := targets) hf hw hnd
  rw [hr] at h1
  cases h1
  intro a l b he
  rcases (h9 a l b).1 he with h0 | h0
  · exact hR a l b h0
  · obtain ⟨_, n, hn, rfl⟩ := hops_wired h2 a l b h0
    exact (h6 n hn).1

theorem noEnter_overlapLoop {C : Ctx} {all : List XY} (os : List XY) :
    ∀ {reached E real tgt : List XY} {R : Routes} {E' real' tgt' : List XY} {R' : Routes},
    (∀ o ∈ os, o ∈ reached) → (∀ c ∈ tgt, c ∈ all → c ∈ reached) → NoEnter all R →
    overlapLoop C os reached E real tgt R = .ok (E', real', tgt', R') →
    NoEnter all R' ∧ (∀ c ∈ tgt', c ∈ tgt) ∧
      (∀ o ∈ os, o ∈ real → o ∉ tgt') := by
  induction os with
  | nil =>
    intro reached E real tgt R E' real' tgt' R' _ _ hR h
    simp only [overlapLoop] at h
    cases h
    exact ⟨hR, fun c h => h, fun o ho => by cases ho⟩
  | cons o os ih =>
    intro reached E real tgt R E' real' tgt' R' hos htg hR h
    simp only [overlapLoop] at h
    obtain ⟨found, h1, hfound⟩ := C69_reachable C.T o tgt reached
    simp only [h1] at h
    cases h2 : routeToXys C.T o found R (real.filter (fun c => decide (c ∈ found))) with
    | error err => simp only [h2] at h; cases h
    | ok R1 =>
      simp only [h2] at h
      have hin : ∀ c ∈ found, c ≠ o → c ∈ tgt ∧ c ∉ reached := by
        intro c hc hne
        have := (hfound c).mp hc
        cases this with
        | nil => exact absurd rfl hne
        | snoc _ _ _ _ h5 => exact h5
      split at h
      · have hR1 := noEnter_routeToXys hR (fun c hc hne ha =>
          (hin c hc hne).2 (htg c (hin c hc hne).1 ha)) h2
        obtain ⟨j1, j2, j3⟩ := ih (fun o' ho' => List.mem_append_left _ (hos o' (List.mem_cons_of_mem _ ho')))
          (fun c hc ha => List.mem_append_left _ (htg c (List.mem_filter.mp hc).1 ha)) hR1 h
        refine ⟨j1, fun c hc => (List.mem_filter.mp (j2 c hc)).1, ?_⟩
        intro o' ho' hreal hmem
        rcases List.mem_cons.mp ho' with rfl | ho'
        · have := (List.mem_filter.mp (j2 _ hmem)).2
          rw [Bool.not_eq_true', decide_eq_false_iff_not] at this
          exact this (List.mem_filter.mpr ⟨hreal, decide_eq_true ((hfound _).mpr .nil)⟩)
        · refine j3 o' ho' (List.mem_filter.mpr ⟨hreal, ?_⟩) hmem
          rw [Bool.not_eq_true', decide_eq_false_iff_not]
          have := (List.mem_filter.mp (j2 _ hmem)).2
          rw [Bool.not_eq_true', decide_eq_false_iff_not] at this
          exact this
      · cases h

theorem noEnter_routeTo {C : Ctx} {P : Partition} (hC : Contract C P) (hn : NoReturns C) {s : XY}
    {all targets E E' : List XY} {M : Mapping} {R R' : Routes} (hs : s ∈ C.T.chips)
    (hall : ∀ c, c ∈ all ↔ (M.get? c).isSome = true) (htc : ∀ t ∈ targets, t ∈ C.T.chips)
    (hR : NoEnter all R) (h : routeTo C s all M targets E R = .ok (E', R')) : NoEnter all R' := by
  unfold routeTo at h
  cases h1 : chooseTarget C targets R M with
  | error err => simp only [h1] at h; cases h
  | ok r =>
    obtain ⟨t, ov⟩ := r
    simp only [h1] at h
    have ht := (chooseTarget_ok hC.iter h1).1
    obtain ⟨hone, hmany⟩ := chooseTarget_overlaps hC.iter h1
    cases h2 : preToPost C.T s t R (C.vector s t) all targets with
    | error err => simp only [h2] at h; cases h
    | ok r =>
      obtain ⟨R1, pre, post⟩ := r
      simp only [h2] at h
      have hR1 := noEnter_preToPost hC hn hs (htc t ht) hR h2
      have hstay : t ∈ all → post = t := fun ha => preToPost_stay hC hn hs (htc t ht) ha h2
      cases ov with
      | none =>
        simp only at h
        cases h3 : routeToXys C.T post targets R1 targets with
        | error err => simp only [h3] at h; cases h
        | ok R2 =>
          simp only [h3] at h
          simp only [Except.ok.injEq, Prod.mk.injEq] at h
          obtain ⟨_, rfl⟩ := h
          refine noEnter_routeToXys hR1 (fun c hc hne ha => ?_) h3
          have hct := hone rfl c hc ((hall c).1 ha)
          exact hne (hct.trans (hstay (hct ▸ ha)).symm)
      | some os =>
        simp only at h
        cases h3 : overlapLoop C os os E targets targets R1 with
        | error err => simp only [h3] at h; cases h
        | ok r =>
          obtain ⟨E2, real2, tgt2, R2⟩ := r
          simp only [h3] at h
          have hos := (chooseTarget_ok hC.iter h1).2 os rfl
          obtain ⟨j1, j2, j3⟩ := noEnter_overlapLoop os (fun o ho => ho)
            (fun c hc ha => hmany os rfl c hc ((hall c).1 ha)) hR1 h3
          cases h4 : routeToXys C.T post tgt2 R2 real2 with
          | error err => simp only [h4] at h; cases h
          | ok R3 =>
            simp only [h4] at h
            simp only [Except.ok.injEq, Prod.mk.injEq] at h
            obtain ⟨_, rfl⟩ := h
            refine noEnter_routeToXys j1 (fun c hc hne ha => ?_) h4
            have hct := j2 c hc
            exact j3 c (hmany os rfl c hct ((hall c).1 ha)) hct hc

theorem askSelf_routes {C : Ctx} (vs : List (Nat × List VId)) : ∀ {W W' : Work},
    askSelf C vs W = .ok W' → W'.routes = W.routes := by
  induction vs with
  | nil => intro W W' h; simp only [askSelf] at h; cases h; rfl
  | cons v vs ih =>
    intro W W' h
    simp only [askSelf] at h
    split at h
    · cases h
    · have := ih h
      exact this

theorem noEnter_routeEdges {C : Ctx} {P : Partition} (hC : Contract C P) (hn : NoReturns C) {s : XY}
    {all : List XY} {M : Mapping} (hs : s ∈ C.T.chips)
    (hall : ∀ c, c ∈ all ↔ (M.get? c).isSome = true) (es : List (Nat × List (Nat × List VId))) :
    ∀ {W W' : Work}, NoEnter all W.routes → routeEdges C P s all M es W = .ok W' →
    NoEnter all W'.routes := by
  induction es with
  | nil =>
    intro W W' hR h
    simp only [routeEdges] at h
    cases h
    exact hR
  | cons e es ih =>
    intro W W' hR h
    simp only [routeEdges] at h
    cases h1 : routeEdge C P s all M e W with
    | error err => simp only [h1] at h; cases h
    | ok W1 =>
      simp only [h1] at h
      refine ih ?_ h
      unfold routeEdge at h1
      split at h1
      · split at h1
        · cases h1
        · split at h1
          · cases h1
          · rename_i E R h2
            cases h1
            refine noEnter_routeTo hC hn hs hall ?_ hR h2
            intro t ht
            obtain ⟨v, _, rfl⟩ := mem_chipsOf.mp ht
            exact hC.placed _
      · rw [askSelf_routes _ h1]
        exact hR

end Pacman.Router
