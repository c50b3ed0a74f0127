import Verif.Proofs.RouterAsks
import Verif.Props.RouterTree
/-
Helper lemmas: the routes built for the edges of a partition.
-/

namespace Pacman.Router

open Alloc (VId)
open RPath

/-- Every routed chip is led to from one of the chips `E`; every edge goes over a working link; the
routes are trees. -/
structure WInv (T : Topo) (E : XY → Prop) (R : Routes) : Prop where
  rooted : ∀ c, Routed R c → ∃ e, E e ∧ Leads R e c
  wired : ∀ a l b, Edge R a l b → Wired T a l b
  forest : Forest R

theorem winv_empty (T : Topo) (E : XY → Prop) : WInv T E [] := by
  refine ⟨?_, ?_, ?_⟩
  · rintro c ⟨ch, h⟩; cases h
  · rintro a l b ⟨ch, h, _⟩; cases h
  · refine ⟨?_, ?_, ?_⟩
    · rintro a l b ⟨ch, h, _⟩; cases h
    · rintro a l a' l' b ⟨ch, h, _⟩; cases h
    · rintro a l b ⟨ch, h, _⟩; cases h

theorem WInv.mono {T : Topo} {E E' : XY → Prop} {R : Routes} (h : WInv T E R)
    (hE : ∀ e, E e → E' e) : WInv T E' R := by
  refine ⟨fun c hc => ?_, h.wired, h.forest⟩
  obtain ⟨e, h1, h2⟩ := h.rooted c hc
  exact ⟨e, hE e h1, h2⟩

/-- `_route_to_xys` from a chip that is led to from `E`. -/
theorem winv_routeToXys {T : Topo} {E : XY → Prop} {R R' : Routes} {first : XY}
    {all targets : List XY} (h : WInv T E R) (hf : ∃ e, E e ∧ Leads R e first)
    (hr : routeToXys T first all R targets = .ok R') :
    WInv T E R' ∧ Extends R R' ∧ ∀ t ∈ targets, Routed R' t := by
  have hext := (C56_working hr).1
  refine ⟨⟨?_, ?_, C71_forest h.forest hr⟩, hext, fun t ht => (C56_connected hr ht).1⟩
  · intro c hc
    rcases routeToXys_spec T first all targets R with ⟨R1, v, par, D, h1, hI⟩ | ⟨_, _, _, _, _, h1, _⟩
    · rw [hr] at h1
      cases h1
      have key : ∀ r, (Routed R r ∨ r = first) → ∃ e, E e ∧ Leads R' e r := by
        rintro r (h1 | rfl)
        · obtain ⟨e, h2, h3⟩ := h.rooted r h1
          exact ⟨e, h2, h3.mono hext⟩
        · obtain ⟨e, h2, h3⟩ := hf
          exact ⟨e, h2, h3.mono hext⟩
      rcases hI.rooted c hc with h0 | ⟨_, r, h2, h3⟩
      · exact key c (Or.inl h0)
      · obtain ⟨e, h4, h5⟩ := key r h2
        exact ⟨e, h4, leads_trans h5 h3⟩
    · rw [hr] at h1; cases h1
  · intro a l b he
    rcases (C56_working hr).2 a l b he with h1 | h1
    · exact h.wired a l b h1
    · exact h1.1

/-- The way between two chips is good. -/
theorem good_way {C : Ctx} {P : Partition} (hC : Contract C P) (hn : NoReturns C) {s t : XY}
    (hs : s ∈ C.T.chips) (ht : t ∈ C.T.chips) {fixed : List Node}
    (hf : withoutErrors C.T s (longestFirst C.T (C.vector s t).1 (C.vector s t).2.1
      (C.vector s t).2.2 s) = .ok fixed) :
    Walk C.T s fixed t ∧ (visits s fixed).Nodup :=
  C68_walk_partial (hC.vector s t hs ht) (fun ms _ h => hn s t ms hs ht h) hf

theorem preToPost_fixed {T : Topo} {source dest : XY} {R : Routes} {vec : Int × Int × Int}
    {all targets : List XY} {r : Routes × XY × XY}
    (h : preToPost T source dest R vec all targets = .ok r) :
    ∃ fixed, withoutErrors T source (longestFirst T vec.1 vec.2.1 vec.2.2 source) = .ok fixed := by
  unfold preToPost at h
  cases hf : withoutErrors T source (longestFirst T vec.1 vec.2.1 vec.2.2 source) with
  | error e => rw [hf] at h; cases h
  | ok fixed => exact ⟨fixed, rfl⟩

/-- `_route_pre_to_post`: what is new hangs on the chip where the way leaves. -/
theorem winv_preToPost {C : Ctx} {P : Partition} (hC : Contract C P) (hn : NoReturns C) {s t : XY}
    (hs : s ∈ C.T.chips) (ht : t ∈ C.T.chips) {E : XY → Prop} {R R' : Routes} {all targets : List XY}
    {pre post : XY} (h : WInv C.T E R)
    (hr : preToPost C.T s t R (C.vector s t) all targets = .ok (R', pre, post)) :
    WInv C.T (fun e => E e ∨ (e = pre ∧ (pre = s ∨ pre ∈ all))) R' ∧ Extends R R' ∧
      Leads R' pre post ∧ Routed R' pre := by
  obtain ⟨fixed, hf⟩ := preToPost_fixed hr
  obtain ⟨hw, hnd⟩ := good_way hC hn hs ht hf
  obtain ⟨R1, pre1, post1, ns, h1, h2, h3, h4, h5, h6, h7, h8, h9, h10⟩ :=
    preToPost_spec (R := R) (allSource := all) (targets := targets) hf hw hnd
  rw [hr] at h1
  cases h1
  have hl := leads_hops h2 (fun x l y hh => (h9 x l y).2 (Or.inr hh))
  have hpre : ∃ e, (E e ∨ (e = pre ∧ (pre = s ∨ pre ∈ all))) ∧ Leads R' e pre := by
    rcases h4 with h4 | h4 | h4
    · exact ⟨pre, Or.inr ⟨rfl, Or.inl h4⟩, .refl⟩
    · exact ⟨pre, Or.inr ⟨rfl, Or.inr h4⟩, .refl⟩
    · obtain ⟨e, a1, a2⟩ := h.rooted pre h4
      exact ⟨e, Or.inl a1, a2.mono h8⟩
  refine ⟨⟨?_, ?_, ?_⟩, h8, hl.1, (h10 pre).2 (Or.inr (Or.inl rfl))⟩
  · intro c hc
    rcases (h10 c).1 hc with h0 | rfl | ⟨n, hn, rfl⟩
    · obtain ⟨e, a1, a2⟩ := h.rooted c h0
      exact ⟨e, Or.inl a1, a2.mono h8⟩
    · exact hpre
    · obtain ⟨e, a1, a2⟩ := hpre
      exact ⟨e, a1, leads_trans a2 (hl.2 n hn)⟩
  · intro a l b he
    rcases (h9 a l b).1 he with h0 | h0
    · exact h.wired a l b h0
    · exact (hops_wired h2 a l b h0).1
  · exact C71_joined_forest h.forest hr

/-- If the destination is itself a chip of the source, the way is empty. -/
theorem preToPost_home {C : Ctx} {P : Partition} (hC : Contract C P) (hn : NoReturns C) {s t : XY}
    (hs : s ∈ C.T.chips) (ht : t ∈ C.T.chips) {R R' : Routes} {all targets : List XY}
    {pre post : XY} (hta : t ∈ all)
    (hr : preToPost C.T s t R (C.vector s t) all targets = .ok (R', pre, post)) : pre = t := by
  obtain ⟨fixed, hf⟩ := preToPost_fixed hr
  obtain ⟨hw, hnd⟩ := good_way hC hn hs ht hf
  obtain ⟨h1, h2, h3, h4⟩ := trimPre_spec (allSource := all) (R := R) fixed hw hnd (Or.inl rfl)
  unfold preToPost at hr
  rw [hf] at hr
  simp only at hr
  have hnil : ∀ {a : XY} {ns : List Node} {b : XY}, Walk C.T a ns b → (∀ n ∈ ns, n.2 ≠ b) → a = b := by
    intro a ns b hw
    induction hw with
    | nil => exact fun _ => rfl
    | @cons x y l ns hl hk hc hw ih =>
      intro hne
      have := ih (fun n hn => hne n (List.mem_cons_of_mem _ hn))
      exact absurd this (hne _ List.mem_cons_self)
  have hpre : (trimPre all R s fixed).2 = t :=
    hnil h1 (fun n hn he => (h4 n hn).1 (he ▸ hta))
  generalize addNodes s _ _ _ = r at hr
  cases r with
  | error e => cases hr
  | ok R2 =>
    simp only [Except.ok.injEq, Prod.mk.injEq] at hr
    rw [← hr.2.1]
    exact hpre

/-! ### Targets -/

theorem findTarget_ok {C : Ctx} (hi : ∀ l, (C.iter l).Perm l) {targets : List XY} {R : Routes}
    {M : Mapping} {t : XY} {o : Option (List XY)} (h : findTarget C targets R M = .ok (t, o)) :
    t ∈ targets ∧ ∀ os, o = some os → t ∈ os ∧ ∀ c ∈ os, c ∈ targets ∧ (M.get? c).isSome = true := by
  have hov : ∀ c ∈ C.iter (targets.filter (fun c => (M.get? c).isSome)),
      c ∈ targets ∧ (M.get? c).isSome = true := by
    intro c hc
    exact List.mem_filter.mp ((hi _).mem_iff.mp hc)
  unfold findTarget at h
  simp only at h
  split at h
  · rename_i c d r ho
    cases h
    rw [ho] at hov
    refine ⟨(hov _ List.mem_cons_self).1, fun os hos => ?_⟩
    cases hos
    exact ⟨List.mem_cons_self, hov⟩
  · rename_i c ho
    cases h
    rw [ho] at hov
    exact ⟨(hov _ List.mem_cons_self).1, fun os hos => by cases hos⟩
  · split at h
    · rename_i c hc
      cases h
      exact ⟨(hi _).mem_iff.mp (List.mem_of_find?_eq_some hc), fun os hos => by cases hos⟩
    · split at h
      · rename_i c hc
        cases h
        exact ⟨(hi _).mem_iff.mp (List.mem_of_getLast? hc), fun os hos => by cases hos⟩
      · cases h

theorem chooseTarget_ok {C : Ctx} (hi : ∀ l, (C.iter l).Perm l) {targets : List XY} {R : Routes}
    {M : Mapping} {t : XY} {o : Option (List XY)} (h : chooseTarget C targets R M = .ok (t, o)) :
    t ∈ targets ∧ ∀ os, o = some os → t ∈ os ∧ ∀ c ∈ os, c ∈ targets ∧ (M.get? c).isSome = true := by
  unfold chooseTarget at h
  split at h
  · cases h
    exact ⟨List.mem_cons_self, fun os hos => by cases hos⟩
  · exact findTarget_ok hi h

theorem overlapLoop_ok {C : Ctx} (os : List XY) : ∀ {reached E real tgt : List XY} {R : Routes}
    {E' real' tgt' : List XY} {R' : Routes} {B : XY → Prop},
    overlapLoop C os reached E real tgt R = .ok (E', real', tgt', R') →
    WInv C.T (fun e => e ∈ E ∨ B e) R →
    WInv C.T (fun e => e ∈ E' ∨ B e) R' ∧ Extends R R' ∧ (∀ e ∈ E, e ∈ E') ∧ (∀ o ∈ os, o ∈ E') ∧
      (∀ t ∈ real, t ∈ real' ∨ Routed R' t) ∧ (∀ e ∈ E', e ∈ E ∨ e ∈ os) := by
  induction os with
  | nil =>
    intro reached E real tgt R E' real' tgt' R' B h hW
    simp only [overlapLoop] at h
    cases h
    exact ⟨hW, Extends.refl _, fun e h => h, (by intro o ho; cases ho), fun t h => Or.inl h,
      fun e h => Or.inl h⟩
  | cons o os ih =>
    intro reached E real tgt R E' real' tgt' R' B h hW
    simp only [overlapLoop] at h
    cases h1 : findReachable C.T o tgt reached with
    | error err => simp only [h1] at h; cases h
    | ok found =>
      simp only [h1] at h
      cases h2 : routeToXys C.T o found R (real.filter (fun c => decide (c ∈ found))) with
      | error err => simp only [h2] at h; cases h
      | ok R1 =>
        simp only [h2] at h
        split at h
        · have hW1 : WInv C.T (fun e => e ∈ addTo E o ∨ B e) R := hW.mono (by
            rintro e (h | h)
            · exact Or.inl (mem_addTo.mpr (Or.inl h))
            · exact Or.inr h)
          obtain ⟨k1, k2, k3⟩ := winv_routeToXys hW1
            ⟨o, Or.inl (mem_addTo.mpr (Or.inr rfl)), .refl⟩ h2
          obtain ⟨j1, j2, j3, j4, j5, j6⟩ := ih h k1
          refine ⟨j1, k2.trans j2, fun e he => j3 e (mem_addTo.mpr (Or.inl he)), ?_, ?_, ?_⟩
          · intro o' ho'
            rcases List.mem_cons.mp ho' with rfl | ho'
            · exact j3 _ (mem_addTo.mpr (Or.inr rfl))
            · exact j4 o' ho'
          · intro t ht
            by_cases hm : t ∈ real.filter (fun c => decide (c ∈ found))
            · exact Or.inr ((k3 t hm).mono j2)
            · exact j5 t (List.mem_filter.mpr ⟨ht, by
                rw [Bool.not_eq_true', decide_eq_false_iff_not]; exact hm⟩)
          · intro e he
            rcases j6 e he with h | h
            · rcases mem_addTo.mp h with h | rfl
              · exact Or.inl h
              · exact Or.inr List.mem_cons_self
            · exact Or.inr (List.mem_cons_of_mem _ h)
        · cases h

/-- One edge: the routes stay rooted in the source edge chips, and every target chip gets a route. -/
theorem routeTo_ok {C : Ctx} {P : Partition} (hC : Contract C P) (hn : NoReturns C) {s : XY}
    {all targets E E' : List XY} {M : Mapping} {R R' : Routes}
    (hs : s ∈ C.T.chips) (hsM : (M.get? s).isSome = true)
    (hall : ∀ c, c ∈ all ↔ (M.get? c).isSome = true) (htc : ∀ t ∈ targets, t ∈ C.T.chips)
    (hW : WInv C.T (· ∈ E) R) (h : routeTo C s all M targets E R = .ok (E', R')) :
    WInv C.T (· ∈ E') R' ∧ Extends R R' ∧ (∀ e ∈ E, e ∈ E') ∧ (∀ t ∈ targets, Routed R' t) := by
  unfold routeTo at h
  cases h1 : chooseTarget C targets R M with
  | error err => simp only [h1] at h; cases h
  | ok r =>
    obtain ⟨t, ov⟩ := r
    simp only [h1] at h
    obtain ⟨ht, hov⟩ := chooseTarget_ok hC.iter h1
    cases h2 : preToPost C.T s t R (C.vector s t) all targets with
    | error err => simp only [h2] at h; cases h
    | ok r =>
      obtain ⟨R1, pre, post⟩ := r
      simp only [h2] at h
      obtain ⟨k1, k2, k3, k4⟩ := winv_preToPost hC hn hs (htc t ht) hW h2
      have hpreM : pre = s ∨ pre ∈ all → (M.get? pre).isSome = true := by
        rintro (rfl | h)
        · exact hsM
        · exact (hall pre).1 h
      have hpost : ∃ e, (e ∈ E ∨ (e = pre ∧ (pre = s ∨ pre ∈ all))) ∧ Leads R1 e post := by
        obtain ⟨e, a1, a2⟩ := k1.rooted pre k4
        exact ⟨e, a1, leads_trans a2 k3⟩
      cases ov with
      | none =>
        simp only at h
        cases h3 : routeToXys C.T post targets R1 targets with
        | error err => simp only [h3] at h; cases h
        | ok R2 =>
          simp only [h3] at h
          obtain ⟨j1, j2, j3⟩ := winv_routeToXys k1 hpost h3
          simp only [Except.ok.injEq, Prod.mk.injEq] at h
          obtain ⟨rfl, rfl⟩ := h
          refine ⟨j1.mono ?_, k2.trans j2, ?_, j3⟩
          · rintro e (he | ⟨rfl, he⟩)
            · split
              · exact mem_addTo.mpr (Or.inl he)
              · exact he
            · rw [if_pos (hpreM he)]
              exact mem_addTo.mpr (Or.inr rfl)
          · intro e he
            split
            · exact mem_addTo.mpr (Or.inl he)
            · exact he
      | some os =>
        simp only at h
        obtain ⟨hto, hos⟩ := hov os rfl
        cases h3 : overlapLoop C os os E targets targets R1 with
        | error err => simp only [h3] at h; cases h
        | ok r =>
          obtain ⟨E2, real2, tgt2, R2⟩ := r
          simp only [h3] at h
          obtain ⟨j1, j2, j3, j4, j5, _⟩ := overlapLoop_ok os h3 k1
          cases h4 : routeToXys C.T post tgt2 R2 real2 with
          | error err => simp only [h4] at h; cases h
          | ok R3 =>
            simp only [h4] at h
            obtain ⟨e, a1, a2⟩ := hpost
            have hpt : pre = t := preToPost_home hC hn hs (htc t ht) ((hall t).2 (hos t hto).2) h2
            have hE2 : ∀ e, (e ∈ E2 ∨ (e = pre ∧ (pre = s ∨ pre ∈ all))) → e ∈ E2 := by
              rintro e (he | ⟨rfl, _⟩)
              · exact he
              · exact j4 _ (hpt ▸ hto)
            obtain ⟨i1, i2, i3⟩ := winv_routeToXys (j1.mono hE2)
              ⟨e, hE2 e (a1.imp (j3 e) id), a2.mono j2⟩ h4
            simp only [Except.ok.injEq, Prod.mk.injEq] at h
            obtain ⟨rfl, rfl⟩ := h
            refine ⟨i1, (k2.trans j2).trans i2, j3, ?_⟩
            intro t' ht'
            rcases j5 t' ht' with h | h
            · exact i3 t' h
            · exact h.mono i2

end Pacman.Router
