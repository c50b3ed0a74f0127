import Verif.Proofs.RouterGraph
import Verif.Props.Targets
import Verif.Spec.Wanted
/-
Helper lemmas: where targets ask evenly, the entry of a vertex leads only to targets that asked for it.
-/

namespace Pacman.Router

open Alloc (VId)
open RPath
open Targets (Op Clean Covers)

/-! ### The calls -/

/-- The calls made on chip `c`. -/
def opsAt (G : List (XY × Op)) (c : XY) : List Op := (G.filter (fun g => decide (g.1 = c))).map (·.2)

theorem mem_opsAt {G : List (XY × Op)} {c : XY} {o : Op} : o ∈ opsAt G c ↔ (c, o) ∈ G := by
  unfold opsAt
  simp only [List.mem_map, List.mem_filter, decide_eq_true_eq]
  constructor
  · rintro ⟨⟨d, o'⟩, ⟨h1, h2⟩, h3⟩
    simp only at h2 h3
    rw [← h2, ← h3]; exact h1
  · intro h
    exact ⟨_, ⟨h, rfl⟩, rfl⟩

/-- The targets are the result of the calls. -/
def Ran (C : Ctx) (G : List (XY × Op)) (tg : Dict XY Targets.State) : Prop :=
  ∀ c, Targets.run C.env (opsAt G c) Targets.State.empty = .ok ((tg.get? c).getD Targets.State.empty)

theorem ran_ask {C : Ctx} {G : List (XY × Op)} {tg tg' : Dict XY Targets.State} {c : XY} {o : Op}
    (h : Ran C G tg) (ha : ask C tg c o = .ok tg') : Ran C (G ++ [(c, o)]) tg' := by
  unfold ask at ha
  split at ha
  · cases ha
  · rename_i t hs
    cases ha
    intro d
    unfold opsAt
    rw [List.filter_append, List.map_append, Targets.run_append]
    have h0 := h d
    unfold opsAt at h0
    rw [h0, Dict.get?_set]
    by_cases hcd : c = d
    · subst hcd
      rw [if_pos rfl]
      simp only [List.filter_cons, decide_true, if_true, List.filter_nil, List.map_cons, List.map_nil,
        Targets.run, hs, Option.getD_some]
    · rw [if_neg hcd]
      simp [hcd, Targets.run]

theorem ran_askAll {C : Ctx} {M : Mapping} (vs : List (Nat × List VId)) :
    ∀ {G : List (XY × Op)} {tg tg' : Dict XY Targets.State}, Ran C G tg →
    askAll C M vs tg = .ok tg' → Ran C (G ++ allOps C M vs) tg' := by
  induction vs with
  | nil =>
    intro G tg tg' h ha
    simp only [askAll] at ha
    cases ha
    simpa [allOps] using h
  | cons v vs ih =>
    intro G tg tg' h ha
    simp only [askAll] at ha
    split at ha
    · cases ha
    · rename_i tg1 h1
      have := ih (ran_ask h h1) ha
      simpa [allOps] using this

/-- The calls made by `askSelf`. -/
def ownOps (C : Ctx) (vs : List (Nat × List VId)) : List (XY × Op) :=
  vs.map (fun v => ((C.locate v.1).1, .addMachine (C.locate v.1).2.1 (C.locate v.1).2.2 v.2))

theorem ran_askSelf {C : Ctx} (vs : List (Nat × List VId)) :
    ∀ {G : List (XY × Op)} {W W' : Work}, Ran C G W.targets →
    askSelf C vs W = .ok W' → Ran C (G ++ ownOps C vs) W'.targets := by
  induction vs with
  | nil =>
    intro G W W' h ha
    simp only [askSelf] at ha
    cases ha
    simpa [ownOps] using h
  | cons v vs ih =>
    intro G W W' h ha
    simp only [askSelf] at ha
    split at ha
    · cases ha
    · rename_i tg1 h1
      have := ih (W := ⟨W.edges, W.routes, tg1, W.selfConnected, addTo W.selfXys (C.locate v.1).1⟩)
        (ran_ask h h1) ha
      simpa [ownOps] using this

/-- The calls made for one edge. -/
def edgeOps (C : Ctx) (P : Partition) (M : Mapping) (e : Nat × List (Nat × List VId)) : List (XY × Op) :=
  if P.source ≠ e.1 then allOps C M e.2 else ownOps C e.2

theorem ran_routeEdges {C : Ctx} {P : Partition} {s : XY} {all : List XY} {M : Mapping}
    (es : List (Nat × List (Nat × List VId))) : ∀ {G : List (XY × Op)} {W W' : Work},
    Ran C G W.targets → routeEdges C P s all M es W = .ok W' →
    Ran C (G ++ es.flatMap (edgeOps C P M)) W'.targets := by
  induction es with
  | nil =>
    intro G W W' h hr
    simp only [routeEdges] at hr
    cases hr
    simpa using h
  | cons e es ih =>
    intro G W W' h hr
    simp only [routeEdges] at hr
    split at hr
    · cases hr
    · rename_i W1 hw
      have key : Ran C (G ++ edgeOps C P M e) W1.targets := by
        unfold routeEdge at hw
        unfold edgeOps
        split at hw
        · rename_i hne
          rw [if_pos hne]
          split at hw
          · cases hw
          · rename_i tg htg
            split at hw
            · cases hw
            · cases hw
              exact ran_askAll _ h htg
        · rename_i hne
          rw [if_neg hne]
          exact ran_askSelf _ (W := ⟨W.edges, W.routes, W.targets, true, W.selfXys⟩) h hw
      have := ih key hr
      rw [List.flatMap_cons, ← List.append_assoc]
      exact this

theorem ran_routeInternal {C : Ctx} {P : Partition} {G : List (XY × Op)} {W W' : Work}
    (h : Ran C G W.targets) (hr : routeInternal C P W = .ok W') :
    Ran C (G ++ ownOps C (internalAsks P)) W'.targets := by
  unfold routeInternal at hr
  split at hr
  · rename_i hi
    cases hr
    simpa [internalAsks, hi, ownOps] using h
  · exact ran_askSelf _ (W := ⟨W.edges, W.routes, W.targets, true, W.selfXys⟩) h hr

/-! ### What the calls leave -/

/-- `Even` for one partition. -/
def EvenP (C : Ctx) (P : Partition) : Prop :=
  ∀ c, (∀ m, Sends C P m → (C.locate m).1 ≠ c) →
    (∃ e ∈ P.edges, e.1 ≠ P.source ∧ ∃ u ∈ e.2, (C.locate u.1).1 = c ∧ .app P.source ∈ u.2) →
    ¬ ((∃ e ∈ P.edges, ∃ u ∈ e.2, (C.locate u.1).1 = c ∧ (e.1 = P.source ∨ ∃ m, .mach m ∈ u.2)) ∨
      ∃ p ∈ P.internal, ∃ t ∈ p.2, (C.locate t).1 = c)

/-- `t` is to get the packets that the entry of `v` is for. -/
def WantsFor (C : Ctx) (P : Partition) (v : VId) (t : Nat) : Prop :=
  (∃ e ∈ P.edges, ∃ u ∈ e.2, u.1 = t ∧ ∃ s ∈ u.2, s = v ∨ ∃ m, v = .mach m ∧ Covers C.env s m) ∨
  (∃ p ∈ P.internal, v = .mach p.1 ∧ t ∈ p.2)

/-- The lists of a vertex hold only cores and links of targets on chip `c` that are to get its packets. -/
def Fine (C : Ctx) (P : Partition) (c : XY) (t : Targets.State) : Prop :=
  ∀ v L, t.lists v = some L →
    (∀ p ∈ L.1, ∃ x, WantsFor C P v x ∧ (C.locate x).1 = c ∧ (C.locate x).2.1 = some p) ∧
    (∀ l ∈ L.2, ∃ x, WantsFor C P v x ∧ (C.locate x).1 = c ∧ (C.locate x).2.2 = some l)

/-- All calls of a partition. -/
def calls (C : Ctx) (P : Partition) (M : Mapping) : List (XY × Op) :=
  P.edges.flatMap (edgeOps C P M) ++ ownOps C (internalAsks P)

/-- Where a call comes from. -/
theorem calls_cases {C : Ctx} {P : Partition} {M : Mapping} {c : XY} {o : Op} (h : (c, o) ∈ calls C P M) :
    (∃ e ∈ P.edges, e.1 ≠ P.source ∧ ∃ u ∈ e.2, (C.locate u.1).1 = c ∧ o = opFor C M u) ∨
    (∃ e ∈ P.edges, e.1 = P.source ∧ ∃ u ∈ e.2, (C.locate u.1).1 = c ∧
      o = .addMachine (C.locate u.1).2.1 (C.locate u.1).2.2 u.2) ∨
    (∃ p ∈ P.internal, ∃ t ∈ p.2, (C.locate t).1 = c ∧
      o = .addMachine (C.locate t).2.1 (C.locate t).2.2 [.mach p.1]) := by
  unfold calls at h
  rcases List.mem_append.mp h with h | h
  · obtain ⟨e, he, h⟩ := List.mem_flatMap.mp h
    unfold edgeOps at h
    split at h
    · rename_i hne
      obtain ⟨u, hu, hh⟩ := List.mem_map.mp h
      simp only [Prod.mk.injEq] at hh
      exact Or.inl ⟨e, he, Ne.symm hne, u, hu, hh.1, hh.2.symm⟩
    · rename_i hne
      obtain ⟨u, hu, hh⟩ := List.mem_map.mp h
      simp only [Prod.mk.injEq] at hh
      exact Or.inr (Or.inl ⟨e, he, (Decidable.not_not.mp hne).symm, u, hu, hh.1, hh.2.symm⟩)
  · obtain ⟨u, hu, hh⟩ := List.mem_map.mp h
    simp only [Prod.mk.injEq] at hh
    unfold internalAsks at hu
    simp only [List.mem_flatMap, List.mem_map] at hu
    obtain ⟨p, hp, t, ht, rfl⟩ := hu
    exact Or.inr (Or.inr ⟨p, hp, t, ht, hh.1, hh.2.symm⟩)

theorem calls_unmixed {C : Ctx} {P : Partition} {M : Mapping} (hC : Contract C P) (he : EvenP C P)
    (hM : mapping C P = .ok M) (c : XY) : Targets.Unmixed C.env (opsAt (calls C P M) c) := by
  rintro a ⟨o, ho, hw⟩ ⟨o', ho', hs⟩
  rw [mem_opsAt] at ho ho'
  rcases calls_cases ho with ⟨e, h1, h2, u, h3, h4, rfl⟩ | ⟨_, _, _, u, _, _, rfl⟩ | ⟨_, _, _, _, _, rfl⟩
  · unfold opFor at hw
    split at hw
    · exact hw
    · rename_i hnone
      rw [h4] at hnone
      have hno : ∀ m, Sends C P m → (C.locate m).1 ≠ c := fun m hm hc =>
        hnone (((mapping_ok hM).2 c).mpr ⟨m, hm, hc⟩)
      have ha : a = P.source := by
        rcases hC.sources e h1 u h3 _ hw with h | ⟨_, _, _, _, h⟩
        · exact VId.app.inj h
        · cases h
      subst ha
      refine he c hno ⟨e, h1, h2, u, h3, h4, hw⟩ ?_
      rcases calls_cases ho' with ⟨e', k1, k2, u', k3, k4, rfl⟩ | ⟨e', k1, k2, u', k3, k4, rfl⟩ |
        ⟨p, k1, t, k2, k3, rfl⟩
      · refine Or.inl ⟨e', k1, u', k3, k4, Or.inr ?_⟩
        unfold opFor at hs
        rw [k4, if_neg hnone] at hs
        obtain ⟨m, hm, _⟩ := hs
        exact ⟨m, hm⟩
      · exact Or.inl ⟨e', k1, u', k3, k4, Or.inl k2⟩
      · exact Or.inr ⟨p, k1, t, k2, k3⟩
  · exact hw
  · exact hw

/-- What a request asks for is wanted. -/
theorem calls_wanted {C : Ctx} {P : Partition} {M : Mapping} {c : XY} {o : Op}
    (h : (c, o) ∈ calls C P M) {r : VId × Option Nat × Option Nat} (hr : r ∈ Targets.requests C.env o) :
    ∃ x, WantsFor C P r.1 x ∧ (C.locate x).1 = c ∧ (C.locate x).2 = r.2 := by
  have key : ∀ (core link : Option Nat) (vs : List VId),
      r ∈ Targets.requests C.env (.addMachine core link vs) →
      r.2 = (core, link) ∧ ∃ s ∈ vs, s = r.1 ∨ ∃ m, r.1 = .mach m ∧ Covers C.env s m := by
    intro core link vs hr
    simp only [Targets.requests, List.mem_flatMap] at hr
    obtain ⟨s, hs, hr⟩ := hr
    cases s with
    | app a =>
      simp only [List.mem_map] at hr
      obtain ⟨m, hm, rfl⟩ := hr
      refine ⟨rfl, _, hs, Or.inr ⟨m, rfl, Or.inr ⟨a, ?_⟩⟩⟩
      cases ho : C.env.outgoing a with
      | none => rw [ho] at hm; cases hm
      | some l => rw [ho] at hm; exact ⟨l, rfl, rfl, hm⟩
    | mach m =>
      simp only [List.mem_singleton] at hr
      subst hr
      exact ⟨rfl, _, hs, Or.inl rfl⟩
  rcases calls_cases h with ⟨e, h1, _, u, h3, h4, rfl⟩ | ⟨e, h1, _, u, h3, h4, rfl⟩ | ⟨p, h1, t, h2, h3, rfl⟩
  · unfold opFor at hr
    split at hr
    · obtain ⟨k1, s, k2, k3⟩ := key _ _ _ hr
      exact ⟨u.1, Or.inl ⟨e, h1, u, h3, rfl, s, k2, k3⟩, h4, k1.symm⟩
    · simp only [Targets.requests, List.mem_map] at hr
      obtain ⟨s, hs, rfl⟩ := hr
      exact ⟨u.1, Or.inl ⟨e, h1, u, h3, rfl, s, hs, Or.inl rfl⟩, h4, rfl⟩
  · obtain ⟨k1, s, k2, k3⟩ := key _ _ _ hr
    exact ⟨u.1, Or.inl ⟨e, h1, u, h3, rfl, s, k2, k3⟩, h4, k1.symm⟩
  · obtain ⟨k1, s, k2, k3⟩ := key _ _ _ hr
    simp only [List.mem_singleton] at k2
    subst k2
    refine ⟨t, Or.inr ⟨p, h1, ?_, h2⟩, h3, k1.symm⟩
    rcases k3 with h | ⟨m, h, hc⟩
    · exact h.symm
    · rcases hc with hc | ⟨_, _, hc, _⟩
      · rw [h, hc]
      · cases hc

theorem fine_of_ran {C : Ctx} {P : Partition} {M : Mapping} (hC : Contract C P) (he : EvenP C P)
    (hM : mapping C P = .ok M) {tg : Dict XY Targets.State} (h : Ran C (calls C P M) tg) {c : XY}
    {t : Targets.State} (ht : tg.get? c = some t) : Fine C P c t := by
  intro v L hL
  have hrun := h c
  rw [ht, Option.getD_some] at hrun
  rw [Targets.C40_exact_partial (owned_env hC) hrun (calls_unmixed hC he hM c) v] at hL
  unfold Targets.gather at hL
  split at hL
  · cases hL
    have main : ∀ r ∈ ((opsAt (calls C P M) c).flatMap (Targets.requests C.env)).filter
        (fun r => decide (r.1 = v)), ∃ x, WantsFor C P v x ∧ (C.locate x).1 = c ∧ (C.locate x).2 = r.2 := by
      intro r hr
      obtain ⟨h1, h2⟩ := List.mem_filter.mp hr
      obtain ⟨o, h3, h4⟩ := List.mem_flatMap.mp h1
      rw [← of_decide_eq_true h2]
      exact calls_wanted (mem_opsAt.mp h3) h4
    refine ⟨fun p hp => ?_, fun l hl => ?_⟩
    · obtain ⟨r, h1, h2⟩ := List.mem_filterMap.mp hp
      obtain ⟨x, k1, k2, k3⟩ := main r h1
      exact ⟨x, k1, k2, by rw [k3]; exact h2⟩
    · obtain ⟨r, h1, h2⟩ := List.mem_filterMap.mp hl
      obtain ⟨x, k1, k2, k3⟩ := main r h1
      exact ⟨x, k1, k2, by rw [k3]; exact h2⟩
  · cases hL

theorem fine_ensure {C : Ctx} {P : Partition} {c : XY} {t : Targets.State} (hw : Targets.WF t)
    (h : Fine C P c t) (v : VId) : Fine C P c (Targets.ensure t v) := by
  intro u L hL
  rw [Targets.ensure_lists hw] at hL
  split at hL
  · cases hL
    exact ⟨(fun p hp => by cases hp), (fun p hp => by cases hp)⟩
  · exact h u L hL

/-! ### The entries -/

/-- Clean and fine. -/
def AllFine (C : Ctx) (P : Partition) (tg : Dict XY Targets.State) : Prop :=
  ∀ c t, tg.get? c = some t → Fine C P c t

theorem fine_set {C : Ctx} {P : Partition} {tg : Dict XY Targets.State} (h : AllFine C P tg) {c : XY}
    {t : Targets.State} (ht : Fine C P c t) : AllFine C P (tg.set c t) := by
  intro d u hu
  rw [Dict.get?_set] at hu
  split at hu
  · rename_i hcd
    cases hu
    exact hcd ▸ ht
  · exact h d u hu

/-- Bit `b` on chip `c` is a link of the routes, or stands for a target there that is to get the packets
of `v`. -/
def MayFor (C : Ctx) (P : Partition) (K : XY → Nat → XY → Prop) (v : VId) (c : XY) (b : Nat) : Prop :=
  (∃ d, K c b d) ∨ ∃ x, WantsFor C P v x ∧ (C.locate x).1 = c ∧
    ((C.locate x).2.2 = some b ∨ ∃ p, (C.locate x).2.1 = some p ∧ b = 6 + p)

/-- The new bits of the partition's entries. -/
def Wanted (C : Ctx) (P : Partition) (K : XY → Nat → XY → Prop) (S S' : ByPart.State) : Prop :=
  ∀ v c b, Bit S' P.ident v c b → Bit S P.ident v c b ∨ MayFor C P K v c b

theorem Wanted.trans {C : Ctx} {P : Partition} {K : XY → Nat → XY → Prop} {S S1 S2 : ByPart.State}
    (h1 : Wanted C P K S S1) (h2 : Wanted C P K S1 S2) : Wanted C P K S S2 := by
  intro v c b h
  rcases h2 v c b h with h | h
  · exact h1 v c b h
  · exact Or.inr h

theorem fine_convertLoop {C : Ctx} {P : Partition} {ident : Nat} {src : VId}
    {useSource ensureAll : Bool} {R : Routes} (hsrc : Mine C P src) (fuel : Nat) :
    ∀ {st : List (Option Nat × Option Nat × XY)} {S : ByPart.State} {tg : Dict XY Targets.State}
      {r : ByPart.State × Dict XY Targets.State}, AllClean C P tg → AllFine C P tg →
    convertLoop C ident src useSource ensureAll R fuel st S tg = .ok r → AllFine C P r.2 := by
  induction fuel with
  | zero =>
    intro st S tg r _ h hr
    cases st with
    | nil => simp only [convertLoop] at hr; cases hr; exact h
    | cons i st => simp only [convertLoop] at hr; cases hr
  | succ fuel ih =>
    intro st S tg r hcl h hr
    cases st with
    | nil => simp only [convertLoop] at hr; cases hr; exact h
    | cons i st =>
      obtain ⟨iP, iL, xy⟩ := i
      simp only [convertLoop] at hr
      split at hr
      · cases hr
      · rename_i S1 tg1 hc
        unfold convertChip at hc
        split at hc
        · rename_i t ht
          simp only at hc
          split at hc
          · cases hc
          · split at hc
            · cases hc
            · cases hc
              refine ih (clean_set hcl ?_) (fine_set h ?_) hr
              · unfold sourcesAt
                split
                · exact Targets.clean_ensure (hcl xy t ht) hsrc
                · exact hcl xy t ht
              · unfold sourcesAt
                split
                · exact fine_ensure (hcl xy t ht).wf (h xy t ht) src
                · exact h xy t ht
        · split at hc
          · cases hc
          · cases hc; exact ih hcl h hr

theorem wanted_convert {C : Ctx} {P : Partition} (hC : Contract C P) {K : XY → Nat → XY → Prop}
    {fuel : Nat} {src : VId} {useSource ensureAll : Bool} {R : Routes} {iP iL : Option Nat}
    {first : XY} {S S' : ByPart.State} {tg tg' : Dict XY Targets.State}
    (hf : Fits src useSource ensureAll) (hsrc : Mine C P src) (hc : AllClean C P tg)
    (hfi : AllFine C P tg) (hR : ∀ a l b, Edge R a l b → K a l b)
    (h : convert C fuel P.ident src useSource ensureAll R iP iL first S tg = .ok (S', tg')) :
    Wanted C P K S S' ∧ AllFine C P tg' := by
  refine ⟨fun v c b hb => ?_, ?_⟩
  · rcases (convert_bits hC.merges hf hc.sound h P.ident v c b).mp hb with hb | ⟨_, _, h2⟩
    · exact Or.inl hb
    · refine Or.inr ?_
      rcases h2 with ⟨d, hd⟩ | ⟨t, L, ht, hL, hb⟩
      · exact Or.inl ⟨d, hR c b d hd⟩
      · obtain ⟨k1, k2⟩ := hfi c t ht v L hL
        rcases hb with hb | ⟨p, hp, rfl⟩
        · obtain ⟨x, j1, j2, j3⟩ := k2 b hb
          exact Or.inr ⟨x, j1, j2, Or.inl j3⟩
        · obtain ⟨x, j1, j2, j3⟩ := k1 p hp
          exact Or.inr ⟨x, j1, j2, Or.inr ⟨p, j3, rfl⟩⟩
  · unfold convert at h
    split at h
    · exact fine_convertLoop hsrc fuel hc hfi h
    · cases h

theorem fine_edgeTargets {C : Ctx} {P : Partition} (M : Mapping) (c : XY) :
    Fine C P c (edgeTargets M) := by
  unfold edgeTargets
  have key : ∀ (vs : List (Nat × Option Nat × Option Nat)) (s : Targets.State), Targets.WF s →
      Fine C P c s → Fine C P c (vs.foldl (fun s v => Targets.ensure s (.mach v.1)) s) := by
    intro vs
    induction vs with
    | nil => intro s _ h; exact h
    | cons v vs ih =>
      intro s hw h
      exact ih _ (Targets.ensure_wf hw _) (fine_ensure hw h _)
  exact key _ _ (fun v p h => by cases h) (fun v L h => by cases h)

theorem wanted_toTargets {C : Ctx} {P : Partition} (hC : Contract C P) {K : XY → Nat → XY → Prop}
    {fuel : Nat} {M : Mapping} (hM : ∀ x ∈ M, ∀ v ∈ x.2, Sends C P v.1) {R : Routes}
    (hR : ∀ a l b, Edge R a l b → K a l b) (es : List XY) :
    ∀ {S S' : ByPart.State} {tg tg' : Dict XY Targets.State}, AllClean C P tg → AllFine C P tg →
    toTargets C P fuel M R es S tg = .ok (S', tg') → Wanted C P K S S' ∧ AllFine C P tg' := by
  induction es with
  | nil =>
    intro S S' tg tg' _ hfi h
    simp only [toTargets] at h
    cases h
    exact ⟨fun _ _ _ h => Or.inl h, hfi⟩
  | cons e es ih =>
    intro S S' tg tg' hc hfi h
    simp only [toTargets] at h
    have hc1 : AllClean C P (if (tg.get? e).isSome then tg else tg.set e (edgeTargets M)) := by
      split
      · exact hc
      · exact clean_set hc (clean_edgeTargets hM e)
    have hf1 : AllFine C P (if (tg.get? e).isSome then tg else tg.set e (edgeTargets M)) := by
      split
      · exact hfi
      · exact fine_set hfi (fine_edgeTargets M e)
    generalize (if (tg.get? e).isSome then tg else tg.set e (edgeTargets M)) = tg1 at h hc1 hf1
    split at h
    · cases h
    · rename_i S1 tg2 h1
      obtain ⟨_, k2⟩ := only_convert hC (fun _ => ⟨rfl, _, rfl⟩) (Or.inl rfl) hc1 hR h1
      obtain ⟨j1, j2⟩ := wanted_convert hC (fun _ => ⟨rfl, _, rfl⟩) (Or.inl rfl) hc1 hf1 hR h1
      obtain ⟨k3, k4⟩ := ih k2 j2 h
      exact ⟨j1.trans k3, k4⟩

theorem wanted_fromVertices {C : Ctx} {P : Partition} (hC : Contract C P) {K : XY → Nat → XY → Prop}
    {fuel : Nat} {useSource : Bool} {R : Routes} (hR : ∀ a l b, Edge R a l b → K a l b) {xy : XY}
    (vs : List (Nat × Option Nat × Option Nat)) :
    ∀ {S S' : ByPart.State} {tg tg' : Dict XY Targets.State}, (∀ v ∈ vs, Sends C P v.1) →
    AllClean C P tg → AllFine C P tg → fromVertices C P fuel useSource R xy vs S tg = .ok (S', tg') →
    Wanted C P K S S' ∧ AllFine C P tg' := by
  induction vs with
  | nil =>
    intro S S' tg tg' _ _ hfi h
    simp only [fromVertices] at h
    cases h
    exact ⟨fun _ _ _ h => Or.inl h, hfi⟩
  | cons v vs ih =>
    obtain ⟨m, p, l⟩ := v
    intro S S' tg tg' hv hc hfi h
    simp only [fromVertices] at h
    split at h
    · cases h
    · rename_i S1 tg1 h1
      have hm : Mine C P (.mach m) := Or.inr ⟨m, rfl, hv _ List.mem_cons_self⟩
      obtain ⟨_, k2⟩ := only_convert hC (fun he => by cases he) hm hc hR h1
      obtain ⟨j1, j2⟩ := wanted_convert hC (fun he => by cases he) hm hc hfi hR h1
      obtain ⟨k3, k4⟩ := ih (fun u hu => hv u (List.mem_cons_of_mem _ hu)) k2 j2 h
      exact ⟨j1.trans k3, k4⟩

theorem wanted_fromSources {C : Ctx} {P : Partition} (hC : Contract C P) {K : XY → Nat → XY → Prop}
    (hK : Keeps C K) {fuel : Nat} {useSource : Bool} {all goals : List XY} (M : Mapping) :
    ∀ {S S' : ByPart.State} {tg tg' : Dict XY Targets.State}, (∀ x ∈ M, ∀ v ∈ x.2, Sends C P v.1) →
    AllClean C P tg → AllFine C P tg → fromSources C P fuel useSource all goals M S tg = .ok (S', tg') →
    Wanted C P K S S' := by
  induction M with
  | nil =>
    intro S S' tg tg' _ _ _ h
    simp only [fromSources] at h
    cases h
    exact fun _ _ _ h => Or.inl h
  | cons x M ih =>
    obtain ⟨xy, vs⟩ := x
    intro S S' tg tg' hM hc hfi h
    simp only [fromSources] at h
    split at h
    · cases h
    · rename_i R hr
      split at h
      · cases h
      · rename_i S1 tg1 h1
        have hR := keeps_routeToXys hK (R := []) (by rintro a l b ⟨ch, h, _⟩; cases h) hr
        obtain ⟨_, k2⟩ := only_fromVertices hC hR vs (hM _ List.mem_cons_self) hc h1
        obtain ⟨j1, j2⟩ := wanted_fromVertices hC hR vs (hM _ List.mem_cons_self) hc hfi h1
        exact j1.trans (ih (fun x hx => hM x (List.mem_cons_of_mem _ hx)) k2 j2 h)

/-- The routing of a partition sets only bits of links, and of targets that are to get the packets. -/
theorem wanted_partition {C : Ctx} {P : Partition} (hC : Contract C P) (he : EvenP C P)
    {K : XY → Nat → XY → Prop} (hK : Keeps C K) {fuel : Nat} {S S' : ByPart.State}
    (h : routePartition C P fuel S = .ok S') : Wanted C P K S S' := by
  unfold routePartition at h
  cases hM : mapping C P with
  | error err => rw [hM] at h; cases h
  | ok M =>
    rw [hM] at h
    cases M with
    | nil => simp only at h; cases h; exact fun _ _ _ h => Or.inl h
    | cons s M =>
      simp only at h
      have hsend := (mapping_sends hM).2
      have hs : s.1 ∈ C.T.chips := by
        obtain ⟨m, _, hm⟩ := ((mapping_ok hM).2 s.1).mp (by simp [Dict.get?_cons])
        rw [← hm]; exact hC.placed m
      split at h
      · cases h
      · rename_i W hW
        obtain ⟨k1, k2⟩ := clean_routeEdges hC hK hs P.edges (fun e he => he)
          (by intro c t ht; cases ht) (by rintro a l b ⟨ch, h, _⟩; cases h) hW
        have r1 := ran_routeEdges (G := []) P.edges (fun c => rfl) hW
        split at h
        · cases h
        · rename_i W1 hW1
          obtain ⟨k3, k4⟩ := clean_routeInternal k1 hW1
          have r2 : Ran C (calls C P (s :: M)) W1.targets := ran_routeInternal r1 hW1
          have hfi : AllFine C P W1.targets := fun c t ht => fine_of_ran hC he hM r2 ht
          rw [← k4] at k2
          unfold makeRoutes at h
          split at h
          · cases h
          · rename_i S1 tg1 h1
            obtain ⟨_, j2⟩ := only_toTargets hC hsend k2 _ k3 h1
            obtain ⟨j1, j3⟩ := wanted_toTargets hC hsend k2 _ k3 hfi h1
            split at h
            · split at h
              · cases h
              · rename_i S2 tg2 h2
                cases h
                exact j1.trans (wanted_fromSources hC hK _ hsend j2 j3 h2)
            · split at h
              · cases h
              · rename_i S2 tg2 h2
                cases h
                exact j1.trans (wanted_fromSources hC hK _ hsend (by intro c t ht; cases ht)
                  (by intro c t ht; cases ht) h2)

/-! ### The graph -/

theorem Routed.even {N : Net} (hE : Even N) {p : AppPart} {is : List (Nat × Nat × List Nat)}
    (hp : Routed N p is) : EvenP (N.ctx p.ident) (N.partition p is) := by
  rintro c hno ⟨e, he, h1, u, hu, h2, h3⟩ hor
  obtain ⟨d, hd, rfl⟩ := List.mem_map.mp he
  have h0 : p ∈ N.parts := by
    rcases hp.edges with h0 | h0
    · rw [h0] at hd; cases hd
    · exact h0
  refine hE p.pre p.ident c hp.leaves (fun m hm => hno m ((sends_iff hp m).mpr hm))
    ⟨p, h0, rfl, rfl, d, hd, h1, u, hu, h2, h3⟩ ?_
  rcases hor with ⟨e, he, u, hu, k2, k3⟩ | ⟨q, hq, t, ht, k1⟩
  · obtain ⟨d, hd, rfl⟩ := List.mem_map.mp he
    exact Or.inl ⟨p, h0, rfl, rfl, d, hd, u, hu, k2, k3⟩
  · obtain ⟨i, hi, rfl⟩ := List.mem_map.mp hq
    obtain ⟨j1, j2⟩ := List.mem_filter.mp hi
    exact Or.inr ⟨is, hp.internals, i, j1, of_decide_eq_true j2, t, ht, k1⟩

theorem wantsFor_net {N : Net} (hN : NetContract N) (hL : Listed N) {p : AppPart}
    {is : List (Nat × Nat × List Nat)} (hp : Routed N p is) {v : VId} {m t : Nat} {ms : List Nat}
    (h : WantsFor (N.ctx p.ident) (N.partition p is) v t) (ho : N.outgoing p.ident p.pre = some ms)
    (hm : m ∈ ms) (hv : v = .mach m ∨ v = .app p.pre) : NetWants N p.pre p.ident m t := by
  rcases h with ⟨e, he, u, hu, h1, s, hs, h2⟩ | ⟨q, hq, h1, ht⟩
  · obtain ⟨d, hd, rfl⟩ := List.mem_map.mp he
    have h0 : p ∈ N.parts := by
      rcases hp.edges with h0 | h0
      · rw [h0] at hd; cases hd
      · exact h0
    refine Or.inl ⟨p, h0, rfl, rfl, d, hd, u, hu, h1, s, hs, ?_⟩
    rcases h2 with rfl | ⟨k, h3, h4⟩
    · rcases hv with rfl | rfl
      · exact Or.inl rfl
      · exact Or.inr ⟨rfl, ms, ho, hm⟩
    · rcases hv with rfl | rfl
      · cases h3
        rcases h4 with h4 | ⟨b, l, h4, h5, h6⟩
        · exact Or.inl h4
        · have hb : b = p.pre := by
            have h7 := hN.sends p.ident b l m h5 h6
            have h8 := hN.sends p.ident p.pre ms m ho hm
            rw [h7] at h8
            exact Option.some.inj h8
          subst hb
          exact Or.inr ⟨h4, ms, ho, hm⟩
      · cases h3
  · obtain ⟨i, hi, rfl⟩ := List.mem_map.mp hq
    obtain ⟨j1, j2⟩ := List.mem_filter.mp hi
    rcases hv with rfl | rfl
    · have h3 : m = i.2.1 := VId.mach.inj h1
      refine Or.inr ⟨?_, is, hp.internals, i, j1, of_decide_eq_true j2, h3.symm, ht⟩
      rcases hp.leaves with ⟨q, hq, h4, _⟩ | ⟨h4, _⟩
      · rw [← h4]; exact hL q hq
      · exact h4
    · cases h1

/-- In the end the entry for the packets of a machine vertex leads over links of the machine and to
targets that are to get them. -/
theorem wanted_graph {N : Net} (hN : NetContract N) (hn : NoReturns N.base) (hE : Even N) (hL : Listed N)
    {fuel : Nat} {S : ByPart.State} (h : routeGraph N fuel = .ok S) {a ident m : Nat} {ms : List Nat}
    (hl : Leaves N a ident) (ho : N.outgoing ident a = some ms) (hm : m ∈ ms) {c : XY} {b : Nat}
    (hs : Sent (N.ctx ident) S ident m c b) :
    (b < 6 ∧ N.base.T.linkAt c b = true) ∨ ∃ t, NetWants N a ident m t ∧ (N.base.locate t).1 = c ∧
      ((N.base.locate t).2.2 = some b ∨ ∃ p, (N.base.locate t).2.1 = some p ∧ b = 6 + p) := by
  obtain ⟨p, is, S1, S2, rfl, rfl, hp, _, hr, hf, _, _, hsame⟩ := in_the_end hN h hl
  have hC := hp.contract hN
  have hmm : NetSends N p.pre p.ident m := Or.inl ⟨ms, ho, hm⟩
  obtain ⟨re, h1, h2⟩ := hs
  rw [hsame m hmm c] at h1
  have key : ∃ v, Bit S2 p.ident v c b ∧ (v = .mach m ∨ v = .app p.pre) := by
    unfold entryFor at h1
    split at h1
    · rename_i e he
      cases h1
      exact ⟨.mach m, ⟨re, he, h2⟩, Or.inl rfl⟩
    · split at h1
      · cases h1
      · rename_i a ha
        have : a = p.pre := by
          have h3 := hN.sends p.ident p.pre ms m ho hm
          have h4 : N.base.appOf m = some a := ha
          rw [h3] at h4
          exact (Option.some.inj h4).symm
        subst this
        exact ⟨_, ⟨re, h1, h2⟩, Or.inr rfl⟩
  obtain ⟨v, hb, hv⟩ := key
  have hmine : Mine (N.ctx p.ident) (N.partition p is) v := by
    rcases hv with rfl | rfl
    · exact Or.inr ⟨m, rfl, (sends_iff hp m).mpr hmm⟩
    · exact Or.inl rfl
  rcases wanted_partition hC (hp.even hE) (keeps_wired hC hn) hr v c b hb with ⟨e, he, _⟩ | ⟨d, hd⟩ | ⟨t, k1, k2, k3⟩
  · rw [hf v hmine c] at he
    cases he
  · exact Or.inl ⟨hd.1, hd.2.1⟩
  · exact Or.inr ⟨t, wantsFor_net hN hL hp k1 ho hm hv, k2, k3⟩

end Pacman.Router
