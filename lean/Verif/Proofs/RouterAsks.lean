import Verif.Proofs.RouterConvert
/-
Helper lemmas: the targets recorded while a partition is routed.
-/

namespace Pacman.Targets

open Alloc (VId)

/-- All vertices there belong to one family. -/
def FamKeys (e : Env) (F : VId) (s : State) : Prop := ∀ v, s.has v = true → family e v = F

/-- Machine vertices stay. -/
def KeepsMach (s s' : State) : Prop := ∀ m, s.has (.mach m) = true → s'.has (.mach m) = true

/-- The vertices a call names. -/
def Op.vertices : Op → List VId
  | .add _ _ vs => vs
  | .addMachine _ _ vs => vs

theorem add_has_iff (s : State) (v u : VId) (core link : Option Nat) :
    (addSource s v core link).has u = true ↔ s.has u = true ∨ u = v := by
  rw [add_has]
  simp only [Bool.or_eq_true, decide_eq_true_eq]
  constructor
  · rintro (h | h)
    · exact Or.inl h
    · exact Or.inr h.symm
  · rintro (h | h)
    · exact Or.inl h
    · exact Or.inr h.symm

theorem addAll_has (core link : Option Nat) (l : List Nat) (u : VId) : ∀ (s : State),
    (addAll s core link l).has u = true ↔ s.has u = true ∨ ∃ m ∈ l, u = .mach m := by
  induction l with
  | nil => intro s; simp [addAll]
  | cons m l ih =>
    intro s
    rw [addAll, ih, add_has_iff]
    simp only [List.mem_cons]
    constructor
    · rintro ((h | h) | ⟨k, h, h'⟩)
      · exact Or.inl h
      · exact Or.inr ⟨m, Or.inl rfl, h⟩
      · exact Or.inr ⟨k, Or.inr h, h'⟩
    · rintro (h | ⟨k, rfl | h, h'⟩)
      · exact Or.inl (Or.inl h)
      · exact Or.inl (Or.inr h')
      · exact Or.inr ⟨k, h, h'⟩

/-- A step that keeps machine vertices and the family. -/
def Tame (e : Env) (vs : List VId) (s s' : State) : Prop :=
  KeepsMach s s' ∧ ∀ F, FamKeys e F s → (∀ v ∈ vs, family e v = F) → FamKeys e F s'

theorem tame_refl (e : Env) (vs : List VId) (s : State) : Tame e vs s s :=
  ⟨fun _ h => h, fun _ h _ => h⟩

theorem tame_trans {e : Env} {vs : List VId} {s s1 s2 : State} (h1 : Tame e vs s s1)
    (h2 : Tame e vs s1 s2) : Tame e vs s s2 :=
  ⟨fun m h => h2.1 m (h1.1 m h), fun F h hv => h2.2 F (h1.2 F h hv) hv⟩

theorem tame_mono {e : Env} {vs ws : List VId} {s s1 : State} (h1 : Tame e vs s s1)
    (h : ∀ v ∈ vs, v ∈ ws) : Tame e ws s s1 :=
  ⟨h1.1, fun F hf hv => h1.2 F hf (fun v hm => hv v (h v hm))⟩

theorem tame_add (e : Env) (s : State) (v : VId) (core link : Option Nat) :
    Tame e [v] s (addSource s v core link) := by
  refine ⟨fun m h => (add_has_iff _ _ _ _ _).mpr (Or.inl h), fun F hf hv u hu => ?_⟩
  rcases (add_has_iff _ _ _ _ _).mp hu with h | rfl
  · exact hf u h
  · exact hv u List.mem_cons_self

theorem family_out {e : Env} (ho : Owned e) {a m : Nat} {l : List Nat} (hl : e.outgoing a = some l)
    (hm : m ∈ l) : family e (.mach m) = .app a := by
  simp [family, ho a l m hl hm]

theorem tame_addM {e : Env} (ho : Owned e) {s s' : State} {a : Nat} {core link : Option Nat}
    (hr : addM e s a core link = .ok s') :
    Tame e [.app a] s s' ∧ ∀ m, Covers e (.app a) m → s'.has (.mach m) = true := by
  unfold addM at hr
  cases hl : e.outgoing a with
  | none => simp only [hl] at hr; cases hr
  | some l =>
    simp only [hl] at hr
    cases hr
    refine ⟨⟨fun m h => (addAll_has _ _ _ _ _).mpr (Or.inl h), fun F hf hv u hu => ?_⟩, ?_⟩
    · rcases (addAll_has _ _ _ _ _).mp hu with h | ⟨m, hm, rfl⟩
      · exact hf u h
      · rw [family_out ho hl hm]
        exact hv _ List.mem_cons_self
    · rintro m (h | ⟨b, k, hb, hk, hm⟩)
      · cases h
      · cases hb
        rw [hl] at hk
        cases hk
        exact (addAll_has _ _ _ _ _).mpr (Or.inr ⟨m, hm, rfl⟩)

theorem tame_replaceIf {e : Env} (ho : Owned e) {s s' : State} {a : Option Nat} (vs : List VId)
    (hr : replaceIf e s a = .ok s') : Tame e vs s s' := by
  unfold replaceIf at hr
  cases a with
  | none => cases hr; exact tame_refl e vs s
  | some a =>
    simp only at hr
    split at hr
    · rename_i hh
      obtain ⟨p, l, h1, h2, h3, h4⟩ := replace_cases hr
      refine ⟨fun m h => ?_, fun F hf hv u hu => ?_⟩
      · rw [has_iff] at h ⊢
        rw [h4]
        split
        · exact ⟨p, rfl⟩
        · rw [if_neg (by simp)]
          exact h
      · rw [has_iff] at hu
        rw [h4] at hu
        split at hu
        · rename_i hm
          obtain ⟨m, hm, rfl⟩ := hm
          rw [family_out ho h2 hm]
          exact hf (.app a) hh
        · split at hu
          · obtain ⟨q, hq⟩ := hu; cases hq
          · exact hf u ((has_iff _ _).mpr hu)
    · cases hr; exact tame_refl e vs s

theorem tame_addOne {e : Env} (ho : Owned e) {s s' : State} {core link : Option Nat} {v : VId}
    (hr : addOne e s core link v = .ok s') : Tame e [v] s s' := by
  cases v with
  | app a =>
    simp only [addOne] at hr
    split at hr
    · exact (tame_addM ho hr).1
    · cases hr; exact tame_add e s _ core link
  | mach m =>
    simp only [addOne] at hr
    cases hq : replaceIf e s (e.appOf m) with
    | error err => simp only [hq] at hr; cases hr
    | ok s1 =>
      simp only [hq] at hr
      cases hr
      exact tame_trans (tame_replaceIf ho _ hq) (tame_add e s1 _ core link)

theorem tame_addOneMachine {e : Env} (ho : Owned e) {s s' : State} {core link : Option Nat} {v : VId}
    (hr : addOneMachine e s core link v = .ok s') :
    Tame e [v] s s' ∧ ∀ m, Covers e v m → s'.has (.mach m) = true := by
  cases v with
  | app a =>
    simp only [addOneMachine] at hr
    cases hq : replaceIf e s (some a) with
    | error err => simp only [hq] at hr; cases hr
    | ok s1 =>
      simp only [hq] at hr
      have h1 := tame_addM ho hr
      exact ⟨tame_trans (tame_replaceIf ho _ hq) h1.1, h1.2⟩
  | mach m =>
    simp only [addOneMachine] at hr
    cases hq : replaceIf e s (e.appOf m) with
    | error err => simp only [hq] at hr; cases hr
    | ok s1 =>
      simp only [hq] at hr
      cases hr
      refine ⟨tame_trans (tame_replaceIf ho _ hq) (tame_add e s1 _ core link), ?_⟩
      rintro k (h | ⟨b, l, hb, _⟩)
      · cases h
        exact (add_has_iff _ _ _ _ _).mpr (Or.inr rfl)
      · cases hb

theorem tame_addSources {e : Env} (ho : Owned e) {core link : Option Nat} (vs : List VId) :
    ∀ {s s' : State}, addSources e core link vs s = .ok s' → Tame e vs s s' := by
  induction vs with
  | nil => intro s s' h; simp only [addSources] at h; cases h; exact tame_refl e _ s
  | cons v vs ih =>
    intro s s' h
    simp only [addSources] at h
    cases h1 : addOne e s core link v with
    | error err => simp only [h1] at h; cases h
    | ok s1 =>
      simp only [h1] at h
      exact tame_trans (tame_mono (tame_addOne ho h1) (by
          intro u hu; simp only [List.mem_singleton] at hu; rw [hu]; exact List.mem_cons_self))
        (tame_mono (ih h) (fun u hu => List.mem_cons_of_mem _ hu))

theorem tame_addMachineSources {e : Env} (ho : Owned e) {core link : Option Nat} (vs : List VId) :
    ∀ {s s' : State}, addMachineSources e core link vs s = .ok s' →
      Tame e vs s s' ∧ ∀ v ∈ vs, ∀ m, Covers e v m → s'.has (.mach m) = true := by
  induction vs with
  | nil =>
    intro s s' h
    simp only [addMachineSources] at h
    cases h
    exact ⟨tame_refl e _ s, fun v hv => by cases hv⟩
  | cons v vs ih =>
    intro s s' h
    simp only [addMachineSources] at h
    cases h1 : addOneMachine e s core link v with
    | error err => simp only [h1] at h; cases h
    | ok s1 =>
      simp only [h1] at h
      obtain ⟨a1, a2⟩ := tame_addOneMachine ho h1
      obtain ⟨b1, b2⟩ := ih h
      refine ⟨tame_trans (tame_mono a1 (by
          intro u hu; simp only [List.mem_singleton] at hu; rw [hu]; exact List.mem_cons_self))
        (tame_mono b1 (fun u hu => List.mem_cons_of_mem _ hu)), ?_⟩
      intro u hu m hc
      rcases List.mem_cons.mp hu with rfl | hu
      · exact b1.1 m (a2 m hc)
      · exact b2 u hu m hc

theorem tame_step {e : Env} (ho : Owned e) {s s' : State} {o : Op} (h : step e s o = .ok s') :
    Tame e o.vertices s s' := by
  cases o with
  | add core link vs => exact tame_addSources ho vs h
  | addMachine core link vs => exact (tame_addMachineSources ho vs h).1

theorem inv_step {e : Env} (ho : Owned e) {s s' : State} {H : List Req} {o : Op} (h : Inv e s H)
    (hr : step e s o = .ok s') : Inv e s' (H ++ named o) := by
  cases o with
  | add core link vs => exact inv_addSources ho vs h hr
  | addMachine core link vs => exact inv_addMachineSources ho vs h hr

end Pacman.Targets

namespace Pacman.Router

open Alloc (VId)
open RPath (XY Node Topo Routes Leads Edge Routed)
open Targets (Inv named Op Covers Serves family)

/-- The requests made on chip `c`. -/
def reqsAt (G : List (XY × Op)) (c : XY) : List Targets.Req :=
  (G.filter (fun g => decide (g.1 = c))).flatMap (fun g => named g.2)

/-- The state of the targets after the calls `G`, all for vertices of family `F`. -/
structure TInv (C : Ctx) (F : VId) (G : List (XY × Op)) (tg : Dict XY Targets.State) : Prop where
  inv : ∀ c, Inv C.env ((tg.get? c).getD Targets.State.empty) (reqsAt G c)
  fam : ∀ c, Targets.FamKeys C.env F ((tg.get? c).getD Targets.State.empty)
  there : ∀ g ∈ G, (tg.get? g.1).isSome = true
  mach : ∀ c core link vs, (c, Op.addMachine core link vs) ∈ G → ∀ v ∈ vs, ∀ m, Covers C.env v m →
    ((tg.get? c).getD Targets.State.empty).has (.mach m) = true

theorem tinv_empty (C : Ctx) (F : VId) : TInv C F [] [] := by
  refine ⟨fun c => ?_, fun c v h => ?_, (fun g h => by cases h),
    (fun c _ _ _ h => by cases h)⟩
  · exact Targets.inv_empty C.env
  · simp [Dict.get?_nil, Targets.State.empty, Targets.State.has] at h

theorem tinv_ask {C : Ctx} (ho : Targets.Owned C.env) {F : VId} {G : List (XY × Op)}
    {tg tg' : Dict XY Targets.State} {c : XY} {o : Op} (h : TInv C F G tg)
    (hv : ∀ v ∈ o.vertices, family C.env v = F) (ha : ask C tg c o = .ok tg') :
    TInv C F (G ++ [(c, o)]) tg' := by
  unfold ask at ha
  cases hs : Targets.step C.env ((tg.get? c).getD Targets.State.empty) o with
  | error err => simp only [hs] at ha; cases ha
  | ok t =>
    simp only [hs] at ha
    cases ha
    have hget : ∀ d, ((tg.set c t).get? d).getD Targets.State.empty =
        if c = d then t else (tg.get? d).getD Targets.State.empty := by
      intro d
      rw [Dict.get?_set]
      split <;> rfl
    have hreq : ∀ d, reqsAt (G ++ [(c, o)]) d = reqsAt G d ++ (if c = d then named o else []) := by
      intro d
      unfold reqsAt
      rw [List.filter_append, List.flatMap_append]
      congr 1
      by_cases hcd : c = d
      · simp [hcd]
      · simp [hcd]
    have hT := Targets.tame_step ho hs
    refine ⟨fun d => ?_, fun d => ?_, fun g hg => ?_, fun d core link vs hd v hvv m hc => ?_⟩
    · rw [hget, hreq]
      split
      · rename_i hcd
        subst hcd
        exact Targets.inv_step ho (h.inv c) hs
      · rw [List.append_nil]; exact h.inv d
    · rw [hget]
      split
      · rename_i hcd
        exact hT.2 F (h.fam c) hv
      · exact h.fam d
    · rw [Dict.get?_set]
      split
      · rfl
      · rename_i hne
        rcases List.mem_append.mp hg with hg | hg
        · exact h.there g hg
        · simp only [List.mem_singleton] at hg
          rw [hg] at hne
          exact absurd rfl hne
    · rw [hget]
      rcases List.mem_append.mp hd with hd | hd
      · have := h.mach d core link vs hd v hvv m hc
        split
        · rename_i hcd
          subst hcd
          exact hT.1 m this
        · exact this
      · simp only [List.mem_singleton, Prod.mk.injEq] at hd
        obtain ⟨rfl, rfl⟩ := hd
        rw [if_pos rfl]
        exact (Targets.tame_addMachineSources ho vs hs).2 v hvv m hc

/-- The calls made by `askAll`. -/
def allOps (C : Ctx) (M : Mapping) (vs : List (Nat × List VId)) : List (XY × Op) :=
  vs.map (fun v => ((C.locate v.1).1, opFor C M v))

theorem opFor_vertices (C : Ctx) (M : Mapping) (v : Nat × List VId) :
    (opFor C M v).vertices = v.2 := by
  unfold opFor
  split <;> rfl

theorem tinv_askAll {C : Ctx} (ho : Targets.Owned C.env) {F : VId} {M : Mapping}
    (vs : List (Nat × List VId)) : ∀ {G : List (XY × Op)} {tg tg' : Dict XY Targets.State},
    TInv C F G tg → (∀ v ∈ vs, ∀ s ∈ v.2, family C.env s = F) → askAll C M vs tg = .ok tg' →
    TInv C F (G ++ allOps C M vs) tg' := by
  induction vs with
  | nil =>
    intro G tg tg' h _ ha
    simp only [askAll] at ha
    cases ha
    simpa [allOps] using h
  | cons v vs ih =>
    intro G tg tg' h hv ha
    simp only [askAll] at ha
    cases h1 : ask C tg (C.locate v.1).1 (opFor C M v) with
    | error err => simp only [h1] at ha; cases ha
    | ok tg1 =>
      simp only [h1] at ha
      have h2 := tinv_ask ho h (by
        rw [opFor_vertices]
        exact hv v List.mem_cons_self) h1
      have h3 := ih h2 (fun u hu => hv u (List.mem_cons_of_mem _ hu)) ha
      simpa [allOps] using h3

/-- The calls made by `askSelf`. -/
def selfOps (C : Ctx) (vs : List (Nat × List VId)) : List (XY × Op) :=
  vs.map (fun v => ((C.locate v.1).1, .addMachine (C.locate v.1).2.1 (C.locate v.1).2.2 v.2))

theorem mem_addTo {l : List XY} {x y : XY} : y ∈ addTo l x ↔ y ∈ l ∨ y = x := by
  unfold addTo
  split
  · rename_i h
    constructor
    · exact Or.inl
    · rintro (h' | rfl)
      · exact h'
      · exact h
  · simp

theorem tinv_askSelf {C : Ctx} (ho : Targets.Owned C.env) {F : VId}
    (vs : List (Nat × List VId)) : ∀ {G : List (XY × Op)} {W W' : Work},
    TInv C F G W.targets → (∀ v ∈ vs, ∀ s ∈ v.2, family C.env s = F) → askSelf C vs W = .ok W' →
    TInv C F (G ++ selfOps C vs) W'.targets ∧ W'.edges = W.edges ∧ W'.routes = W.routes ∧
      W'.selfConnected = W.selfConnected ∧
      ∀ c, c ∈ W'.selfXys ↔ c ∈ W.selfXys ∨ ∃ v ∈ vs, c = (C.locate v.1).1 := by
  induction vs with
  | nil =>
    intro G W W' h _ ha
    simp only [askSelf] at ha
    cases ha
    refine ⟨by simpa [selfOps] using h, rfl, rfl, rfl, fun c => by simp⟩
  | cons v vs ih =>
    intro G W W' h hv ha
    simp only [askSelf] at ha
    cases h1 : ask C W.targets (C.locate v.1).1
        (.addMachine (C.locate v.1).2.1 (C.locate v.1).2.2 v.2) with
    | error err => simp only [h1] at ha; cases ha
    | ok tg1 =>
      simp only [h1] at ha
      have h2 := tinv_ask ho h
        (o := .addMachine (C.locate v.1).2.1 (C.locate v.1).2.2 v.2) (hv v List.mem_cons_self) h1
      obtain ⟨h3, h4, h5, h6, h7⟩ := ih
        (W := ⟨W.edges, W.routes, tg1, W.selfConnected, addTo W.selfXys (C.locate v.1).1⟩) h2 (fun u hu => hv u (List.mem_cons_of_mem _ hu)) ha
      refine ⟨by simpa [selfOps] using h3, h4, h5, h6, fun c => ?_⟩
      rw [h7, mem_addTo]
      simp only [List.mem_cons]
      constructor
      · rintro ((h | h) | ⟨u, hu, h⟩)
        · exact Or.inl h
        · exact Or.inr ⟨v, Or.inl rfl, h⟩
        · exact Or.inr ⟨u, Or.inr hu, h⟩
      · rintro (h | ⟨u, rfl | hu, h⟩)
        · exact Or.inl (Or.inl h)
        · exact Or.inl (Or.inr h)
        · exact Or.inr ⟨u, hu, h⟩

theorem tinv_wf {C : Ctx} {F : VId} {G : List (XY × Op)} {tg : Dict XY Targets.State}
    (h : TInv C F G tg) : AllWF tg := by
  intro c t ht
  have := (h.inv c).wf
  rw [ht] at this
  exact this

end Pacman.Router
