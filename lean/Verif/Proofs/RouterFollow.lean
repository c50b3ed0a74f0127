import Verif.Proofs.RouterOnly
/-
Helper lemmas: packets of a partition meet an entry on every chip they come to.
-/

namespace Pacman.Router

open Alloc (VId)
open RPath
open Targets (Op Clean)

/-- There is an entry for the packets of `m`. -/
def Has (S : ByPart.State) (ident a m : Nat) (c : XY) : Prop :=
  Present S ident (.mach m) c ∨ Present S ident (.app a) c

/-- Where an entry for the packets of `m` sends them over a working link, there is an entry. -/
def Follow (C : Ctx) (P : Partition) (m : Nat) (S : ByPart.State) : Prop :=
  ∀ v c l, (v = .mach m ∨ v = .app P.source) → Bit S P.ident v c l → l < 6 →
    C.T.linkAt c l = true → Has S P.ident P.source m (C.T.over c l)

/-- Entries stay. -/
def Stays (S S' : ByPart.State) : Prop := ∀ part v c, Present S part v c → Present S' part v c

theorem Has.mono {S S' : ByPart.State} {ident a m : Nat} {c : XY} (h : Has S ident a m c)
    (hs : Stays S S') : Has S' ident a m c := h.imp (hs _ _ _) (hs _ _ _)

/-- The conversion is of a kind the router makes: from the source, for all its vertices, or from one
machine vertex, by source or without targets. -/
inductive Kind (C : Ctx) (P : Partition) (m : Nat) (tg : Dict XY Targets.State) :
    VId → Bool → Bool → Prop
  | app (ms : List Nat) : C.outgoing P.source = some ms → m ∈ ms → Kind C P m tg (.app P.source) false true
  | mach (k : Nat) (useSource : Bool) : (useSource = true ∨ ∀ c, tg.get? c = none) →
      Kind C P m tg (.mach k) useSource false

theorem Kind.fits {C : Ctx} {P : Partition} {m : Nat} {tg : Dict XY Targets.State} {src : VId}
    {useSource ensureAll : Bool} (h : Kind C P m tg src useSource ensureAll) :
    Fits src useSource ensureAll := by
  cases h with
  | app ms h1 h2 => exact fun _ => ⟨rfl, _, rfl⟩
  | mach k u h1 => intro h; cases h

/-- Where the conversion writes for the packets of `m`, it writes for them on all chips led to. -/
theorem kind_writes {C : Ctx} {P : Partition} {m : Nat} {tg : Dict XY Targets.State} {src : VId}
    {useSource ensureAll : Bool} (h : Kind C P m tg src useSource ensureAll) (hc : AllClean C P tg)
    {R : Routes} {first c d : XY} {v : VId} (hv : v = .mach m ∨ v = .app P.source)
    (hw : Writes C src useSource ensureAll R first tg v c) (hd : Leads R first d) :
    ∃ u, (u = .mach m ∨ u = .app P.source) ∧ Writes C src useSource ensureAll R first tg u d := by
  cases h with
  | app ms h1 h2 =>
    cases ht : tg.get? d with
    | none => exact ⟨_, Or.inr rfl, hd, Or.inl ⟨ht, rfl⟩⟩
    | some t =>
      by_cases ha : ∃ a L, t.lists (.app a) = some L
      · obtain ⟨a, L, ha⟩ := ha
        have hm := (Targets.clean_lists (hc d t ht) ha).1
        rcases hm with hm | ⟨k, hm, _⟩
        · exact ⟨.app a, Or.inr hm, hd, Or.inr ⟨t, ht, Or.inr ⟨rfl, Or.inl (by rw [ha]; rfl)⟩⟩⟩
        · cases hm
      · have hno : ∀ a, t.lists (.app a) = none := by
          intro a
          cases hl : t.lists (.app a) with
          | none => rfl
          | some L => exact absurd ⟨a, L, hl⟩ ha
        cases hl : t.lists (.mach m) with
        | some L =>
          exact ⟨_, Or.inl rfl, hd, Or.inr ⟨t, ht, Or.inr ⟨rfl, Or.inl (by rw [hl]; rfl)⟩⟩⟩
        | none =>
          exact ⟨_, Or.inl rfl, hd, Or.inr ⟨t, ht, Or.inr ⟨rfl, Or.inr ⟨rfl, hno, hl, _, ms, m, rfl,
            h1, h2, rfl⟩⟩⟩⟩
  | mach k u h1 =>
    have hvk : v = .mach k := by
      rcases hw with ⟨_, ⟨_, h⟩ | ⟨t, ht, ⟨_, h⟩ | ⟨hu, _⟩⟩⟩
      · exact h
      · exact h
      · rcases h1 with h1 | h1
        · rw [hu] at h1; cases h1
        · rw [h1] at ht; cases ht
    refine ⟨v, hv, hd, ?_⟩
    cases ht : tg.get? d with
    | none => exact Or.inl ⟨rfl, hvk⟩
    | some t =>
      rcases h1 with h1 | h1
      · exact Or.inr ⟨t, rfl, Or.inl ⟨h1, hvk⟩⟩
      · rw [h1] at ht; cases ht

theorem follow_convert {C : Ctx} {P : Partition} (hC : Contract C P) (ho : Outside C P) {m : Nat}
    {fuel : Nat} {src : VId} {useSource ensureAll : Bool} {R : Routes} {iP iL : Option Nat}
    {first : XY} {S S' : ByPart.State} {tg tg' : Dict XY Targets.State}
    (hk : Kind C P m tg src useSource ensureAll) (hc : AllClean C P tg)
    (hR : ∀ a l b, Edge R a l b → Wired C.T a l b) (hF : Follow C P m S)
    (h : convert C fuel P.ident src useSource ensureAll R iP iL first S tg = .ok (S', tg')) :
    Follow C P m S' ∧ Stays S S' ∧
      (∀ k, src = .mach k → (useSource = true ∨ ∀ c, tg.get? c = none) →
        Present S' P.ident (.mach k) first) := by
  have hst : Stays S S' := fun part v c hp =>
    (convert_present hk.fits hc.sound h part v c).mpr (Or.inl hp)
  refine ⟨fun v c l hv hb hl hlk => ?_, hst, ?_⟩
  · rcases (convert_bits hC.merges hk.fits hc.sound h _ v c l).mp hb with hb | ⟨_, hw, hn⟩
    · exact (hF v c l hv hb hl hlk).mono hst
    · rcases hn with ⟨d, hd⟩ | ⟨t, L, ht, hL, hb⟩
      · obtain ⟨_, _, h3, _⟩ := hR c l d hd
        obtain ⟨u, hu, huw⟩ := kind_writes hk hc hv hw (hw.1.step hd)
        have := (convert_present hk.fits hc.sound h P.ident u d).mpr (Or.inr ⟨rfl, huw⟩)
        rw [h3]
        rcases hu with rfl | rfl
        · exact Or.inl this
        · exact Or.inr this
      · obtain ⟨_, _, k2⟩ := Targets.clean_lists (hc c t ht) hL
        rcases hb with hb | ⟨p, _, rfl⟩
        · obtain ⟨t', h1, rfl, h3⟩ := k2 l hb
          rw [ho t' l h1 h3] at hlk
          cases hlk
        · omega
  · rintro k rfl hu
    refine (convert_present hk.fits hc.sound h P.ident (.mach k) first).mpr (Or.inr ⟨rfl, .refl, ?_⟩)
    cases ht : tg.get? first with
    | none => exact Or.inl ⟨rfl, rfl⟩
    | some t =>
      rcases hu with h1 | h1
      · exact Or.inr ⟨t, rfl, Or.inl ⟨h1, rfl⟩⟩
      · rw [h1] at ht; cases ht

theorem follow_toTargets {C : Ctx} {P : Partition} (hC : Contract C P) (ho : Outside C P) {m : Nat}
    {ms : List Nat} (h1 : C.outgoing P.source = some ms) (h2 : m ∈ ms)
    {fuel : Nat} {M : Mapping} (hM : ∀ x ∈ M, ∀ v ∈ x.2, Sends C P v.1) {R : Routes}
    (hR : ∀ a l b, Edge R a l b → Wired C.T a l b) (es : List XY) :
    ∀ {S S' : ByPart.State} {tg tg' : Dict XY Targets.State}, AllClean C P tg → Follow C P m S →
    toTargets C P fuel M R es S tg = .ok (S', tg') → Follow C P m S' ∧ AllClean C P tg' := by
  induction es with
  | nil =>
    intro S S' tg tg' hc hF h
    simp only [toTargets] at h
    cases h
    exact ⟨hF, hc⟩
  | cons e es ih =>
    intro S S' tg tg' hc hF h
    simp only [toTargets] at h
    have hc1 : AllClean C P (if (tg.get? e).isSome then tg else tg.set e (edgeTargets M)) := by
      split
      · exact hc
      · exact clean_set hc (clean_edgeTargets hM e)
    generalize (if (tg.get? e).isSome then tg else tg.set e (edgeTargets M)) = tg1 at h hc1
    split at h
    · cases h
    · rename_i S1 tg2 hcv
      have k1 := follow_convert hC ho (Kind.app ms h1 h2) hc1 hR hF hcv
      have k2 := (only_convert hC (fun _ => ⟨rfl, _, rfl⟩) (Or.inl rfl) hc1 hR hcv).2
      exact ih k2 k1.1 h

theorem follow_fromVertices {C : Ctx} {P : Partition} (hC : Contract C P) (ho : Outside C P) {m : Nat}
    {fuel : Nat} {useSource : Bool} {R : Routes} (hR : ∀ a l b, Edge R a l b → Wired C.T a l b)
    {xy : XY} (vs : List (Nat × Option Nat × Option Nat)) :
    ∀ {S S' : ByPart.State} {tg tg' : Dict XY Targets.State}, (∀ v ∈ vs, Sends C P v.1) →
    (useSource = true ∨ ∀ c, tg.get? c = none) →
    AllClean C P tg → Follow C P m S → fromVertices C P fuel useSource R xy vs S tg = .ok (S', tg') →
    Follow C P m S' ∧ Stays S S' ∧ AllClean C P tg' ∧ (useSource = true ∨ ∀ c, tg'.get? c = none) ∧
      ∀ v ∈ vs, Present S' P.ident (.mach v.1) xy := by
  induction vs with
  | nil =>
    intro S S' tg tg' _ hu hc hF h
    simp only [fromVertices] at h
    cases h
    exact ⟨hF, fun _ _ _ h => h, hc, hu, (fun v hv => by cases hv)⟩
  | cons v vs ih =>
    obtain ⟨k, p, l⟩ := v
    intro S S' tg tg' hv hu hc hF h
    simp only [fromVertices] at h
    split at h
    · cases h
    · rename_i S1 tg1 h1
      have k1 := follow_convert hC ho (Kind.mach (C := C) (P := P) (m := m) k useSource hu) hc hR hF h1
      have k2 := (only_convert hC (fun he => by cases he)
        (Or.inr ⟨k, rfl, hv _ List.mem_cons_self⟩) hc hR h1).2
      have k3 : useSource = true ∨ ∀ c, tg1.get? c = none := by
        cases hus : useSource with
        | true => exact Or.inl rfl
        | false =>
          subst hus
          right
          intro c
          rw [(convert_ok hc.sound.wf h1).2.2.2.1 rfl c]
          rcases hu with hu | hu
          · cases hu
          · exact hu c
      obtain ⟨j1, j2, j3, j4, j5⟩ := ih (fun u hu => hv u (List.mem_cons_of_mem _ hu)) k3 k2 k1.1 h
      refine ⟨j1, fun part v c hp => j2 _ _ _ (k1.2.1 _ _ _ hp), j3, j4, fun v hm => ?_⟩
      rcases List.mem_cons.mp hm with rfl | hm
      · exact j2 _ _ _ (k1.2.2 k rfl hu)
      · exact j5 v hm

theorem follow_fromSources {C : Ctx} {P : Partition} (hC : Contract C P) (ho : Outside C P) {m : Nat}
    (hK : Keeps C (Wired C.T)) {fuel : Nat} {useSource : Bool} {all goals : List XY} (M : Mapping) :
    ∀ {S S' : ByPart.State} {tg tg' : Dict XY Targets.State}, (∀ x ∈ M, ∀ v ∈ x.2, Sends C P v.1) →
    (useSource = true ∨ ∀ c, tg.get? c = none) → AllClean C P tg → Follow C P m S →
    fromSources C P fuel useSource all goals M S tg = .ok (S', tg') →
    Follow C P m S' ∧ Stays S S' ∧ ∀ x ∈ M, ∀ v ∈ x.2, Present S' P.ident (.mach v.1) x.1 := by
  induction M with
  | nil =>
    intro S S' tg tg' _ hu hc hF h
    simp only [fromSources] at h
    cases h
    exact ⟨hF, fun _ _ _ h => h, (fun v hv => by cases hv)⟩
  | cons x M ih =>
    obtain ⟨xy, vs⟩ := x
    intro S S' tg tg' hM hu hc hF h
    simp only [fromSources] at h
    split at h
    · cases h
    · rename_i R hr
      split at h
      · cases h
      · rename_i S1 tg1 h1
        have hR := keeps_routeToXys hK (R := []) (by rintro a l b ⟨ch, h, _⟩; cases h) hr
        obtain ⟨k1, k2, k3, k4, k5⟩ :=
          follow_fromVertices hC ho hR vs (hM _ List.mem_cons_self) hu hc hF h1
        obtain ⟨j1, j2, j3⟩ := ih (fun x hx => hM x (List.mem_cons_of_mem _ hx)) k4 k3 k1 h
        refine ⟨j1, fun part v c hp => j2 _ _ _ (k2 _ _ _ hp), fun x hx v hv => ?_⟩
        rcases List.mem_cons.mp hx with rfl | hx
        · exact j2 _ _ _ (k5 v hv)
        · exact j3 x hx v hv

theorem has_entry {C : Ctx} {S : ByPart.State} {ident a m : Nat} {c : XY} (ham : C.appOf m = some a)
    (h : Has S ident a m c) : (entryFor C S ident m c).isSome = true := by
  unfold entryFor
  cases hm : ByPart.entryOn S (.mach m) ident c.1 c.2 with
  | some e => rfl
  | none =>
    rw [ham]
    rcases h with h | h
    · unfold Present at h
      rw [hm] at h; cases h
    · exact h

theorem met {C : Ctx} {P : Partition} {fuel : Nat} {S S' : ByPart.State} (hC : Contract C P)
    (hn : NoReturns C) (ho : Outside C P) {ms : List Nat} {m : Nat} (h1 : C.outgoing P.source = some ms)
    (h2 : m ∈ ms) (hF : Follow C P m S) (h : routePartition C P fuel S = .ok S') {c : XY}
    (hc : Comes C S' P.ident m c) : (entryFor C S' P.ident m c).isSome = true := by
  have hsm : Sends C P m := Or.inl ⟨ms, h1, h2⟩
  have ham := sends_app hC hsm
  have hK := keeps_wired hC hn
  have key : Follow C P m S' ∧ Present S' P.ident (.mach m) (C.locate m).1 := by
    unfold routePartition at h
    cases hM : mapping C P with
    | error err => rw [hM] at h; cases h
    | ok M =>
      rw [hM] at h
      obtain ⟨vs, hvs, hmv⟩ := (mapping_ok hM).1 m hsm
      have hmem : ((C.locate m).1, vs) ∈ M := Dict.mem_of_get? hvs
      cases M with
      | nil => cases hmem
      | cons s M =>
        simp only at h
        have hsend := (mapping_sends hM).2
        have hs : s.1 ∈ C.T.chips := by
          obtain ⟨m, _, hm⟩ := ((mapping_ok hM).2 s.1).mp (by simp [Dict.get?_cons])
          rw [← hm]; exact hC.placed m
        split at h
        · cases h
        · rename_i W hW
          obtain ⟨k1, k2⟩ := clean_routeEdges hC hK hs P.edges (fun e he => he)
            (by intro c t ht; cases ht) (by rintro a l b ⟨ch, h, _⟩; cases h) hW
          split at h
          · cases h
          · rename_i W1 hW1
            obtain ⟨k3, k4⟩ := clean_routeInternal k1 hW1
            rw [← k4] at k2
            unfold makeRoutes at h
            split at h
            · cases h
            · rename_i S1 tg1 hto
              obtain ⟨j1, j2⟩ := follow_toTargets hC ho h1 h2 hsend k2 _ k3 hF hto
              split at h
              · split at h
                · cases h
                · rename_i S2 tg2 h2
                  cases h
                  obtain ⟨i1, _, i3⟩ := follow_fromSources hC ho hK _ hsend (Or.inl rfl) j2 j1 h2
                  exact ⟨i1, i3 _ hmem _ hmv⟩
              · split at h
                · cases h
                · rename_i S2 tg2 h2
                  cases h
                  obtain ⟨i1, _, i3⟩ := follow_fromSources hC ho hK _ hsend (Or.inr (fun _ => rfl))
                    (by intro c t ht; cases ht) j1 h2
                  exact ⟨i1, i3 _ hmem _ hmv⟩
  cases hc with
  | start => exact has_entry ham (Or.inl key.2)
  | hop _ he hl hb hk =>
    refine has_entry ham ?_
    unfold entryFor at he
    split at he
    · rename_i e' he'
      cases he
      exact key.1 (.mach m) _ _ (Or.inl rfl) ⟨_, he', hb⟩ hl hk
    · rw [ham] at he
      exact key.1 (.app P.source) _ _ (Or.inr rfl) ⟨_, he, hb⟩ hl hk

end Pacman.Router
