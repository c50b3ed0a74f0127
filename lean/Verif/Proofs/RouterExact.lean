import Verif.Proofs.RouterEnds
/-
Helper lemmas: exactly what `_convert_a_route` writes, and that only targets get packets.
-/

namespace Pacman.Targets

open Alloc (VId)

/-- Every vertex is there once. -/
def Keyed (s : State) : Prop := (s.at_.map (·.1)).Nodup

theorem keyed_empty : Keyed State.empty := List.nodup_nil

theorem keyed_ensure {s : State} (h : Keyed s) (v : VId) : Keyed (ensure s v) := by
  unfold ensure
  split
  · exact h
  · exact Dict.nodup_set h _ _

theorem keyed_add {s : State} (h : Keyed s) (v : VId) (core link : Option Nat) :
    Keyed (addSource s v core link) := by
  unfold addSource
  simp only
  split
  · exact keyed_ensure h v
  · exact keyed_ensure h v

theorem keyed_addAll (core link : Option Nat) (l : List Nat) : ∀ {s : State}, Keyed s →
    Keyed (addAll s core link l) := by
  induction l with
  | nil => intro s h; exact h
  | cons m l ih => intro s h; exact ih (keyed_add h _ _ _)

theorem keyed_addM {e : Env} {s s' : State} {a : Nat} {core link : Option Nat} (h : Keyed s)
    (hr : addM e s a core link = .ok s') : Keyed s' := by
  unfold addM at hr
  split at hr
  · cases hr
  · cases hr; exact keyed_addAll _ _ _ h

theorem keyed_setAll (p : Nat) (l : List Nat) : ∀ {d : Dict VId Nat}, (d.map (·.1)).Nodup →
    ((setAll d p l).map (·.1)).Nodup := by
  induction l with
  | nil => intro d h; exact h
  | cons m l ih => intro d h; exact ih (Dict.nodup_set h _ _)

theorem keyed_replaceIf {e : Env} {s s' : State} {a : Option Nat} (h : Keyed s)
    (hr : replaceIf e s a = .ok s') : Keyed s' := by
  unfold replaceIf replaceApp at hr
  split at hr
  · cases hr; exact h
  · split at hr
    · split at hr
      · cases hr
      · split at hr
        · cases hr
        · cases hr
          refine keyed_setAll _ _ ?_
          unfold Dict.erase
          exact (List.filter_sublist.map _).nodup h
    · cases hr; exact h

theorem keyed_addOne {e : Env} {s s' : State} {core link : Option Nat} {v : VId} (h : Keyed s)
    (hr : addOne e s core link v = .ok s') : Keyed s' := by
  unfold addOne at hr
  split at hr
  · split at hr
    · exact keyed_addM h hr
    · cases hr; exact keyed_add h _ _ _
  · split at hr
    · cases hr
    · rename_i s1 h1
      cases hr
      exact keyed_add (keyed_replaceIf h h1) _ _ _

theorem keyed_addOneMachine {e : Env} {s s' : State} {core link : Option Nat} {v : VId} (h : Keyed s)
    (hr : addOneMachine e s core link v = .ok s') : Keyed s' := by
  unfold addOneMachine at hr
  split at hr
  · split at hr
    · cases hr
    · rename_i s1 h1
      exact keyed_addM (keyed_replaceIf h h1) hr
  · split at hr
    · cases hr
    · rename_i s1 h1
      cases hr
      exact keyed_add (keyed_replaceIf h h1) _ _ _

theorem keyed_step {e : Env} {s s' : State} {o : Op} (h : Keyed s) (hr : step e s o = .ok s') :
    Keyed s' := by
  have h1 : ∀ (core link : Option Nat) (vs : List VId) {s s' : State}, Keyed s →
      addSources e core link vs s = .ok s' → Keyed s' := by
    intro core link vs
    induction vs with
    | nil => intro s s' h hr; cases hr; exact h
    | cons v vs ih =>
      intro s s' h hr
      simp only [addSources] at hr
      split at hr
      · cases hr
      · rename_i s1 h1
        exact ih (keyed_addOne h h1) hr
  have h2 : ∀ (core link : Option Nat) (vs : List VId) {s s' : State}, Keyed s →
      addMachineSources e core link vs s = .ok s' → Keyed s' := by
    intro core link vs
    induction vs with
    | nil => intro s s' h hr; cases hr; exact h
    | cons v vs ih =>
      intro s s' h hr
      simp only [addMachineSources] at hr
      split at hr
      · cases hr
      · rename_i s1 h1
        exact ih (keyed_addOneMachine h h1) hr
  cases o with
  | add core link vs => exact h1 core link vs h hr
  | addMachine core link vs => exact h2 core link vs h hr

end Pacman.Targets

namespace Pacman.Router

open Alloc (VId)
open RPath
open Targets (Op)

theorem Sound.wf {tg : Dict XY Targets.State} (h : Sound tg) : AllWF tg := fun c t ht => (h c t ht).2

theorem itemsOf_iff {t : Targets.State} (hk : (t.at_.map (·.1)).Nodup) (hw : Targets.WF t)
    {v : VId} {L : List Nat × List Nat} : (v, L) ∈ itemsOf t ↔ t.lists v = some L := by
  refine ⟨fun h => ?_, mem_itemsOf⟩
  unfold itemsOf at h
  obtain ⟨⟨u, p⟩, hp, he⟩ := List.mem_map.mp h
  simp only [Prod.mk.injEq] at he
  obtain ⟨rfl, rfl⟩ := he
  have hg := Dict.get?_of_mem hk hp
  unfold Targets.State.lists
  rw [hg]
  simp only
  rw [List.getElem?_eq_getElem (hw u p hg)]
  rfl

theorem any_app {t : Targets.State} (hk : (t.at_.map (·.1)).Nodup) (hw : Targets.WF t) :
    (itemsOf t).any (fun i => isApp i.1) = false ↔ ∀ a, t.lists (.app a) = none := by
  rw [List.any_eq_false]
  constructor
  · intro h a
    cases hl : t.lists (.app a) with
    | none => rfl
    | some L => exact absurd rfl (h (.app a, L) (mem_itemsOf hl))
  · rintro h ⟨v, L⟩ hi hv
    rw [itemsOf_iff hk hw] at hi
    cases v with
    | mach m => cases hv
    | app a => rw [h a] at hi; cases hi

theorem mem_fst_items {t : Targets.State} (hk : (t.at_.map (·.1)).Nodup) (hw : Targets.WF t)
    {v : VId} : v ∈ (itemsOf t).map (·.1) ↔ (t.lists v).isSome = true := by
  rw [List.mem_map]
  constructor
  · rintro ⟨⟨u, L⟩, hi, rfl⟩
    rw [itemsOf_iff hk hw] at hi
    rw [hi]; rfl
  · intro h
    obtain ⟨L, hL⟩ := Option.isSome_iff_exists.mp h
    exact ⟨(v, L), mem_itemsOf hL, rfl⟩

/-- The entries made for one chip, exactly. -/
theorem chip_exact {C : Ctx} {src : VId} {useSource ensureAll : Bool} {links : List Nat}
    {iP iL : Option Nat} {c : XY} {t : Option Targets.State} (hf : Fits src useSource ensureAll)
    (hs : ∀ t', t = some t' → (t'.at_.map (·.1)).Nodup ∧ Targets.WF t') (p : Put) :
    p ∈ chipPuts C src useSource ensureAll links iP iL c t ↔ p.c = c ∧
      ((t = none ∧ p.v = src ∧ p.e = mkEntry links [] iP iL) ∨ ∃ t', t = some t' ∧
        ((useSource = true ∧ p.v = src ∧
            p.e = mkEntry (links ++ (view t' src).2) (view t' src).1 iP iL) ∨
         (useSource = false ∧ ((∃ L, t'.lists p.v = some L ∧ p.e = mkEntry (links ++ L.2) L.1 iP iL) ∨
           (ensureAll = true ∧ Uncovered C src t' p.v ∧ p.e = mkEntry links [] iP iL))))) := by
  obtain ⟨pe, pc, pv⟩ := p
  unfold chipPuts
  cases t with
  | none =>
    simp only [List.mem_singleton, Put.mk.injEq, true_and]
    constructor
    · rintro ⟨rfl, rfl, rfl⟩
      exact ⟨rfl, Or.inl ⟨rfl, rfl⟩⟩
    · rintro ⟨rfl, ⟨rfl, rfl⟩ | ⟨t', h, _⟩⟩
      · exact ⟨rfl, rfl, rfl⟩
      · cases h
  | some t' =>
    obtain ⟨hk, hw⟩ := hs t' rfl
    simp only [List.mem_append, List.mem_map, Put.mk.injEq]
    cases useSource with
    | true =>
      have he : ensureAll = false := by
        cases ensureAll with
        | false => rfl
        | true => have := (hf rfl).1; cases this
      subst he
      simp only [itemsFor, coverPuts, Bool.false_and, Bool.false_eq_true, if_false, if_true,
        List.not_mem_nil, or_false, List.mem_singleton]
      constructor
      · rintro ⟨i, rfl, rfl, rfl, rfl⟩
        exact ⟨rfl, Or.inr ⟨t', rfl, Or.inl ⟨trivial, rfl, rfl⟩⟩⟩
      · rintro ⟨rfl, ⟨h, _⟩ | ⟨t2, h, ⟨_, rfl, rfl⟩ | ⟨h2, _⟩⟩⟩
        · cases h
        · cases h
          exact ⟨_, rfl, rfl, rfl, rfl⟩
        · cases h2
    | false =>
      simp only [itemsFor, Bool.false_eq_true, if_false]
      constructor
      · rintro (⟨⟨v, L⟩, hi, rfl, rfl, rfl⟩ | h)
        · exact ⟨rfl, Or.inr ⟨t', rfl, Or.inr ⟨trivial, Or.inl ⟨L, (itemsOf_iff hk hw).mp hi, rfl⟩⟩⟩⟩
        · unfold coverPuts at h
          split at h
          · rename_i hc
            rw [Bool.and_eq_true, Bool.not_eq_true'] at hc
            cases src with
            | mach m => cases h
            | app a =>
              simp only [List.mem_map, List.mem_filter, decide_eq_true_eq, Put.mk.injEq] at h
              obtain ⟨m, ⟨hm, hnm⟩, rfl, rfl, rfl⟩ := h
              refine ⟨rfl, Or.inr ⟨t', rfl, Or.inr ⟨trivial, Or.inr ⟨hc.1, ?_, rfl⟩⟩⟩⟩
              cases ho : C.outgoing a with
              | none => rw [ho] at hm; cases hm
              | some ms =>
                rw [ho] at hm
                refine ⟨(any_app hk hw).mp hc.2, ?_, a, ms, m, rfl, ho, hm, rfl⟩
                rw [← List.mem_map, mem_fst_items hk hw] at hnm
                cases hl : t'.lists (.mach m) with
                | none => rfl
                | some L => rw [hl] at hnm; exact absurd rfl hnm
          · cases h
      · rintro ⟨rfl, ⟨h, _⟩ | ⟨t2, h, ⟨h2, _⟩ | ⟨_, ⟨L, hL, rfl⟩ | ⟨h3, ⟨h4, h5, a, ms, m, rfl, h6, h7, rfl⟩, rfl⟩⟩⟩⟩
        · cases h
        · cases h2
        · cases h
          exact Or.inl ⟨(pv, L), mem_itemsOf hL, rfl, rfl, rfl⟩
        · cases h
          right
          unfold coverPuts
          rw [if_pos (by rw [h3, (any_app hk hw).mpr h4]; rfl)]
          simp only [List.mem_map, List.mem_filter, decide_eq_true_eq, Put.mk.injEq]
          refine ⟨m, ⟨by rw [h6]; exact h7, ?_⟩, trivial, trivial, rfl⟩
          rw [← List.mem_map, mem_fst_items hk hw, h5]
          simp

/-- What is made for the chips led to: who and which bits. -/
theorem puts_names {C : Ctx} {src : VId} {useSource ensureAll : Bool} {R : Routes}
    {iP iL : Option Nat} {first : XY} {tg : Dict XY Targets.State}
    (hf : Fits src useSource ensureAll) (hs : Sound tg)
    {vis : List (Option Nat × Option Nat × XY)} (hv : ∀ i, i ∈ vis ↔ Visit R [(iP, iL, first)] i)
    (v : VId) (c : XY) :
    ((∃ p ∈ vis.flatMap (itemPuts C src useSource ensureAll R tg), p.v = v ∧ p.c = c) ↔
      Writes C src useSource ensureAll R first tg v c) ∧
    ∀ b, (∃ p ∈ vis.flatMap (itemPuts C src useSource ensureAll R tg), p.v = v ∧ p.c = c ∧
        p.e.route.testBit b = true) ↔ Names C src useSource ensureAll R first tg v c b := by
  have hs' : ∀ c t', tg.get? c = some t' → (t'.at_.map (·.1)).Nodup ∧ Targets.WF t' :=
    fun c t' h => hs c t' h
  have hbit : ∀ b, ToChild R c b ↔ b ∈ ((R.get? c).getD []).map (·.1) := by
    intro b
    unfold ToChild
    rw [List.mem_map]
    constructor
    · rintro ⟨d, hd⟩
      exact ⟨(b, d), edge_iff.mp hd, rfl⟩
    · rintro ⟨⟨k, d⟩, hd, rfl⟩
      exact ⟨d, edge_iff.mpr hd⟩
  constructor
  · constructor
    · rintro ⟨p, hp, rfl, rfl⟩
      obtain ⟨i, hi, hp⟩ := List.mem_flatMap.mp hp
      have hl := leads_of_visit ((hv i).mp hi)
      unfold itemPuts at hp
      rw [chip_exact hf (fun t' h => hs' _ t' h)] at hp
      obtain ⟨hc, hp⟩ := hp
      rw [hc]
      refine ⟨hl, ?_⟩
      rcases hp with ⟨h1, h2, _⟩ | ⟨t', h1, ⟨h2, h3, _⟩ | ⟨h2, ⟨L, h3, _⟩ | ⟨h3, h4, _⟩⟩⟩
      · exact Or.inl ⟨h1, h2⟩
      · exact Or.inr ⟨t', h1, Or.inl ⟨h2, h3⟩⟩
      · exact Or.inr ⟨t', h1, Or.inr ⟨h2, Or.inl (by rw [h3]; rfl)⟩⟩
      · exact Or.inr ⟨t', h1, Or.inr ⟨h2, Or.inr ⟨h3, h4⟩⟩⟩
    · rintro ⟨hl, hw⟩
      obtain ⟨⟨jP, jL, c'⟩, hi, rfl⟩ := visit_of_leads (inProc := iP) (inLink := iL) hl
      have key : ∀ e, (⟨e, c', v⟩ : Put) ∈ itemPuts C src useSource ensureAll R tg (jP, jL, c') →
          ∃ p ∈ vis.flatMap (itemPuts C src useSource ensureAll R tg), p.v = v ∧ p.c = c' :=
        fun e he => ⟨_, List.mem_flatMap.mpr ⟨_, (hv _).mpr hi, he⟩, rfl, rfl⟩
      rcases hw with ⟨h1, rfl⟩ | ⟨t', h1, ⟨h2, rfl⟩ | ⟨h2, h3 | ⟨h3, h4⟩⟩⟩
      · refine key (mkEntry (((R.get? c').getD []).map (·.1)) [] jP jL) ?_
        unfold itemPuts
        rw [chip_exact hf (fun t' h => hs' _ t' h)]
        exact ⟨rfl, Or.inl ⟨h1, rfl, rfl⟩⟩
      · refine key (mkEntry (((R.get? c').getD []).map (·.1) ++ (view t' v).2) (view t' v).1 jP jL) ?_
        unfold itemPuts
        rw [chip_exact hf (fun t' h => hs' _ t' h)]
        exact ⟨rfl, Or.inr ⟨t', h1, Or.inl ⟨h2, rfl, rfl⟩⟩⟩
      · obtain ⟨L, hL⟩ := Option.isSome_iff_exists.mp h3
        refine key (mkEntry (((R.get? c').getD []).map (·.1) ++ L.2) L.1 jP jL) ?_
        unfold itemPuts
        rw [chip_exact hf (fun t' h => hs' _ t' h)]
        exact ⟨rfl, Or.inr ⟨t', h1, Or.inr ⟨h2, Or.inl ⟨L, hL, rfl⟩⟩⟩⟩
      · refine key (mkEntry (((R.get? c').getD []).map (·.1)) [] jP jL) ?_
        unfold itemPuts
        rw [chip_exact hf (fun t' h => hs' _ t' h)]
        exact ⟨rfl, Or.inr ⟨t', h1, Or.inr ⟨h2, Or.inr ⟨h3, h4, rfl⟩⟩⟩⟩
  · intro b
    constructor
    · rintro ⟨p, hp, rfl, rfl, hb⟩
      obtain ⟨i, hi, hp⟩ := List.mem_flatMap.mp hp
      have hl := leads_of_visit ((hv i).mp hi)
      unfold itemPuts at hp
      rw [chip_exact hf (fun t' h => hs' _ t' h)] at hp
      obtain ⟨hc, hp⟩ := hp
      rw [hc] at hbit ⊢
      rcases hp with ⟨h1, h2, he⟩ | ⟨t', h1, ⟨h2, h3, he⟩ | ⟨h2, ⟨L, h3, he⟩ | ⟨h3, h4, he⟩⟩⟩
      · rw [he] at hb
        simp only [mkEntry, routeWord_bit, List.not_mem_nil, false_and, exists_const, or_false] at hb
        exact ⟨⟨hl, Or.inl ⟨h1, h2⟩⟩, Or.inl ((hbit b).mpr hb)⟩
      · rw [he] at hb
        simp only [mkEntry, routeWord_bit, List.mem_append] at hb
        refine ⟨⟨hl, Or.inr ⟨t', h1, Or.inl ⟨h2, h3⟩⟩⟩, ?_⟩
        rcases hb with (hb | hb) | hb
        · exact Or.inl ((hbit b).mpr hb)
        · right
          unfold view at hb
          rw [h3]
          cases hL : t'.lists src with
          | none => rw [hL] at hb; cases hb
          | some L => rw [hL] at hb; exact ⟨t', L, h1, hL, Or.inl hb⟩
        · right
          unfold view at hb
          rw [h3]
          cases hL : t'.lists src with
          | none => rw [hL] at hb; obtain ⟨q, hq, _⟩ := hb; cases hq
          | some L => rw [hL] at hb; exact ⟨t', L, h1, hL, Or.inr hb⟩
      · rw [he] at hb
        simp only [mkEntry, routeWord_bit, List.mem_append] at hb
        refine ⟨⟨hl, Or.inr ⟨t', h1, Or.inr ⟨h2, Or.inl (by rw [h3]; rfl)⟩⟩⟩, ?_⟩
        rcases hb with (hb | hb) | hb
        · exact Or.inl ((hbit b).mpr hb)
        · exact Or.inr ⟨t', L, h1, h3, Or.inl hb⟩
        · exact Or.inr ⟨t', L, h1, h3, Or.inr hb⟩
      · rw [he] at hb
        simp only [mkEntry, routeWord_bit, List.not_mem_nil, false_and, exists_const, or_false] at hb
        exact ⟨⟨hl, Or.inr ⟨t', h1, Or.inr ⟨h2, Or.inr ⟨h3, h4⟩⟩⟩⟩, Or.inl ((hbit b).mpr hb)⟩
    · rintro ⟨⟨hl, hw⟩, hb⟩
      obtain ⟨⟨jP, jL, c'⟩, hi, rfl⟩ := visit_of_leads (inProc := iP) (inLink := iL) hl
      simp only at hbit hw hb hl ⊢
      have key : ∀ e, (⟨e, c', v⟩ : Put) ∈ itemPuts C src useSource ensureAll R tg (jP, jL, c') →
          e.route.testBit b = true →
          ∃ p ∈ vis.flatMap (itemPuts C src useSource ensureAll R tg), p.v = v ∧ p.c = c' ∧
            p.e.route.testBit b = true :=
        fun e he hb => ⟨_, List.mem_flatMap.mpr ⟨_, (hv _).mpr hi, he⟩, rfl, rfl, hb⟩
      rcases hw with ⟨h1, rfl⟩ | ⟨t', h1, ⟨h2, rfl⟩ | ⟨h2, h3 | ⟨h3, h4⟩⟩⟩
      · refine key (mkEntry (((R.get? c').getD []).map (·.1)) [] jP jL) ?_ ?_
        · unfold itemPuts
          rw [chip_exact hf (fun t' h => hs' _ t' h)]
          exact ⟨rfl, Or.inl ⟨h1, rfl, rfl⟩⟩
        · simp only [mkEntry]
          rw [routeWord_bit]
          rcases hb with hb | ⟨t, L, ht, _⟩
          · exact Or.inl ((hbit b).mp hb)
          · rw [h1] at ht; cases ht
      · refine key (mkEntry (((R.get? c').getD []).map (·.1) ++ (view t' v).2) (view t' v).1 jP jL) ?_ ?_
        · unfold itemPuts
          rw [chip_exact hf (fun t' h => hs' _ t' h)]
          exact ⟨rfl, Or.inr ⟨t', h1, Or.inl ⟨h2, rfl, rfl⟩⟩⟩
        · simp only [mkEntry]
          rw [routeWord_bit, List.mem_append]
          rcases hb with hb | ⟨t, L, ht, hL, hb⟩
          · exact Or.inl (Or.inl ((hbit b).mp hb))
          · rw [h1] at ht
            cases ht
            unfold view
            rw [hL]
            rcases hb with hb | hb
            · exact Or.inl (Or.inr hb)
            · exact Or.inr hb
      · obtain ⟨L, hL⟩ := Option.isSome_iff_exists.mp h3
        refine key (mkEntry (((R.get? c').getD []).map (·.1) ++ L.2) L.1 jP jL) ?_ ?_
        · unfold itemPuts
          rw [chip_exact hf (fun t' h => hs' _ t' h)]
          exact ⟨rfl, Or.inr ⟨t', h1, Or.inr ⟨h2, Or.inl ⟨L, hL, rfl⟩⟩⟩⟩
        · simp only [mkEntry]
          rw [routeWord_bit, List.mem_append]
          rcases hb with hb | ⟨t, L', ht, hL', hb⟩
          · exact Or.inl (Or.inl ((hbit b).mp hb))
          · rw [h1] at ht
            cases ht
            rw [hL] at hL'
            cases hL'
            rcases hb with hb | hb
            · exact Or.inl (Or.inr hb)
            · exact Or.inr hb
      · refine key (mkEntry (((R.get? c').getD []).map (·.1)) [] jP jL) ?_ ?_
        · unfold itemPuts
          rw [chip_exact hf (fun t' h => hs' _ t' h)]
          exact ⟨rfl, Or.inr ⟨t', h1, Or.inr ⟨h2, Or.inr ⟨h3, h4, rfl⟩⟩⟩⟩
        · simp only [mkEntry]
          rw [routeWord_bit]
          rcases hb with hb | ⟨t, L', ht, hL', hb⟩
          · exact Or.inl ((hbit b).mp hb)
          · rw [h1] at ht
            cases ht
            rw [h4.2.1] at hL'
            cases hL'

/-- What a call of `_convert_a_route` adds: bits. -/
theorem convert_bits {C : Ctx} (hj : Joins C) {ident fuel : Nat} {src : VId}
    {useSource ensureAll : Bool} {R : Routes} {iP iL : Option Nat} {first : XY}
    {S S' : ByPart.State} {tg tg' : Dict XY Targets.State} (hf : Fits src useSource ensureAll)
    (hs : Sound tg)
    (h : convert C fuel ident src useSource ensureAll R iP iL first S tg = .ok (S', tg'))
    (part : Nat) (v : VId) (c : XY) (b : Nat) :
    Bit S' part v c b ↔ Bit S part v c b ∨
      (part = ident ∧ Names C src useSource ensureAll R first tg v c b) := by
  obtain ⟨_, _, _, _, vis, hv, hp⟩ := convert_ok hs.wf h
  rw [puts_bit hj _ hp, (puts_names hf hs hv v c).2 b]

/-- What a call of `_convert_a_route` adds: entries. -/
theorem convert_present {C : Ctx} {ident fuel : Nat} {src : VId}
    {useSource ensureAll : Bool} {R : Routes} {iP iL : Option Nat} {first : XY}
    {S S' : ByPart.State} {tg tg' : Dict XY Targets.State} (hf : Fits src useSource ensureAll)
    (hs : Sound tg)
    (h : convert C fuel ident src useSource ensureAll R iP iL first S tg = .ok (S', tg'))
    (part : Nat) (v : VId) (c : XY) :
    Present S' part v c ↔ Present S part v c ∨
      (part = ident ∧ Writes C src useSource ensureAll R first tg v c) := by
  obtain ⟨_, _, _, _, vis, hv, hp⟩ := convert_ok hs.wf h
  rw [puts_present _ hp, (puts_names hf hs hv v c).1]

theorem puts_frame {C : Ctx} {ident : Nat} (ps : List Put) :
    ∀ {S S' : ByPart.State}, puts C ident ps S = .ok S' → ∀ (part : Nat) (u : VId) (c : XY),
    (part = ident → ∀ p ∈ ps, p.v = u → p.c ≠ c) →
    ByPart.entryOn S' u part c.1 c.2 = ByPart.entryOn S u part c.1 c.2 := by
  induction ps with
  | nil =>
    intro S S' h part u c _
    simp only [puts] at h
    cases h
    rfl
  | cons p ps ih =>
    intro S S' h part u c hn
    simp only [puts] at h
    cases hp : addEntry C ident S p.e p.c p.v with
    | error err => simp only [hp] at h; cases h
    | ok S1 =>
      simp only [hp] at h
      rw [ih h part u c (fun he q hq => hn he q (List.mem_cons_of_mem _ hq))]
      obtain ⟨_, e', _, h4⟩ := addEntry_spec hp
      rw [h4, if_neg]
      rintro ⟨h5, h6, h7, h8⟩
      exact hn h6.symm p List.mem_cons_self h5 (Prod.ext h7 h8)

/-- Nothing else is changed. -/
theorem convert_frame {C : Ctx} {ident fuel : Nat} {src : VId}
    {useSource ensureAll : Bool} {R : Routes} {iP iL : Option Nat} {first : XY}
    {S S' : ByPart.State} {tg tg' : Dict XY Targets.State} (hf : Fits src useSource ensureAll)
    (hs : Sound tg)
    (h : convert C fuel ident src useSource ensureAll R iP iL first S tg = .ok (S', tg'))
    (part : Nat) (v : VId) (c : XY)
    (hn : part = ident → ¬ Writes C src useSource ensureAll R first tg v c) :
    ByPart.entryOn S' v part c.1 c.2 = ByPart.entryOn S v part c.1 c.2 := by
  obtain ⟨_, _, _, _, vis, hv, hp⟩ := convert_ok hs.wf h
  refine puts_frame _ hp part v c (fun he p hpm h1 h2 => hn he ?_)
  exact (puts_names hf hs hv v c).1.mp ⟨p, hpm, h1, h2⟩

/-! ### Defaultable entries -/

theorem puts_flag {C : Ctx} (hm : KeepsFlag C) {ident : Nat} (ps : List Put) :
    ∀ {S S' : ByPart.State}, puts C ident ps S = .ok S' → ∀ {v : VId} {c : XY} {e : ByPart.REntry},
    ByPart.entryOn S' v ident c.1 c.2 = some e → e.defaultable = true →
    (∀ old, ByPart.entryOn S v ident c.1 c.2 = some old → old.defaultable = true) ∧
      ∀ p ∈ ps, p.v = v → p.c = c → p.e.defaultable = true := by
  induction ps with
  | nil =>
    intro S S' h v c e he hd
    simp only [puts] at h
    cases h
    refine ⟨fun old ho => ?_, fun p hp => by cases hp⟩
    rw [he] at ho
    cases ho
    exact hd
  | cons p ps ih =>
    intro S S' h v c e he hd
    simp only [puts] at h
    cases hp : addEntry C ident S p.e p.c p.v with
    | error err => simp only [hp] at h; cases h
    | ok S1 =>
      simp only [hp] at h
      obtain ⟨h1, h2⟩ := ih h he hd
      obtain ⟨_, e', h3, h4⟩ := addEntry_spec hp
      by_cases hc : p.v = v ∧ p.c = c
      · have h5 := h1 e' (by rw [h4, if_pos ⟨hc.1, rfl, by rw [hc.2], by rw [hc.2]⟩])
        obtain ⟨rfl, rfl⟩ := hc
        rcases h3 with ⟨hn, rfl⟩ | ⟨old, ho, hme⟩
        · refine ⟨(fun old ho => by rw [hn] at ho; cases ho), fun q hq => ?_⟩
          rcases List.mem_cons.mp hq with rfl | hq
          · exact fun _ _ => h5
          · exact h2 q hq
        · obtain ⟨f1, f2⟩ := hm _ _ _ hme h5
          refine ⟨fun old' ho' => ?_, fun q hq => ?_⟩
          · rw [ho] at ho'
            cases ho'
            exact f2
          · rcases List.mem_cons.mp hq with rfl | hq
            · exact fun _ _ => f1
            · exact h2 q hq
      · refine ⟨fun old ho => h1 old ?_, fun q hq => ?_⟩
        · rw [h4, if_neg (by
            rintro ⟨h5, _, h6, h7⟩
            exact hc ⟨h5, Prod.ext h6 h7⟩)]
          exact ho
        · rcases List.mem_cons.mp hq with rfl | hq
          · exact fun hv hcc => absurd ⟨hv, hcc⟩ hc
          · exact h2 q hq

theorem flag_straight {links cores : List Nat} {iP iL : Option Nat}
    (h : (mkEntry links cores iP iL).defaultable = true) :
    iP = none ∧ ∃ i, iL = some i ∧ (∀ b, (routeWord links cores).testBit b = true ↔ b = (i + 3) % 6) := by
  unfold mkEntry at h
  simp only at h
  split at h
  · rename_i i l ls
    rw [Bool.and_eq_true, decide_eq_true_eq, List.all_eq_true] at h
    refine ⟨rfl, i, rfl, fun b => ?_⟩
    rw [routeWord_bit]
    simp only [List.mem_cons, List.not_mem_nil, false_and, exists_const, or_false]
    constructor
    · rintro (rfl | hb)
      · exact h.1.symm
      · have := h.2 b hb
        simp only [decide_eq_true_eq] at this
        rw [this]; exact h.1.symm
    · intro hb
      exact Or.inl (hb.trans h.1)
  · cases h

/-- Only straight ways are defaultable. -/
theorem convert_flag {C : Ctx} (hj : Joins C) (hm : KeepsFlag C) {ident fuel : Nat} {src : VId}
    {useSource ensureAll : Bool} {R : Routes} {iP iL : Option Nat} {first : XY}
    {S S' : ByPart.State} {tg tg' : Dict XY Targets.State} (hf : Fits src useSource ensureAll)
    (hs : Sound tg) (hR : Forest R) (h6 : ∀ a l b, Edge R a l b → l < 6)
    (h : convert C fuel ident src useSource ensureAll R iP iL first S tg = .ok (S', tg'))
    {v : VId} {c : XY} {e : ByPart.REntry} (hn : ByPart.entryOn S v ident c.1 c.2 = none)
    (he : ByPart.entryOn S' v ident c.1 c.2 = some e) (hd : e.defaultable = true) :
    ∃ l, Heads R first iP iL c l ∧ ∀ b, e.route.testBit b = true ↔ b = l := by
  obtain ⟨_, _, _, _, vis, hv, hp⟩ := convert_ok hs.wf h
  have hall := (puts_flag hm _ hp he hd).2
  have hbits : ∀ b, e.route.testBit b = true ↔
      ∃ p ∈ vis.flatMap (itemPuts C src useSource ensureAll R tg), p.v = v ∧ p.c = c ∧
        p.e.route.testBit b = true := by
    intro b
    have := puts_bit hj _ hp ident v c b
    constructor
    · intro hb
      rcases this.mp ⟨e, he, hb⟩ with ⟨e0, h0, _⟩ | ⟨_, h0⟩
      · rw [hn] at h0; cases h0
      · exact h0
    · intro hb
      obtain ⟨e1, h1, h2⟩ := this.mpr (Or.inr ⟨rfl, hb⟩)
      rw [he] at h1
      cases h1
      exact h2
  have hpres := (puts_present _ hp ident v c).mp (by unfold Present; rw [he]; rfl)
  obtain ⟨p0, hp0, hv0, hc0⟩ : ∃ p ∈ vis.flatMap (itemPuts C src useSource ensureAll R tg),
      p.v = v ∧ p.c = c := by
    rcases hpres with h0 | ⟨_, h0⟩
    · unfold Present at h0; rw [hn] at h0; cases h0
    · exact h0
  -- each entry put there goes straight
  have hput : ∀ p ∈ vis.flatMap (itemPuts C src useSource ensureAll R tg), p.v = v → p.c = c →
      ∃ i, Visit R [(iP, iL, first)] (none, some i, c) ∧
        ∀ b, p.e.route.testBit b = true ↔ b = (i + 3) % 6 := by
    intro p hp hpv hpc
    have hpd := hall p hp hpv hpc
    obtain ⟨⟨jP, jL, c'⟩, hi, hp⟩ := List.mem_flatMap.mp hp
    unfold itemPuts at hp
    rw [chip_exact hf (fun t' h => hs _ t' h)] at hp
    obtain ⟨hc', hp⟩ := hp
    have hcc : c' = c := by rw [← hpc]; exact hc'.symm
    subst hcc
    have key : ∀ links cores, p.e = mkEntry links cores jP jL →
        ∃ i, Visit R [(iP, iL, first)] (none, some i, c') ∧
          ∀ b, p.e.route.testBit b = true ↔ b = (i + 3) % 6 := by
      intro links cores hpe
      rw [hpe] at hpd
      obtain ⟨rfl, i, rfl, hb⟩ := flag_straight hpd
      exact ⟨i, (hv _).mp hi, by rw [hpe]; exact hb⟩
    rcases hp with ⟨_, _, h1⟩ | ⟨t', _, ⟨_, _, h1⟩ | ⟨_, ⟨L, _, h1⟩ | ⟨_, _, h1⟩⟩⟩
    · exact key _ _ h1
    · exact key _ _ h1
    · exact key _ _ h1
    · exact key _ _ h1
  have hhead : ∀ i, Visit R [(iP, iL, first)] (none, some i, c) → Heads R first iP iL c ((i + 3) % 6) := by
    intro i hi
    rcases hi with hi | ⟨j, hj, a, l, c', h1, h2, h3⟩
    · simp only [List.mem_singleton, Prod.mk.injEq] at hi
      exact Or.inr ⟨hi.2.2, hi.1.symm, i, hi.2.1.symm, rfl⟩
    · simp only [List.mem_singleton] at hj
      subst hj
      simp only [Prod.mk.injEq, Option.some.injEq, true_and] at h3
      obtain ⟨rfl, rfl⟩ := h3
      refine Or.inl ⟨a, h1, ?_⟩
      have := h6 _ _ _ h2
      have h7 : ((l + 3) % 6 + 3) % 6 = l := by omega
      rw [h7]
      exact h2
  have hone : ∀ l k, Heads R first iP iL c l → Heads R first iP iL c k → l = k := by
    rintro l k (⟨a, h1, h2⟩ | ⟨rfl, _, i, h1, h2⟩) (⟨a', h3, h4⟩ | ⟨h3, _, i', h4, h5⟩)
    · exact (hR.oneParent _ _ _ _ _ h2 h4).2
    · subst h3
      exact absurd h1 (hR.acyclic _ _ _ h2)
    · exact absurd h3 (hR.acyclic _ _ _ h4)
    · rw [h1] at h4
      cases h4
      rw [h2, h5]
  obtain ⟨i0, hi0, hb0⟩ := hput p0 hp0 hv0 hc0
  refine ⟨(i0 + 3) % 6, hhead i0 hi0, fun b => ?_⟩
  rw [hbits]
  constructor
  · rintro ⟨p, hp, h1, h2, h3⟩
    obtain ⟨i, hi, hb⟩ := hput p hp h1 h2
    rw [(hb b).mp h3]
    exact hone _ _ (hhead i hi) (hhead i0 hi0)
  · intro hb
    exact ⟨p0, hp0, hv0, hc0, (hb0 b).mpr hb⟩

end Pacman.Router
