import Verif.Proofs.RouterPartition
/-
Helper lemmas: the routing of one partition ends.
-/

namespace Pacman.RPath

theorem addNodes_error (source : XY) (ns : List Node) : ∀ (R : Routes) (c : XY),
    addNodes source R c ns ≠ .error .outOfFuel := by
  induction ns with
  | nil => intro R c h; simp [addNodes] at h
  | cons n ns ih =>
    obtain ⟨l, d⟩ := n
    intro R c h
    simp only [addNodes] at h
    split at h
    · split at h <;> cases h
    · exact ih _ _ h

theorem preToPost_error {T : Topo} {source dest : XY} {R : Routes} {vec : Int × Int × Int}
    {all targets : List XY} (hc : Chain T source (longestFirst T vec.1 vec.2.1 vec.2.2 source) dest) :
    preToPost T source dest R vec all targets ≠ .error .outOfFuel := by
  intro h
  unfold preToPost at h
  cases hf : withoutErrors T source (longestFirst T vec.1 vec.2.1 vec.2.2 source) with
  | error e =>
    rw [hf] at h
    simp only [Except.error.injEq] at h
    rw [h] at hf
    unfold withoutErrors at hf
    rcases C68_repaired hc with ⟨r, h1, _⟩ | ⟨h1, _⟩
    · rw [h1] at hf
      obtain ⟨r', h2, _⟩ := C38_ends source r
      simp only [h2] at hf
      cases hf
    · rw [h1] at hf; cases hf
  | ok fixed =>
    rw [hf] at h
    simp only at h
    split at h
    · rename_i e he
      simp only [Except.error.injEq] at h
      rw [h] at he
      exact addNodes_error _ _ _ _ he
    · cases h

theorem routeToXys_error {T : Topo} {first : XY} {all targets : List XY} {R : Routes} :
    routeToXys T first all R targets ≠ .error .outOfFuel := by
  intro h
  have := (C56_fails (T := T) (first := first) (all := all) (targets := targets) (R := R)).2 _ h
  cases this

end Pacman.RPath

namespace Pacman.Router

open Alloc (VId)
open RPath
open Targets (Op)

/-! ### Errors -/

theorem forE_error {α : Type} {f : α → Except PyErr Unit} (hf : ∀ a, f a ≠ .error .outOfFuel)
    (l : List α) : forE f l ≠ .error .outOfFuel := by
  induction l with
  | nil => intro h; cases h
  | cons a l ih =>
    intro h
    simp only [forE] at h
    cases ha : f a with
    | error e =>
      simp only [ha, Except.error.injEq] at h
      rw [h] at ha
      exact hf a ha
    | ok u => simp only [ha] at h; exact ih h

theorem check_error {w : ByPart.World} {en : ByPart.Entries} {v : VId} {part : Nat} :
    ByPart.check w en v part ≠ .error .outOfFuel := by
  intro h
  unfold ByPart.check at h
  cases v with
  | app a =>
    refine forE_error (f := fun m => if (en.get? (.mach m, part)).isSome then .error .invalidParameter
      else .ok ()) (fun m => ?_) _ h
    split <;> simp
  | mach m =>
    simp only at h
    split at h
    · cases h
    · split at h <;> cases h

theorem addEntry_error {C : Ctx} (hm : NoFuel C) {ident : Nat} {S : ByPart.State} {e : ByPart.REntry}
    {xy : XY} {v : VId} : addEntry C ident S e xy v ≠ .error .outOfFuel := by
  intro h
  unfold addEntry ByPart.addPath at h
  simp only at h
  cases hc : ByPart.check C.world ((S.get? (xy.1, xy.2)).getD []) v ident with
  | error err =>
    simp only [hc, Except.error.injEq] at h
    rw [h] at hc
    exact check_error hc
  | ok u =>
    simp only [hc] at h
    cases hs : ByPart.store C.world ((S.get? (xy.1, xy.2)).getD []) e v ident with
    | ok en => simp only [hs] at h; cases h
    | error err =>
      simp only [hs, Except.error.injEq] at h
      rw [h] at hs
      unfold ByPart.store at hs
      split at hs
      · cases hs
      · split at hs
        · cases hs
        · rename_i old _ err' he
          simp only [Except.error.injEq] at hs
          rw [hs] at he
          exact hm _ _ he

theorem puts_error {C : Ctx} (hm : NoFuel C) {ident : Nat} (ps : List Put) :
    ∀ S, puts C ident ps S ≠ .error .outOfFuel := by
  induction ps with
  | nil => intro S h; cases h
  | cons p ps ih =>
    intro S h
    simp only [puts] at h
    cases hp : addEntry C ident S p.e p.c p.v with
    | error err =>
      simp only [hp, Except.error.injEq] at h
      rw [h] at hp
      exact addEntry_error hm hp
    | ok S1 => simp only [hp] at h; exact ih _ h

theorem cover_error {C : Ctx} (hm : NoFuel C) {ident : Nat} {src : VId} {ensureAll : Bool}
    {links : List Nat} {inProc inLink : Option Nat} {xy : XY}
    {items : List (VId × List Nat × List Nat)} {S : ByPart.State} :
    cover C ident src ensureAll links inProc inLink xy items S ≠ .error .outOfFuel := by
  intro h
  unfold cover at h
  split at h
  · split at h
    · cases h
    · split at h
      · cases h
      · rw [addMissing_eq] at h
        exact puts_error hm _ _ h
  · cases h

theorem convertChip_error {C : Ctx} (hm : NoFuel C) {ident : Nat} {src : VId}
    {useSource ensureAll : Bool} {links : List Nat} {inProc inLink : Option Nat} {xy : XY}
    {S : ByPart.State} {tg : Dict XY Targets.State} :
    convertChip C ident src useSource ensureAll links inProc inLink xy S tg ≠ .error .outOfFuel := by
  intro h
  unfold convertChip at h
  cases ht : tg.get? xy with
  | none =>
    simp only [ht] at h
    split at h
    · rename_i err he
      simp only [Except.error.injEq] at h
      rw [h] at he
      exact addEntry_error hm he
    · cases h
  | some t =>
    simp only [ht] at h
    split at h
    · rename_i err he
      simp only [Except.error.injEq] at h
      rw [h, addFor_eq] at he
      exact puts_error hm _ _ he
    · split at h
      · rename_i err he
        simp only [Except.error.injEq] at h
        rw [h] at he
        exact cover_error hm he
      · cases h

/-! ### `_convert_a_route` ends -/

/-- The loop with this stack ends. -/
def Ends (C : Ctx) (ident : Nat) (src : VId) (useSource ensureAll : Bool) (R : Routes)
    (st : List (Option Nat × Option Nat × XY)) : Prop :=
  ∃ n, ∀ fuel, n ≤ fuel → ∀ S tg,
    convertLoop C ident src useSource ensureAll R fuel st S tg ≠ .error .outOfFuel

open Classical in
/-- How many routed chips the chip leads to. -/
noncomputable def below (R : Routes) (x : XY) : Nat :=
  ((R.map (·.1)).filter (fun d => decide (Leads R x d))).length

theorem length_filter_lt {α : Type} {p q : α → Bool} (l : List α) (h : ∀ a ∈ l, p a = true → q a = true)
    {a : α} (ha : a ∈ l) (hp : p a = false) (hq : q a = true) :
    (l.filter p).length < (l.filter q).length := by
  induction l with
  | nil => cases ha
  | cons b l ih =>
    have hle : ∀ l : List α, (∀ a ∈ l, p a = true → q a = true) →
        (l.filter p).length ≤ (l.filter q).length := by
      intro l
      induction l with
      | nil => intro _; exact Nat.le_refl _
      | cons c l ih =>
        intro h
        have h0 := ih (fun a ha => h a (List.mem_cons_of_mem _ ha))
        have h1 := h c List.mem_cons_self
        rw [List.filter_cons, List.filter_cons]
        cases hpc : p c with
        | false =>
          cases hqc : q c <;> simp <;> omega
        | true =>
          rw [h1 hpc]
          simp
          exact h0
    have hl := fun a ha => h a (List.mem_cons_of_mem _ ha)
    rw [List.filter_cons, List.filter_cons]
    rcases List.mem_cons.mp ha with rfl | ha
    · rw [hp, hq]
      have := hle l hl
      simp
      omega
    · have h1 := ih hl ha
      have h2 := h b List.mem_cons_self
      cases hpb : p b with
      | false => cases hqb : q b <;> simp <;> omega
      | true =>
        rw [h2 hpb]
        simp
        exact h1

theorem below_lt {R : Routes} (hR : Forest R) {x y : XY} {l : Nat} (he : Edge R x l y) :
    below R y < below R x := by
  unfold below
  refine length_filter_lt (a := x) _ ?_ ?_ ?_ ?_
  · intro a _ ha
    simp only [decide_eq_true_eq] at ha ⊢
    exact leads_head he ha
  · obtain ⟨ch, hx, _⟩ := he
    exact List.mem_map.mpr ⟨(x, ch), Dict.mem_of_get? hx, rfl⟩
  · simp only [decide_eq_false_iff_not]
    exact hR.acyclic x l y he
  · simp only [decide_eq_true_eq]
    exact .refl

theorem ends_nil (C : Ctx) (ident : Nat) (src : VId) (useSource ensureAll : Bool) (R : Routes) :
    Ends C ident src useSource ensureAll R [] := by
  refine ⟨0, fun fuel _ S tg h => ?_⟩
  cases fuel <;> simp [convertLoop] at h

theorem ends_cons {C : Ctx} (hm : NoFuel C) {ident : Nat} {src : VId} {useSource ensureAll : Bool}
    {R : Routes} (hR : Forest R) (n : Nat) : ∀ (x : XY), below R x < n →
    ∀ (iP iL : Option Nat) (st : List (Option Nat × Option Nat × XY)),
    Ends C ident src useSource ensureAll R st →
    Ends C ident src useSource ensureAll R ((iP, iL, x) :: st) := by
  induction n with
  | zero => intro x hx; omega
  | succ n ih =>
    intro x hx iP iL st hst
    have hch : ∀ ks : List (Nat × XY), (∀ k ∈ ks, Edge R x k.1 k.2) →
        Ends C ident src useSource ensureAll R
          (ks.map (fun n => (none, some ((n.1 + 3) % 6), n.2)) ++ st) := by
      intro ks
      induction ks with
      | nil => intro _; exact hst
      | cons k ks ihk =>
        intro hks
        refine ih k.2 ?_ _ _ _ (ihk (fun k' hk' => hks k' (List.mem_cons_of_mem _ hk')))
        have := below_lt hR (hks k List.mem_cons_self)
        omega
    obtain ⟨m, hmm⟩ := hch ((R.get? x).getD []).reverse (by
      intro k hk
      exact edge_iff.mpr (List.mem_reverse.mp hk))
    refine ⟨m + 1, fun fuel hf S tg h => ?_⟩
    cases fuel with
    | zero => omega
    | succ fuel =>
      simp only [convertLoop] at h
      split at h
      · rename_i err he
        simp only [Except.error.injEq] at h
        rw [h] at he
        exact convertChip_error hm he
      · exact hmm fuel (by omega) _ _ h

/-- The conversion of trees ends. -/
theorem convert_ends {C : Ctx} (hm : NoFuel C) (ident : Nat) (src : VId) (useSource ensureAll : Bool)
    {R : Routes} (hR : Forest R) (first : XY) (iP iL : Option Nat) :
    ∃ n, ∀ fuel, n ≤ fuel → ∀ S tg,
      convert C fuel ident src useSource ensureAll R iP iL first S tg ≠ .error .outOfFuel := by
  obtain ⟨n, hn⟩ := ends_cons hm (ident := ident) (src := src) (useSource := useSource)
    (ensureAll := ensureAll) hR (below R first + 1) first (Nat.lt_succ_self _) iP iL []
    (ends_nil _ _ _ _ _ _)
  refine ⟨n, fun fuel hf S tg h => ?_⟩
  unfold convert at h
  split at h
  · exact hn fuel hf S tg h
  · cases h

/-! ### The rest -/

theorem toTargets_ends {C : Ctx} (hm : NoFuel C) (P : Partition) (M : Mapping) {R : Routes}
    (hR : Forest R) (es : List XY) : ∃ n, ∀ fuel, n ≤ fuel → ∀ S tg,
      toTargets C P fuel M R es S tg ≠ .error .outOfFuel := by
  induction es with
  | nil => exact ⟨0, fun fuel _ S tg h => by simp [toTargets] at h⟩
  | cons e es ih =>
    obtain ⟨n, hn⟩ := ih
    obtain ⟨k, hk⟩ := convert_ends hm P.ident (.app P.source) false true hR e none none
    refine ⟨max n k, fun fuel hf S tg h => ?_⟩
    simp only [toTargets] at h
    split at h
    · rename_i err he
      simp only [Except.error.injEq] at h
      rw [h] at he
      exact hk fuel (by omega) _ _ he
    · exact hn fuel (by omega) _ _ h

theorem fromVertices_ends {C : Ctx} (hm : NoFuel C) (P : Partition) (useSource : Bool) {R : Routes}
    (hR : Forest R) (xy : XY) (vs : List (Nat × Option Nat × Option Nat)) :
    ∃ n, ∀ fuel, n ≤ fuel → ∀ S tg,
      fromVertices C P fuel useSource R xy vs S tg ≠ .error .outOfFuel := by
  induction vs with
  | nil => exact ⟨0, fun fuel _ S tg h => by simp [fromVertices] at h⟩
  | cons v vs ih =>
    obtain ⟨m, p, l⟩ := v
    obtain ⟨n, hn⟩ := ih
    obtain ⟨k, hk⟩ := convert_ends hm P.ident (.mach m) useSource false hR xy p l
    refine ⟨max n k, fun fuel hf S tg h => ?_⟩
    simp only [fromVertices] at h
    split at h
    · rename_i err he
      simp only [Except.error.injEq] at h
      rw [h] at he
      exact hk fuel (by omega) _ _ he
    · exact hn fuel (by omega) _ _ h

theorem forest_nil : Forest [] := (winv_empty (⟨[], fun _ _ => false, fun c _ => c⟩) (fun _ => True)).forest

theorem fromSources_ends {C : Ctx} (hm : NoFuel C) (P : Partition) (useSource : Bool)
    (all goals : List XY) (M : Mapping) :
    ∃ n, ∀ fuel, n ≤ fuel → ∀ S tg,
      fromSources C P fuel useSource all goals M S tg ≠ .error .outOfFuel := by
  induction M with
  | nil => exact ⟨0, fun fuel _ S tg h => by simp [fromSources] at h⟩
  | cons x M ih =>
    obtain ⟨xy, vs⟩ := x
    obtain ⟨n, hn⟩ := ih
    cases hr : routeToXys C.T xy all [] goals with
    | error err =>
      refine ⟨0, fun fuel hf S tg h => ?_⟩
      simp only [fromSources, hr, Except.error.injEq] at h
      rw [h] at hr
      exact routeToXys_error hr
    | ok R =>
      obtain ⟨k, hk⟩ := fromVertices_ends hm P useSource (C71_forest forest_nil hr) xy vs
      refine ⟨max n k, fun fuel hf S tg h => ?_⟩
      simp only [fromSources, hr] at h
      split at h
      · rename_i err he
        simp only [Except.error.injEq] at h
        rw [h] at he
        exact hk fuel (by omega) _ _ he
      · exact hn fuel (by omega) _ _ h

theorem makeRoutes_ends {C : Ctx} (hm : NoFuel C) (P : Partition) (all : List XY) (M : Mapping)
    {W : Work} (hR : Forest W.routes) : ∃ n, ∀ fuel, n ≤ fuel → ∀ S,
      makeRoutes C P fuel all M W S ≠ .error .outOfFuel := by
  obtain ⟨n1, h1⟩ := toTargets_ends hm P M hR (C.iter W.edges)
  obtain ⟨n2, h2⟩ := fromSources_ends hm P true all (W.selfXys.foldl addTo W.edges) M
  obtain ⟨n3, h3⟩ := fromSources_ends hm P false all W.edges M
  refine ⟨max n1 (max n2 n3), fun fuel hf S h => ?_⟩
  unfold makeRoutes at h
  split at h
  · rename_i err he
    simp only [Except.error.injEq] at h
    rw [h] at he
    exact h1 fuel (by omega) _ _ he
  · split at h
    · split at h
      · rename_i err he
        simp only [Except.error.injEq] at h
        rw [h] at he
        exact h2 fuel (by omega) _ _ he
      · cases h
    · split at h
      · rename_i err he
        simp only [Except.error.injEq] at h
        rw [h] at he
        exact h3 fuel (by omega) _ _ he
      · cases h

theorem addM_error {e : Targets.Env} {s : Targets.State} {a : Nat} {core link : Option Nat} :
    Targets.addM e s a core link ≠ .error .outOfFuel := by
  intro h
  unfold Targets.addM at h
  split at h <;> cases h

theorem replaceIf_error {e : Targets.Env} {s : Targets.State} {a : Option Nat} :
    Targets.replaceIf e s a ≠ .error .outOfFuel := by
  intro h
  unfold Targets.replaceIf Targets.replaceApp at h
  split at h
  · cases h
  · split at h
    · split at h
      · cases h
      · split at h <;> cases h
    · cases h

theorem step_error {e : Targets.Env} {s : Targets.State} {o : Op} :
    Targets.step e s o ≠ .error .outOfFuel := by
  have h1 : ∀ (core link : Option Nat) (vs : List VId) (s : Targets.State),
      Targets.addSources e core link vs s ≠ .error .outOfFuel := by
    intro core link vs
    induction vs with
    | nil => intro s h; cases h
    | cons v vs ih =>
      intro s h
      simp only [Targets.addSources] at h
      split at h
      · rename_i err he
        simp only [Except.error.injEq] at h
        rw [h] at he
        unfold Targets.addOne at he
        split at he
        · split at he
          · exact addM_error he
          · cases he
        · split at he
          · rename_i err' he'
            simp only [Except.error.injEq] at he
            rw [he] at he'
            exact replaceIf_error he'
          · cases he
      · exact ih _ h
  have h2 : ∀ (core link : Option Nat) (vs : List VId) (s : Targets.State),
      Targets.addMachineSources e core link vs s ≠ .error .outOfFuel := by
    intro core link vs
    induction vs with
    | nil => intro s h; cases h
    | cons v vs ih =>
      intro s h
      simp only [Targets.addMachineSources] at h
      split at h
      · rename_i err he
        simp only [Except.error.injEq] at h
        rw [h] at he
        unfold Targets.addOneMachine at he
        split at he
        · split at he
          · rename_i err' he'
            simp only [Except.error.injEq] at he
            rw [he] at he'
            exact replaceIf_error he'
          · exact addM_error he
        · split at he
          · rename_i err' he'
            simp only [Except.error.injEq] at he
            rw [he] at he'
            exact replaceIf_error he'
          · cases he
      · exact ih _ h
  cases o with
  | add core link vs => exact h1 core link vs s
  | addMachine core link vs => exact h2 core link vs s

theorem ask_error {C : Ctx} {tg : Dict XY Targets.State} {xy : XY} {o : Op} :
    ask C tg xy o ≠ .error .outOfFuel := by
  intro h
  unfold ask at h
  split at h
  · rename_i err he
    simp only [Except.error.injEq] at h
    rw [h] at he
    exact step_error he
  · cases h

theorem askAll_error {C : Ctx} {M : Mapping} (vs : List (Nat × List VId)) :
    ∀ {tg : Dict XY Targets.State}, askAll C M vs tg ≠ .error .outOfFuel := by
  induction vs with
  | nil => intro tg h; cases h
  | cons v vs ih =>
    intro tg h
    simp only [askAll] at h
    split at h
    · rename_i err he
      simp only [Except.error.injEq] at h
      rw [h] at he
      exact ask_error he
    · exact ih h

theorem askSelf_keeps {C : Ctx} (vs : List (Nat × List VId)) :
    ∀ {W : Work}, askSelf C vs W ≠ .error .outOfFuel ∧
      ∀ W', askSelf C vs W = .ok W' → W'.routes = W.routes := by
  induction vs with
  | nil =>
    intro W
    refine ⟨(fun h => by cases h), fun W' h => ?_⟩
    simp only [askSelf] at h
    cases h
    rfl
  | cons v vs ih =>
    intro W
    simp only [askSelf]
    cases ha : ask C W.targets (C.locate v.1).1
        (.addMachine (C.locate v.1).2.1 (C.locate v.1).2.2 v.2) with
    | error err =>
      refine ⟨fun h => ?_, fun W' h => by cases h⟩
      simp only [Except.error.injEq] at h
      rw [h] at ha
      exact ask_error ha
    | ok tg => exact ih

theorem chooseTarget_error {C : Ctx} {targets : List XY} {R : Routes} {M : Mapping} :
    chooseTarget C targets R M ≠ .error .outOfFuel := by
  intro h
  unfold chooseTarget findTarget at h
  split at h
  · cases h
  · simp only at h
    split at h
    · cases h
    · cases h
    · split at h
      · cases h
      · split at h <;> cases h

theorem overlapLoop_forest {C : Ctx} (os : List XY) : ∀ {reached E real tgt : List XY} {R : Routes},
    Forest R → overlapLoop C os reached E real tgt R ≠ .error .outOfFuel ∧
    ∀ r, overlapLoop C os reached E real tgt R = .ok r → Forest r.2.2.2 := by
  induction os with
  | nil =>
    intro reached E real tgt R hR
    refine ⟨(fun h => by cases h), fun r h => ?_⟩
    simp only [overlapLoop] at h
    cases h
    exact hR
  | cons o os ih =>
    intro reached E real tgt R hR
    simp only [overlapLoop]
    obtain ⟨found, hfound, _⟩ := C69_reachable C.T o tgt reached
    rw [hfound]
    simp only
    cases h2 : routeToXys C.T o found R (real.filter (fun c => decide (c ∈ found))) with
    | error err =>
      refine ⟨fun h => ?_, fun r h => by cases h⟩
      simp only [Except.error.injEq] at h
      rw [h] at h2
      exact routeToXys_error h2
    | ok R1 =>
      simp only
      split
      · exact ih (C71_forest hR h2)
      · exact ⟨(fun h => by cases h), fun r h => by cases h⟩

theorem routeTo_forest {C : Ctx} {P : Partition} (hC : Contract C P) {s : XY} {all targets E : List XY}
    {M : Mapping} {R : Routes} (hs : s ∈ C.T.chips) (htc : ∀ t ∈ targets, t ∈ C.T.chips)
    (hR : Forest R) : routeTo C s all M targets E R ≠ .error .outOfFuel ∧
    ∀ r, routeTo C s all M targets E R = .ok r → Forest r.2 := by
  unfold routeTo
  cases h1 : chooseTarget C targets R M with
  | error err =>
    refine ⟨fun h => ?_, fun r h => by cases h⟩
    simp only [Except.error.injEq] at h
    rw [h] at h1
    exact chooseTarget_error h1
  | ok r =>
    obtain ⟨t, ov⟩ := r
    simp only
    obtain ⟨ht, _⟩ := chooseTarget_ok hC.iter h1
    cases h2 : preToPost C.T s t R (C.vector s t) all targets with
    | error err =>
      refine ⟨fun h => ?_, fun r h => by cases h⟩
      simp only [Except.error.injEq] at h
      rw [h] at h2
      exact preToPost_error (hC.vector s t hs (htc t ht)) h2
    | ok r =>
      obtain ⟨R1, pre, post⟩ := r
      simp only
      have hR1 := preToPost_forest hR h2
      cases ov with
      | none =>
        simp only
        cases h3 : routeToXys C.T post targets R1 targets with
        | error err =>
          refine ⟨fun h => ?_, fun r h => by cases h⟩
          simp only [Except.error.injEq] at h
          rw [h] at h3
          exact routeToXys_error h3
        | ok R2 =>
          refine ⟨(fun h => by cases h), fun r h => ?_⟩
          cases h
          exact C71_forest hR1 h3
      | some os =>
        simp only
        obtain ⟨k1, k2⟩ := overlapLoop_forest (C := C) os (reached := os) (E := E) (real := targets)
          (tgt := targets) hR1
        cases h3 : overlapLoop C os os E targets targets R1 with
        | error err =>
          refine ⟨fun h => ?_, fun r h => by cases h⟩
          simp only [Except.error.injEq] at h
          rw [h] at h3
          exact k1 h3
        | ok r =>
          obtain ⟨E2, real2, tgt2, R2⟩ := r
          simp only
          have hR2 : Forest R2 := k2 _ h3
          cases h4 : routeToXys C.T post tgt2 R2 real2 with
          | error err =>
            refine ⟨fun h => ?_, fun r h => by cases h⟩
            simp only [Except.error.injEq] at h
            rw [h] at h4
            exact routeToXys_error h4
          | ok R3 =>
            refine ⟨(fun h => by cases h), fun r h => ?_⟩
            cases h
            exact C71_forest hR2 h4

theorem routeEdges_forest {C : Ctx} {P : Partition} (hC : Contract C P) {s : XY} {all : List XY}
    {M : Mapping} (hs : s ∈ C.T.chips) (es : List (Nat × List (Nat × List VId))) :
    ∀ {W : Work}, Forest W.routes → routeEdges C P s all M es W ≠ .error .outOfFuel ∧
    ∀ W', routeEdges C P s all M es W = .ok W' → Forest W'.routes := by
  induction es with
  | nil =>
    intro W hW
    refine ⟨(fun h => by cases h), fun W' h => ?_⟩
    simp only [routeEdges] at h
    cases h
    exact hW
  | cons e es ih =>
    intro W hW
    have hone : routeEdge C P s all M e W ≠ .error .outOfFuel ∧
        ∀ W', routeEdge C P s all M e W = .ok W' → Forest W'.routes := by
      unfold routeEdge
      split
      · cases h1 : askAll C M e.2 W.targets with
        | error err =>
          refine ⟨fun h => ?_, fun r h => by cases h⟩
          simp only [Except.error.injEq] at h
          rw [h] at h1
          exact askAll_error _ h1
        | ok tg =>
          simp only
          obtain ⟨k1, k2⟩ := routeTo_forest hC (all := all) (E := W.edges) (M := M)
            (targets := chipsOf C e.2) hs (by
              intro t ht
              obtain ⟨v, _, rfl⟩ := mem_chipsOf.mp ht
              exact hC.placed _) hW
          cases h2 : routeTo C s all M (chipsOf C e.2) W.edges W.routes with
          | error err =>
            refine ⟨fun h => ?_, fun r h => by cases h⟩
            simp only [Except.error.injEq] at h
            rw [h] at h2
            exact k1 h2
          | ok r =>
            obtain ⟨E, R⟩ := r
            refine ⟨(fun h => by cases h), fun W' h => ?_⟩
            cases h
            exact k2 _ h2
      · obtain ⟨k1, k2⟩ := askSelf_keeps (C := C) e.2 (W := { W with selfConnected := true })
        refine ⟨k1, fun W' h => ?_⟩
        rw [k2 W' h]
        exact hW
    simp only [routeEdges]
    cases h1 : routeEdge C P s all M e W with
    | error err =>
      refine ⟨fun h => ?_, fun r h => by cases h⟩
      simp only [Except.error.injEq] at h
      rw [h] at h1
      exact hone.1 h1
    | ok W1 => exact ih (hone.2 W1 h1)

/-- The routing of a partition ends. -/
theorem partition_ends {C : Ctx} {P : Partition} (hC : Contract C P) (hm : NoFuel C) :
    ∃ n, ∀ fuel, n ≤ fuel → ∀ S, routePartition C P fuel S ≠ .error .outOfFuel := by
  unfold routePartition
  cases hM : mapping C P with
  | error err =>
    refine ⟨0, fun fuel _ S h => ?_⟩
    simp only [Except.error.injEq] at h
    rw [h] at hM
    unfold mapping at hM
    split at hM <;> cases hM
  | ok M =>
    cases M with
    | nil => exact ⟨0, fun fuel _ S h => by cases h⟩
    | cons s0 M' =>
      simp only
      generalize hMM : s0 :: M' = M at *
      have hsM : (Dict.get? M s0.1).isSome = true := by
        rw [← hMM, Dict.get?_cons, if_pos rfl]; rfl
      obtain ⟨k0, hk0, hk0'⟩ := ((mapping_ok hM).2 s0.1).mp hsM
      have hs : s0.1 ∈ C.T.chips := by rw [← hk0']; exact hC.placed k0
      obtain ⟨k1, k2⟩ := routeEdges_forest hC (all := allSource C P) (M := M) hs P.edges
        (W := ⟨[], [], [], false, []⟩) forest_nil
      cases h1 : routeEdges C P s0.1 (allSource C P) M P.edges ⟨[], [], [], false, []⟩ with
      | error err =>
        refine ⟨0, fun fuel _ S h => ?_⟩
        simp only [Except.error.injEq] at h
        rw [h] at h1
        exact k1 h1
      | ok W1 =>
        simp only
        have hW1 := k2 W1 h1
        cases h2 : routeInternal C P W1 with
        | error err =>
          refine ⟨0, fun fuel _ S h => ?_⟩
          simp only [Except.error.injEq] at h
          rw [h] at h2
          unfold routeInternal at h2
          split at h2
          · cases h2
          · exact (askSelf_keeps _).1 h2
        | ok W =>
          simp only
          have hW : Forest W.routes := by
            unfold routeInternal at h2
            split at h2
            · cases h2; exact hW1
            · rw [(askSelf_keeps _).2 _ h2]; exact hW1
          exact makeRoutes_ends hm P _ M hW

end Pacman.Router
