import Verif.Spec.Router
import Verif.Proofs.Targets
import Verif.Proofs.RouterJoin
import Verif.Props.TableByPartition
/-
Helper lemmas: what `_convert_a_route` writes.
-/

namespace Pacman.Router

open Alloc (VId)
open RPath (XY Node Topo Routes Leads Edge Routed)

theorem routeWord_bit (links cores : List Nat) (b : Nat) :
    (routeWord links cores).testBit b = true ↔ b ∈ links ∨ ∃ p ∈ cores, b = 6 + p := by
  unfold routeWord
  induction cores with
  | nil =>
    simp only [List.foldr_nil, List.not_mem_nil, false_and, exists_const, or_false]
    induction links with
    | nil => simp
    | cons l ls ih =>
      rw [List.foldr_cons, Nat.testBit_or, Bool.or_eq_true, ih, Nat.testBit_two_pow]
      simp only [decide_eq_true_eq, List.mem_cons]
      constructor
      · rintro (h | h)
        · exact Or.inl h.symm
        · exact Or.inr h
      · rintro (h | h)
        · exact Or.inl h.symm
        · exact Or.inr h
  | cons p ps ih =>
    rw [List.foldr_cons, Nat.testBit_or, Bool.or_eq_true, ih, Nat.testBit_two_pow]
    simp only [decide_eq_true_eq, List.mem_cons]
    constructor
    · rintro (h | h | ⟨q, h, h'⟩)
      · exact Or.inr ⟨p, Or.inl rfl, h.symm⟩
      · exact Or.inl h
      · exact Or.inr ⟨q, Or.inr h, h'⟩
    · rintro (h | ⟨q, rfl | h, h'⟩)
      · exact Or.inr (Or.inl h)
      · exact Or.inl h'.symm
      · exact Or.inr (Or.inr ⟨q, h, h'⟩)

/-- One entry to be stored. -/
structure Put where
  e : ByPart.REntry
  c : XY
  v : VId

/-- Store the entries one after the other. -/
def puts (C : Ctx) (ident : Nat) : List Put → ByPart.State → Except PyErr ByPart.State
  | [], S => .ok S
  | p :: ps, S =>
    match addEntry C ident S p.e p.c p.v with
    | .error err => .error err
    | .ok S => puts C ident ps S

theorem puts_append (C : Ctx) (ident : Nat) (ps qs : List Put) (S : ByPart.State) :
    puts C ident (ps ++ qs) S =
      match puts C ident ps S with
      | .error err => .error err
      | .ok S => puts C ident qs S := by
  induction ps generalizing S with
  | nil => rfl
  | cons p ps ih =>
    simp only [List.cons_append, puts]
    cases addEntry C ident S p.e p.c p.v with
    | error err => rfl
    | ok S1 => exact ih S1

theorem addFor_eq (C : Ctx) (ident : Nat) (links : List Nat) (inProc inLink : Option Nat) (xy : XY)
    (items : List (VId × List Nat × List Nat)) (S : ByPart.State) :
    addFor C ident links inProc inLink xy items S =
      puts C ident (items.map (fun i => ⟨mkEntry (links ++ i.2.2) i.2.1 inProc inLink, xy, i.1⟩)) S := by
  induction items generalizing S with
  | nil => rfl
  | cons i items ih =>
    obtain ⟨v, cores, ls⟩ := i
    simp only [addFor, List.map_cons, puts]
    cases addEntry C ident S (mkEntry (links ++ ls) cores inProc inLink) xy v with
    | error err => rfl
    | ok S1 => exact ih S1

theorem addMissing_eq (C : Ctx) (ident : Nat) (links : List Nat) (inProc inLink : Option Nat) (xy : XY)
    (hv : List VId) (ms : List Nat) (S : ByPart.State) :
    addMissing C ident links inProc inLink xy hv ms S =
      puts C ident ((ms.filter (fun m => decide (VId.mach m ∉ hv))).map
        (fun m => ⟨mkEntry links [] inProc inLink, xy, .mach m⟩)) S := by
  induction ms generalizing S with
  | nil => rfl
  | cons m ms ih =>
    simp only [addMissing]
    by_cases h : VId.mach m ∈ hv
    · rw [if_pos h, List.filter_cons, if_neg (by simp [h])]
      exact ih S
    · rw [if_neg h, List.filter_cons, if_pos (by simp [h])]
      simp only [List.map_cons, puts]
      cases addEntry C ident S (mkEntry links [] inProc inLink) xy (.mach m) with
      | error err => rfl
      | ok S1 => exact ih S1

/-- The entries of "Now check the coverage". -/
def coverPuts (C : Ctx) (src : VId) (ensureAll : Bool) (links : List Nat)
    (inProc inLink : Option Nat) (xy : XY) (items : List (VId × List Nat × List Nat)) : List Put :=
  if ensureAll && !items.any (fun i => isApp i.1) then
    match src with
    | .mach _ => []
    | .app a =>
      (((C.outgoing a).getD []).filter (fun m => decide (VId.mach m ∉ items.map (·.1)))).map
        (fun m => ⟨mkEntry links [] inProc inLink, xy, .mach m⟩)
  else []

/-- What a `_Targets` answers for a vertex. -/
def view (t : Targets.State) (v : VId) : List Nat × List Nat := (t.lists v).getD ([], [])

/-- `targets_by_source` in `_convert_a_route`. -/
def itemsFor (src : VId) (useSource : Bool) (t : Targets.State) : List (VId × List Nat × List Nat) :=
  if useSource then [(src, view t src)] else itemsOf t

/-- The entries of one chip. -/
def chipPuts (C : Ctx) (src : VId) (useSource ensureAll : Bool) (links : List Nat)
    (inProc inLink : Option Nat) (xy : XY) (t : Option Targets.State) : List Put :=
  match t with
  | some t =>
    (itemsFor src useSource t).map
        (fun i => ⟨mkEntry (links ++ i.2.2) i.2.1 inProc inLink, xy, i.1⟩) ++
      coverPuts C src ensureAll links inProc inLink xy (itemsFor src useSource t)
  | none => [⟨mkEntry links [] inProc inLink, xy, src⟩]

theorem cover_ok {C : Ctx} {ident : Nat} {src : VId} {ensureAll : Bool} {links : List Nat}
    {inProc inLink : Option Nat} {xy : XY} {items : List (VId × List Nat × List Nat)}
    {S S' : ByPart.State}
    (h : cover C ident src ensureAll links inProc inLink xy items S = .ok S') :
    puts C ident (coverPuts C src ensureAll links inProc inLink xy items) S = .ok S' := by
  unfold cover at h
  unfold coverPuts
  split at h
  · rename_i hc
    rw [if_pos hc]
    cases src with
    | mach m => cases h
    | app a =>
      simp only at h ⊢
      cases hl : C.outgoing a with
      | none => rw [hl] at h; cases h
      | some ms =>
        rw [hl] at h
        simp only at h
        rw [addMissing_eq] at h
        exact h
  · rename_i hc
    rw [if_neg hc]
    exact h

/-- All `_Targets` are well formed. -/
def AllWF (tg : Dict XY Targets.State) : Prop := ∀ xy t, tg.get? xy = some t → Targets.WF t

/-- The same answers for each vertex on each chip. -/
def Sim (tg tg' : Dict XY Targets.State) : Prop :=
  ∀ xy, (tg'.get? xy).map view = (tg.get? xy).map view

theorem view_ensure {t : Targets.State} (h : Targets.WF t) (v : VId) :
    view (Targets.ensure t v) = view t := by
  funext u
  unfold view
  rw [Targets.ensure_lists h]
  split
  · rename_i hc
    rw [(Targets.lists_none h).mpr (hc.1 ▸ hc.2)]
    rfl
  · rfl

theorem sourcesAt_items (src : VId) (useSource : Bool) {t : Targets.State} (h : Targets.WF t) :
    (sourcesAt src useSource t).2 = itemsFor src useSource t := by
  unfold sourcesAt itemsFor
  split
  · have := congrFun (view_ensure h src) src
    unfold view at this
    simp only [Targets.getTargets]
    rw [this]
    rfl
  · rfl

theorem sourcesAt_state (src : VId) (useSource : Bool) {t : Targets.State} (h : Targets.WF t) :
    Targets.WF (sourcesAt src useSource t).1 ∧ view (sourcesAt src useSource t).1 = view t ∧
      (useSource = false → (sourcesAt src useSource t).1 = t) := by
  unfold sourcesAt
  split
  · rename_i hu
    refine ⟨Targets.ensure_wf h src, view_ensure h src, ?_⟩
    intro hf; rw [hf] at hu; cases hu
  · exact ⟨h, rfl, fun _ => rfl⟩

theorem convertChip_ok {C : Ctx} {ident : Nat} {src : VId} {useSource ensureAll : Bool}
    {links : List Nat} {inProc inLink : Option Nat} {xy : XY} {S S' : ByPart.State}
    {tg tg' : Dict XY Targets.State} (hw : AllWF tg)
    (h : convertChip C ident src useSource ensureAll links inProc inLink xy S tg = .ok (S', tg')) :
    puts C ident (chipPuts C src useSource ensureAll links inProc inLink xy (tg.get? xy)) S = .ok S' ∧
      AllWF tg' ∧ Sim tg tg' ∧ (useSource = false → ∀ c, tg'.get? c = tg.get? c) := by
  unfold convertChip at h
  unfold chipPuts
  cases ht : tg.get? xy with
  | none =>
    simp only [ht] at h ⊢
    cases hp : addEntry C ident S (mkEntry links [] inProc inLink) xy src with
    | error err => simp only [hp] at h; cases h
    | ok S1 =>
      simp only [hp] at h
      cases h
      refine ⟨?_, hw, fun _ => rfl, fun _ _ => rfl⟩
      simp only [puts, hp]
  | some t =>
    simp only [ht] at h ⊢
    have hwt := hw xy t ht
    obtain ⟨w1, w2, w3⟩ := sourcesAt_state src useSource hwt
    rw [sourcesAt_items src useSource hwt, addFor_eq] at h
    cases hp : puts C ident ((itemsFor src useSource t).map
        (fun i => (⟨mkEntry (links ++ i.2.2) i.2.1 inProc inLink, xy, i.1⟩ : Put))) S with
    | error err => simp only [hp] at h; cases h
    | ok S1 =>
      simp only [hp] at h
      cases hc : cover C ident src ensureAll links inProc inLink xy (itemsFor src useSource t) S1 with
      | error err => simp only [hc] at h; cases h
      | ok S2 =>
        simp only [hc] at h
        cases h
        refine ⟨?_, ?_, ?_, ?_⟩
        · rw [puts_append, hp]
          exact cover_ok hc
        · intro c t' ht'
          rw [Dict.get?_set] at ht'
          split at ht'
          · cases ht'; exact w1
          · exact hw c t' ht'
        · intro c
          rw [Dict.get?_set]
          split
          · rename_i hcx
            rw [← hcx, ht, Option.map_some, Option.map_some, w2]
          · rfl
        · intro hu c
          rw [Dict.get?_set]
          split
          · rename_i hcx
            rw [← hcx, ht, w3 hu]
          · rfl

theorem itemsFor_sim {src : VId} {t t' : Targets.State} (h : view t' = view t) :
    itemsFor src true t' = itemsFor src true t := by
  unfold itemsFor
  rw [if_pos rfl, if_pos rfl, h]

theorem chipPuts_sim {C : Ctx} {src : VId} {useSource ensureAll : Bool}
    {links : List Nat} {inProc inLink : Option Nat} {xy : XY} {t t' : Option Targets.State}
    (h : t'.map view = t.map view) (h' : useSource = false → t' = t) :
    chipPuts C src useSource ensureAll links inProc inLink xy t' =
      chipPuts C src useSource ensureAll links inProc inLink xy t := by
  cases useSource with
  | false => rw [h' rfl]
  | true =>
    cases t with
    | none =>
      cases t' with
      | none => rfl
      | some t' => simp at h
    | some t =>
      cases t' with
      | none => simp at h
      | some t' =>
        simp only [Option.map_some, Option.some.injEq] at h
        simp only [chipPuts, itemsFor_sim h]

theorem leads_cons {R : Routes} {a b : XY} (h : Leads R a b) :
    a = b ∨ ∃ l c, Edge R a l c ∧ Leads R c b := by
  induction h with
  | refl => exact Or.inl rfl
  | step h1 he ih =>
    rename_i b c l
    rcases ih with rfl | ⟨l', d, h2, h3⟩
    · exact Or.inr ⟨l, c, he, .refl⟩
    · exact Or.inr ⟨l', d, h2, h3.step he⟩

theorem leads_head {R : Routes} {a b c : XY} {l : Nat} (he : Edge R a l b) (h : Leads R b c) :
    Leads R a c := by
  induction h with
  | refl => exact .step .refl he
  | step h1 he' ih => exact .step ih he'

theorem leads_trans {R : Routes} {a b c : XY} (h1 : Leads R a b) (h2 : Leads R b c) : Leads R a c := by
  induction h2 with
  | refl => exact h1
  | step h he ih => exact .step ih he

/-- The stack entries that come up: those on the stack, and one for each child of a chip led to. -/
def Visit (R : Routes) (st : List (Option Nat × Option Nat × XY)) (i : Option Nat × Option Nat × XY) :
    Prop :=
  i ∈ st ∨ ∃ j ∈ st, ∃ a l c, Leads R j.2.2 a ∧ Edge R a l c ∧ i = (none, some ((l + 3) % 6), c)

/-- The entries for one stack entry. -/
def itemPuts (C : Ctx) (src : VId) (useSource ensureAll : Bool) (R : Routes)
    (tg : Dict XY Targets.State) (i : Option Nat × Option Nat × XY) : List Put :=
  chipPuts C src useSource ensureAll (((R.get? i.2.2).getD []).map (·.1)) i.1 i.2.1 i.2.2
    (tg.get? i.2.2)

theorem edge_iff {R : Routes} {a b : XY} {l : Nat} :
    Edge R a l b ↔ (l, b) ∈ (R.get? a).getD [] := by
  unfold Edge
  constructor
  · rintro ⟨ch, h1, h2⟩
    rw [h1]; exact h2
  · intro h
    cases hc : R.get? a with
    | none => rw [hc] at h; cases h
    | some ch => rw [hc] at h; exact ⟨ch, rfl, h⟩

theorem convertLoop_ok {C : Ctx} {ident : Nat} {src : VId} {useSource ensureAll : Bool} {R : Routes}
    (fuel : Nat) : ∀ {st : List (Option Nat × Option Nat × XY)} {S S' : ByPart.State}
    {tg tg' : Dict XY Targets.State}, AllWF tg →
    convertLoop C ident src useSource ensureAll R fuel st S tg = .ok (S', tg') →
    AllWF tg' ∧ Sim tg tg' ∧ (useSource = false → ∀ c, tg'.get? c = tg.get? c) ∧
    ∃ vis : List (Option Nat × Option Nat × XY), (∀ i, i ∈ vis ↔ Visit R st i) ∧
      puts C ident (vis.flatMap (itemPuts C src useSource ensureAll R tg)) S = .ok S' := by
  induction fuel with
  | zero =>
    intro st S S' tg tg' hw h
    cases st with
    | nil =>
      simp only [convertLoop] at h
      cases h
      refine ⟨hw, fun _ => rfl, fun _ _ => rfl, [], ?_, rfl⟩
      intro i
      simp [Visit]
    | cons i st => simp [convertLoop] at h
  | succ fuel ih =>
    intro st S S' tg tg' hw h
    cases st with
    | nil =>
      simp only [convertLoop] at h
      cases h
      refine ⟨hw, fun _ => rfl, fun _ _ => rfl, [], ?_, rfl⟩
      intro i
      simp [Visit]
    | cons i st =>
      obtain ⟨inProc, inLink, xy⟩ := i
      simp only [convertLoop] at h
      cases hc : convertChip C ident src useSource ensureAll (((R.get? xy).getD []).map (·.1)) inProc
          inLink xy S tg with
      | error err => simp only [hc] at h; cases h
      | ok r =>
        obtain ⟨S1, tg1⟩ := r
        simp only [hc] at h
        obtain ⟨h1, h2, h3, h4⟩ := convertChip_ok hw hc
        obtain ⟨k1, k2, k3, vis, k4, k5⟩ := ih h2 h
        refine ⟨k1, fun c => (k2 c).trans (h3 c), fun hu c => (k3 hu c).trans (h4 hu c),
          (inProc, inLink, xy) :: vis, ?_, ?_⟩
        · intro i
          rw [List.mem_cons, k4]
          unfold Visit
          simp only [List.mem_append, List.mem_map, List.mem_reverse, List.mem_cons]
          constructor
          · rintro (rfl | (⟨n, hn, rfl⟩ | h) | ⟨j, ⟨n, hn, rfl⟩ | hj, a, l, c, e1, e2, e3⟩)
            · exact Or.inl (Or.inl rfl)
            · exact Or.inr ⟨_, Or.inl rfl, xy, n.1, n.2, .refl, edge_iff.mpr hn, rfl⟩
            · exact Or.inl (Or.inr h)
            · exact Or.inr ⟨_, Or.inl rfl, a, l, c, leads_head (edge_iff.mpr hn) e1, e2, e3⟩
            · exact Or.inr ⟨j, Or.inr hj, a, l, c, e1, e2, e3⟩
          · rintro ((h | h) | ⟨j, rfl | hj, a, l, c, e1, e2, e3⟩)
            · exact Or.inl h
            · exact Or.inr (Or.inl (Or.inr h))
            · simp only at e1
              rcases leads_cons e1 with rfl | ⟨l', d, f1, f2⟩
              · exact Or.inr (Or.inl (Or.inl ⟨(l, c), edge_iff.mp e2, e3.symm⟩))
              · exact Or.inr (Or.inr ⟨_, Or.inl ⟨(l', d), edge_iff.mp f1, rfl⟩, a, l, c, f2, e2, e3⟩)
            · exact Or.inr (Or.inr ⟨j, Or.inr hj, a, l, c, e1, e2, e3⟩)
        · rw [List.flatMap_cons, puts_append]
          have e1 : puts C ident (itemPuts C src useSource ensureAll R tg (inProc, inLink, xy)) S =
              .ok S1 := h1
          rw [e1]
          simp only
          have e2 : itemPuts C src useSource ensureAll R tg1 =
              itemPuts C src useSource ensureAll R tg := by
            funext i
            exact chipPuts_sim (h3 _) (fun hu => h4 hu _)
          rw [← e2]
          exact k5

/-! ### What is stored -/

theorem addEntry_spec {C : Ctx} {ident : Nat} {S S' : ByPart.State} {e : ByPart.REntry} {xy : XY}
    {v : VId} (h : addEntry C ident S e xy v = .ok S') :
    ByPart.check C.world ((S.get? (xy.1, xy.2)).getD []) v ident = .ok () ∧
    ∃ e', (ByPart.entryOn S v ident xy.1 xy.2 = none ∧ e' = e ∨
        ∃ old, ByPart.entryOn S v ident xy.1 xy.2 = some old ∧ C.merge e old = .ok e') ∧
      ∀ u part x y, ByPart.entryOn S' u part x y =
        if v = u ∧ ident = part ∧ xy.1 = x ∧ xy.2 = y then some e'
        else ByPart.entryOn S u part x y := by
  have h2 := (ByPart.addPath_effect C.world S ⟨e, xy.1, xy.2, v, ident⟩).2
  unfold addEntry at h
  simp only at h2
  generalize ByPart.addPath C.world S e xy.1 xy.2 v ident = r at h h2
  obtain ⟨S1, res⟩ := r
  cases res with
  | error err => simp at h
  | ok u =>
    simp only [Except.ok.injEq] at h
    subst h
    obtain ⟨a1, e', a2, a3⟩ := h2 rfl
    refine ⟨a1, e', a2, ?_⟩
    intro u part x y
    have := a3 u part x y
    simp only at this
    rw [this]
    unfold ByPart.Call.For
    rfl

theorem addEntry_bit {C : Ctx} (hm : Joins C) {ident : Nat} {S S' : ByPart.State} {e : ByPart.REntry}
    {xy : XY} {v : VId} (h : addEntry C ident S e xy v = .ok S') (part : Nat) (u : VId) (c : XY)
    (b : Nat) :
    Bit S' part u c b ↔ Bit S part u c b ∨
      (part = ident ∧ u = v ∧ c = xy ∧ e.route.testBit b = true) := by
  obtain ⟨_, e', h1, h2⟩ := addEntry_spec h
  unfold Bit
  rw [h2]
  by_cases hc : v = u ∧ ident = part ∧ xy.1 = c.1 ∧ xy.2 = c.2
  · rw [if_pos hc]
    obtain ⟨rfl, rfl, hx, hy⟩ := hc
    have hxy : c = xy := Prod.ext hx.symm hy.symm
    subst hxy
    rcases h1 with ⟨hn, rfl⟩ | ⟨old, ho, hme⟩
    · constructor
      · rintro ⟨e1, he, hb⟩
        cases he
        exact Or.inr ⟨rfl, rfl, rfl, hb⟩
      · rintro (⟨e1, he, hb⟩ | ⟨_, _, _, hb⟩)
        · rw [hn] at he; cases he
        · exact ⟨_, rfl, hb⟩
    · have hj := hm _ _ _ hme
      constructor
      · rintro ⟨e1, he, hb⟩
        cases he
        rw [hj, Nat.testBit_or, Bool.or_eq_true] at hb
        rcases hb with hb | hb
        · exact Or.inr ⟨rfl, rfl, rfl, hb⟩
        · exact Or.inl ⟨old, ho, hb⟩
      · rintro (⟨e1, he, hb⟩ | ⟨_, _, _, hb⟩)
        · rw [ho] at he
          cases he
          exact ⟨e', rfl, by rw [hj, Nat.testBit_or, hb, Bool.or_true]⟩
        · exact ⟨e', rfl, by rw [hj, Nat.testBit_or, hb, Bool.true_or]⟩
  · rw [if_neg hc]
    constructor
    · exact Or.inl
    · rintro (h | ⟨rfl, rfl, rfl, _⟩)
      · exact h
      · exact absurd ⟨rfl, rfl, rfl, rfl⟩ hc

theorem addEntry_present {C : Ctx} {ident : Nat} {S S' : ByPart.State} {e : ByPart.REntry}
    {xy : XY} {v : VId} (h : addEntry C ident S e xy v = .ok S') (part : Nat) (u : VId) (c : XY) :
    Present S' part u c ↔ Present S part u c ∨ (part = ident ∧ u = v ∧ c = xy) := by
  obtain ⟨_, e', h1, h2⟩ := addEntry_spec h
  unfold Present
  rw [h2]
  by_cases hc : v = u ∧ ident = part ∧ xy.1 = c.1 ∧ xy.2 = c.2
  · rw [if_pos hc]
    obtain ⟨rfl, rfl, hx, hy⟩ := hc
    have hxy : c = xy := Prod.ext hx.symm hy.symm
    subst hxy
    simp
  · rw [if_neg hc]
    constructor
    · exact Or.inl
    · rintro (h | ⟨rfl, rfl, rfl⟩)
      · exact h
      · exact absurd ⟨rfl, rfl, rfl, rfl⟩ hc

theorem addEntry_unmixed {C : Ctx} (ho : ∀ a m, m ∈ C.machines a ↔ C.appOf m = some a) {ident : Nat}
    {S S' : ByPart.State} {e : ByPart.REntry} {xy : XY} {v : VId} (hS : Unmixed C S)
    (h : addEntry C ident S e xy v = .ok S') : Unmixed C S' := by
  obtain ⟨hc, e', _, h2⟩ := addEntry_spec h
  intro a m part x y ham
  rw [h2, h2]
  by_cases hfa : v = .app a ∧ ident = part ∧ xy.1 = x ∧ xy.2 = y
  · have hfm : ¬ (v = .mach m ∧ ident = part ∧ xy.1 = x ∧ xy.2 = y) := by
      rintro ⟨h, _⟩
      rw [hfa.1] at h; cases h
    rw [if_neg hfm]
    obtain ⟨rfl, rfl, rfl, rfl⟩ := hfa
    unfold ByPart.check at hc
    simp only at hc
    rw [forE_ok] at hc
    have := hc m ((ho a m).2 ham)
    rintro ⟨_, hs⟩
    rw [ByPart.entryOn_eq] at hs
    rw [if_pos hs] at this
    simp at this
  · rw [if_neg hfa]
    by_cases hfm : v = .mach m ∧ ident = part ∧ xy.1 = x ∧ xy.2 = y
    · obtain ⟨rfl, rfl, rfl, rfl⟩ := hfm
      unfold ByPart.check at hc
      have ham' : C.world.appOf m = some a := ham
      simp only [ham'] at hc
      rintro ⟨hs, _⟩
      rw [ByPart.entryOn_eq] at hs
      rw [if_pos hs] at hc
      simp at hc
    · rw [if_neg hfm]
      exact hS a m part x y ham

theorem puts_bit {C : Ctx} (hm : Joins C) {ident : Nat} (ps : List Put) :
    ∀ {S S' : ByPart.State}, puts C ident ps S = .ok S' → ∀ (part : Nat) (u : VId) (c : XY) (b : Nat),
    (Bit S' part u c b ↔ Bit S part u c b ∨
      (part = ident ∧ ∃ p ∈ ps, p.v = u ∧ p.c = c ∧ p.e.route.testBit b = true)) := by
  induction ps with
  | nil =>
    intro S S' h part u c b
    simp only [puts] at h
    cases h
    simp
  | cons p ps ih =>
    intro S S' h part u c b
    simp only [puts] at h
    cases hp : addEntry C ident S p.e p.c p.v with
    | error err => simp only [hp] at h; cases h
    | ok S1 =>
      simp only [hp] at h
      rw [ih h, addEntry_bit hm hp]
      simp only [List.mem_cons]
      constructor
      · rintro ((h | ⟨h1, h2, h3, h4⟩) | ⟨h1, q, h2, h3⟩)
        · exact Or.inl h
        · exact Or.inr ⟨h1, p, Or.inl rfl, h2.symm, h3.symm, h4⟩
        · exact Or.inr ⟨h1, q, Or.inr h2, h3⟩
      · rintro (h | ⟨h1, q, rfl | h2, h3, h4, h5⟩)
        · exact Or.inl (Or.inl h)
        · exact Or.inl (Or.inr ⟨h1, h3.symm, h4.symm, h5⟩)
        · exact Or.inr ⟨h1, q, h2, h3, h4, h5⟩

theorem puts_present {C : Ctx} {ident : Nat} (ps : List Put) :
    ∀ {S S' : ByPart.State}, puts C ident ps S = .ok S' → ∀ (part : Nat) (u : VId) (c : XY),
    (Present S' part u c ↔ Present S part u c ∨
      (part = ident ∧ ∃ p ∈ ps, p.v = u ∧ p.c = c)) := by
  induction ps with
  | nil =>
    intro S S' h part u c
    simp only [puts] at h
    cases h
    simp
  | cons p ps ih =>
    intro S S' h part u c
    simp only [puts] at h
    cases hp : addEntry C ident S p.e p.c p.v with
    | error err => simp only [hp] at h; cases h
    | ok S1 =>
      simp only [hp] at h
      rw [ih h, addEntry_present hp]
      simp only [List.mem_cons]
      constructor
      · rintro ((h | ⟨h1, h2, h3⟩) | ⟨h1, q, h2, h3⟩)
        · exact Or.inl h
        · exact Or.inr ⟨h1, p, Or.inl rfl, h2.symm, h3.symm⟩
        · exact Or.inr ⟨h1, q, Or.inr h2, h3⟩
      · rintro (h | ⟨h1, q, rfl | h2, h3, h4⟩)
        · exact Or.inl (Or.inl h)
        · exact Or.inl (Or.inr ⟨h1, h3.symm, h4.symm⟩)
        · exact Or.inr ⟨h1, q, h2, h3, h4⟩

theorem puts_unmixed {C : Ctx} (ho : ∀ a m, m ∈ C.machines a ↔ C.appOf m = some a) {ident : Nat}
    (ps : List Put) : ∀ {S S' : ByPart.State}, Unmixed C S → puts C ident ps S = .ok S' →
    Unmixed C S' := by
  induction ps with
  | nil =>
    intro S S' hS h
    simp only [puts] at h
    cases h
    exact hS
  | cons p ps ih =>
    intro S S' hS h
    simp only [puts] at h
    cases hp : addEntry C ident S p.e p.c p.v with
    | error err => simp only [hp] at h; cases h
    | ok S1 =>
      simp only [hp] at h
      exact ih (addEntry_unmixed ho hS hp) h

/-! ### One call of `_convert_a_route` -/

/-- Nothing stored is lost. -/
def Grows (S S' : ByPart.State) : Prop := ∀ part v c b, Bit S part v c b → Bit S' part v c b

theorem Grows.refl (S : ByPart.State) : Grows S S := fun _ _ _ _ h => h

theorem Grows.trans {S S1 S2 : ByPart.State} (h1 : Grows S S1) (h2 : Grows S1 S2) : Grows S S2 :=
  fun part v c b h => h2 part v c b (h1 part v c b h)

theorem convert_ok {C : Ctx} {ident fuel : Nat} {src : VId} {useSource ensureAll : Bool} {R : Routes}
    {inProc inLink : Option Nat} {first : XY} {S S' : ByPart.State} {tg tg' : Dict XY Targets.State}
    (hw : AllWF tg)
    (h : convert C fuel ident src useSource ensureAll R inProc inLink first S tg = .ok (S', tg')) :
    Routed R first ∧ AllWF tg' ∧ Sim tg tg' ∧ (useSource = false → ∀ c, tg'.get? c = tg.get? c) ∧
    ∃ vis : List (Option Nat × Option Nat × XY),
      (∀ i, i ∈ vis ↔ Visit R [(inProc, inLink, first)] i) ∧
      puts C ident (vis.flatMap (itemPuts C src useSource ensureAll R tg)) S = .ok S' := by
  unfold convert at h
  split at h
  · rename_i hr
    obtain ⟨h1, h2, h3, h4⟩ := convertLoop_ok fuel hw h
    exact ⟨Option.isSome_iff_exists.mp hr, h1, h2, h3, h4⟩
  · cases h

theorem visit_of_leads {R : Routes} {inProc inLink : Option Nat} {first c : XY}
    (h : Leads R first c) : ∃ i, Visit R [(inProc, inLink, first)] i ∧ i.2.2 = c := by
  cases h with
  | refl => exact ⟨_, Or.inl List.mem_cons_self, rfl⟩
  | step h1 he => exact ⟨_, Or.inr ⟨_, List.mem_cons_self, _, _, _, h1, he, rfl⟩, rfl⟩

theorem leads_of_visit {R : Routes} {inProc inLink : Option Nat} {first : XY}
    {i : Option Nat × Option Nat × XY} (h : Visit R [(inProc, inLink, first)] i) :
    Leads R first i.2.2 := by
  rcases h with h | ⟨j, hj, a, l, c, h1, h2, rfl⟩
  · simp only [List.mem_singleton] at h
    rw [h]; exact .refl
  · simp only [List.mem_singleton] at hj
    rw [hj] at h1
    exact h1.step h2

/-- An entry made for a chip led to is stored. -/
theorem convert_put {C : Ctx} (hm : Joins C) {ident fuel : Nat} {src : VId}
    {useSource ensureAll : Bool} {R : Routes} {inProc inLink : Option Nat} {first : XY}
    {S S' : ByPart.State} {tg tg' : Dict XY Targets.State} (hw : AllWF tg)
    (h : convert C fuel ident src useSource ensureAll R inProc inLink first S tg = .ok (S', tg'))
    {c : XY} (hc : Leads R first c) : ∃ iP iL, ∀ p ∈ itemPuts C src useSource ensureAll R tg (iP, iL, c),
      ∀ b, p.e.route.testBit b = true → Bit S' ident p.v p.c b := by
  obtain ⟨_, _, _, _, vis, h1, h2⟩ := convert_ok hw h
  obtain ⟨⟨iP, iL, c'⟩, hv, rfl⟩ := visit_of_leads (inProc := inProc) (inLink := inLink) hc
  refine ⟨iP, iL, fun p hp b hb => ?_⟩
  rw [puts_bit hm _ h2]
  exact Or.inr ⟨rfl, p, List.mem_flatMap.mpr ⟨_, (h1 _).mpr hv, hp⟩, rfl, rfl, hb⟩

theorem convert_grows {C : Ctx} (hm : Joins C) {ident fuel : Nat} {src : VId}
    {useSource ensureAll : Bool} {R : Routes} {inProc inLink : Option Nat} {first : XY}
    {S S' : ByPart.State} {tg tg' : Dict XY Targets.State} (hw : AllWF tg)
    (h : convert C fuel ident src useSource ensureAll R inProc inLink first S tg = .ok (S', tg')) :
    Grows S S' := by
  obtain ⟨_, _, _, _, vis, h1, h2⟩ := convert_ok hw h
  intro part v c b hb
  rw [puts_bit hm _ h2]
  exact Or.inl hb

theorem convert_unmixed {C : Ctx} (ho : ∀ a m, m ∈ C.machines a ↔ C.appOf m = some a)
    {ident fuel : Nat} {src : VId}
    {useSource ensureAll : Bool} {R : Routes} {inProc inLink : Option Nat} {first : XY}
    {S S' : ByPart.State} {tg tg' : Dict XY Targets.State} (hw : AllWF tg) (hS : Unmixed C S)
    (h : convert C fuel ident src useSource ensureAll R inProc inLink first S tg = .ok (S', tg')) :
    Unmixed C S' := by
  obtain ⟨_, _, _, _, vis, h1, h2⟩ := convert_ok hw h
  exact puts_unmixed ho _ hS h2

theorem mem_itemsOf {t : Targets.State} {v : VId} {L : List Nat × List Nat}
    (h : t.lists v = some L) : (v, L) ∈ itemsOf t := by
  unfold Targets.State.lists at h
  cases ha : t.at_.get? v with
  | none => rw [ha] at h; cases h
  | some a =>
    rw [ha] at h
    simp only at h
    refine List.mem_map.mpr ⟨(v, a), Dict.mem_of_get? ha, ?_⟩
    simp only [h, Option.getD_some]

/-- On a chip without targets the entry of the source has the links to the children. -/
theorem convert_plain {C : Ctx} (hm : Joins C) {ident fuel : Nat} {src : VId}
    {useSource ensureAll : Bool} {R : Routes} {inProc inLink : Option Nat} {first : XY}
    {S S' : ByPart.State} {tg tg' : Dict XY Targets.State} (hw : AllWF tg)
    (h : convert C fuel ident src useSource ensureAll R inProc inLink first S tg = .ok (S', tg'))
    {c d : XY} {l : Nat} (hc : Leads R first c) (he : Edge R c l d) (ht : tg.get? c = none) :
    Bit S' ident src c l := by
  obtain ⟨iP, iL, hp⟩ := convert_put hm hw h hc
  unfold itemPuts chipPuts at hp
  simp only [ht] at hp
  refine hp ⟨_, c, src⟩ List.mem_cons_self l ?_
  simp only [mkEntry]
  rw [routeWord_bit]
  exact Or.inl (List.mem_map.mpr ⟨(l, d), edge_iff.mp he, rfl⟩)

/-- On a chip with targets each source there has the links to the children and its own cores and
links. -/
theorem convert_item {C : Ctx} (hm : Joins C) {ident fuel : Nat} {src : VId}
    {ensureAll : Bool} {R : Routes} {inProc inLink : Option Nat} {first : XY}
    {S S' : ByPart.State} {tg tg' : Dict XY Targets.State} (hw : AllWF tg)
    (h : convert C fuel ident src false ensureAll R inProc inLink first S tg = .ok (S', tg'))
    {c : XY} (hc : Leads R first c) {t : Targets.State} (ht : tg.get? c = some t) {v : VId}
    {L : List Nat × List Nat} (hv : t.lists v = some L) :
    (∀ l d, Edge R c l d → Bit S' ident v c l) ∧ (∀ p ∈ L.1, Bit S' ident v c (6 + p)) ∧
      (∀ l ∈ L.2, Bit S' ident v c l) := by
  obtain ⟨iP, iL, hp⟩ := convert_put hm hw h hc
  unfold itemPuts chipPuts at hp
  simp only [ht] at hp
  have hp := hp ⟨mkEntry (((R.get? c).getD []).map (·.1) ++ L.2) L.1 iP iL, c, v⟩
    (List.mem_append_left _ (List.mem_map.mpr ⟨(v, L), by
      unfold itemsFor
      rw [if_neg (by simp)]
      exact mem_itemsOf hv, rfl⟩))
  simp only [mkEntry, routeWord_bit] at hp
  refine ⟨fun l d he => hp l (Or.inl ?_), fun p hpc => hp _ (Or.inr ⟨p, hpc, rfl⟩),
    fun l hl => hp l (Or.inl (List.mem_append_right _ hl))⟩
  exact List.mem_append_left _ (List.mem_map.mpr ⟨(l, d), edge_iff.mp he, rfl⟩)

/-- With `ensure_all_source`, on a chip whose targets name no application vertex every out-going
vertex has the links to the children. -/
theorem convert_cover {C : Ctx} (hm : Joins C) {ident fuel a : Nat}
    {R : Routes} {inProc inLink : Option Nat} {first : XY}
    {S S' : ByPart.State} {tg tg' : Dict XY Targets.State} (hw : AllWF tg)
    (h : convert C fuel ident (.app a) false true R inProc inLink first S tg = .ok (S', tg'))
    {c d : XY} {l : Nat} (hc : Leads R first c) (he : Edge R c l d) {t : Targets.State}
    (ht : tg.get? c = some t) (hno : ∀ i ∈ itemsOf t, isApp i.1 = false) {ms : List Nat} {m : Nat}
    (ho : C.outgoing a = some ms) (hmem : m ∈ ms) : Bit S' ident (.mach m) c l := by
  obtain ⟨iP, iL, hp⟩ := convert_put hm hw h hc
  unfold itemPuts chipPuts at hp
  simp only [ht] at hp
  have hitems : itemsFor (.app a) false t = itemsOf t := by
    unfold itemsFor
    rw [if_neg (by simp)]
  rw [hitems] at hp
  have hl : l ∈ ((R.get? c).getD []).map (·.1) := List.mem_map.mpr ⟨(l, d), edge_iff.mp he, rfl⟩
  by_cases hin : VId.mach m ∈ (itemsOf t).map (·.1)
  · obtain ⟨i, hi, hiv⟩ := List.mem_map.mp hin
    have hb := hp _ (List.mem_append_left _ (List.mem_map.mpr ⟨i, hi, rfl⟩)) l (by
      simp only [mkEntry, routeWord_bit]
      exact Or.inl (List.mem_append_left _ hl))
    simp only [hiv] at hb
    exact hb
  · refine hp ⟨mkEntry (((R.get? c).getD []).map (·.1)) [] iP iL, c, .mach m⟩
      (List.mem_append_right _ ?_) l ?_
    · unfold coverPuts
      rw [if_pos]
      · simp only [ho, Option.getD_some]
        refine List.mem_map.mpr ⟨m, List.mem_filter.mpr ⟨hmem, ?_⟩, rfl⟩
        simpa using hin
      · rw [Bool.true_and, Bool.not_eq_true', List.any_eq_false]
        intro i hi
        rw [hno i hi]
        simp
    · simp only [mkEntry, routeWord_bit]
      exact Or.inl hl

/-- With `use_source_for_targets`, on a chip with targets the source has the links to the children and
its own cores and links. -/
theorem convert_own {C : Ctx} (hm : Joins C) {ident fuel : Nat} {src : VId}
    {ensureAll : Bool} {R : Routes} {inProc inLink : Option Nat} {first : XY}
    {S S' : ByPart.State} {tg tg' : Dict XY Targets.State} (hw : AllWF tg)
    (h : convert C fuel ident src true ensureAll R inProc inLink first S tg = .ok (S', tg'))
    {c : XY} (hc : Leads R first c) {t : Targets.State} (ht : tg.get? c = some t) :
    (∀ l d, Edge R c l d → Bit S' ident src c l) ∧ (∀ p ∈ (view t src).1, Bit S' ident src c (6 + p)) ∧
      (∀ l ∈ (view t src).2, Bit S' ident src c l) := by
  obtain ⟨iP, iL, hp⟩ := convert_put hm hw h hc
  unfold itemPuts chipPuts at hp
  simp only [ht] at hp
  have hp := hp ⟨mkEntry (((R.get? c).getD []).map (·.1) ++ (view t src).2) (view t src).1 iP iL, c, src⟩
    (List.mem_append_left _ (List.mem_map.mpr ⟨(src, view t src), by
      unfold itemsFor
      rw [if_pos rfl]
      exact List.mem_cons_self, rfl⟩))
  simp only [mkEntry, routeWord_bit] at hp
  refine ⟨fun l d he => hp l (Or.inl ?_), fun p hpc => hp _ (Or.inr ⟨p, hpc, rfl⟩),
    fun l hl => hp l (Or.inl (List.mem_append_right _ hl))⟩
  exact List.mem_append_left _ (List.mem_map.mpr ⟨(l, d), edge_iff.mp he, rfl⟩)

end Pacman.Router
