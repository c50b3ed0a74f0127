import Verif.Proofs.RouterWay
/-
Helper lemmas: the routing of one partition.
-/

namespace Pacman.Router

open Alloc (VId)
open RPath
open Targets (Op Covers Serves family named)

/-! ### Where the sources are -/

theorem mapFold (C : Ctx) (ms : List Nat) : ∀ (M : Mapping) (c : XY),
    (∀ x, x ∈ ((ms.foldl (mapAdd C) M).get? c).getD [] ↔ x ∈ (M.get? c).getD [] ∨
      ∃ m ∈ ms, (C.locate m).1 = c ∧ x = (m, (C.locate m).2)) ∧
    (((ms.foldl (mapAdd C) M).get? c).isSome = true ↔ (M.get? c).isSome = true ∨
      ∃ m ∈ ms, (C.locate m).1 = c) := by
  induction ms with
  | nil => intro M c; simp
  | cons m ms ih =>
    intro M c
    rw [List.foldl_cons]
    obtain ⟨h1, h2⟩ := ih (mapAdd C M m) c
    have hg : (mapAdd C M m).get? c = if (C.locate m).1 = c then
        some ((M.get? (C.locate m).1).getD [] ++ [(m, (C.locate m).2)]) else M.get? c := by
      unfold mapAdd
      rw [Dict.get?_set]
    refine ⟨fun x => ?_, ?_⟩
    · rw [h1, hg]
      simp only [List.mem_cons]
      by_cases hc : (C.locate m).1 = c
      · rw [if_pos hc, Option.getD_some, List.mem_append, List.mem_singleton, hc]
        constructor
        · rintro ((h | h) | ⟨k, h, h'⟩)
          · exact Or.inl h
          · exact Or.inr ⟨m, Or.inl rfl, hc, h⟩
          · exact Or.inr ⟨k, Or.inr h, h'⟩
        · rintro (h | ⟨k, rfl | h, h', h''⟩)
          · exact Or.inl (Or.inl h)
          · exact Or.inl (Or.inr h'')
          · exact Or.inr ⟨k, h, h', h''⟩
      · rw [if_neg hc]
        constructor
        · rintro (h | ⟨k, h, h'⟩)
          · exact Or.inl h
          · exact Or.inr ⟨k, Or.inr h, h'⟩
        · rintro (h | ⟨k, rfl | h, h', h''⟩)
          · exact Or.inl h
          · exact absurd h' hc
          · exact Or.inr ⟨k, h, h', h''⟩
    · rw [h2, hg]
      simp only [List.mem_cons]
      by_cases hc : (C.locate m).1 = c
      · rw [if_pos hc]
        simp only [Option.isSome_some, true_or, true_iff]
        exact Or.inr ⟨m, Or.inl rfl, hc⟩
      · rw [if_neg hc]
        constructor
        · rintro (h | ⟨k, h, h'⟩)
          · exact Or.inl h
          · exact Or.inr ⟨k, Or.inr h, h'⟩
        · rintro (h | ⟨k, rfl | h, h'⟩)
          · exact Or.inl h
          · exact absurd h' hc
          · exact Or.inr ⟨k, h, h'⟩

theorem mapping_ok {C : Ctx} {P : Partition} {M : Mapping} (h : mapping C P = .ok M) :
    (∀ m, Sends C P m → ∃ vs, M.get? (C.locate m).1 = some vs ∧ (m, (C.locate m).2) ∈ vs) ∧
    (∀ c, (M.get? c).isSome = true ↔ ∃ m, Sends C P m ∧ (C.locate m).1 = c) := by
  unfold mapping at h
  cases ho : C.outgoing P.source with
  | none => simp only [ho] at h; cases h
  | some ms =>
    simp only [ho] at h
    cases h
    refine ⟨fun m hm => ?_, fun c => ?_⟩
    · have h1 := (mapFold C (P.internal.map (·.1)) (ms.foldl (mapAdd C) []) (C.locate m).1).1
        (m, (C.locate m).2)
      have h2 : (m, (C.locate m).2) ∈ ((((P.internal.map (·.1)).foldl (mapAdd C)
          (ms.foldl (mapAdd C) [])).get? (C.locate m).1).getD []) := by
        rw [h1]
        rcases hm with ⟨ms', h3, h4⟩ | ⟨p, h3, h4⟩
        · rw [ho] at h3
          cases h3
          exact Or.inl (((mapFold C ms [] (C.locate m).1).1 _).mpr (Or.inr ⟨m, h4, rfl, rfl⟩))
        · exact Or.inr ⟨m, List.mem_map.mpr ⟨p, h3, h4⟩, rfl, rfl⟩
      cases hg : ((P.internal.map (·.1)).foldl (mapAdd C) (ms.foldl (mapAdd C) [])).get?
          (C.locate m).1 with
      | none => rw [hg] at h2; cases h2
      | some vs => rw [hg] at h2; exact ⟨vs, rfl, h2⟩
    · rw [(mapFold C _ _ c).2, (mapFold C _ _ c).2]
      simp only [Dict.get?_nil, Option.isSome_none, Bool.false_eq_true, false_or]
      constructor
      · rintro (⟨m, h1, h2⟩ | ⟨m, h1, h2⟩)
        · exact ⟨m, Or.inl ⟨ms, ho, h1⟩, h2⟩
        · obtain ⟨p, h3, h4⟩ := List.mem_map.mp h1
          exact ⟨m, Or.inr ⟨p, h3, h4⟩, h2⟩
      · rintro ⟨m, ⟨ms', h1, h2⟩ | ⟨p, h1, h2⟩, h3⟩
        · rw [ho] at h1
          cases h1
          exact Or.inl ⟨m, h2, h3⟩
        · exact Or.inr ⟨m, List.mem_map.mpr ⟨p, h1, h2⟩, h3⟩

theorem mem_foldl_addTo {α : Type} (f : α → XY) (l : List α) : ∀ (acc : List XY) (c : XY),
    c ∈ l.foldl (fun l a => addTo l (f a)) acc ↔ c ∈ acc ∨ ∃ a ∈ l, f a = c := by
  induction l with
  | nil => intro acc c; simp
  | cons a l ih =>
    intro acc c
    rw [List.foldl_cons, ih, mem_addTo]
    simp only [List.mem_cons]
    constructor
    · rintro ((h | h) | ⟨b, h, h'⟩)
      · exact Or.inl h
      · exact Or.inr ⟨a, Or.inl rfl, h.symm⟩
      · exact Or.inr ⟨b, Or.inr h, h'⟩
    · rintro (h | ⟨b, rfl | h, h'⟩)
      · exact Or.inl (Or.inl h)
      · exact Or.inl (Or.inr h'.symm)
      · exact Or.inr ⟨b, h, h'⟩

theorem sends_app {C : Ctx} {P : Partition} (hC : Contract C P) {m : Nat} (h : Sends C P m) :
    C.appOf m = some P.source := by
  rcases h with ⟨ms, h1, h2⟩ | ⟨p, h1, rfl⟩
  · exact hC.sends _ _ _ h1 h2
  · exact hC.within p h1

theorem allSource_iff {C : Ctx} {P : Partition} (hC : Contract C P) (ha : AllSend C P) {M : Mapping}
    (h : mapping C P = .ok M) (c : XY) : c ∈ allSource C P ↔ (M.get? c).isSome = true := by
  unfold allSource
  rw [mem_foldl_addTo, (mapping_ok h).2]
  simp only [List.not_mem_nil, false_or]
  constructor
  · rintro ⟨m, h1, h2⟩
    obtain ⟨k, h3, h5⟩ := ha m h1
    exact ⟨k, h3, h5.trans h2⟩
  · rintro ⟨m, h1, h2⟩
    exact ⟨m, (hC.owns _ _).2 (sends_app hC h1), h2⟩

/-! ### The edges -/

theorem owned_env {C : Ctx} {P : Partition} (hC : Contract C P) : Targets.Owned C.env :=
  fun a l m h1 h2 => hC.sends a l m h1 h2

theorem source_family {C : Ctx} {P : Partition} (hC : Contract C P) {e : Nat × List (Nat × List VId)}
    (he : e ∈ P.edges) : ∀ v ∈ e.2, ∀ s ∈ v.2, family C.env s = .app P.source := by
  intro v hv s hs
  rcases hC.sources e he v hv s hs with rfl | ⟨l, m, h1, h2, rfl⟩
  · rfl
  · exact Targets.family_out (owned_env hC) h1 h2

/-- What holds while the edges are routed. -/
structure EInv (C : Ctx) (P : Partition) (M : Mapping) (G : List (XY × Op)) (W : Work) : Prop where
  tinv : TInv C (.app P.source) G W.targets
  winv : WInv C.T (· ∈ W.edges) W.routes

/-- What is done for one edge. -/
def Done (C : Ctx) (P : Partition) (M : Mapping) (G : List (XY × Op)) (W : Work)
    (e : Nat × List (Nat × List VId)) : Prop :=
  ∀ v ∈ e.2, if P.source ≠ e.1 then
      ((C.locate v.1).1, opFor C M v) ∈ G ∧ Routed W.routes (C.locate v.1).1
    else ((C.locate v.1).1, Op.addMachine (C.locate v.1).2.1 (C.locate v.1).2.2 v.2) ∈ G ∧
      (C.locate v.1).1 ∈ W.selfXys ∧ W.selfConnected = true

/-- The state only grows. -/
def WGrows (W W' : Work) : Prop :=
  Extends W.routes W'.routes ∧ (∀ c ∈ W.selfXys, c ∈ W'.selfXys) ∧
    (W.selfConnected = true → W'.selfConnected = true)

theorem Done.mono {C : Ctx} {P : Partition} {M : Mapping} {G G' : List (XY × Op)} {W W' : Work}
    {e : Nat × List (Nat × List VId)} (h : Done C P M G W e) (hG : ∀ g ∈ G, g ∈ G')
    (hW : WGrows W W') : Done C P M G' W' e := by
  intro v hv
  have := h v hv
  split
  · rename_i hs
    rw [if_pos hs] at this
    exact ⟨hG _ this.1, this.2.mono hW.1⟩
  · rename_i hs
    rw [if_neg hs] at this
    exact ⟨hG _ this.1, hW.2.1 _ this.2.1, hW.2.2 this.2.2⟩

theorem mem_chipsOf {C : Ctx} {vs : List (Nat × List VId)} {c : XY} :
    c ∈ chipsOf C vs ↔ ∃ v ∈ vs, (C.locate v.1).1 = c := by
  unfold chipsOf
  rw [mem_foldl_addTo (fun v : Nat × List VId => (C.locate v.1).1)]
  simp

theorem routeEdge_ok {C : Ctx} {P : Partition} (hC : Contract C P) (hn : NoReturns C) {s : XY}
    {all : List XY} {M : Mapping} {G : List (XY × Op)} {W W' : Work}
    {e : Nat × List (Nat × List VId)} (he : e ∈ P.edges)
    (hs : s ∈ C.T.chips) (hsM : (M.get? s).isSome = true)
    (hall : ∀ c, c ∈ all ↔ (M.get? c).isSome = true) (hI : EInv C P M G W)
    (h : routeEdge C P s all M e W = .ok W') :
    ∃ G', EInv C P M (G ++ G') W' ∧ WGrows W W' ∧ Done C P M (G ++ G') W' e := by
  unfold routeEdge at h
  split at h
  · rename_i hne
    cases h1 : askAll C M e.2 W.targets with
    | error err => simp only [h1] at h; cases h
    | ok tg =>
      simp only [h1] at h
      cases h2 : routeTo C s all M (chipsOf C e.2) W.edges W.routes with
      | error err => simp only [h2] at h; cases h
      | ok r =>
        obtain ⟨E, R⟩ := r
        simp only [h2] at h
        cases h
        have k1 := tinv_askAll (owned_env hC) (M := M) e.2 hI.tinv (source_family hC he) h1
        obtain ⟨k2, k3, k4, k5⟩ := routeTo_ok hC hn hs hsM hall (by
          intro t ht
          obtain ⟨v, _, rfl⟩ := mem_chipsOf.mp ht
          exact hC.placed _) hI.winv h2
        refine ⟨allOps C M e.2, ⟨k1, k2⟩, ⟨k3, fun _ h => h, fun h => h⟩, ?_⟩
        intro v hv
        rw [if_pos hne]
        exact ⟨List.mem_append_right _ (List.mem_map.mpr ⟨v, hv, rfl⟩),
          k5 _ (mem_chipsOf.mpr ⟨v, hv, rfl⟩)⟩
  · rename_i heq
    obtain ⟨k1, k2, k3, k4, k5⟩ := tinv_askSelf (owned_env hC) e.2
      (W := { W with selfConnected := true }) hI.tinv (source_family hC he) h
    refine ⟨selfOps C e.2, ⟨k1, ?_⟩, ⟨?_, fun c hc => (k5 c).mpr (Or.inl hc), fun _ => k4⟩, ?_⟩
    · rw [k2, k3]; exact hI.winv
    · rw [k3]; exact Extends.refl _
    · intro v hv
      rw [if_neg heq]
      exact ⟨List.mem_append_right _ (List.mem_map.mpr ⟨v, hv, rfl⟩),
        (k5 _).mpr (Or.inr ⟨v, hv, rfl⟩), k4⟩

theorem WGrows.trans {W W1 W2 : Work} (h1 : WGrows W W1) (h2 : WGrows W1 W2) : WGrows W W2 :=
  ⟨h1.1.trans h2.1, fun c hc => h2.2.1 c (h1.2.1 c hc), fun h => h2.2.2 (h1.2.2 h)⟩

theorem routeEdges_ok {C : Ctx} {P : Partition} (hC : Contract C P) (hn : NoReturns C) {s : XY}
    {all : List XY} {M : Mapping} (hs : s ∈ C.T.chips) (hsM : (M.get? s).isSome = true)
    (hall : ∀ c, c ∈ all ↔ (M.get? c).isSome = true) (es : List (Nat × List (Nat × List VId))) :
    ∀ {G : List (XY × Op)} {W W' : Work}, (∀ e ∈ es, e ∈ P.edges) → EInv C P M G W →
    routeEdges C P s all M es W = .ok W' →
    ∃ G', EInv C P M (G ++ G') W' ∧ WGrows W W' ∧ ∀ e ∈ es, Done C P M (G ++ G') W' e := by
  induction es with
  | nil =>
    intro G W W' _ hI h
    simp only [routeEdges] at h
    cases h
    refine ⟨[], by simpa using hI, ⟨Extends.refl _, fun _ h => h, fun h => h⟩, ?_⟩
    intro e he; cases he
  | cons e es ih =>
    intro G W W' hes hI h
    simp only [routeEdges] at h
    cases h1 : routeEdge C P s all M e W with
    | error err => simp only [h1] at h; cases h
    | ok W1 =>
      simp only [h1] at h
      obtain ⟨G1, a1, a2, a3⟩ := routeEdge_ok hC hn (hes e List.mem_cons_self) hs hsM hall hI h1
      obtain ⟨G2, b1, b2, b3⟩ := ih (fun e' he' => hes e' (List.mem_cons_of_mem _ he')) a1 h
      refine ⟨G1 ++ G2, by rw [← List.append_assoc]; exact b1, a2.trans b2, ?_⟩
      rw [← List.append_assoc]
      intro e' he'
      rcases List.mem_cons.mp he' with rfl | he'
      · exact a3.mono (fun g hg => List.mem_append_left _ hg) b2
      · exact b3 e' he'

theorem routeInternal_ok {C : Ctx} {P : Partition} (hC : Contract C P) {M : Mapping}
    {G : List (XY × Op)} {W W' : Work} (hI : EInv C P M G W) (h : routeInternal C P W = .ok W') :
    ∃ G', EInv C P M (G ++ G') W' ∧ WGrows W W' ∧ ∀ p ∈ P.internal, ∀ t ∈ p.2,
      ((C.locate t).1, Op.addMachine (C.locate t).2.1 (C.locate t).2.2 [.mach p.1]) ∈ G ++ G' ∧
      (C.locate t).1 ∈ W'.selfXys ∧ W'.selfConnected = true := by
  unfold routeInternal at h
  split at h
  · rename_i hnil
    cases h
    refine ⟨[], by simpa using hI, ⟨Extends.refl _, fun _ h => h, fun h => h⟩, ?_⟩
    intro p hp
    rw [hnil] at hp
    cases hp
  · have hfam : ∀ v ∈ internalAsks P, ∀ s ∈ v.2, family C.env s = .app P.source := by
      intro v hv s hs
      unfold internalAsks at hv
      obtain ⟨p, hp, hv⟩ := List.mem_flatMap.mp hv
      obtain ⟨t, _, rfl⟩ := List.mem_map.mp hv
      simp only [List.mem_singleton] at hs
      rw [hs]
      have := hC.within p hp
      have h' : C.env.appOf p.1 = some P.source := this
      simp only [family, h']
    obtain ⟨k1, k2, k3, k4, k5⟩ := tinv_askSelf (owned_env hC) (internalAsks P)
      (W := { W with selfConnected := true }) hI.tinv hfam h
    refine ⟨selfOps C (internalAsks P), ⟨k1, ?_⟩,
      ⟨?_, fun c hc => (k5 c).mpr (Or.inl hc), fun _ => k4⟩, ?_⟩
    · rw [k2, k3]; exact hI.winv
    · rw [k3]; exact Extends.refl _
    · intro p hp t ht
      have hm : (t, [VId.mach p.1]) ∈ internalAsks P :=
        List.mem_flatMap.mpr ⟨p, hp, List.mem_map.mpr ⟨t, ht, rfl⟩⟩
      exact ⟨List.mem_append_right _ (List.mem_map.mpr ⟨_, hm, rfl⟩),
        (k5 _).mpr (Or.inr ⟨_, hm, rfl⟩), k4⟩

/-! ### From the source edges to the targets -/

/-- All `_Targets` hold vertices of one family. -/
def AllFam (C : Ctx) (F : VId) (tg : Dict XY Targets.State) : Prop :=
  ∀ c t, tg.get? c = some t → Targets.FamKeys C.env F t

theorem ensures_ok {e : Targets.Env} {F : VId} (vs : List (Nat × Option Nat × Option Nat))
    (hv : ∀ v ∈ vs, family e (.mach v.1) = F) : ∀ {s : Targets.State}, Targets.WF s →
    Targets.FamKeys e F s →
    Targets.WF (vs.foldl (fun s v => Targets.ensure s (.mach v.1)) s) ∧
      Targets.FamKeys e F (vs.foldl (fun s v => Targets.ensure s (.mach v.1)) s) := by
  induction vs with
  | nil => intro s h1 h2; exact ⟨h1, h2⟩
  | cons v vs ih =>
    intro s h1 h2
    rw [List.foldl_cons]
    refine ih (fun u hu => hv u (List.mem_cons_of_mem _ hu)) (Targets.ensure_wf h1 _) ?_
    intro u hu
    rw [Targets.has_iff] at hu
    rw [Targets.ensure_get] at hu
    split at hu
    · rename_i hc
      rw [← hc.1]
      exact hv v List.mem_cons_self
    · exact h2 u ((Targets.has_iff _ _).mpr hu)

theorem edgeTargets_ok {C : Ctx} {P : Partition} (hC : Contract C P) {M : Mapping}
    (hM : ∀ x ∈ M, ∀ v ∈ x.2, Sends C P v.1) :
    Targets.WF (edgeTargets M) ∧ Targets.FamKeys C.env (.app P.source) (edgeTargets M) := by
  refine ensures_ok _ ?_ (by intro v p h; cases h) (by
    intro v h; simp [Targets.State.empty, Targets.State.has, Dict.get?_nil] at h)
  intro v hv
  obtain ⟨x, hx, hv⟩ := List.mem_flatMap.mp hv
  have h' : C.env.appOf v.1 = some P.source := sends_app hC (hM x hx v hv)
  simp only [family, h']

theorem has_of_item {t : Targets.State} {i : VId × List Nat × List Nat} (h : i ∈ itemsOf t) :
    t.has i.1 = true := by
  unfold itemsOf at h
  obtain ⟨p, hp, rfl⟩ := List.mem_map.mp h
  unfold Targets.State.has
  cases hg : t.at_.get? p.1 with
  | some q => rfl
  | none =>
    rw [Dict.get?_eq_none] at hg
    exact absurd (List.mem_map.mpr ⟨p, hp, rfl⟩) hg

/-- The packets of `m`, a vertex of `a`, are sent to bit `b` on chip `c`. -/
def MBit (S : ByPart.State) (ident a m : Nat) (c : XY) (b : Nat) : Prop :=
  Bit S ident (.mach m) c b ∨ Bit S ident (.app a) c b

theorem MBit.mono {S S' : ByPart.State} {ident a m : Nat} {c : XY} {b : Nat} (hg : Grows S S')
    (h : MBit S ident a m c b) : MBit S' ident a m c b :=
  h.imp (hg _ _ _ _) (hg _ _ _ _)

theorem convert_links {C : Ctx} (hm : Joins C) {ident fuel a : Nat} {R : Routes}
    {inProc inLink : Option Nat} {first : XY} {S S' : ByPart.State} {tg tg' : Dict XY Targets.State}
    (hw : AllWF tg) (hf : AllFam C (.app a) tg)
    (h : convert C fuel ident (.app a) false true R inProc inLink first S tg = .ok (S', tg'))
    {c d : XY} {l m : Nat} (hc : Leads R first c) (he : Edge R c l d) {ms : List Nat}
    (ho : C.outgoing a = some ms) (hmem : m ∈ ms) : MBit S' ident a m c l := by
  cases ht : tg.get? c with
  | none => exact Or.inr (convert_plain hm hw h hc he ht)
  | some t =>
    by_cases hno : ∀ i ∈ itemsOf t, isApp i.1 = false
    · exact Or.inl (convert_cover hm hw h hc he ht hno ho hmem)
    · rw [Classical.not_forall] at hno
      obtain ⟨i, hi⟩ := hno
      rw [Classical.not_imp] at hi
      obtain ⟨hi, hia⟩ := hi
      have hh := has_of_item hi
      have hfam := hf c t ht i.1 hh
      have hia' : i.1 = .app a := by
        cases hv : i.1 with
        | mach k => rw [hv] at hia; exact absurd rfl hia
        | app b => rw [hv] at hfam; exact hfam
      rw [← Targets.lists_isSome (hw c t ht), hia'] at hh
      obtain ⟨L, hL⟩ := Option.isSome_iff_exists.mp hh
      exact Or.inr ((convert_item hm hw h hc ht hL).1 l d he)

theorem toTargets_ok {C : Ctx} {P : Partition} (hC : Contract C P) {fuel : Nat} {M : Mapping}
    (hM : ∀ x ∈ M, ∀ v ∈ x.2, Sends C P v.1) {R : Routes} (es : List XY) :
    ∀ {S S' : ByPart.State} {tg tg' : Dict XY Targets.State}, AllWF tg →
    AllFam C (.app P.source) tg → Unmixed C S → toTargets C P fuel M R es S tg = .ok (S', tg') →
    AllWF tg' ∧ Unmixed C S' ∧ Grows S S' ∧ (∀ c t, tg.get? c = some t → tg'.get? c = some t) ∧
    ∀ e ∈ es, ∀ c, Leads R e c →
      (∀ l d, Edge R c l d → ∀ ms m, C.outgoing P.source = some ms → m ∈ ms →
        MBit S' P.ident P.source m c l) ∧
      (∀ t v L, tg.get? c = some t → t.lists v = some L →
        (∀ p ∈ L.1, Bit S' P.ident v c (6 + p)) ∧ (∀ l ∈ L.2, Bit S' P.ident v c l)) := by
  induction es with
  | nil =>
    intro S S' tg tg' hw hf hu h
    simp only [toTargets] at h
    cases h
    exact ⟨hw, hu, Grows.refl _, fun _ _ h => h, by intro e he; cases he⟩
  | cons e es ih =>
    intro S S' tg tg' hw hf hu h
    simp only [toTargets] at h
    generalize htg1 : (if (tg.get? e).isSome = true then tg else tg.set e (edgeTargets M)) = tg1 at h
    have hsub : ∀ c t, tg.get? c = some t → tg1.get? c = some t := by
      intro c t ht
      rw [← htg1]
      split
      · exact ht
      · rename_i hn
        rw [Dict.get?_set_ne _ _ (by rintro rfl; rw [ht] at hn; exact hn rfl)]
        exact ht
    have hback : ∀ c t, tg1.get? c = some t → tg.get? c = some t ∨ t = edgeTargets M := by
      intro c t ht
      rw [← htg1] at ht
      split at ht
      · exact Or.inl ht
      · rw [Dict.get?_set] at ht
        split at ht
        · cases ht; exact Or.inr rfl
        · exact Or.inl ht
    have hw1 : AllWF tg1 := by
      intro c t ht
      rcases hback c t ht with h | rfl
      · exact hw c t h
      · exact (edgeTargets_ok hC hM).1
    have hf1 : AllFam C (.app P.source) tg1 := by
      intro c t ht
      rcases hback c t ht with h | rfl
      · exact hf c t h
      · exact (edgeTargets_ok hC hM).2
    cases h1 : convert C fuel P.ident (.app P.source) false true R none none e S tg1 with
    | error err => simp only [h1] at h; cases h
    | ok r =>
      obtain ⟨S1, tg2⟩ := r
      simp only [h1] at h
      obtain ⟨_, c1, _, c2, _⟩ := convert_ok hw1 h1
      have c2 := c2 rfl
      have hf2 : AllFam C (.app P.source) tg2 := by
        intro c t ht
        rw [c2] at ht
        exact hf1 c t ht
      have hu1 := convert_unmixed hC.owns hw1 hu h1
      have hg1 := convert_grows hC.merges hw1 h1
      obtain ⟨k1, k2, k3, k4, k5⟩ := ih c1 hf2 hu1 h
      refine ⟨k1, k2, hg1.trans k3, fun c t ht => k4 c t (by rw [c2]; exact hsub c t ht), ?_⟩
      intro e' he' c hc
      rcases List.mem_cons.mp he' with rfl | he'
      · refine ⟨?_, ?_⟩
        · intro l d hd ms m ho hm
          exact (convert_links hC.merges hw1 hf1 h1 hc hd ho hm).mono k3
        · intro t v L ht hv
          obtain ⟨_, d1, d2⟩ := convert_item hC.merges hw1 h1 hc (hsub c t ht) hv
          exact ⟨fun p hp => k3 _ _ _ _ (d1 p hp), fun l hl => k3 _ _ _ _ (d2 l hl)⟩
      · obtain ⟨d1, d2⟩ := k5 e' he' c hc
        exact ⟨d1, fun t v L ht hv => d2 t v L (by rw [c2]; exact hsub c t ht) hv⟩

/-! ### From the sources -/

/-- The conversion made for vertex `m` starting on chip `xy`. -/
def Converted (C : Ctx) (P : Partition) (useSource : Bool) (R : Routes) (xy : XY) (m : Nat)
    (tg : Dict XY Targets.State) (S' : ByPart.State) : Prop :=
  ∃ fuel p l S1 S2 tg1 tg2, convert C fuel P.ident (.mach m) useSource false R p l xy S1 tg1 =
    .ok (S2, tg2) ∧ AllWF tg1 ∧ Sim tg tg1 ∧ Grows S2 S'

theorem fromVertices_ok {C : Ctx} {P : Partition} (hC : Contract C P) {fuel : Nat} {useSource : Bool}
    {R : Routes} {xy : XY} (vs : List (Nat × Option Nat × Option Nat)) :
    ∀ {S S' : ByPart.State} {tg tg' : Dict XY Targets.State}, AllWF tg → Unmixed C S →
    fromVertices C P fuel useSource R xy vs S tg = .ok (S', tg') →
    AllWF tg' ∧ Sim tg tg' ∧ Unmixed C S' ∧ Grows S S' ∧
      ∀ v ∈ vs, Converted C P useSource R xy v.1 tg S' := by
  induction vs with
  | nil =>
    intro S S' tg tg' hw hu h
    simp only [fromVertices] at h
    cases h
    exact ⟨hw, fun _ => rfl, hu, Grows.refl _, by intro v hv; cases hv⟩
  | cons v vs ih =>
    intro S S' tg tg' hw hu h
    obtain ⟨m, p, l⟩ := v
    simp only [fromVertices] at h
    cases h1 : convert C fuel P.ident (.mach m) useSource false R p l xy S tg with
    | error err => simp only [h1] at h; cases h
    | ok r =>
      obtain ⟨S1, tg1⟩ := r
      simp only [h1] at h
      obtain ⟨_, c1, c2, _, _⟩ := convert_ok hw h1
      obtain ⟨k1, k2, k3, k4, k5⟩ := ih c1 (convert_unmixed hC.owns hw hu h1) h
      refine ⟨k1, fun c => (k2 c).trans (c2 c), k3, (convert_grows hC.merges hw h1).trans k4, ?_⟩
      intro v hv
      rcases List.mem_cons.mp hv with rfl | hv
      · exact ⟨fuel, p, l, S, S1, tg, tg1, h1, hw, fun _ => rfl, k4⟩
      · obtain ⟨f, p', l', A, B, t1, t2, e1, e2, e3, e4⟩ := k5 v hv
        exact ⟨f, p', l', A, B, t1, t2, e1, e2, fun c => (e3 c).trans (c2 c), e4⟩

theorem fromSources_ok {C : Ctx} {P : Partition} (hC : Contract C P) {fuel : Nat} {useSource : Bool}
    {all goals : List XY} (M : Mapping) :
    ∀ {S S' : ByPart.State} {tg tg' : Dict XY Targets.State}, AllWF tg → Unmixed C S →
    fromSources C P fuel useSource all goals M S tg = .ok (S', tg') →
    AllWF tg' ∧ Sim tg tg' ∧ Unmixed C S' ∧ Grows S S' ∧
      ∀ x ∈ M, ∃ R, routeToXys C.T x.1 all [] goals = .ok R ∧
        ∀ v ∈ x.2, Converted C P useSource R x.1 v.1 tg S' := by
  induction M with
  | nil =>
    intro S S' tg tg' hw hu h
    simp only [fromSources] at h
    cases h
    exact ⟨hw, fun _ => rfl, hu, Grows.refl _, by intro v hv; cases hv⟩
  | cons x M ih =>
    intro S S' tg tg' hw hu h
    obtain ⟨xy, vs⟩ := x
    simp only [fromSources] at h
    cases h0 : routeToXys C.T xy all [] goals with
    | error err => simp only [h0] at h; cases h
    | ok R =>
      simp only [h0] at h
      cases h1 : fromVertices C P fuel useSource R xy vs S tg with
      | error err => simp only [h1] at h; cases h
      | ok r =>
        obtain ⟨S1, tg1⟩ := r
        simp only [h1] at h
        obtain ⟨a1, a2, a3, a4, a5⟩ := fromVertices_ok hC vs hw hu h1
        obtain ⟨k1, k2, k3, k4, k5⟩ := ih a1 a3 h
        refine ⟨k1, fun c => (k2 c).trans (a2 c), k3, a4.trans k4, ?_⟩
        intro y hy
        rcases List.mem_cons.mp hy with rfl | hy
        · refine ⟨R, h0, fun v hv => ?_⟩
          obtain ⟨f, p', l', A, B, t1, t2, e1, e2, e3, e4⟩ := a5 v hv
          exact ⟨f, p', l', A, B, t1, t2, e1, e2, e3, e4.trans k4⟩
        · obtain ⟨R', hR', hv'⟩ := k5 y hy
          refine ⟨R', hR', fun v hv => ?_⟩
          obtain ⟨f, p', l', A, B, t1, t2, e1, e2, e3, e4⟩ := hv' v hv
          exact ⟨f, p', l', A, B, t1, t2, e1, e2, fun c => (e3 c).trans (a2 c), e4⟩

/-! ### Packets -/

theorem sent_of_mbit {C : Ctx} {S : ByPart.State} {ident a m : Nat} {c : XY} {b : Nat}
    (hu : Unmixed C S) (ham : C.appOf m = some a) (h : MBit S ident a m c b) :
    Sent C S ident m c b := by
  unfold Sent entryFor
  rcases h with ⟨e, h1, h2⟩ | ⟨e, h1, h2⟩
  · rw [h1]
    exact ⟨e, rfl, h2⟩
  · cases hm : ByPart.entryOn S (.mach m) ident c.1 c.2 with
    | some e' =>
      exact absurd ⟨by rw [h1]; rfl, by rw [hm]; rfl⟩ (hu a m ident c.1 c.2 ham)
    | none =>
      simp only [ham]
      exact ⟨e, h1, h2⟩

theorem comes_along {C : Ctx} {S : ByPart.State} {ident m : Nat} {R : Routes} {a b : XY}
    (hw : ∀ x l y, Edge R x l y → Wired C.T x l y)
    (hb : ∀ c, Leads R a c → ∀ l d, Edge R c l d → Sent C S ident m c l)
    (ha : Comes C S ident m a) (h : Leads R a b) : Comes C S ident m b := by
  induction h with
  | refl => exact ha
  | step h1 he ih =>
    obtain ⟨e, h2, h3⟩ := hb _ h1 _ _ he
    obtain ⟨h4, h5, h6, _⟩ := hw _ _ _ he
    rw [← h6]
    exact .hop ih h2 h4 h3 h5

theorem converted_links {C : Ctx} {P : Partition} (hC : Contract C P) {useSource : Bool} {R : Routes}
    {xy : XY} {m : Nat} {tg : Dict XY Targets.State} {S' : ByPart.State}
    (h : Converted C P useSource R xy m tg S') (ht : useSource = true ∨ tg = [])
    {c d : XY} {l : Nat} (hc : Leads R xy c) (he : Edge R c l d) : Bit S' P.ident (.mach m) c l := by
  obtain ⟨fuel, p, k, S1, S2, tg1, tg2, h1, h2, h3, h4⟩ := h
  refine h4 _ _ _ _ ?_
  cases hg : tg1.get? c with
  | none => exact convert_plain hC.merges h2 h1 hc he hg
  | some t =>
    rcases ht with rfl | rfl
    · exact (convert_own hC.merges h2 h1 hc hg).1 l d he
    · have := h3 c
      rw [hg] at this
      simp [Dict.get?_nil] at this

theorem converted_cores {C : Ctx} {P : Partition} (hC : Contract C P) {R : Routes}
    {xy : XY} {m : Nat} {tg : Dict XY Targets.State} {S' : ByPart.State}
    (h : Converted C P true R xy m tg S') {c : XY} (hc : Leads R xy c) {t : Targets.State}
    (ht : tg.get? c = some t) {L : List Nat × List Nat} (hL : t.lists (.mach m) = some L) :
    (∀ p ∈ L.1, Bit S' P.ident (.mach m) c (6 + p)) ∧ (∀ l ∈ L.2, Bit S' P.ident (.mach m) c l) := by
  obtain ⟨fuel, p, k, S1, S2, tg1, tg2, h1, h2, h3, h4⟩ := h
  have h5 := h3 c
  rw [ht] at h5
  cases hg : tg1.get? c with
  | none => rw [hg] at h5; cases h5
  | some t1 =>
    rw [hg] at h5
    have h6 : view t1 = view t := by simpa using h5
    have h7 : view t1 (.mach m) = L := by rw [h6]; unfold view; rw [hL]; rfl
    obtain ⟨_, k1, k2⟩ := convert_own hC.merges h2 h1 hc hg
    rw [h7] at k1 k2
    exact ⟨fun p hp => h4 _ _ _ _ (k1 p hp), fun l hl => h4 _ _ _ _ (k2 l hl)⟩

theorem from_empty {T : Topo} {first : XY} {all goals : List XY} {R : Routes}
    (h : routeToXys T first all [] goals = .ok R) :
    (∀ g ∈ goals, Leads R first g) ∧ ∀ a l b, Edge R a l b → Wired T a l b := by
  refine ⟨fun g hg => ?_, fun a l b he => ?_⟩
  · obtain ⟨_, r, h1 | h1, h2⟩ := C56_connected h hg
    · obtain ⟨ch, h1⟩ := h1; cases h1
    · rw [← h1]; exact h2
  · rcases (C56_working h).2 a l b he with h1 | h1
    · obtain ⟨ch, h1, _⟩ := h1; cases h1
    · exact h1.1

/-- What `makeRoutes` leaves behind. -/
theorem makeRoutes_ok {C : Ctx} {P : Partition} (hC : Contract C P) {fuel : Nat} {all : List XY}
    {M : Mapping} (hM : ∀ x ∈ M, ∀ v ∈ x.2, Sends C P v.1) {W : Work} {S S' : ByPart.State}
    (hw : AllWF W.targets) (hf : AllFam C (.app P.source) W.targets) (hu : Unmixed C S)
    (h : makeRoutes C P fuel all M W S = .ok S') :
    Unmixed C S' ∧ Grows S S' ∧
    (∀ e ∈ W.edges, ∀ c, Leads W.routes e c →
      (∀ l d, Edge W.routes c l d → ∀ ms m, C.outgoing P.source = some ms → m ∈ ms →
        MBit S' P.ident P.source m c l) ∧
      (∀ t v L, W.targets.get? c = some t → t.lists v = some L →
        (∀ p ∈ L.1, Bit S' P.ident v c (6 + p)) ∧ (∀ l ∈ L.2, Bit S' P.ident v c l))) ∧
    (∀ x ∈ M, ∀ v ∈ x.2, ∃ R, (∀ e ∈ W.edges, Leads R x.1 e) ∧
      (W.selfConnected = true → ∀ e ∈ W.selfXys, Leads R x.1 e) ∧
      (∀ a l b, Edge R a l b → Wired C.T a l b) ∧
      (∀ c l d, Leads R x.1 c → Edge R c l d → Bit S' P.ident (.mach v.1) c l) ∧
      (W.selfConnected = true → ∀ c t L, Leads R x.1 c → W.targets.get? c = some t →
        t.lists (.mach v.1) = some L → (∀ p ∈ L.1, Bit S' P.ident (.mach v.1) c (6 + p)) ∧
          (∀ l ∈ L.2, Bit S' P.ident (.mach v.1) c l))) := by
  unfold makeRoutes at h
  cases h1 : toTargets C P fuel M W.routes (C.iter W.edges) S W.targets with
  | error err => simp only [h1] at h; cases h
  | ok r =>
    obtain ⟨S1, tg⟩ := r
    simp only [h1] at h
    obtain ⟨a1, a2, a3, a4, a5⟩ := toTargets_ok hC hM _ hw hf hu h1
    have hE : ∀ e ∈ W.edges, e ∈ C.iter W.edges := fun e he => (hC.iter _).mem_iff.mpr he
    split at h
    · rename_i hself
      cases h2 : fromSources C P fuel true all (W.selfXys.foldl addTo W.edges) M S1 tg with
      | error err => simp only [h2] at h; cases h
      | ok r =>
        obtain ⟨S2, tg2⟩ := r
        simp only [h2] at h
        cases h
        obtain ⟨_, _, b3, b4, b5⟩ := fromSources_ok hC M a1 a2 h2
        refine ⟨b3, a3.trans b4, ?_, ?_⟩
        · intro e he c hc
          obtain ⟨c1, c2⟩ := a5 e (hE e he) c hc
          refine ⟨fun l d hd ms m ho hm => (c1 l d hd ms m ho hm).mono b4, fun t v L ht hv => ?_⟩
          obtain ⟨d1, d2⟩ := c2 t v L ht hv
          exact ⟨fun p hp => b4 _ _ _ _ (d1 p hp), fun l hl => b4 _ _ _ _ (d2 l hl)⟩
        · intro x hx v hv
          obtain ⟨R, hR, hconv⟩ := b5 x hx
          obtain ⟨k1, k2⟩ := from_empty hR
          have hg := mem_foldl_addTo (fun c : XY => c) W.selfXys W.edges
          refine ⟨R, fun e he => k1 e ((hg e).mpr (Or.inl he)),
            fun _ e he => k1 e ((hg e).mpr (Or.inr ⟨e, he, rfl⟩)), k2, ?_, ?_⟩
          · intro c l d hc hd
            exact converted_links hC (hconv v hv) (Or.inl rfl) hc hd
          · intro _ c t L hc ht hL
            exact converted_cores hC (hconv v hv) hc (a4 c t ht) hL
    · rename_i hself
      cases h2 : fromSources C P fuel false all W.edges M S1 [] with
      | error err => simp only [h2] at h; cases h
      | ok r =>
        obtain ⟨S2, tg2⟩ := r
        simp only [h2] at h
        cases h
        obtain ⟨_, _, b3, b4, b5⟩ := fromSources_ok hC M (by intro c t ht; cases ht) a2 h2
        refine ⟨b3, a3.trans b4, ?_, ?_⟩
        · intro e he c hc
          obtain ⟨c1, c2⟩ := a5 e (hE e he) c hc
          refine ⟨fun l d hd ms m ho hm => (c1 l d hd ms m ho hm).mono b4, fun t v L ht hv => ?_⟩
          obtain ⟨d1, d2⟩ := c2 t v L ht hv
          exact ⟨fun p hp => b4 _ _ _ _ (d1 p hp), fun l hl => b4 _ _ _ _ (d2 l hl)⟩
        · intro x hx v hv
          obtain ⟨R, hR, hconv⟩ := b5 x hx
          obtain ⟨k1, k2⟩ := from_empty hR
          refine ⟨R, k1, fun hs => absurd hs hself, k2, ?_, fun hs => absurd hs hself⟩
          intro c l d hc hd
          exact converted_links hC (hconv v hv) (Or.inr rfl) hc hd

theorem covers_outgoing {C : Ctx} {P : Partition} (hC : Contract C P)
    {e : Nat × List (Nat × List VId)} (he : e ∈ P.edges) {v : Nat × List VId} (hv : v ∈ e.2) {s : VId}
    (hs : s ∈ v.2) {m : Nat} (hc : Covers C.env s m) : ∃ ms, C.outgoing P.source = some ms ∧ m ∈ ms := by
  rcases hC.sources e he v hv s hs with rfl | ⟨l, k, h1, h2, rfl⟩
  · rcases hc with h | ⟨a, l, h1, h2, h3⟩
    · cases h
    · cases h1
      exact ⟨l, h2, h3⟩
  · rcases hc with h | ⟨a, l, h1, _⟩
    · cases h
      exact ⟨l, h1, h2⟩
    · cases h1

theorem reqsAt_mem {G : List (XY × Op)} {c : XY} {o : Op} (h : (c, o) ∈ G) {r : Targets.Req}
    (hr : r ∈ named o) : r ∈ reqsAt G c :=
  List.mem_flatMap.mpr ⟨(c, o), List.mem_filter.mpr ⟨h, by simp⟩, hr⟩

theorem mapping_sends {C : Ctx} {P : Partition} {M : Mapping} (h : mapping C P = .ok M) :
    (M.map (·.1)).Nodup ∧ ∀ x ∈ M, ∀ v ∈ x.2, Sends C P v.1 := by
  unfold mapping at h
  cases ho : C.outgoing P.source with
  | none => simp only [ho] at h; cases h
  | some ms =>
    simp only [ho] at h
    cases h
    have hnd : ∀ (l : List Nat) (M : Mapping), (M.map (·.1)).Nodup →
        ((l.foldl (mapAdd C) M).map (·.1)).Nodup := by
      intro l
      induction l with
      | nil => intro M h; exact h
      | cons a l ih =>
        intro M h
        rw [List.foldl_cons]
        exact ih _ (Dict.nodup_set h _ _)
    have hn := hnd (P.internal.map (·.1)) _ (hnd ms [] List.nodup_nil)
    refine ⟨hn, ?_⟩
    intro x hx v hv
    have hg := Dict.get?_of_mem hn (show (x.1, x.2) ∈ _ from hx)
    have h1 := (mapFold C (P.internal.map (·.1)) (ms.foldl (mapAdd C) []) x.1).1 v
    rw [hg] at h1
    rcases h1.mp hv with h2 | ⟨m, h2, _, rfl⟩
    · rcases ((mapFold C ms [] x.1).1 v).mp h2 with h3 | ⟨m, h3, _, rfl⟩
      · simp [Dict.get?_nil] at h3
      · exact Or.inl ⟨ms, ho, h3⟩
    · obtain ⟨p, h3, h4⟩ := List.mem_map.mp h2
      exact Or.inr ⟨p, h3, h4⟩

/-- Every vertex that should get the packets gets them. -/
theorem delivered {C : Ctx} {P : Partition} {fuel : Nat} {S S' : ByPart.State} (hC : Contract C P)
    (hn : NoReturns C) (ha : AllSend C P) (hu : Unmixed C S)
    (h : routePartition C P fuel S = .ok S') {m t : Nat} (hw : Wants C P m t) :
    Delivered C S' P.ident m t := by
  have hsend : Sends C P m := by
    rcases hw with ⟨e, he, v, hv, _, s, hs, hc⟩ | ⟨p, hp, h1, _⟩
    · exact Or.inl (covers_outgoing hC he hv hs hc)
    · exact Or.inr ⟨p, hp, h1⟩
  unfold routePartition at h
  cases hM : mapping C P with
  | error err => simp only [hM] at h; cases h
  | ok M =>
    obtain ⟨vs, hvs, hmv⟩ := (mapping_ok hM).1 m hsend
    cases M with
    | nil => simp [Dict.get?_nil] at hvs
    | cons s0 M' =>
      simp only [hM] at h
      generalize hMM : s0 :: M' = M at *
      have hall := allSource_iff hC ha hM
      have hsM : (Dict.get? M s0.1).isSome = true := by
        rw [← hMM, Dict.get?_cons, if_pos rfl]; rfl
      obtain ⟨k0, hk0, hk0'⟩ := ((mapping_ok hM).2 s0.1).mp hsM
      have hs : s0.1 ∈ C.T.chips := by rw [← hk0']; exact hC.placed k0
      cases h1 : routeEdges C P s0.1 (allSource C P) M P.edges ⟨[], [], [], false, []⟩ with
      | error err => simp only [h1] at h; cases h
      | ok W1 =>
        simp only [h1] at h
        obtain ⟨G1, i1, _, d1⟩ := routeEdges_ok hC hn hs hsM hall P.edges (G := [])
          (fun e he => he) ⟨tinv_empty C _, winv_empty _ _⟩ h1
        cases h2 : routeInternal C P W1 with
        | error err => simp only [h2] at h; cases h
        | ok W =>
          simp only [h2] at h
          obtain ⟨G2, i2, g2, d2⟩ := routeInternal_ok hC i1 h2
          generalize hG : [] ++ G1 ++ G2 = G at *
          have hf : AllFam C (.app P.source) W.targets := by
            intro c t' ht
            have := i2.tinv.fam c
            rw [ht] at this
            exact this
          have d1' : ∀ e ∈ P.edges, Done C P M G W e := by
            intro e he
            refine (d1 e he).mono (fun g hg => ?_) g2
            rw [← hG]
            exact List.mem_append_left _ hg
          obtain ⟨r1, _, r2, r3⟩ := makeRoutes_ok hC (mapping_sends hM).2 (tinv_wf i2.tinv) hf hu h
          obtain ⟨R, q1, q2, q3, q4, q5⟩ := r3 _ (Dict.mem_of_get? hvs) _ hmv
          have happ := sends_app hC hsend
          have hlink : ∀ c, Leads R (C.locate m).1 c → ∀ l d, Edge R c l d →
              Sent C S' P.ident m c l := fun c hc l d hd =>
            sent_of_mbit r1 happ (Or.inl (q4 c l d hc hd))
          have hself : ∀ core link vs s, ((C.locate t).1, Op.addMachine core link vs) ∈ G →
              core = (C.locate t).2.1 → link = (C.locate t).2.2 → s ∈ vs → Covers C.env s m →
              (C.locate t).1 ∈ W.selfXys → W.selfConnected = true → Delivered C S' P.ident m t := by
            intro core link vs s hg hcore hlnk hsv hcov hxy hsc
            have hlead := q2 hsc _ hxy
            obtain ⟨t0, ht0⟩ := Option.isSome_iff_exists.mp (i2.tinv.there _ hg)
            have hhas := i2.tinv.mach _ core link vs hg s hsv m hcov
            rw [ht0] at hhas
            obtain ⟨L, hL, hLc, hLl⟩ := (i2.tinv.inv (C.locate t).1).keep (s, core, link)
              (reqsAt_mem hg (List.mem_map.mpr ⟨s, hsv, rfl⟩)) m hcov
            rw [ht0] at hL
            have hLm : t0.lists (.mach m) = some L := by
              rcases hL with hL | ⟨hL, _⟩
              · exact hL
              · rw [Option.getD_some] at hhas hL
                rw [← Targets.lists_isSome (tinv_wf i2.tinv _ _ ht0), hL] at hhas
                cases hhas
            obtain ⟨z1, z2⟩ := q5 hsc _ t0 L hlead ht0 hLm
            refine ⟨comes_along q3 hlink .start hlead, fun p hp => ?_, fun l hl => ?_⟩
            · exact sent_of_mbit r1 happ (Or.inl (z1 p (hLc p (hcore.trans hp))))
            · exact sent_of_mbit r1 happ (Or.inl (z2 l (hLl l (hlnk.trans hl))))
          rcases hw with ⟨e, he, v, hv, rfl, s, hs', hc⟩ | ⟨p, hp, rfl, ht⟩
          · obtain ⟨ms, ho, hmm⟩ := covers_outgoing hC he hv hs' hc
            have hd := d1' e he v hv
            split at hd
            · obtain ⟨e1, e2⟩ := hd
              obtain ⟨b, hb, hlb⟩ := i2.winv.rooted _ e2
              have hcb : Comes C S' P.ident m b := comes_along q3 hlink .start (q1 b hb)
              obtain ⟨t0, ht0⟩ := Option.isSome_iff_exists.mp (i2.tinv.there _ e1)
              obtain ⟨L, hL, hLc, hLl⟩ := (i2.tinv.inv (C.locate v.1).1).keep
                (s, (C.locate v.1).2.1, (C.locate v.1).2.2)
                (reqsAt_mem e1 (by
                  unfold opFor
                  split
                  · exact List.mem_map.mpr ⟨s, hs', rfl⟩
                  · exact List.mem_map.mpr ⟨s, hs', rfl⟩)) m hc
              rw [ht0, Option.getD_some] at hL
              have hbits : (∀ p ∈ L.1, MBit S' P.ident P.source m (C.locate v.1).1 (6 + p)) ∧
                  (∀ l ∈ L.2, MBit S' P.ident P.source m (C.locate v.1).1 l) := by
                rcases hL with hL | ⟨_, a, l, ha1, ha2, hL⟩
                · obtain ⟨z1, z2⟩ := (r2 b hb _ hlb).2 t0 _ L ht0 hL
                  exact ⟨fun p hp => Or.inl (z1 p hp), fun l hl => Or.inl (z2 l hl)⟩
                · have := hC.sends a l m ha1 ha2
                  rw [happ] at this
                  cases this
                  obtain ⟨z1, z2⟩ := (r2 b hb _ hlb).2 t0 _ L ht0 hL
                  exact ⟨fun p hp => Or.inr (z1 p hp), fun l hl => Or.inr (z2 l hl)⟩
              refine ⟨comes_along i2.winv.wired (fun c hc l d hd => ?_) hcb hlb,
                fun p hp => sent_of_mbit r1 happ (hbits.1 p (hLc p hp)),
                fun l hl => sent_of_mbit r1 happ (hbits.2 l (hLl l hl))⟩
              exact sent_of_mbit r1 happ ((r2 b hb c hc).1 l d hd ms m ho hmm)
            · obtain ⟨e1, e2, e3⟩ := hd
              exact hself _ _ _ s e1 rfl rfl hs' hc e2 e3
          · obtain ⟨e1, e2, e3⟩ := d2 p hp t ht
            exact hself _ _ _ _ e1 rfl rfl List.mem_cons_self (Or.inl rfl) e2 e3

end Pacman.Router
