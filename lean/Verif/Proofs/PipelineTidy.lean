import Verif.Proofs.RouterGraph
/-
Helper lemmas: the routing tables have one table for each chip, entries of chips of the machine only,
and entries of vertices that send only.
-/

namespace Pacman.Router

open Alloc (VId)
open RPath

/-- One table for each chip, one entry for each source, chips of `Q` only, no table without entries. -/
structure Tidy (Q : XY → Prop) (S : ByPart.State) : Prop where
  chips : (Dict.keys S).Nodup
  sources : ∀ x ∈ S, (Dict.keys x.2).Nodup
  within : ∀ x ∈ S, Q x.1
  filled : ∀ x ∈ S, x.2 ≠ []

theorem tidy_nil (Q : XY → Prop) : Tidy Q [] :=
  ⟨List.nodup_nil, (fun x h => by cases h), (fun x h => by cases h), (fun x h => by cases h)⟩

theorem mem_set {κ α : Type} [DecidableEq κ] {d : Dict κ α} {k : κ} {v : α} {x : κ × α}
    (h : x ∈ d.set k v) : x ∈ d ∨ x = (k, v) := by
  induction d with
  | nil =>
    simp only [Dict.set, List.mem_singleton] at h
    exact Or.inr h
  | cons p d ih =>
    simp only [Dict.set] at h
    split at h
    · rcases List.mem_cons.mp h with h | h
      · exact Or.inr h
      · exact Or.inl (List.mem_cons_of_mem _ h)
    · rcases List.mem_cons.mp h with h | h
      · exact Or.inl (h ▸ List.mem_cons_self)
      · rcases ih h with h | h
        · exact Or.inl (List.mem_cons_of_mem _ h)
        · exact Or.inr h

theorem tidy_set {Q : XY → Prop} {S : ByPart.State} (h : Tidy Q S) {c : XY} {es : ByPart.Entries}
    (hc : Q c) (he : (Dict.keys es).Nodup) (hne : es ≠ []) : Tidy Q (S.set c es) := by
  refine ⟨Dict.nodup_set h.chips _ _, fun x hx => ?_, fun x hx => ?_, fun x hx => ?_⟩
  · rcases mem_set hx with hx | rfl
    · exact h.sources x hx
    · exact he
  · rcases mem_set hx with hx | rfl
    · exact h.within x hx
    · exact hc
  · rcases mem_set hx with hx | rfl
    · exact h.filled x hx
    · exact hne

theorem set_set {κ α : Type} [DecidableEq κ] (d : Dict κ α) (k : κ) (v v' : α) :
    (d.set k v).set k v' = d.set k v' := by
  induction d with
  | nil => simp [Dict.set]
  | cons p d ih =>
    simp only [Dict.set]
    split
    · simp [Dict.set]
    · rename_i hne
      simp only [Dict.set, hne, if_false]
      rw [ih]

theorem set_ne_nil {κ α : Type} [DecidableEq κ] (d : Dict κ α) (k : κ) (v : α) : d.set k v ≠ [] := by
  cases d with
  | nil => simp [Dict.set]
  | cons p d =>
    simp only [Dict.set]
    split <;> simp

theorem tidy_add {C : Ctx} {ident : Nat} {Q : XY → Prop} {S S' : ByPart.State} (h : Tidy Q S)
    {e : ByPart.REntry} {c : XY} {v : VId} (hc : Q c) (ha : addEntry C ident S e c v = .ok S') :
    Tidy Q S' := by
  have hes : (Dict.keys ((S.get? c).getD [])).Nodup := by
    cases hg : S.get? c with
    | none => exact List.nodup_nil
    | some es => exact h.sources _ (Dict.mem_of_get? hg)
  unfold addEntry ByPart.addPath at ha
  simp only at ha
  split at ha
  · rename_i S1 hS
    cases ha
    split at hS
    · cases hS
    · split at hS
      · cases hS
      · rename_i es hst
        cases hS
        rw [set_set]
        have hboth : (Dict.keys es).Nodup ∧ es ≠ [] := by
          unfold ByPart.store at hst
          split at hst
          · cases hst; exact ⟨Dict.nodup_set hes _ _, set_ne_nil _ _ _⟩
          · split at hst
            · cases hst; exact ⟨Dict.nodup_set hes _ _, set_ne_nil _ _ _⟩
            · cases hst
        exact tidy_set h hc hboth.1 hboth.2
  · cases ha

theorem tidy_addFor {C : Ctx} {ident : Nat} {Q : XY → Prop} {links : List Nat} {iP iL : Option Nat}
    {c : XY} (hc : Q c) (items : List (VId × List Nat × List Nat)) :
    ∀ {S S' : ByPart.State}, Tidy Q S → addFor C ident links iP iL c items S = .ok S' → Tidy Q S' := by
  induction items with
  | nil => intro S S' h ha; simp only [addFor] at ha; cases ha; exact h
  | cons i items ih =>
    intro S S' h ha
    simp only [addFor] at ha
    split at ha
    · cases ha
    · rename_i S1 h1
      exact ih (tidy_add h hc h1) ha

theorem tidy_addMissing {C : Ctx} {ident : Nat} {Q : XY → Prop} {links : List Nat}
    {iP iL : Option Nat} {c : XY} (hc : Q c) {have_ : List VId} (ms : List Nat) :
    ∀ {S S' : ByPart.State}, Tidy Q S → addMissing C ident links iP iL c have_ ms S = .ok S' →
    Tidy Q S' := by
  induction ms with
  | nil => intro S S' h ha; simp only [addMissing] at ha; cases ha; exact h
  | cons i items ih =>
    intro S S' h ha
    simp only [addMissing] at ha
    split at ha
    · exact ih h ha
    · split at ha
      · cases ha
      · rename_i S1 h1
        exact ih (tidy_add h hc h1) ha

theorem tidy_convertChip {C : Ctx} {ident : Nat} {Q : XY → Prop} {src : VId}
    {useSource ensureAll : Bool} {links : List Nat} {iP iL : Option Nat} {c : XY} (hc : Q c)
    {S : ByPart.State} {tg : Dict XY Targets.State} {r : ByPart.State × Dict XY Targets.State}
    (h : Tidy Q S) (ha : convertChip C ident src useSource ensureAll links iP iL c S tg = .ok r) :
    Tidy Q r.1 := by
  unfold convertChip at ha
  split at ha
  · simp only at ha
    split at ha
    · cases ha
    · rename_i S1 h1
      have k1 := tidy_addFor hc _ h h1
      split at ha
      · cases ha
      · rename_i S2 h2
        cases ha
        unfold cover at h2
        split at h2
        · split at h2
          · cases h2
          · split at h2
            · cases h2
            · exact tidy_addMissing hc _ k1 h2
        · cases h2; exact k1
  · split at ha
    · cases ha
    · rename_i S1 h1
      cases ha
      exact tidy_add h hc h1

theorem tidy_convertLoop {C : Ctx} {ident : Nat} {Q : XY → Prop} {src : VId}
    {useSource ensureAll : Bool} {R : Routes} (hR : ∀ a l b, Edge R a l b → Q b) (fuel : Nat) :
    ∀ {st : List (Option Nat × Option Nat × XY)} {S : ByPart.State} {tg : Dict XY Targets.State}
      {r : ByPart.State × Dict XY Targets.State}, (∀ i ∈ st, Q i.2.2) → Tidy Q S →
    convertLoop C ident src useSource ensureAll R fuel st S tg = .ok r → Tidy Q r.1 := by
  induction fuel with
  | zero =>
    intro st S tg r _ h hr
    cases st with
    | nil => simp only [convertLoop] at hr; cases hr; exact h
    | cons i st => simp only [convertLoop] at hr; cases hr
  | succ fuel ih =>
    intro st S tg r hst h hr
    cases st with
    | nil => simp only [convertLoop] at hr; cases hr; exact h
    | cons i st =>
      obtain ⟨iP, iL, xy⟩ := i
      simp only [convertLoop] at hr
      split at hr
      · cases hr
      · rename_i S1 tg1 hc
        refine ih ?_ (tidy_convertChip (hst _ List.mem_cons_self) h hc) hr
        intro i hi
        rcases List.mem_append.mp hi with hi | hi
        · obtain ⟨n, hn, rfl⟩ := List.mem_map.mp hi
          rw [List.mem_reverse] at hn
          cases hg : R.get? xy with
          | none => rw [hg] at hn; cases hn
          | some ch =>
            rw [hg] at hn
            exact hR xy n.1 n.2 ⟨ch, hg, hn⟩
        · exact hst i (List.mem_cons_of_mem _ hi)

theorem tidy_convert {C : Ctx} {ident : Nat} {Q : XY → Prop} {src : VId} {useSource ensureAll : Bool}
    {R : Routes} (hR : ∀ a l b, Edge R a l b → Q b) {fuel : Nat} {iP iL : Option Nat} {first : XY}
    (hf : Q first) {S : ByPart.State} {tg : Dict XY Targets.State}
    {r : ByPart.State × Dict XY Targets.State} (h : Tidy Q S)
    (hr : convert C fuel ident src useSource ensureAll R iP iL first S tg = .ok r) : Tidy Q r.1 := by
  unfold convert at hr
  split at hr
  · refine tidy_convertLoop hR fuel ?_ h hr
    intro i hi
    rw [List.mem_singleton.mp hi]
    exact hf
  · cases hr

theorem tidy_toTargets {C : Ctx} {P : Partition} {Q : XY → Prop} {fuel : Nat} {M : Mapping}
    {R : Routes} (hR : ∀ a l b, Edge R a l b → Q b) (es : List XY) :
    ∀ {S : ByPart.State} {tg : Dict XY Targets.State} {r : ByPart.State × Dict XY Targets.State},
    (∀ e ∈ es, Q e) → Tidy Q S → toTargets C P fuel M R es S tg = .ok r → Tidy Q r.1 := by
  induction es with
  | nil => intro S tg r _ h hr; simp only [toTargets] at hr; cases hr; exact h
  | cons e es ih =>
    intro S tg r he h hr
    simp only [toTargets] at hr
    split at hr
    · cases hr
    · rename_i S1 tg1 h1
      exact ih (fun e h => he e (List.mem_cons_of_mem _ h))
        (tidy_convert hR (he e List.mem_cons_self) h h1) hr

theorem tidy_fromVertices {C : Ctx} {P : Partition} {Q : XY → Prop} {fuel : Nat} {useSource : Bool}
    {R : Routes} (hR : ∀ a l b, Edge R a l b → Q b) {xy : XY} (hx : Q xy)
    (vs : List (Nat × Option Nat × Option Nat)) :
    ∀ {S : ByPart.State} {tg : Dict XY Targets.State} {r : ByPart.State × Dict XY Targets.State},
    Tidy Q S → fromVertices C P fuel useSource R xy vs S tg = .ok r → Tidy Q r.1 := by
  induction vs with
  | nil => intro S tg r h hr; simp only [fromVertices] at hr; cases hr; exact h
  | cons v vs ih =>
    obtain ⟨m, p, l⟩ := v
    intro S tg r h hr
    simp only [fromVertices] at hr
    split at hr
    · cases hr
    · rename_i S1 tg1 h1
      exact ih (tidy_convert hR hx h h1) hr

theorem tidy_fromSources {C : Ctx} {P : Partition} {fuel : Nat} {useSource : Bool}
    {all goals : List XY} (M : Mapping) :
    ∀ {S : ByPart.State} {tg : Dict XY Targets.State} {r : ByPart.State × Dict XY Targets.State},
    (∀ x ∈ M, x.1 ∈ C.T.chips) → Tidy (· ∈ C.T.chips) S →
    fromSources C P fuel useSource all goals M S tg = .ok r → Tidy (· ∈ C.T.chips) r.1 := by
  induction M with
  | nil => intro S tg r _ h hr; simp only [fromSources] at hr; cases hr; exact h
  | cons x M ih =>
    obtain ⟨xy, vs⟩ := x
    intro S tg r hM h hr
    simp only [fromSources] at hr
    split at hr
    · cases hr
    · rename_i R hR
      split at hr
      · cases hr
      · rename_i S1 tg1 h1
        refine ih (fun x hx => hM x (List.mem_cons_of_mem _ hx)) ?_ hr
        refine tidy_fromVertices ?_ (hM _ List.mem_cons_self) vs h h1
        intro a l b he
        rcases (C56_working hR).2 a l b he with ⟨ch, h0, _⟩ | h0
        · cases h0
        · exact h0.1.2.2.2

/-! ### The source edges -/

theorem edges_overlapLoop {C : Ctx} {Q : XY → Prop} (os : List XY) :
    ∀ {reached E real tgt : List XY} {R : Routes} {r : List XY × List XY × List XY × Routes},
    (∀ o ∈ os, Q o) → (∀ e ∈ E, Q e) → overlapLoop C os reached E real tgt R = .ok r →
    ∀ e ∈ r.1, Q e := by
  induction os with
  | nil =>
    intro reached E real tgt R r _ hE h
    simp only [overlapLoop] at h
    cases h
    exact hE
  | cons o os ih =>
    intro reached E real tgt R r ho hE h
    simp only [overlapLoop] at h
    split at h
    · cases h
    · split at h
      · cases h
      · split at h
        · refine ih (fun o h => ho o (List.mem_cons_of_mem _ h)) ?_ h
          intro e he
          rcases mem_addTo.mp he with he | rfl
          · exact hE e he
          · exact ho _ List.mem_cons_self
        · cases h

theorem edges_routeTo {C : Ctx} (hi : ∀ l, (C.iter l).Perm l) {s : XY} {all targets E : List XY}
    {M : Mapping} {R : Routes} {r : List XY × Routes} (hE : ∀ e ∈ E, (M.get? e).isSome = true)
    (h : routeTo C s all M targets E R = .ok r) : ∀ e ∈ r.1, (M.get? e).isSome = true := by
  unfold routeTo at h
  split at h
  · cases h
  · rename_i t ov h1
    have hov := (chooseTarget_ok hi h1).2
    split at h
    · cases h
    · rename_i R1 pre post h2
      split at h
      · split at h
        · cases h
        · rename_i R2 h3
          cases h
          intro e he
          by_cases hp : (M.get? pre).isSome = true
          · simp only [hp, if_true] at he
            rcases mem_addTo.mp he with he | rfl
            · exact hE e he
            · exact hp
          · simp only [hp] at he
            exact hE e he
      · rename_i os
        split at h
        · cases h
        · rename_i E2 real2 tgt2 R2 h3
          split at h
          · cases h
          · cases h
            exact edges_overlapLoop os (fun o ho => ((hov os rfl).2 o ho).2) hE h3

theorem askSelf_edges {C : Ctx} (vs : List (Nat × List VId)) : ∀ {W W' : Work},
    askSelf C vs W = .ok W' → W'.edges = W.edges := by
  induction vs with
  | nil => intro W W' h; simp only [askSelf] at h; cases h; rfl
  | cons v vs ih =>
    intro W W' h
    simp only [askSelf] at h
    split at h
    · cases h
    · rename_i tg _
      exact ih (W := ⟨W.edges, W.routes, tg, W.selfConnected, addTo W.selfXys (C.locate v.1).1⟩) h

theorem edges_routeEdges {C : Ctx} {P : Partition} (hi : ∀ l, (C.iter l).Perm l) {s : XY}
    {all : List XY} {M : Mapping} (es : List (Nat × List (Nat × List VId))) : ∀ {W W' : Work},
    (∀ e ∈ W.edges, (M.get? e).isSome = true) → routeEdges C P s all M es W = .ok W' →
    ∀ e ∈ W'.edges, (M.get? e).isSome = true := by
  induction es with
  | nil => intro W W' hE h; simp only [routeEdges] at h; cases h; exact hE
  | cons e es ih =>
    intro W W' hE h
    simp only [routeEdges] at h
    split at h
    · cases h
    · rename_i W1 hw
      refine ih ?_ h
      unfold routeEdge at hw
      split at hw
      · split at hw
        · cases hw
        · split at hw
          · cases hw
          · rename_i E R hr
            cases hw
            exact edges_routeTo hi hE hr
      · rw [askSelf_edges _ hw]
        exact hE

theorem edges_routeInternal {C : Ctx} {P : Partition} {W W' : Work}
    (h : routeInternal C P W = .ok W') : W'.edges = W.edges := by
  unfold routeInternal at h
  split at h
  · cases h; rfl
  · exact askSelf_edges (internalAsks P) (W := ⟨W.edges, W.routes, W.targets, true, W.selfXys⟩) h

/-! ### A partition, and a whole graph -/

theorem tidy_partition {C : Ctx} {P : Partition} (hC : Contract C P) (hn : NoReturns C) {fuel : Nat}
    {S S' : ByPart.State} (hS : Tidy (· ∈ C.T.chips) S) (h : routePartition C P fuel S = .ok S') :
    Tidy (· ∈ C.T.chips) S' := by
  unfold routePartition at h
  cases hM : mapping C P with
  | error err => rw [hM] at h; cases h
  | ok M =>
    rw [hM] at h
    cases M with
    | nil => simp only at h; cases h; exact hS
    | cons s M =>
      simp only at h
      have hchip : ∀ c, (Dict.get? (s :: M) c).isSome = true → c ∈ C.T.chips := by
        intro c hc
        obtain ⟨m, _, hm⟩ := ((mapping_ok hM).2 c).mp hc
        rw [← hm]; exact hC.placed m
      have hkeys : ∀ x ∈ s :: M, x.1 ∈ C.T.chips := by
        intro x hx
        refine hchip _ ?_
        rw [Dict.get?_of_mem (mapping_sends hM).1 (show (x.1, x.2) ∈ _ from hx)]
        rfl
      have hK := keeps_wired hC hn
      split at h
      · cases h
      · rename_i W hW
        have k2 := (clean_routeEdges hC hK (hkeys s List.mem_cons_self) P.edges (fun e he => he)
          (by intro c t ht; cases ht) (by rintro a l b ⟨ch, h, _⟩; cases h) hW)
        have e1 := edges_routeEdges hC.iter P.edges (by intro e he; cases he) hW
        split at h
        · cases h
        · rename_i W1 hW1
          have k3 := (clean_routeInternal k2.1 hW1).2
          have e2 := edges_routeInternal hW1
          unfold makeRoutes at h
          split at h
          · cases h
          · rename_i S1 tg1 h1
            have j1 : Tidy (· ∈ C.T.chips) S1 := by
              refine tidy_toTargets ?_ _ ?_ hS h1
              · intro a l b he
                rw [k3] at he
                exact (k2.2 a l b he).2.2.2
              · intro e he
                have he := (hC.iter _).mem_iff.mp he
                rw [e2] at he
                exact hchip e (e1 e he)
            split at h
            · split at h
              · cases h
              · rename_i S2 tg2 h2
                cases h
                exact tidy_fromSources _ hkeys j1 h2
            · split at h
              · cases h
              · rename_i S2 tg2 h2
                cases h
                exact tidy_fromSources _ hkeys j1 h2

theorem routeAll_tidy {N : Net} (hN : NetContract N) (hn : NoReturns N.base) {fuel : Nat}
    (ps : List AppPart) : ∀ {S S' : ByPart.State},
    (∀ q ∈ ps, ∀ js, N.internals q.pre = some js → Routed N q js) →
    routeAll N fuel ps S = .ok S' → Tidy (· ∈ N.base.T.chips) S → Tidy (· ∈ N.base.T.chips) S' := by
  induction ps with
  | nil =>
    intro S S' _ h hu
    simp only [routeAll] at h
    cases h
    exact hu
  | cons q qs ih =>
    intro S S' hr h hu
    simp only [routeAll] at h
    cases hi : N.internals q.pre with
    | none => simp only [hi] at h; cases h
    | some js =>
      simp only [hi] at h
      have hq := hr q List.mem_cons_self js hi
      cases hR : routePartition (N.ctx q.ident) (N.partition q js) fuel S with
      | error err => simp only [hR] at h; cases h
      | ok S1 =>
        simp only [hR] at h
        exact ih (fun q hq => hr q (List.mem_cons_of_mem _ hq)) h
          (tidy_partition (C := N.ctx q.ident) (hq.contract hN) hn hu hR)

theorem routeGraph_tidy {N : Net} (hN : NetContract N) (hn : NoReturns N.base) {fuel : Nat}
    {S : ByPart.State} (h : routeGraph N fuel = .ok S) : Tidy (· ∈ N.base.T.chips) S := by
  obtain ⟨r, hr, hS⟩ := routeGraph_ok h
  exact routeAll_tidy hN hn r (fun q hq js hj => routed_of_mem hr hq hj) hS (tidy_nil _)

/-- A vertex with an entry is the source of a partition that has a sender, or such a sender. -/
theorem routeAll_senders {N : Net} (hN : NetContract N) {fuel : Nat} (ps : List AppPart) :
    ∀ {S S' : ByPart.State}, (∀ q ∈ ps, ∀ js, N.internals q.pre = some js → Routed N q js) →
    routeAll N fuel ps S = .ok S' → ∀ (part : Nat) (v : VId) (c : XY), Present S' part v c →
    Present S part v c ∨ ∃ q ∈ ps, ∃ js, Routed N q js ∧ part = q.ident ∧
      Mine (N.ctx q.ident) (N.partition q js) v ∧ ∃ m, NetSends N q.pre q.ident m := by
  induction ps with
  | nil =>
    intro S S' _ h part v c hp
    simp only [routeAll] at h
    cases h
    exact Or.inl hp
  | cons q qs ih =>
    intro S S' hr h part v c hp
    simp only [routeAll] at h
    cases hi : N.internals q.pre with
    | none => simp only [hi] at h; cases h
    | some js =>
      simp only [hi] at h
      have hq := hr q List.mem_cons_self js hi
      cases hR : routePartition (N.ctx q.ident) (N.partition q js) fuel S with
      | error err => simp only [hR] at h; cases h
      | ok S1 =>
        simp only [hR] at h
        rcases ih (fun q hq => hr q (List.mem_cons_of_mem _ hq)) h part v c hp with h1 | h1
        · by_cases hm : part = q.ident ∧ Mine (N.ctx q.ident) (N.partition q js) v
          · unfold routePartition at hR
            cases hM : mapping (N.ctx q.ident) (N.partition q js) with
            | error err => rw [hM] at hR; cases hR
            | ok M =>
              rw [hM] at hR
              cases M with
              | nil => simp only at hR; cases hR; exact Or.inl h1
              | cons s M =>
                obtain ⟨m, hm', _⟩ := ((mapping_ok hM).2 s.1).mp (by simp [Dict.get?_cons])
                exact Or.inr ⟨q, List.mem_cons_self, js, hq, hm.1, hm.2, m, (sends_iff hq m).mp hm'⟩
          · left
            have := (only_partition (hq.contract hN) (keeps_low (hq.contract hN)) hR).frame part v c hm
            unfold Present at h1 ⊢
            rwa [this] at h1
        · obtain ⟨q', h1, h2⟩ := h1
          exact Or.inr ⟨q', List.mem_cons_of_mem _ h1, h2⟩

theorem routeGraph_senders {N : Net} (hN : NetContract N) {fuel : Nat} {S : ByPart.State}
    (h : routeGraph N fuel = .ok S) {part : Nat} {v : VId} {c : XY} (hp : Present S part v c) :
    ∃ a, Leaves N a part ∧ (∃ m, NetSends N a part m) ∧
      (v = .app a ∨ ∃ m, v = .mach m ∧ NetSends N a part m) := by
  obtain ⟨r, hr, hS⟩ := routeGraph_ok h
  rcases routeAll_senders hN r (fun q hq js hj => routed_of_mem hr hq hj) hS part v c hp with h1 | h1
  · cases h1
  · obtain ⟨q, _, js, h2, rfl, h4, h5⟩ := h1
    refine ⟨q.pre, h2.leaves, h5, ?_⟩
    rcases h4 with rfl | ⟨m, rfl, hm⟩
    · exact Or.inl rfl
    · exact Or.inr ⟨m, rfl, (sends_iff h2 m).mp hm⟩

end Pacman.Router
