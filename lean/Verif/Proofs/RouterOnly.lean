import Verif.Proofs.RouterExact
/-
Helper lemmas: the routing of a partition sends packets only where they were asked for.
-/

namespace Pacman.Targets

open Alloc (VId)

/-- Vertices in `V` only, cores in `QC` and links in `QL` only. -/
structure Clean (V : VId → Prop) (QC QL : Nat → Prop) (s : State) : Prop where
  keyed : Keyed s
  wf : WF s
  mine : ∀ v p, s.at_.get? v = some p → V v
  heap : ∀ L ∈ s.heap, (∀ p ∈ L.1, QC p) ∧ (∀ l ∈ L.2, QL l)

variable {V : VId → Prop} {QC QL : Nat → Prop}

theorem clean_empty : Clean V QC QL State.empty :=
  ⟨keyed_empty, (fun v p h => by cases h), (fun v p h => by cases h), (fun L h => by cases h)⟩

theorem clean_ensure {s : State} (h : Clean V QC QL s) {v : VId} (hv : V v) :
    Clean V QC QL (ensure s v) := by
  refine ⟨keyed_ensure h.keyed v, ensure_wf h.wf v, fun u p hu => ?_, ?_⟩
  · rw [ensure_get] at hu
    split at hu
    · rename_i hc
      exact hc.1 ▸ hv
    · exact h.mine u p hu
  · unfold ensure
    split
    · exact h.heap
    · intro L hL
      rcases List.mem_append.mp hL with hL | hL
      · exact h.heap L hL
      · simp only [List.mem_singleton] at hL
        subst hL
        exact ⟨(fun p hp => by cases hp), (fun p hp => by cases hp)⟩

theorem clean_add {s : State} (h : Clean V QC QL s) {v : VId} (hv : V v) {core link : Option Nat}
    (hc : ∀ p, core = some p → QC p) (hl : ∀ l, link = some l → QL l) :
    Clean V QC QL (addSource s v core link) := by
  have he := clean_ensure h hv
  refine ⟨keyed_add h.keyed _ _ _, add_wf h.wf _ _ _, fun u p hu => ?_, ?_⟩
  · rw [add_get] at hu
    exact he.mine u p hu
  · unfold addSource
    simp only
    split
    · exact he.heap
    · rename_i a ha
      intro L hL
      simp only at hL
      obtain ⟨i, hi, hL⟩ := List.mem_iff_getElem.mp hL
      rw [List.length_modify] at hi
      rw [List.getElem_modify] at hL
      have h0 := he.heap _ (List.getElem_mem hi)
      split at hL
      · rw [← hL]
        unfold push
        refine ⟨fun p hp => ?_, fun l hp => ?_⟩
        · rcases List.mem_append.mp hp with hp | hp
          · exact h0.1 p hp
          · exact hc p (Option.mem_toList.mp hp)
        · rcases List.mem_append.mp hp with hp | hp
          · exact h0.2 l hp
          · exact hl l (Option.mem_toList.mp hp)
      · rw [← hL]; exact h0

theorem clean_addAll {core link : Option Nat} (hc : ∀ p, core = some p → QC p)
    (hl : ∀ l, link = some l → QL l) (ms : List Nat) : ∀ {s : State}, Clean V QC QL s →
    (∀ m ∈ ms, V (.mach m)) → Clean V QC QL (addAll s core link ms) := by
  induction ms with
  | nil => intro s h _; exact h
  | cons m ms ih =>
    intro s h hm
    exact ih (clean_add h (hm m List.mem_cons_self) hc hl) (fun k hk => hm k (List.mem_cons_of_mem _ hk))

/-- The vertices an application vertex sends with belong too. -/
def Closed (e : Env) (V : VId → Prop) : Prop :=
  ∀ a l m, V (.app a) → e.outgoing a = some l → m ∈ l → V (.mach m)

theorem clean_addM {e : Env} (hV : Closed e V) {s s' : State} {a : Nat} {core link : Option Nat}
    (h : Clean V QC QL s) (ha : V (.app a)) (hc : ∀ p, core = some p → QC p)
    (hl : ∀ l, link = some l → QL l) (hr : addM e s a core link = .ok s') : Clean V QC QL s' := by
  unfold addM at hr
  cases ho : e.outgoing a with
  | none => simp only [ho] at hr; cases hr
  | some l =>
    simp only [ho] at hr
    cases hr
    exact clean_addAll hc hl _ h (fun m hm => hV a l m ha ho hm)

theorem clean_replaceIf {e : Env} (hV : Closed e V) {s s' : State} {a : Option Nat}
    (h : Clean V QC QL s) (hr : replaceIf e s a = .ok s') : Clean V QC QL s' := by
  have hk := keyed_replaceIf h.keyed hr
  unfold replaceIf at hr
  cases a with
  | none => cases hr; exact h
  | some a =>
    simp only at hr
    split at hr
    · obtain ⟨p, l, h1, h2, h3, h4⟩ := replace_cases hr
      refine ⟨hk, fun u q hu => ?_, fun u q hu => ?_, by rw [h3]; exact h.heap⟩
      · rw [h4] at hu
        rw [h3]
        split at hu
        · cases hu
          exact h.wf _ _ h1
        · split at hu
          · cases hu
          · exact h.wf _ _ hu
      · rw [h4] at hu
        split at hu
        · rename_i hm
          obtain ⟨m, hm, rfl⟩ := hm
          exact hV a l m (h.mine _ _ h1) h2 hm
        · split at hu
          · cases hu
          · exact h.mine _ _ hu
    · cases hr; exact h

theorem clean_addOne {e : Env} (hV : Closed e V) {s s' : State} {core link : Option Nat} {v : VId}
    (h : Clean V QC QL s) (hv : V v) (hc : ∀ p, core = some p → QC p)
    (hl : ∀ l, link = some l → QL l) (hr : addOne e s core link v = .ok s') : Clean V QC QL s' := by
  unfold addOne at hr
  split at hr
  · split at hr
    · exact clean_addM hV h hv hc hl hr
    · cases hr; exact clean_add h hv hc hl
  · split at hr
    · cases hr
    · rename_i s1 h1
      cases hr
      exact clean_add (clean_replaceIf hV h h1) hv hc hl

theorem clean_addOneMachine {e : Env} (hV : Closed e V) {s s' : State} {core link : Option Nat}
    {v : VId} (h : Clean V QC QL s) (hv : V v) (hc : ∀ p, core = some p → QC p)
    (hl : ∀ l, link = some l → QL l) (hr : addOneMachine e s core link v = .ok s') :
    Clean V QC QL s' := by
  unfold addOneMachine at hr
  split at hr
  · split at hr
    · cases hr
    · rename_i s1 h1
      exact clean_addM hV (clean_replaceIf hV h h1) hv hc hl hr
  · split at hr
    · cases hr
    · rename_i s1 h1
      cases hr
      exact clean_add (clean_replaceIf hV h h1) hv hc hl

/-- The core and link a call names. -/
def Op.core : Op → Option Nat
  | .add core _ _ => core
  | .addMachine core _ _ => core

def Op.link : Op → Option Nat
  | .add _ link _ => link
  | .addMachine _ link _ => link

theorem clean_step {e : Env} (hV : Closed e V) {s s' : State} {o : Op} (h : Clean V QC QL s)
    (hv : ∀ v ∈ o.vertices, V v) (hc : ∀ p, o.core = some p → QC p)
    (hl : ∀ l, o.link = some l → QL l) (hr : step e s o = .ok s') : Clean V QC QL s' := by
  cases o with
  | add core link vs =>
    simp only [Op.vertices, Op.core, Op.link, step] at hv hc hl hr
    induction vs generalizing s with
    | nil => simp only [addSources] at hr; cases hr; exact h
    | cons v vs ih =>
      simp only [addSources] at hr
      split at hr
      · cases hr
      · rename_i s1 h1
        exact ih (clean_addOne hV h (hv v List.mem_cons_self) hc hl h1)
          (fun u hu => hv u (List.mem_cons_of_mem _ hu)) hr
  | addMachine core link vs =>
    simp only [Op.vertices, Op.core, Op.link, step] at hv hc hl hr
    induction vs generalizing s with
    | nil => simp only [addMachineSources] at hr; cases hr; exact h
    | cons v vs ih =>
      simp only [addMachineSources] at hr
      split at hr
      · cases hr
      · rename_i s1 h1
        exact ih (clean_addOneMachine hV h (hv v List.mem_cons_self) hc hl h1)
          (fun u hu => hv u (List.mem_cons_of_mem _ hu)) hr

theorem clean_lists {s : State} (h : Clean V QC QL s) {v : VId} {L : List Nat × List Nat}
    (hL : s.lists v = some L) : V v ∧ (∀ p ∈ L.1, QC p) ∧ (∀ l ∈ L.2, QL l) := by
  unfold State.lists at hL
  split at hL
  · cases hL
  · rename_i a ha
    exact ⟨h.mine _ _ ha, h.heap L (List.mem_of_getElem? hL)⟩

end Pacman.Targets

namespace Pacman.RPath

theorem loopsLoop_sub (fuel : Nat) : ∀ {nodes : List Node} {i : Nat} {seen : Dict XY Nat}
    {r : List Node}, loopsLoop fuel nodes i seen = .ok r → ∀ n ∈ r, n ∈ nodes := by
  induction fuel with
  | zero =>
    intro nodes i seen r h n hn
    unfold loopsLoop at h
    split at h
    · cases h; exact hn
    · cases h
  | succ fuel ih =>
    intro nodes i seen r h n hn
    unfold loopsLoop at h
    split at h
    · cases h; exact hn
    · simp only at h
      split at h
      · have := ih h n hn
        rcases List.mem_append.mp this with h1 | h1
        · exact List.mem_of_mem_take h1
        · exact List.mem_of_mem_drop h1
      · exact ih h n hn

theorem walk_links {T : Topo} {s e : XY} {ns : List Node} (h : Walk T s ns e) : ∀ n ∈ ns, n.1 < 6 := by
  induction h with
  | nil => intro n hn; cases hn
  | cons hl _ _ _ ih =>
    intro n hn
    rcases List.mem_cons.mp hn with rfl | hn
    · exact hl
    · exact ih n hn

theorem withoutErrors_links {T : Topo} {s e : XY} {ns r : List Node} (hc : Chain T s ns e)
    (h : withoutErrors T s ns = .ok r) : ∀ n ∈ r, n.1 < 6 := by
  unfold withoutErrors at h
  rcases C68_repaired hc with ⟨r1, h1, h2⟩ | ⟨h1, _⟩
  · rw [h1] at h
    intro n hn
    exact walk_links h2 n (loopsLoop_sub _ h n hn)
  · rw [h1] at h; cases h

theorem trimPre_sub (all : List XY) (R : Routes) (s : XY) (ns : List Node) :
    ∀ n ∈ (trimPre all R s ns).1, n ∈ ns := by
  induction ns with
  | nil => intro n hn; cases hn
  | cons m ns ih =>
    intro n hn
    unfold trimPre at hn
    split at hn
    · exact List.mem_cons_of_mem _ (ih n hn)
    · split at hn
      · exact List.mem_cons_of_mem _ hn
      · exact hn

theorem trimPost_sub (targets : List XY) (dest : XY) (ns : List Node) :
    ∀ n ∈ (trimPost targets dest ns).1, n ∈ ns := by
  induction ns with
  | nil => intro n hn; cases hn
  | cons m ns ih =>
    intro n hn
    unfold trimPost at hn
    split at hn
    · simp only [List.mem_singleton] at hn
      rw [hn]; exact List.mem_cons_self
    · rcases List.mem_cons.mp hn with rfl | hn
      · exact List.mem_cons_self
      · exact List.mem_cons_of_mem _ (ih n hn)

/-- All links are links. -/
def Low (R : Routes) : Prop := ∀ a l b, Edge R a l b → l < 6

theorem low_step {R : Routes} {c d : XY} {l : Nat} (hR : Low R) (hl : l < 6) :
    Low (addChild (R.set d []) c (l, d)) := by
  rintro a k b ⟨ch, h1, h2⟩
  unfold addChild at h1
  rw [Dict.get?_set] at h1
  split at h1
  · cases h1
    rcases List.mem_append.mp h2 with h2 | h2
    · cases hg : (R.set d []).get? c with
      | none => rw [hg] at h2; cases h2
      | some ch =>
        rw [hg] at h2
        rw [Dict.get?_set] at hg
        split at hg
        · cases hg; cases h2
        · exact hR c k b ⟨ch, hg, h2⟩
    · simp only [List.mem_singleton, Prod.mk.injEq] at h2
      rw [h2.1]; exact hl
  · rw [Dict.get?_set] at h1
    split at h1
    · cases h1; cases h2
    · exact hR a k b ⟨ch, h1, h2⟩

theorem low_addNodes (source : XY) (ns : List Node) : ∀ {R R' : Routes} {c : XY}, Low R →
    (∀ n ∈ ns, n.1 < 6) → addNodes source R c ns = .ok R' → Low R' := by
  induction ns with
  | nil =>
    intro R R' c hR _ h
    simp only [addNodes] at h
    cases h
    exact hR
  | cons n ns ih =>
    obtain ⟨l, d⟩ := n
    intro R R' c hR hn h
    simp only [addNodes] at h
    split at h
    · split at h <;> cases h
    · exact ih (low_step hR (hn _ List.mem_cons_self)) (fun n hm => hn n (List.mem_cons_of_mem _ hm)) h

theorem low_add {R : Routes} {c : XY} (hR : Low R) :
    Low (if (R.get? c).isSome then R else R.set c []) := by
  split
  · exact hR
  · rintro a l b ⟨ch, h1, h2⟩
    rw [Dict.get?_set] at h1
    split at h1
    · cases h1; cases h2
    · exact hR a l b ⟨ch, h1, h2⟩

theorem low_preToPost {T : Topo} {source dest e : XY} {R R' : Routes} {vec : Int × Int × Int}
    {all targets : List XY} {pre post : XY} (hR : Low R)
    (hc : Chain T source (longestFirst T vec.1 vec.2.1 vec.2.2 source) e)
    (h : preToPost T source dest R vec all targets = .ok (R', pre, post)) : Low R' := by
  unfold preToPost at h
  cases hf : withoutErrors T source (longestFirst T vec.1 vec.2.1 vec.2.2 source) with
  | error e => rw [hf] at h; cases h
  | ok fixed =>
    rw [hf] at h
    simp only at h
    have hlow := withoutErrors_links hc hf
    have h1 := low_add (c := (trimPre all R source fixed).2) hR
    generalize (if (R.get? (trimPre all R source fixed).2).isSome then R
      else R.set (trimPre all R source fixed).2 []) = R1 at h h1
    cases ha : addNodes source R1 (trimPre all R source fixed).2
        (trimPost targets dest (trimPre all R source fixed).1).1 with
    | error e => rw [ha] at h; cases h
    | ok R2 =>
      rw [ha] at h
      simp only [Except.ok.injEq, Prod.mk.injEq] at h
      rw [← h.1]
      exact low_addNodes _ _ h1 (fun n hn => hlow n (trimPre_sub _ _ _ _ n (trimPost_sub _ _ _ n hn))) ha

end Pacman.RPath

namespace Pacman.Router

open Alloc (VId)
open RPath
open Targets (Op Clean)

/-- What is known of the edges of the routes: kept by both ways to add to them. -/
structure Keeps (C : Ctx) (K : XY → Nat → XY → Prop) : Prop where
  wired : ∀ a l b, Wired C.T a l b → K a l b
  joined : ∀ {s t : XY} {R R' : Routes} {all targets : List XY} {pre post : XY}, s ∈ C.T.chips →
    t ∈ C.T.chips → (∀ a l b, Edge R a l b → K a l b) →
    preToPost C.T s t R (C.vector s t) all targets = .ok (R', pre, post) →
    ∀ a l b, Edge R' a l b → K a l b

theorem keeps_low {C : Ctx} {P : Partition} (hC : Contract C P) : Keeps C (fun _ l _ => l < 6) :=
  ⟨fun _ _ _ h => h.1, fun hs ht hR h => low_preToPost hR (hC.vector _ _ hs ht) h⟩

theorem keeps_wired {C : Ctx} {P : Partition} (hC : Contract C P) (hn : NoReturns C) :
    Keeps C (Wired C.T) := by
  refine ⟨fun _ _ _ h => h, fun {s t R R' all targets pre post} hs ht hR h => ?_⟩
  obtain ⟨fixed, hf⟩ := preToPost_fixed h
  obtain ⟨hw, hnd⟩ := good_way hC hn hs ht hf
  obtain ⟨R1, pre1, post1, ns, h1, h2, h3, h4, h5, h6, h7, h8, h9, h10⟩ :=
    preToPost_spec (R := R) (allSource := all) (targets := targets) hf hw hnd
  rw [h] at h1
  cases h1
  intro a l b he
  rcases (h9 a l b).1 he with h0 | h0
  · exact hR a l b h0
  · exact (hops_wired h2 a l b h0).1

theorem keeps_routeToXys {C : Ctx} {K : XY → Nat → XY → Prop} (hK : Keeps C K) {first : XY}
    {all targets : List XY} {R R' : Routes} (hR : ∀ a l b, Edge R a l b → K a l b)
    (h : routeToXys C.T first all R targets = .ok R') : ∀ a l b, Edge R' a l b → K a l b := by
  intro a l b he
  rcases (C56_working h).2 a l b he with h0 | h0
  · exact hR a l b h0
  · exact hK.wired a l b h0.1

theorem keeps_overlapLoop {C : Ctx} {K : XY → Nat → XY → Prop} (hK : Keeps C K) (os : List XY) :
    ∀ {reached E real tgt : List XY} {R : Routes} {r : List XY × List XY × List XY × Routes},
    (∀ a l b, Edge R a l b → K a l b) → overlapLoop C os reached E real tgt R = .ok r →
    ∀ a l b, Edge r.2.2.2 a l b → K a l b := by
  induction os with
  | nil =>
    intro reached E real tgt R r hR h
    simp only [overlapLoop] at h
    cases h
    exact hR
  | cons o os ih =>
    intro reached E real tgt R r hR h
    simp only [overlapLoop] at h
    split at h
    · cases h
    · split at h
      · cases h
      · rename_i R1 h1
        split at h
        · exact ih (keeps_routeToXys hK hR h1) h
        · cases h

theorem keeps_routeTo {C : Ctx} {P : Partition} (hC : Contract C P) {K : XY → Nat → XY → Prop}
    (hK : Keeps C K) {s : XY} {all targets E : List XY} {M : Mapping} {R : Routes}
    {r : List XY × Routes} (hs : s ∈ C.T.chips) (htc : ∀ t ∈ targets, t ∈ C.T.chips)
    (hR : ∀ a l b, Edge R a l b → K a l b) (h : routeTo C s all M targets E R = .ok r) :
    ∀ a l b, Edge r.2 a l b → K a l b := by
  unfold routeTo at h
  cases h1 : chooseTarget C targets R M with
  | error err => simp only [h1] at h; cases h
  | ok q =>
    obtain ⟨t, ov⟩ := q
    simp only [h1] at h
    have ht := (chooseTarget_ok hC.iter h1).1
    cases h2 : preToPost C.T s t R (C.vector s t) all targets with
    | error err => simp only [h2] at h; cases h
    | ok q =>
      obtain ⟨R1, pre, post⟩ := q
      simp only [h2] at h
      have hR1 := hK.joined hs (htc t ht) hR h2
      cases ov with
      | none =>
        simp only at h
        cases h3 : routeToXys C.T post targets R1 targets with
        | error err => simp only [h3] at h; cases h
        | ok R2 =>
          simp only [h3] at h
          cases h
          exact keeps_routeToXys hK hR1 h3
      | some os =>
        simp only at h
        cases h3 : overlapLoop C os os E targets targets R1 with
        | error err => simp only [h3] at h; cases h
        | ok q =>
          have hR2 := keeps_overlapLoop hK os hR1 h3
          obtain ⟨E2, real2, tgt2, R2⟩ := q
          simp only [h3] at h
          cases h4 : routeToXys C.T post tgt2 R2 real2 with
          | error err => simp only [h4] at h; cases h
          | ok R3 =>
            simp only [h4] at h
            cases h
            exact keeps_routeToXys hK hR2 h4

/-! ### The targets -/

/-- `core` of a target on chip `c`. -/
def HasCore (C : Ctx) (P : Partition) (c : XY) (p : Nat) : Prop :=
  ∃ t, Asked P t ∧ (C.locate t).1 = c ∧ (C.locate t).2.1 = some p

def HasLink (C : Ctx) (P : Partition) (c : XY) (l : Nat) : Prop :=
  ∃ t, Asked P t ∧ (C.locate t).1 = c ∧ (C.locate t).2.2 = some l

/-- All targets recorded are targets of the partition. -/
def AllClean (C : Ctx) (P : Partition) (tg : Dict XY Targets.State) : Prop :=
  ∀ c t, tg.get? c = some t → Clean (Mine C P) (HasCore C P c) (HasLink C P c) t

theorem AllClean.sound {C : Ctx} {P : Partition} {tg : Dict XY Targets.State} (h : AllClean C P tg) :
    Sound tg := fun c t ht => ⟨(h c t ht).keyed, (h c t ht).wf⟩

theorem mine_closed {C : Ctx} {P : Partition} : Targets.Closed C.env (Mine C P) := by
  rintro a l m (h | ⟨k, h, _⟩) ho hm
  · cases h
    exact Or.inr ⟨m, rfl, Or.inl ⟨l, ho, hm⟩⟩
  · cases h

theorem clean_set {C : Ctx} {P : Partition} {tg : Dict XY Targets.State} (h : AllClean C P tg)
    {c : XY} {t : Targets.State} (ht : Clean (Mine C P) (HasCore C P c) (HasLink C P c) t) :
    AllClean C P (tg.set c t) := by
  intro d u hu
  rw [Dict.get?_set] at hu
  split at hu
  · rename_i hcd
    cases hu
    exact hcd ▸ ht
  · exact h d u hu

theorem clean_ask {C : Ctx} {P : Partition} {tg tg' : Dict XY Targets.State} {t : Nat} {o : Op}
    (h : AllClean C P tg) (ht : Asked P t) (hv : ∀ v ∈ o.vertices, Mine C P v)
    (hc : o.core = (C.locate t).2.1) (hl : o.link = (C.locate t).2.2)
    (ha : ask C tg (C.locate t).1 o = .ok tg') : AllClean C P tg' := by
  unfold ask at ha
  split at ha
  · cases ha
  · rename_i u hu
    cases ha
    refine clean_set h (Targets.clean_step mine_closed ?_ hv ?_ ?_ hu)
    · cases hg : tg.get? (C.locate t).1 with
      | none => exact Targets.clean_empty
      | some w => exact h _ _ hg
    · intro p hp
      exact ⟨t, ht, rfl, by rw [← hc]; exact hp⟩
    · intro l hp
      exact ⟨t, ht, rfl, by rw [← hl]; exact hp⟩

theorem opFor_core (C : Ctx) (M : Mapping) (v : Nat × List VId) :
    (opFor C M v).core = (C.locate v.1).2.1 ∧ (opFor C M v).link = (C.locate v.1).2.2 := by
  unfold opFor
  split <;> exact ⟨rfl, rfl⟩

theorem clean_askAll {C : Ctx} {P : Partition} {M : Mapping} (vs : List (Nat × List VId)) :
    ∀ {tg tg' : Dict XY Targets.State}, AllClean C P tg → (∀ v ∈ vs, Asked P v.1) →
    (∀ v ∈ vs, ∀ s ∈ v.2, Mine C P s) → askAll C M vs tg = .ok tg' → AllClean C P tg' := by
  induction vs with
  | nil =>
    intro tg tg' h _ _ ha
    simp only [askAll] at ha
    cases ha
    exact h
  | cons v vs ih =>
    intro tg tg' h h1 h2 ha
    simp only [askAll] at ha
    split at ha
    · cases ha
    · rename_i tg1 hk
      exact ih (clean_ask h (h1 v List.mem_cons_self)
          (by rw [opFor_vertices]; exact h2 v List.mem_cons_self) (opFor_core C M v).1
          (opFor_core C M v).2 hk)
        (fun u hu => h1 u (List.mem_cons_of_mem _ hu)) (fun u hu => h2 u (List.mem_cons_of_mem _ hu)) ha

theorem clean_askSelf {C : Ctx} {P : Partition} (vs : List (Nat × List VId)) :
    ∀ {W W' : Work}, AllClean C P W.targets → (∀ v ∈ vs, Asked P v.1) →
    (∀ v ∈ vs, ∀ s ∈ v.2, Mine C P s) → askSelf C vs W = .ok W' →
    AllClean C P W'.targets ∧ W'.routes = W.routes := by
  induction vs with
  | nil =>
    intro W W' h _ _ ha
    simp only [askSelf] at ha
    cases ha
    exact ⟨h, rfl⟩
  | cons v vs ih =>
    intro W W' h h1 h2 ha
    simp only [askSelf] at ha
    split at ha
    · cases ha
    · rename_i tg1 hk
      exact ih (W := ⟨W.edges, W.routes, tg1, W.selfConnected, addTo W.selfXys (C.locate v.1).1⟩)
        (clean_ask (o := .addMachine (C.locate v.1).2.1 (C.locate v.1).2.2 v.2) h
          (h1 v List.mem_cons_self) (h2 v List.mem_cons_self) rfl rfl hk)
        (fun u hu => h1 u (List.mem_cons_of_mem _ hu)) (fun u hu => h2 u (List.mem_cons_of_mem _ hu)) ha

theorem mine_source {C : Ctx} {P : Partition} (hC : Contract C P) {e : Nat × List (Nat × List VId)}
    (he : e ∈ P.edges) : ∀ v ∈ e.2, ∀ s ∈ v.2, Mine C P s := by
  intro v hv s hs
  rcases hC.sources e he v hv s hs with rfl | ⟨l, m, h1, h2, rfl⟩
  · exact Or.inl rfl
  · exact Or.inr ⟨m, rfl, Or.inl ⟨l, h1, h2⟩⟩

theorem clean_routeEdges {C : Ctx} {P : Partition} (hC : Contract C P) {K : XY → Nat → XY → Prop}
    (hK : Keeps C K) {s : XY} {all : List XY} {M : Mapping} (hs : s ∈ C.T.chips)
    (es : List (Nat × List (Nat × List VId))) : ∀ {W W' : Work}, (∀ e ∈ es, e ∈ P.edges) →
    AllClean C P W.targets → (∀ a l b, Edge W.routes a l b → K a l b) →
    routeEdges C P s all M es W = .ok W' →
    AllClean C P W'.targets ∧ ∀ a l b, Edge W'.routes a l b → K a l b := by
  induction es with
  | nil =>
    intro W W' _ h1 h2 h
    simp only [routeEdges] at h
    cases h
    exact ⟨h1, h2⟩
  | cons e es ih =>
    intro W W' he h1 h2 h
    simp only [routeEdges] at h
    split at h
    · cases h
    · rename_i W1 hw
      have hee := he e List.mem_cons_self
      have hask : ∀ v ∈ e.2, Asked P v.1 := fun v hv => Or.inl ⟨e, hee, v, hv, rfl⟩
      have key : AllClean C P W1.targets ∧ ∀ a l b, Edge W1.routes a l b → K a l b := by
        unfold routeEdge at hw
        split at hw
        · split at hw
          · cases hw
          · rename_i tg htg
            split at hw
            · cases hw
            · rename_i E R hr
              cases hw
              refine ⟨clean_askAll _ h1 hask (mine_source hC hee) htg, ?_⟩
              exact keeps_routeTo hC hK hs (fun t ht => by
                obtain ⟨v, _, hv⟩ := mem_chipsOf.mp ht
                rw [← hv]; exact hC.placed _) h2 hr
        · obtain ⟨k1, k2⟩ := clean_askSelf _ (W := ⟨W.edges, W.routes, W.targets, true, W.selfXys⟩)
            h1 hask (mine_source hC hee) hw
          exact ⟨k1, by rw [k2]; exact h2⟩
      exact ih (fun e' h' => he e' (List.mem_cons_of_mem _ h')) key.1 key.2 h

theorem clean_routeInternal {C : Ctx} {P : Partition} {W W' : Work} (h1 : AllClean C P W.targets)
    (h : routeInternal C P W = .ok W') : AllClean C P W'.targets ∧ W'.routes = W.routes := by
  unfold routeInternal at h
  split at h
  · cases h; exact ⟨h1, rfl⟩
  · refine clean_askSelf (internalAsks P)
      (W := ⟨W.edges, W.routes, W.targets, true, W.selfXys⟩) h1 ?_ ?_ h
    · intro v hv
      unfold internalAsks at hv
      simp only [List.mem_flatMap, List.mem_map] at hv
      obtain ⟨p, hp, t, ht, rfl⟩ := hv
      exact Or.inr ⟨p, hp, ht⟩
    · intro v hv s hs
      unfold internalAsks at hv
      simp only [List.mem_flatMap, List.mem_map] at hv
      obtain ⟨p, hp, t, ht, rfl⟩ := hv
      simp only [List.mem_singleton] at hs
      exact Or.inr ⟨p.1, hs, Or.inr ⟨p, hp, rfl⟩⟩

/-! ### The entries -/

/-- Bit `b` on chip `c` is a link of the routes, or a core or link of a target there. -/
def May (C : Ctx) (P : Partition) (K : XY → Nat → XY → Prop) (c : XY) (b : Nat) : Prop :=
  (∃ d, K c b d) ∨ HasLink C P c b ∨ ∃ p, HasCore C P c p ∧ b = 6 + p

/-- Only entries of the partition are changed, and only bits that may be set are new. -/
structure Only (C : Ctx) (P : Partition) (K : XY → Nat → XY → Prop) (S S' : ByPart.State) : Prop where
  bits : ∀ (part : Nat) (v : VId) (c : XY) (b : Nat), Bit S' part v c b → Bit S part v c b ∨
    (part = P.ident ∧ Mine C P v ∧ May C P K c b)
  frame : ∀ (part : Nat) (v : VId) (c : XY), ¬ (part = P.ident ∧ Mine C P v) →
    ByPart.entryOn S' v part c.1 c.2 = ByPart.entryOn S v part c.1 c.2
  grows : Grows S S'
  unmixed : Unmixed C S → Unmixed C S'

theorem Only.refl {C : Ctx} {P : Partition} {K : XY → Nat → XY → Prop} (S : ByPart.State) :
    Only C P K S S :=
  ⟨fun _ _ _ _ h => Or.inl h, fun _ _ _ _ => rfl, Grows.refl _, id⟩

theorem Only.trans {C : Ctx} {P : Partition} {K : XY → Nat → XY → Prop} {S S1 S2 : ByPart.State}
    (h1 : Only C P K S S1) (h2 : Only C P K S1 S2) : Only C P K S S2 := by
  refine ⟨fun part v c b h => ?_, fun part v c h => (h2.frame part v c h).trans (h1.frame part v c h),
    h1.grows.trans h2.grows, fun h => h2.unmixed (h1.unmixed h)⟩
  rcases h2.bits part v c b h with h | h
  · exact h1.bits part v c b h
  · exact Or.inr h

theorem clean_convertLoop {C : Ctx} {P : Partition} {ident : Nat} {src : VId}
    {useSource ensureAll : Bool} {R : Routes} (hsrc : Mine C P src) (fuel : Nat) :
    ∀ {st : List (Option Nat × Option Nat × XY)} {S : ByPart.State} {tg : Dict XY Targets.State}
      {r : ByPart.State × Dict XY Targets.State}, AllClean C P tg →
    convertLoop C ident src useSource ensureAll R fuel st S tg = .ok r → AllClean C P r.2 := by
  induction fuel with
  | zero =>
    intro st S tg r h hr
    cases st with
    | nil => simp only [convertLoop] at hr; cases hr; exact h
    | cons i st => simp only [convertLoop] at hr; cases hr
  | succ fuel ih =>
    intro st S tg r h hr
    cases st with
    | nil => simp only [convertLoop] at hr; cases hr; exact h
    | cons i st =>
      obtain ⟨iP, iL, xy⟩ := i
      simp only [convertLoop] at hr
      split at hr
      · cases hr
      · rename_i S1 tg1 hc
        refine ih ?_ hr
        unfold convertChip at hc
        split at hc
        · rename_i t ht
          simp only at hc
          split at hc
          · cases hc
          · split at hc
            · cases hc
            · cases hc
              refine clean_set h ?_
              unfold sourcesAt
              split
              · exact Targets.clean_ensure (h xy t ht) hsrc
              · exact h xy t ht
        · split at hc
          · cases hc
          · cases hc; exact h

theorem only_convert {C : Ctx} {P : Partition} (hC : Contract C P) {K : XY → Nat → XY → Prop}
    {fuel : Nat} {src : VId} {useSource ensureAll : Bool} {R : Routes} {iP iL : Option Nat}
    {first : XY} {S S' : ByPart.State} {tg tg' : Dict XY Targets.State}
    (hf : Fits src useSource ensureAll) (hsrc : Mine C P src) (hc : AllClean C P tg)
    (hR : ∀ a l b, Edge R a l b → K a l b)
    (h : convert C fuel P.ident src useSource ensureAll R iP iL first S tg = .ok (S', tg')) :
    Only C P K S S' ∧ AllClean C P tg' := by
  have hw : ∀ v c, Writes C src useSource ensureAll R first tg v c → Mine C P v := by
    rintro v c ⟨_, ⟨_, rfl⟩ | ⟨t, ht, ⟨_, rfl⟩ | ⟨_, h1 | ⟨_, _, _, a, ms, m, h2, h3, h4, rfl⟩⟩⟩⟩
    · exact hsrc
    · exact hsrc
    · obtain ⟨L, hL⟩ := Option.isSome_iff_exists.mp h1
      exact (Targets.clean_lists (hc c t ht) hL).1
    · exact mine_closed a ms m (h2 ▸ hsrc) h3 h4
  refine ⟨⟨fun part v c b hb => ?_, fun part v c hn => ?_, ?_, fun hu => ?_⟩, ?_⟩
  · rcases (convert_bits hC.merges hf hc.sound h part v c b).mp hb with hb | ⟨rfl, h1, h2⟩
    · exact Or.inl hb
    · refine Or.inr ⟨rfl, hw v c h1, ?_⟩
      rcases h2 with ⟨d, hd⟩ | ⟨t, L, ht, hL, hb⟩
      · exact Or.inl ⟨d, hR c b d hd⟩
      · obtain ⟨_, k1, k2⟩ := Targets.clean_lists (hc c t ht) hL
        rcases hb with hb | ⟨p, hp, rfl⟩
        · exact Or.inr (Or.inl (k2 b hb))
        · exact Or.inr (Or.inr ⟨p, k1 p hp, rfl⟩)
  · exact convert_frame hf hc.sound h part v c (fun hp hwr => hn ⟨hp, hw v c hwr⟩)
  · intro part v c b hb
    exact (convert_bits hC.merges hf hc.sound h part v c b).mpr (Or.inl hb)
  · exact convert_unmixed hC.owns hc.sound.wf hu h
  · unfold convert at h
    split at h
    · exact clean_convertLoop hsrc fuel hc h
    · cases h

theorem clean_edgeTargets {C : Ctx} {P : Partition} {M : Mapping}
    (hM : ∀ x ∈ M, ∀ v ∈ x.2, Sends C P v.1) (c : XY) :
    Clean (Mine C P) (HasCore C P c) (HasLink C P c) (edgeTargets M) := by
  unfold edgeTargets
  have key : ∀ (vs : List (Nat × Option Nat × Option Nat)) (s : Targets.State),
      (∀ v ∈ vs, Sends C P v.1) → Clean (Mine C P) (HasCore C P c) (HasLink C P c) s →
      Clean (Mine C P) (HasCore C P c) (HasLink C P c)
        (vs.foldl (fun s v => Targets.ensure s (.mach v.1)) s) := by
    intro vs
    induction vs with
    | nil => intro s _ h; exact h
    | cons v vs ih =>
      intro s hv h
      exact ih _ (fun u hu => hv u (List.mem_cons_of_mem _ hu))
        (Targets.clean_ensure h (Or.inr ⟨v.1, rfl, hv v List.mem_cons_self⟩))
  refine key _ _ (fun v hv => ?_) Targets.clean_empty
  obtain ⟨x, hx, hv⟩ := List.mem_flatMap.mp hv
  exact hM x hx v hv

theorem only_toTargets {C : Ctx} {P : Partition} (hC : Contract C P) {K : XY → Nat → XY → Prop}
    {fuel : Nat} {M : Mapping} (hM : ∀ x ∈ M, ∀ v ∈ x.2, Sends C P v.1) {R : Routes}
    (hR : ∀ a l b, Edge R a l b → K a l b) (es : List XY) :
    ∀ {S S' : ByPart.State} {tg tg' : Dict XY Targets.State}, AllClean C P tg →
    toTargets C P fuel M R es S tg = .ok (S', tg') → Only C P K S S' ∧ AllClean C P tg' := by
  induction es with
  | nil =>
    intro S S' tg tg' hc h
    simp only [toTargets] at h
    cases h
    exact ⟨Only.refl _, hc⟩
  | cons e es ih =>
    intro S S' tg tg' hc h
    simp only [toTargets] at h
    have hc1 : AllClean C P (if (tg.get? e).isSome then tg else tg.set e (edgeTargets M)) := by
      split
      · exact hc
      · exact clean_set hc (clean_edgeTargets hM e)
    generalize (if (tg.get? e).isSome then tg else tg.set e (edgeTargets M)) = tg1 at h hc1
    split at h
    · cases h
    · rename_i S1 tg2 h1
      obtain ⟨k1, k2⟩ := only_convert hC (fun _ => ⟨rfl, _, rfl⟩) (Or.inl rfl) hc1 hR h1
      obtain ⟨k3, k4⟩ := ih k2 h
      exact ⟨k1.trans k3, k4⟩

theorem only_fromVertices {C : Ctx} {P : Partition} (hC : Contract C P) {K : XY → Nat → XY → Prop}
    {fuel : Nat} {useSource : Bool} {R : Routes} (hR : ∀ a l b, Edge R a l b → K a l b) {xy : XY}
    (vs : List (Nat × Option Nat × Option Nat)) :
    ∀ {S S' : ByPart.State} {tg tg' : Dict XY Targets.State}, (∀ v ∈ vs, Sends C P v.1) →
    AllClean C P tg → fromVertices C P fuel useSource R xy vs S tg = .ok (S', tg') →
    Only C P K S S' ∧ AllClean C P tg' := by
  induction vs with
  | nil =>
    intro S S' tg tg' _ hc h
    simp only [fromVertices] at h
    cases h
    exact ⟨Only.refl _, hc⟩
  | cons v vs ih =>
    obtain ⟨m, p, l⟩ := v
    intro S S' tg tg' hv hc h
    simp only [fromVertices] at h
    split at h
    · cases h
    · rename_i S1 tg1 h1
      obtain ⟨k1, k2⟩ := only_convert hC (fun he => by cases he)
        (Or.inr ⟨m, rfl, hv _ List.mem_cons_self⟩) hc hR h1
      obtain ⟨k3, k4⟩ := ih (fun u hu => hv u (List.mem_cons_of_mem _ hu)) k2 h
      exact ⟨k1.trans k3, k4⟩

theorem only_fromSources {C : Ctx} {P : Partition} (hC : Contract C P) {K : XY → Nat → XY → Prop}
    (hK : Keeps C K) {fuel : Nat} {useSource : Bool} {all goals : List XY} (M : Mapping) :
    ∀ {S S' : ByPart.State} {tg tg' : Dict XY Targets.State}, (∀ x ∈ M, ∀ v ∈ x.2, Sends C P v.1) →
    AllClean C P tg → fromSources C P fuel useSource all goals M S tg = .ok (S', tg') →
    Only C P K S S' ∧ AllClean C P tg' := by
  induction M with
  | nil =>
    intro S S' tg tg' _ hc h
    simp only [fromSources] at h
    cases h
    exact ⟨Only.refl _, hc⟩
  | cons x M ih =>
    obtain ⟨xy, vs⟩ := x
    intro S S' tg tg' hM hc h
    simp only [fromSources] at h
    split at h
    · cases h
    · rename_i R hr
      split at h
      · cases h
      · rename_i S1 tg1 h1
        have hR := keeps_routeToXys hK (R := []) (by rintro a l b ⟨ch, h, _⟩; cases h) hr
        obtain ⟨k1, k2⟩ := only_fromVertices hC hR vs (hM _ List.mem_cons_self) hc h1
        obtain ⟨k3, k4⟩ := ih (fun x hx => hM x (List.mem_cons_of_mem _ hx)) k2 h
        exact ⟨k1.trans k3, k4⟩

/-- The routing of a partition changes only its own entries, and sets only what it may. -/
theorem only_partition {C : Ctx} {P : Partition} (hC : Contract C P) {K : XY → Nat → XY → Prop}
    (hK : Keeps C K) {fuel : Nat} {S S' : ByPart.State} (h : routePartition C P fuel S = .ok S') :
    Only C P K S S' := by
  unfold routePartition at h
  cases hM : mapping C P with
  | error err => rw [hM] at h; cases h
  | ok M =>
    rw [hM] at h
    cases M with
    | nil => simp only at h; cases h; exact Only.refl _
    | cons s M =>
      simp only at h
      have hsend := (mapping_sends hM).2
      have hs : s.1 ∈ C.T.chips := by
        obtain ⟨m, _, hm⟩ := ((mapping_ok hM).2 s.1).mp (by simp [Dict.get?_cons])
        rw [← hm]; exact hC.placed m
      split at h
      · cases h
      · rename_i W hW
        obtain ⟨k1, k2⟩ := clean_routeEdges hC hK hs P.edges (fun e he => he)
          (by intro c t ht; cases ht) (by rintro a l b ⟨ch, h, _⟩; cases h) hW
        split at h
        · cases h
        · rename_i W1 hW1
          obtain ⟨k3, k4⟩ := clean_routeInternal k1 hW1
          rw [← k4] at k2
          unfold makeRoutes at h
          split at h
          · cases h
          · rename_i S1 tg1 h1
            obtain ⟨j1, j2⟩ := only_toTargets hC hsend k2 _ k3 h1
            split at h
            · split at h
              · cases h
              · rename_i S2 tg2 h2
                cases h
                exact j1.trans (only_fromSources hC hK _ hsend j2 h2).1
            · split at h
              · cases h
              · rename_i S2 tg2 h2
                cases h
                exact j1.trans (only_fromSources hC hK _ hsend (by intro c t ht; cases ht) h2).1

end Pacman.Router
