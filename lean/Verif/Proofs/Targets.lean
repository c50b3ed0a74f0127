import Verif.Spec.Targets
import Verif.Proofs.Dict
/-
Lemmas on `_Targets`.
-/

namespace Pacman.Targets

open Alloc (VId)

/-- Every vertex has lists. -/
def WF (s : State) : Prop := ∀ v p, s.at_.get? v = some p → p < s.heap.length

theorem ensure_get (s : State) (v u : VId) :
    (ensure s v).at_.get? u =
      if v = u ∧ s.at_.get? v = none then some s.heap.length else s.at_.get? u := by
  unfold ensure
  cases h : s.at_.get? v with
  | some p => simp
  | none =>
    simp only [Dict.get?_set]
    by_cases hu : v = u
    · rw [if_pos hu, if_pos ⟨hu, trivial⟩]
    · rw [if_neg hu, if_neg (fun hh => hu hh.1)]

theorem ensure_wf {s : State} (h : WF s) (v : VId) : WF (ensure s v) := by
  intro u p hp
  rw [ensure_get] at hp
  unfold ensure
  cases hv : s.at_.get? v with
  | some q =>
    rw [if_neg (by rw [hv]; simp)] at hp
    exact h u p hp
  | none =>
    simp only [List.length_append, List.length_singleton]
    split at hp
    · injection hp with hp; omega
    · exact Nat.lt_succ_of_lt (h u p hp)

theorem lists_isSome {s : State} (h : WF s) (v : VId) : (s.lists v).isSome = s.has v := by
  unfold State.lists State.has
  cases hv : s.at_.get? v with
  | none => rfl
  | some p => simp [h v p hv]

theorem lists_none {s : State} (h : WF s) {v : VId} : s.lists v = none ↔ s.at_.get? v = none := by
  unfold State.lists
  cases hv : s.at_.get? v with
  | none => simp
  | some p => simp [h v p hv]

theorem ensure_lists {s : State} (h : WF s) (v u : VId) :
    (ensure s v).lists u =
      if v = u ∧ s.at_.get? v = none then some ([], []) else s.lists u := by
  unfold State.lists
  rw [ensure_get]
  by_cases hc : v = u ∧ s.at_.get? v = none
  · rw [if_pos hc, if_pos hc]
    unfold ensure
    simp [hc.2]
  · rw [if_neg hc, if_neg hc]
    cases hu : s.at_.get? u with
    | none => rfl
    | some p =>
      unfold ensure
      cases hv : s.at_.get? v with
      | some q => rfl
      | none =>
        simp only
        rw [List.getElem?_append_left (h u p hu)]

theorem ensure_self (s : State) (v : VId) : ∃ p, (ensure s v).at_.get? v = some p := by
  rw [ensure_get]
  cases hv : s.at_.get? v with
  | none => exact ⟨_, by rw [if_pos ⟨rfl, rfl⟩]⟩
  | some p => exact ⟨p, by rw [if_neg (by simp)]⟩

theorem add_get (s : State) (v u : VId) (core link : Option Nat) :
    (addSource s v core link).at_.get? u = (ensure s v).at_.get? u := by
  obtain ⟨p, hp⟩ := ensure_self s v
  unfold addSource
  simp only [hp]

theorem add_has (s : State) (v u : VId) (core link : Option Nat) :
    (addSource s v core link).has u = (s.has u || decide (v = u)) := by
  unfold State.has
  rw [add_get, ensure_get]
  by_cases hu : v = u
  · subst hu
    cases hv : s.at_.get? v <;> simp
  · simp [hu]

theorem add_wf {s : State} (h : WF s) (v : VId) (core link : Option Nat) :
    WF (addSource s v core link) := by
  intro u p hp
  rw [add_get] at hp
  have := ensure_wf h v u p hp
  obtain ⟨q, hq⟩ := ensure_self s v
  unfold addSource
  simpa only [hq, List.length_modify] using this

/-- What `__add_source` does to the lists of each vertex. -/
theorem add_lists (s : State) (v u : VId) (core link : Option Nat) :
    (addSource s v core link).lists u =
      if (ensure s v).at_.get? u = (ensure s v).at_.get? v then
        ((ensure s v).lists u).map (push core link)
      else (ensure s v).lists u := by
  obtain ⟨q, hq⟩ := ensure_self s v
  unfold State.lists
  rw [add_get]
  cases hu : (ensure s v).at_.get? u with
  | none => simp
  | some p =>
    rw [hq]
    unfold addSource
    simp only [hq, Option.some.injEq]
    rw [List.getElem?_modify]
    by_cases hpq : p = q
    · subst hpq
      simp
    · have hqp : ¬ q = p := fun h => hpq h.symm
      simp [hpq, hqp]

theorem setAll_get (d : Dict VId Nat) (p : Nat) (l : List Nat) (u : VId) :
    (setAll d p l).get? u = if ∃ m ∈ l, u = .mach m then some p else d.get? u := by
  induction l generalizing d with
  | nil => simp [setAll]
  | cons m l ih =>
    rw [setAll, ih, Dict.get?_set]
    by_cases h1 : ∃ m' ∈ l, u = .mach m'
    · rw [if_pos h1, if_pos]
      obtain ⟨m', hm', e⟩ := h1
      exact ⟨m', List.mem_cons_of_mem _ hm', e⟩
    · rw [if_neg h1]
      by_cases h2 : u = .mach m
      · rw [if_pos h2.symm, if_pos ⟨m, List.mem_cons_self, h2⟩]
      · rw [if_neg (fun h => h2 h.symm), if_neg]
        rintro ⟨m', hm', e⟩
        rcases List.mem_cons.mp hm' with rfl | hm'
        · exact h2 e
        · exact h1 ⟨m', hm', e⟩

theorem replace_cases {e : Env} {s s' : State} {a : Nat} (h : replaceApp e s a = .ok s') :
    ∃ p l, s.at_.get? (.app a) = some p ∧ e.outgoing a = some l ∧ s'.heap = s.heap ∧
      ∀ u, s'.at_.get? u = if ∃ m ∈ l, u = .mach m then some p
        else if .app a = u then none else s.at_.get? u := by
  unfold replaceApp at h
  cases hp : s.at_.get? (.app a) with
  | none => simp [hp] at h
  | some p =>
    cases hl : e.outgoing a with
    | none => simp [hp, hl] at h
    | some l =>
      simp only [hp, hl] at h
      injection h with h
      subst h
      refine ⟨p, l, rfl, rfl, rfl, fun u => ?_⟩
      simp only [setAll_get, Dict.get?_erase]

theorem has_iff (s : State) (v : VId) : s.has v = true ↔ ∃ p, s.at_.get? v = some p := by
  unfold State.has
  cases s.at_.get? v <;> simp

theorem has_false (s : State) (v : VId) : s.has v = false ↔ s.at_.get? v = none := by
  unfold State.has
  cases s.at_.get? v <;> simp

/-- An application vertex and one of the machine vertices it sends with are never both there. -/
def Excl (e : Env) (s : State) : Prop :=
  ∀ a l m, e.outgoing a = some l → m ∈ l → s.has (.app a) = true → s.has (.mach m) = false

/-- The vertex may be added: the other kind of entry is not there. -/
def Ready (e : Env) (s : State) : VId → Prop
  | .app a => ∀ l m, e.outgoing a = some l → m ∈ l → s.has (.mach m) = false
  | .mach m => ∀ a, e.appOf m = some a → s.has (.app a) = false

abbrev Req := VId × Option Nat × Option Nat

/-- What holds after the requests `H`. -/
structure Inv (e : Env) (s : State) (H : List Req) : Prop where
  wf : WF s
  excl : Excl e s
  share : ∀ u v p, s.at_.get? u = some p → s.at_.get? v = some p → family e u = family e v
  fromC : ∀ u L c, s.lists u = some L → c ∈ L.1 →
    ∃ r ∈ H, family e r.1 = family e u ∧ r.2.1 = some c
  fromL : ∀ u L c, s.lists u = some L → c ∈ L.2 →
    ∃ r ∈ H, family e r.1 = family e u ∧ r.2.2 = some c
  keep : ∀ r ∈ H, ∀ m, Covers e r.1 m → ∃ L, Serves e s m L ∧
    (∀ c, r.2.1 = some c → c ∈ L.1) ∧ (∀ c, r.2.2 = some c → c ∈ L.2)

theorem inv_empty (e : Env) : Inv e State.empty [] := by
  refine ⟨?_, ?_, ?_, ?_, ?_, ?_⟩
  · intro v p h; simp [State.empty, Dict.get?_nil] at h
  · intro a l m _ _ h; simp [State.empty, State.has, Dict.get?_nil] at h
  · intro u v p h; simp [State.empty, Dict.get?_nil] at h
  · intro u L c h; simp [State.empty, State.lists, Dict.get?_nil] at h
  · intro u L c h; simp [State.empty, State.lists, Dict.get?_nil] at h
  · intro r h; cases h

theorem mem_push1 {core link : Option Nat} {L : List Nat × List Nat} {c : Nat} :
    c ∈ (push core link L).1 ↔ c ∈ L.1 ∨ core = some c := by
  simp [push]

theorem mem_push2 {core link : Option Nat} {L : List Nat × List Nat} {c : Nat} :
    c ∈ (push core link L).2 ↔ c ∈ L.2 ∨ link = some c := by
  simp [push]

/-- Lists never lose anything when a vertex is added. -/
theorem add_grows {s : State} (h : WF s) (v u : VId) (core link : Option Nat)
    {L : List Nat × List Nat} (hL : s.lists u = some L) :
    ∃ L', (addSource s v core link).lists u = some L' ∧ (∀ c ∈ L.1, c ∈ L'.1) ∧
      (∀ c ∈ L.2, c ∈ L'.2) := by
  have h1 : (ensure s v).lists u = some L := by
    rw [ensure_lists h, if_neg, hL]
    rintro ⟨rfl, hn⟩
    rw [← lists_none h, hL] at hn
    cases hn
  rw [add_lists, h1]
  split
  · exact ⟨push core link L, rfl, fun c hc => mem_push1.mpr (Or.inl hc),
      fun c hc => mem_push2.mpr (Or.inl hc)⟩
  · exact ⟨L, rfl, fun c hc => hc, fun c hc => hc⟩

theorem add_self {s : State} (h : WF s) (v : VId) (core link : Option Nat) :
    ∃ L', (addSource s v core link).lists v = some L' ∧ (∀ c, core = some c → c ∈ L'.1) ∧
      (∀ c, link = some c → c ∈ L'.2) := by
  rw [add_lists, if_pos rfl]
  have hw := ensure_wf h v
  cases hL : (ensure s v).lists v with
  | none =>
    rw [lists_none hw] at hL
    obtain ⟨p, hp⟩ := ensure_self s v
    rw [hL] at hp; cases hp
  | some L =>
    exact ⟨push core link L, rfl, fun c hc => mem_push1.mpr (Or.inr hc),
      fun c hc => mem_push2.mpr (Or.inr hc)⟩

theorem share_ensure {e : Env} {s : State} {H : List Req} (h : Inv e s H) (v : VId) :
    ∀ u w p, (ensure s v).at_.get? u = some p → (ensure s v).at_.get? w = some p →
      family e u = family e w := by
  intro u w p hu hw
  rw [ensure_get] at hu hw
  split at hu
  · rename_i h1
    split at hw
    · rename_i h2; rw [← h1.1, ← h2.1]
    · injection hu with hu
      have := h.wf w p hw
      omega
  · split at hw
    · injection hw with hw
      have := h.wf u p hu
      omega
    · exact h.share u w p hu hw

/-- `__add_source` keeps the invariant. -/
theorem inv_add {e : Env} (ho : Owned e) {s : State} {H : List Req} (h : Inv e s H) (v : VId)
    (core link : Option Nat) (hr : Ready e s v) :
    Inv e (addSource s v core link) (H ++ [(v, core, link)]) := by
  have hE := ensure_wf h.wf v
  refine ⟨add_wf h.wf v core link, ?_, ?_, ?_, ?_, ?_⟩
  · intro a l m hl hm ha
    rw [add_has] at ha ⊢
    simp only [Bool.or_eq_true, decide_eq_true_eq, Bool.or_eq_false_iff, decide_eq_false_iff_not]
      at ha ⊢
    rcases ha with ha | rfl
    · refine ⟨h.excl a l m hl hm ha, ?_⟩
      rintro rfl
      rw [hr a (ho a l m hl hm)] at ha
      cases ha
    · exact ⟨hr l m hl hm, by simp⟩
  · intro u w p hu hw
    rw [add_get] at hu hw
    exact share_ensure h v u w p hu hw
  · intro u L c hL hc
    rw [add_lists] at hL
    have old : ∀ L0, (ensure s v).lists u = some L0 → c ∈ L0.1 →
        ∃ r ∈ H ++ [(v, core, link)], family e r.1 = family e u ∧ r.2.1 = some c := by
      intro L0 h0 hc0
      rw [ensure_lists h.wf] at h0
      split at h0
      · injection h0 with h0; subst h0; cases hc0
      · obtain ⟨r, hr, h1⟩ := h.fromC u L0 c h0 hc0
        exact ⟨r, List.mem_append_left _ hr, h1⟩
    split at hL
    · rename_i hs
      cases h0 : (ensure s v).lists u with
      | none => rw [h0] at hL; cases hL
      | some L0 =>
        rw [h0] at hL
        injection hL with hL
        subst hL
        rcases mem_push1.mp hc with hc | hc
        · exact old L0 h0 hc
        · obtain ⟨p, hp⟩ := ensure_self s v
          refine ⟨(v, core, link), by simp, ?_, hc⟩
          exact share_ensure h v v u p hp (by rw [hs, hp])
    · exact old L hL hc
  · intro u L c hL hc
    rw [add_lists] at hL
    have old : ∀ L0, (ensure s v).lists u = some L0 → c ∈ L0.2 →
        ∃ r ∈ H ++ [(v, core, link)], family e r.1 = family e u ∧ r.2.2 = some c := by
      intro L0 h0 hc0
      rw [ensure_lists h.wf] at h0
      split at h0
      · injection h0 with h0; subst h0; cases hc0
      · obtain ⟨r, hr, h1⟩ := h.fromL u L0 c h0 hc0
        exact ⟨r, List.mem_append_left _ hr, h1⟩
    split at hL
    · rename_i hs
      cases h0 : (ensure s v).lists u with
      | none => rw [h0] at hL; cases hL
      | some L0 =>
        rw [h0] at hL
        injection hL with hL
        subst hL
        rcases mem_push2.mp hc with hc | hc
        · exact old L0 h0 hc
        · obtain ⟨p, hp⟩ := ensure_self s v
          refine ⟨(v, core, link), by simp, ?_, hc⟩
          exact share_ensure h v v u p hp (by rw [hs, hp])
    · exact old L hL hc
  · intro r hr' m hc
    have hW := add_wf h.wf v core link
    rcases List.mem_append.mp hr' with hr' | hr'
    · obtain ⟨L, hs, h1, h2⟩ := h.keep r hr' m hc
      rcases hs with hs | ⟨hn, a, l, hl, hm, hs⟩
      · obtain ⟨L', hL', g1, g2⟩ := add_grows h.wf v (.mach m) core link hs
        exact ⟨L', Or.inl hL', fun c h => g1 c (h1 c h), fun c h => g2 c (h2 c h)⟩
      · obtain ⟨L', hL', g1, g2⟩ := add_grows h.wf v (.app a) core link hs
        refine ⟨L', Or.inr ⟨?_, a, l, hl, hm, hL'⟩, fun c h => g1 c (h1 c h),
          fun c h => g2 c (h2 c h)⟩
        rw [lists_none hW, ← has_false, add_has]
        rw [lists_none h.wf, ← has_false] at hn
        simp only [hn, Bool.false_or, decide_eq_false_iff_not]
        rintro rfl
        have h3 := hr a (ho a l m hl hm)
        rw [has_false, ← lists_none h.wf, hs] at h3
        cases h3
    · simp only [List.mem_singleton] at hr'
      subst hr'
      obtain ⟨L', hL', g1, g2⟩ := add_self h.wf v core link
      rcases hc with hc | ⟨a, l, hc, hl, hm⟩
      · simp only at hc
        subst hc
        exact ⟨L', Or.inl hL', g1, g2⟩
      · simp only at hc
        subst hc
        refine ⟨L', Or.inr ⟨?_, a, l, hl, hm, hL'⟩, g1, g2⟩
        rw [lists_none hW, ← has_false, add_has]
        simp [hr l m hl hm]

/-- `__replace_app_vertex` keeps the invariant. -/
theorem inv_replace {e : Env} (ho : Owned e) {s s' : State} {H : List Req} (h : Inv e s H) {a : Nat}
    (hr : replaceApp e s a = .ok s') :
    Inv e s' H ∧ s'.has (.app a) = false := by
  obtain ⟨p, l, hp, hl, hh, hg⟩ := replace_cases hr
  have ha : s.has (.app a) = true := (has_iff _ _).mpr ⟨p, hp⟩
  have hno : ∀ m ∈ l, s.at_.get? (.mach m) = none := fun m hm =>
    (has_false _ _).mp (h.excl a l m hl hm ha)
  have hfam : ∀ m ∈ l, family e (.mach m) = family e (.app a) := fun m hm => by
    simp [family, ho a l m hl hm]
  -- every vertex that has lists now had them before, or its application vertex had them
  have back : ∀ u q, s'.at_.get? u = some q → ∃ w, family e w = family e u ∧
      s.at_.get? w = some q := by
    intro u q hq
    rw [hg] at hq
    split at hq
    · rename_i hm
      obtain ⟨m, hm, rfl⟩ := hm
      exact ⟨.app a, (hfam m hm).symm, by rw [hp]; exact hq⟩
    · split at hq
      · cases hq
      · exact ⟨u, rfl, hq⟩
  have lback : ∀ u L, s'.lists u = some L → ∃ w, family e w = family e u ∧ s.lists w = some L := by
    intro u L hL
    unfold State.lists at hL
    cases hq : s'.at_.get? u with
    | none => simp [hq] at hL
    | some q =>
      obtain ⟨w, hw, hq'⟩ := back u q hq
      refine ⟨w, hw, ?_⟩
      unfold State.lists
      simpa [hq, hq', hh] using hL
  have lsame : ∀ u, (∀ m ∈ l, u ≠ .mach m) → u ≠ .app a → s'.lists u = s.lists u := by
    intro u h1 h2
    unfold State.lists
    rw [hg, if_neg (fun ⟨m, hm, he⟩ => h1 m hm he), if_neg (fun he => h2 he.symm), hh]
  refine ⟨⟨?_, ?_, ?_, ?_, ?_, ?_⟩, ?_⟩
  · intro u q hq
    obtain ⟨w, _, hq'⟩ := back u q hq
    rw [hh]
    exact h.wf w q hq'
  · intro b k m hk hm hb
    rw [has_iff] at hb
    obtain ⟨q, hq⟩ := hb
    rw [hg, if_neg (fun ⟨m, _, he⟩ => (by cases he))] at hq
    by_cases hab : VId.app a = VId.app b
    · rw [if_pos hab] at hq; cases hq
    · rw [if_neg hab] at hq
      have := h.excl b k m hk hm ((has_iff _ _).mpr ⟨q, hq⟩)
      rw [has_false] at this ⊢
      rw [hg, if_neg, if_neg (fun he => (by cases he)), this]
      rintro ⟨m', hm', he⟩
      injection he with he
      subst he
      have h1 := ho a l m hl hm'
      have h2 := ho b k m hk hm
      rw [h1] at h2
      injection h2 with h2
      exact hab (by rw [h2])
  · intro u v q hu hv
    obtain ⟨u', hu1, hu2⟩ := back u q hu
    obtain ⟨v', hv1, hv2⟩ := back v q hv
    rw [← hu1, ← hv1]
    exact h.share u' v' q hu2 hv2
  · intro u L c hL hc
    obtain ⟨w, hw, hL'⟩ := lback u L hL
    obtain ⟨r, hr, h1, h2⟩ := h.fromC w L c hL' hc
    exact ⟨r, hr, by rw [h1, hw], h2⟩
  · intro u L c hL hc
    obtain ⟨w, hw, hL'⟩ := lback u L hL
    obtain ⟨r, hr, h1, h2⟩ := h.fromL w L c hL' hc
    exact ⟨r, hr, by rw [h1, hw], h2⟩
  · intro r hr m hc
    obtain ⟨L, hs, h1, h2⟩ := h.keep r hr m hc
    refine ⟨L, ?_, h1, h2⟩
    rcases hs with hs | ⟨hn, b, k, hk, hm, hs⟩
    · left
      rw [lsame _ ?_ (fun he => (by cases he)), hs]
      intro m' hm' he
      rw [he, (lists_none h.wf).mpr (hno m' hm')] at hs
      cases hs
    · by_cases hab : a = b
      · subst hab
        rw [hl] at hk
        injection hk with hk
        subst hk
        left
        unfold State.lists
        rw [hg, if_pos ⟨m, hm, rfl⟩, hh]
        unfold State.lists at hs
        simpa [hp] using hs
      · right
        have hml : ∀ m' ∈ l, VId.mach m ≠ VId.mach m' := by
          rintro m' hm' he
          injection he with he
          subst he
          have e1 := ho a l m hl hm'
          have e2 := ho b k m hk hm
          rw [e1] at e2
          injection e2 with e2
          exact hab e2
        refine ⟨?_, b, k, hk, hm, ?_⟩
        · rw [lsame _ hml (fun he => (by cases he)), hn]
        · rw [lsame _ (fun m' _ he => (by cases he)), hs]
          intro he
          injection he with he
          exact hab he.symm
  · rw [has_false, hg, if_neg (fun ⟨m, _, he⟩ => (by cases he)), if_pos rfl]

theorem inv_replaceIf {e : Env} (ho : Owned e) {s s' : State} {H : List Req} (h : Inv e s H)
    {a : Option Nat} (hr : replaceIf e s a = .ok s') :
    Inv e s' H ∧ ∀ b, a = some b → s'.has (.app b) = false := by
  unfold replaceIf at hr
  cases a with
  | none =>
    injection hr with hr
    subst hr
    exact ⟨h, fun b hb => (by cases hb)⟩
  | some a =>
    simp only at hr
    split at hr
    · obtain ⟨h1, h2⟩ := inv_replace ho h hr
      refine ⟨h1, fun b hb => ?_⟩
      injection hb with hb
      exact hb ▸ h2
    · rename_i hn
      injection hr with hr
      subst hr
      refine ⟨h, fun b hb => ?_⟩
      injection hb with hb
      subst hb
      simpa using hn

theorem inv_addAll {e : Env} (ho : Owned e) {s : State} {H : List Req} (h : Inv e s H) {a : Nat}
    (core link : Option Nat) (l : List Nat) (hl : ∀ m ∈ l, e.appOf m = some a)
    (ha : s.has (.app a) = false) :
    Inv e (addAll s core link l) (H ++ l.map (fun m => (VId.mach m, core, link))) := by
  induction l generalizing s H with
  | nil => simpa [addAll] using h
  | cons m l ih =>
    rw [addAll]
    have h1 := inv_add ho h (.mach m) core link (by
      intro b hb
      rw [hl m List.mem_cons_self] at hb
      injection hb with hb
      exact hb ▸ ha)
    have h2 := ih h1 (fun m' hm' => hl m' (List.mem_cons_of_mem _ hm')) (by
      rw [add_has, ha]; simp)
    simpa using h2

/-- The requests for all machine vertices are the request for the application vertex. -/
theorem inv_relabel {e : Env} (ho : Owned e) {s : State} {H : List Req} {a : Nat} {l : List Nat}
    {core link : Option Nat} (hl : e.outgoing a = some l)
    (h : Inv e s (H ++ l.map (fun m => (VId.mach m, core, link)))) :
    Inv e s (H ++ [(VId.app a, core, link)]) := by
  refine ⟨h.wf, h.excl, h.share, ?_, ?_, ?_⟩
  · intro u L c hL hc
    obtain ⟨r, hr, h1, h2⟩ := h.fromC u L c hL hc
    rcases List.mem_append.mp hr with hr | hr
    · exact ⟨r, List.mem_append_left _ hr, h1, h2⟩
    · obtain ⟨m, hm, rfl⟩ := List.mem_map.mp hr
      refine ⟨(VId.app a, core, link), by simp, ?_, h2⟩
      rw [← h1]
      simp [family, ho a l m hl hm]
  · intro u L c hL hc
    obtain ⟨r, hr, h1, h2⟩ := h.fromL u L c hL hc
    rcases List.mem_append.mp hr with hr | hr
    · exact ⟨r, List.mem_append_left _ hr, h1, h2⟩
    · obtain ⟨m, hm, rfl⟩ := List.mem_map.mp hr
      refine ⟨(VId.app a, core, link), by simp, ?_, h2⟩
      rw [← h1]
      simp [family, ho a l m hl hm]
  · intro r hr m hc
    rcases List.mem_append.mp hr with hr | hr
    · exact h.keep r (List.mem_append_left _ hr) m hc
    · simp only [List.mem_singleton] at hr
      subst hr
      rcases hc with hc | ⟨b, k, hc, hk, hm⟩
      · cases hc
      · simp only [VId.app.injEq] at hc
        subst hc
        rw [hl] at hk
        injection hk with hk
        subst hk
        exact h.keep (VId.mach m, core, link)
          (List.mem_append_right _ (List.mem_map.mpr ⟨m, hm, rfl⟩)) m (Or.inl rfl)

theorem inv_addM {e : Env} (ho : Owned e) {s s' : State} {H : List Req} (h : Inv e s H) {a : Nat}
    {core link : Option Nat} (ha : s.has (.app a) = false) (hr : addM e s a core link = .ok s') :
    Inv e s' (H ++ [(VId.app a, core, link)]) := by
  unfold addM at hr
  cases hl : e.outgoing a with
  | none => simp [hl] at hr
  | some l =>
    simp only [hl] at hr
    injection hr with hr
    subst hr
    exact inv_relabel ho hl (inv_addAll ho h core link l (fun m hm => ho a l m hl hm) ha)

theorem inv_addOne {e : Env} (ho : Owned e) {s s' : State} {H : List Req} (h : Inv e s H)
    {core link : Option Nat} {v : VId} (hr : addOne e s core link v = .ok s') :
    Inv e s' (H ++ [(v, core, link)]) := by
  cases v with
  | app a =>
    simp only [addOne] at hr
    split at hr
    · rename_i hm
      refine inv_addM ho h ?_ hr
      unfold isM at hm
      cases hl : e.outgoing a with
      | none => simp [hl] at hm
      | some l =>
        simp only [hl, List.any_eq_true] at hm
        obtain ⟨m, hm, hmm⟩ := hm
        cases ha : s.has (.app a) with
        | false => rfl
        | true => rw [h.excl a l m hl hm ha] at hmm; cases hmm
    · rename_i hm
      injection hr with hr
      subst hr
      refine inv_add ho h _ core link ?_
      intro l m hl hml
      unfold isM at hm
      simp only [hl, Bool.not_eq_true, List.any_eq_false] at hm
      simpa using hm m hml
  | mach m =>
    simp only [addOne] at hr
    cases hq : replaceIf e s (e.appOf m) with
    | error err => simp [hq] at hr
    | ok s1 =>
      simp only [hq] at hr
      injection hr with hr
      subst hr
      obtain ⟨h1, h2⟩ := inv_replaceIf ho h hq
      exact inv_add ho h1 _ core link (fun b hb => h2 b hb)

theorem inv_addOneMachine {e : Env} (ho : Owned e) {s s' : State} {H : List Req} (h : Inv e s H)
    {core link : Option Nat} {v : VId} (hr : addOneMachine e s core link v = .ok s') :
    Inv e s' (H ++ [(v, core, link)]) := by
  cases v with
  | app a =>
    simp only [addOneMachine] at hr
    cases hq : replaceIf e s (some a) with
    | error err => simp [hq] at hr
    | ok s1 =>
      simp only [hq] at hr
      obtain ⟨h1, h2⟩ := inv_replaceIf ho h hq
      exact inv_addM ho h1 (h2 a rfl) hr
  | mach m =>
    simp only [addOneMachine] at hr
    cases hq : replaceIf e s (e.appOf m) with
    | error err => simp [hq] at hr
    | ok s1 =>
      simp only [hq] at hr
      injection hr with hr
      subst hr
      obtain ⟨h1, h2⟩ := inv_replaceIf ho h hq
      exact inv_add ho h1 _ core link (fun b hb => h2 b hb)

theorem inv_addSources {e : Env} (ho : Owned e) {core link : Option Nat} (vs : List VId)
    {s s' : State} {H : List Req} (h : Inv e s H) (hr : addSources e core link vs s = .ok s') :
    Inv e s' (H ++ vs.map (fun v => (v, core, link))) := by
  induction vs generalizing s H with
  | nil =>
    simp only [addSources] at hr
    injection hr with hr
    subst hr
    simpa using h
  | cons v vs ih =>
    simp only [addSources] at hr
    cases hq : addOne e s core link v with
    | error err => simp [hq] at hr
    | ok s1 =>
      simp only [hq] at hr
      have := ih (inv_addOne ho h hq) hr
      simpa using this

theorem inv_addMachineSources {e : Env} (ho : Owned e) {core link : Option Nat} (vs : List VId)
    {s s' : State} {H : List Req} (h : Inv e s H)
    (hr : addMachineSources e core link vs s = .ok s') :
    Inv e s' (H ++ vs.map (fun v => (v, core, link))) := by
  induction vs generalizing s H with
  | nil =>
    simp only [addMachineSources] at hr
    injection hr with hr
    subst hr
    simpa using h
  | cons v vs ih =>
    simp only [addMachineSources] at hr
    cases hq : addOneMachine e s core link v with
    | error err => simp [hq] at hr
    | ok s1 =>
      simp only [hq] at hr
      have := ih (inv_addOneMachine ho h hq) hr
      simpa using this

/-- The vertices a call names, with what it asks for them. -/
def named : Op → List Req
  | .add core link vs => vs.map (fun v => (v, core, link))
  | .addMachine core link vs => vs.map (fun v => (v, core, link))

theorem inv_run {e : Env} (ho : Owned e) (os : List Op) {s s' : State} {H : List Req}
    (h : Inv e s H) (hr : run e os s = .ok s') : Inv e s' (H ++ os.flatMap named) := by
  induction os generalizing s H with
  | nil =>
    simp only [run] at hr
    injection hr with hr
    subst hr
    simpa using h
  | cons o os ih =>
    simp only [run] at hr
    cases hq : step e s o with
    | error err => simp [hq] at hr
    | ok s1 =>
      simp only [hq] at hr
      have h1 : Inv e s1 (H ++ named o) := by
        cases o with
        | add core link vs => exact inv_addSources ho vs h hq
        | addMachine core link vs => exact inv_addMachineSources ho vs h hq
      have := ih h1 hr
      simpa using this

theorem mem_named_core {os : List Op} {r : Req} {c : Nat} (hr : r ∈ os.flatMap named)
    (hc : r.2.1 = some c) : ∃ o ∈ os, o.asksCore r.1 c := by
  obtain ⟨o, ho, hr⟩ := List.mem_flatMap.mp hr
  refine ⟨o, ho, ?_⟩
  cases o with
  | add core link vs =>
    obtain ⟨v, hv, rfl⟩ := List.mem_map.mp hr
    exact ⟨hc, hv⟩
  | addMachine core link vs =>
    obtain ⟨v, hv, rfl⟩ := List.mem_map.mp hr
    exact ⟨hc, hv⟩

theorem mem_named_link {os : List Op} {r : Req} {c : Nat} (hr : r ∈ os.flatMap named)
    (hc : r.2.2 = some c) : ∃ o ∈ os, o.asksLink r.1 c := by
  obtain ⟨o, ho, hr⟩ := List.mem_flatMap.mp hr
  refine ⟨o, ho, ?_⟩
  cases o with
  | add core link vs =>
    obtain ⟨v, hv, rfl⟩ := List.mem_map.mp hr
    exact ⟨hc, hv⟩
  | addMachine core link vs =>
    obtain ⟨v, hv, rfl⟩ := List.mem_map.mp hr
    exact ⟨hc, hv⟩

theorem asksCore_named {os : List Op} {o : Op} {v : VId} {c : Nat} (ho : o ∈ os)
    (h : o.asksCore v c) : ∃ r ∈ os.flatMap named, r.1 = v ∧ r.2.1 = some c := by
  cases o with
  | add core link vs =>
    exact ⟨(v, core, link), List.mem_flatMap.mpr ⟨_, ho, List.mem_map.mpr ⟨v, h.2, rfl⟩⟩, rfl, h.1⟩
  | addMachine core link vs =>
    exact ⟨(v, core, link), List.mem_flatMap.mpr ⟨_, ho, List.mem_map.mpr ⟨v, h.2, rfl⟩⟩, rfl, h.1⟩

theorem asksLink_named {os : List Op} {o : Op} {v : VId} {c : Nat} (ho : o ∈ os)
    (h : o.asksLink v c) : ∃ r ∈ os.flatMap named, r.1 = v ∧ r.2.2 = some c := by
  cases o with
  | add core link vs =>
    exact ⟨(v, core, link), List.mem_flatMap.mpr ⟨_, ho, List.mem_map.mpr ⟨v, h.2, rfl⟩⟩, rfl, h.1⟩
  | addMachine core link vs =>
    exact ⟨(v, core, link), List.mem_flatMap.mpr ⟨_, ho, List.mem_map.mpr ⟨v, h.2, rfl⟩⟩, rfl, h.1⟩

/-! ### No mixing: exactly what was asked -/

/-- What holds after the requests `H` if nothing was replaced. -/
structure Exact (s : State) (H : List Req) : Prop where
  wf : WF s
  inj : ∀ u v p, s.at_.get? u = some p → s.at_.get? v = some p → u = v
  same : ∀ v, s.lists v = gather H v

theorem gather_snoc (H : List Req) (v u : VId) (core link : Option Nat) :
    gather (H ++ [(v, core, link)]) u =
      if v = u then some (push core link ((gather H u).getD ([], []))) else gather H u := by
  unfold gather
  by_cases hv : v = u
  · rw [if_pos hv, if_pos ⟨(v, core, link), by simp, hv⟩]
    by_cases h : ∃ r ∈ H, r.1 = u
    · rw [if_pos h]
      simp only [List.filter_append, List.filter_cons, hv, decide_true, if_true, List.filter_nil,
        List.filterMap_append, Option.getD_some, push]
      cases core <;> cases link <;> simp
    · rw [if_neg h]
      have hf : H.filter (fun r => decide (r.1 = u)) = [] := by
        rw [List.filter_eq_nil_iff]
        intro r hr hd
        exact h ⟨r, hr, by simpa using hd⟩
      simp only [List.filter_append, hf, List.filter_cons, hv, decide_true, if_true,
        List.filter_nil, List.nil_append, Option.getD_none, push]
      cases core <;> cases link <;> simp
  · rw [if_neg hv]
    have hf : (H ++ [(v, core, link)]).filter (fun r => decide (r.1 = u)) =
        H.filter (fun r => decide (r.1 = u)) := by
      simp [List.filter_append, hv]
    rw [hf]
    by_cases h : ∃ r ∈ H, r.1 = u
    · rw [if_pos h, if_pos]
      obtain ⟨r, hr, h⟩ := h
      exact ⟨r, List.mem_append_left _ hr, h⟩
    · rw [if_neg h, if_neg]
      rintro ⟨r, hr, h'⟩
      rcases List.mem_append.mp hr with hr | hr
      · exact h ⟨r, hr, h'⟩
      · simp only [List.mem_singleton] at hr
        subst hr
        exact hv h'

theorem exact_add {s : State} {H : List Req} (h : Exact s H) (v : VId) (core link : Option Nat) :
    Exact (addSource s v core link) (H ++ [(v, core, link)]) := by
  have hinj : ∀ u w p, (ensure s v).at_.get? u = some p → (ensure s v).at_.get? w = some p →
      u = w := by
    intro u w p hu hw
    rw [ensure_get] at hu hw
    split at hu
    · rename_i h1
      split at hw
      · rename_i h2; rw [← h1.1, ← h2.1]
      · injection hu with hu
        have := h.wf w p hw
        omega
    · split at hw
      · injection hw with hw
        have := h.wf u p hu
        omega
      · exact h.inj u w p hu hw
  refine ⟨add_wf h.wf v core link, ?_, ?_⟩
  · intro u w p hu hw
    rw [add_get] at hu hw
    exact hinj u w p hu hw
  · intro u
    rw [add_lists, gather_snoc]
    by_cases hv : v = u
    · subst hv
      rw [if_pos rfl, if_pos rfl, ensure_lists h.wf, ← h.same]
      cases hg : s.at_.get? v with
      | none =>
        have := (lists_none h.wf).mpr hg
        simp [this]
      | some p =>
        simp only [reduceCtorEq, and_false, if_false]
        cases hl : s.lists v with
        | none => rw [lists_none h.wf, hg] at hl; cases hl
        | some L => simp
    · rw [if_neg hv, if_neg, ensure_lists h.wf, if_neg (fun hh => hv hh.1), h.same]
      intro he
      obtain ⟨p, hp⟩ := ensure_self s v
      exact hv (hinj v u p hp (by rw [he, hp]))

theorem exact_has {s : State} {H : List Req} (h : Exact s H) (v : VId) :
    s.has v = true ↔ ∃ r ∈ H, r.1 = v := by
  rw [← lists_isSome h.wf, h.same]
  unfold gather
  split
  · simp_all
  · simp_all

theorem exact_addAll {s : State} {H : List Req} (h : Exact s H) (core link : Option Nat)
    (l : List Nat) :
    Exact (addAll s core link l) (H ++ l.map (fun m => (VId.mach m, core, link))) := by
  induction l generalizing s H with
  | nil => simpa [addAll] using h
  | cons m l ih =>
    rw [addAll]
    have h2 := ih (exact_add h (.mach m) core link)
    simpa using h2

/-- The call, one vertex at a time. -/
def singles : Op → List Op
  | .add core link vs => vs.map (fun v => .add core link [v])
  | .addMachine core link vs => vs.map (fun v => .addMachine core link [v])

theorem run_append (e : Env) (os ps : List Op) (s : State) :
    run e (os ++ ps) s = match run e os s with
      | .error err => .error err
      | .ok s => run e ps s := by
  induction os generalizing s with
  | nil => rfl
  | cons o os ih =>
    simp only [List.cons_append, run]
    cases step e s o with
    | error err => rfl
    | ok s1 => exact ih s1

theorem run_single (e : Env) (o : Op) (s : State) : run e (singles o) s = step e s o := by
  cases o with
  | add core link vs =>
    induction vs generalizing s with
    | nil => rfl
    | cons v vs ih =>
      simp only [singles, List.map_cons, run, step, addSources] at ih ⊢
      cases addOne e s core link v with
      | error err => rfl
      | ok s1 => exact ih s1
  | addMachine core link vs =>
    induction vs generalizing s with
    | nil => rfl
    | cons v vs ih =>
      simp only [singles, List.map_cons, run, step, addMachineSources] at ih ⊢
      cases addOneMachine e s core link v with
      | error err => rfl
      | ok s1 => exact ih s1

theorem run_singles (e : Env) (os : List Op) (s : State) :
    run e (os.flatMap singles) s = run e os s := by
  induction os generalizing s with
  | nil => rfl
  | cons o os ih =>
    rw [List.flatMap_cons, run_append, run_single, run]
    cases step e s o with
    | error err => rfl
    | ok s1 => exact ih s1

theorem requests_singles (e : Env) (os : List Op) :
    (os.flatMap singles).flatMap (requests e) = os.flatMap (requests e) := by
  rw [List.flatMap_assoc]
  congr 1
  funext o
  cases o with
  | add core link vs =>
    simp only [singles, List.flatMap_map, requests, List.map_cons, List.map_nil]
    induction vs with
    | nil => rfl
    | cons v vs ih => simp [ih]
  | addMachine core link vs =>
    simp only [singles, List.flatMap_map, requests, List.flatMap_cons, List.flatMap_nil,
      List.append_nil]

theorem unmixed_singles {e : Env} {os : List Op} (h : Unmixed e os) :
    Unmixed e (os.flatMap singles) := by
  intro a ⟨o, ho, hw⟩ ⟨o', ho', hs⟩
  obtain ⟨p, hp, ho⟩ := List.mem_flatMap.mp ho
  obtain ⟨p', hp', ho'⟩ := List.mem_flatMap.mp ho'
  refine h a ⟨p, hp, ?_⟩ ⟨p', hp', ?_⟩
  · cases p with
    | add core link vs =>
      obtain ⟨v, hv, rfl⟩ := List.mem_map.mp ho
      simp only [Op.whole, List.mem_singleton] at hw
      show VId.app a ∈ vs
      exact hw ▸ hv
    | addMachine core link vs =>
      obtain ⟨v, hv, rfl⟩ := List.mem_map.mp ho
      exact hw.elim
  · cases p' with
    | add core link vs =>
      obtain ⟨v, hv, rfl⟩ := List.mem_map.mp ho'
      obtain ⟨m, hm, hs⟩ := hs
      simp only [List.mem_singleton] at hm
      exact ⟨m, hm ▸ hv, hs⟩
    | addMachine core link vs =>
      obtain ⟨v, hv, rfl⟩ := List.mem_map.mp ho'
      rcases hs with hs | ⟨m, hm, hs⟩
      · simp only [List.mem_singleton] at hs
        exact Or.inl (hs ▸ hv)
      · simp only [List.mem_singleton] at hm
        exact Or.inr ⟨m, hm ▸ hv, hs⟩

/-- A request for an application vertex comes from a call naming it as a whole. -/
theorem whole_of_request {e : Env} {os : List Op} {r : Req} {a : Nat}
    (hr : r ∈ os.flatMap (requests e)) (h : r.1 = .app a) : ∃ o ∈ os, o.whole a := by
  obtain ⟨o, ho, hr⟩ := List.mem_flatMap.mp hr
  refine ⟨o, ho, ?_⟩
  cases o with
  | add core link vs =>
    obtain ⟨v, hv, rfl⟩ := List.mem_map.mp hr
    simp only at h
    show VId.app a ∈ vs
    exact h ▸ hv
  | addMachine core link vs =>
    obtain ⟨v, hv, hr⟩ := List.mem_flatMap.mp hr
    cases v with
    | app b =>
      obtain ⟨m, _, rfl⟩ := List.mem_map.mp hr
      cases h
    | mach m =>
      simp only [List.mem_singleton] at hr
      subst hr
      cases h

/-- A request for a machine vertex comes from a call splitting its application vertex. -/
theorem split_of_request {e : Env} (hw : Owned e) {os : List Op} {r : Req} {m a : Nat}
    (hr : r ∈ os.flatMap (requests e)) (h : r.1 = .mach m) (ha : e.appOf m = some a) :
    ∃ o ∈ os, o.split e a := by
  obtain ⟨o, ho, hr⟩ := List.mem_flatMap.mp hr
  refine ⟨o, ho, ?_⟩
  cases o with
  | add core link vs =>
    obtain ⟨v, hv, rfl⟩ := List.mem_map.mp hr
    simp only at h
    exact ⟨m, h ▸ hv, ha⟩
  | addMachine core link vs =>
    obtain ⟨v, hv, hr⟩ := List.mem_flatMap.mp hr
    cases v with
    | app b =>
      obtain ⟨m', hm', rfl⟩ := List.mem_map.mp hr
      simp only [VId.mach.injEq] at h
      subst h
      cases hb : e.outgoing b with
      | none => simp [hb] at hm'
      | some l =>
        simp only [hb, Option.getD_some] at hm'
        have := hw b l m' hb hm'
        rw [ha] at this
        injection this with this
        exact Or.inl (this ▸ hv)
    | mach m' =>
      simp only [List.mem_singleton] at hr
      subst hr
      simp only [VId.mach.injEq] at h
      subst h
      exact Or.inr ⟨m', hv, ha⟩

/-- Nothing is replaced if nothing is mixed. -/
theorem replaceIf_unmixed {e : Env} {os : List Op} {s : State}
    (h : Exact s (os.flatMap (requests e))) {a : Option Nat}
    (hn : ∀ b, a = some b → ¬ ∃ o ∈ os, o.whole b) : replaceIf e s a = .ok s := by
  unfold replaceIf
  cases a with
  | none => rfl
  | some a =>
    simp only
    rw [if_neg]
    intro hh
    obtain ⟨r, hr', h1⟩ := (exact_has h _).mp hh
    exact hn a rfl (whole_of_request hr' h1)

theorem exact_step {e : Env} (ho : Owned e) {os : List Op} {o : Op} {s s' : State}
    (h : Exact s (os.flatMap (requests e))) (hu : Unmixed e (os ++ [o]))
    (h1 : ∃ core link v, o = .add core link [v] ∨ o = .addMachine core link [v])
    (hr : step e s o = .ok s') : Exact s' ((os ++ [o]).flatMap (requests e)) := by
  have hno : ∀ b, o.split e b → ¬ ∃ o ∈ os, o.whole b := by
    intro b hb ⟨p, hp, hw⟩
    exact hu b ⟨p, List.mem_append_left _ hp, hw⟩
      ⟨o, List.mem_append_right _ (List.mem_singleton.mpr rfl), hb⟩
  have hnw : ∀ b, o.whole b → ¬ ∃ o ∈ os, o.split e b := by
    intro b hb ⟨p, hp, hw⟩
    exact hu b ⟨o, List.mem_append_right _ (List.mem_singleton.mpr rfl), hb⟩
      ⟨p, List.mem_append_left _ hp, hw⟩
  rw [List.flatMap_append, List.flatMap_singleton]
  obtain ⟨core, link, v, rfl | rfl⟩ := h1
  · simp only [step, addSources] at hr
    cases v with
    | app a =>
      have hm : isM e s a = false := by
        cases hm : isM e s a with
        | false => rfl
        | true =>
          exfalso
          unfold isM at hm
          cases hl : e.outgoing a with
          | none => simp [hl] at hm
          | some l =>
            simp only [hl, List.any_eq_true] at hm
            obtain ⟨m, hm, hmm⟩ := hm
            obtain ⟨r, hr', h1⟩ := (exact_has h _).mp hmm
            exact hnw a (by simp [Op.whole]) (split_of_request ho hr' h1 (ho a l m hl hm))
      simp only [addOne, hm] at hr
      injection hr with hr
      subst hr
      exact exact_add h _ core link
    | mach m =>
      have hq := replaceIf_unmixed h (a := e.appOf m) (fun b hb => hno b ⟨m, by simp, hb⟩)
      simp only [addOne, hq] at hr
      injection hr with hr
      subst hr
      exact exact_add h _ core link
  · simp only [step, addMachineSources] at hr
    cases v with
    | app a =>
      have hq := replaceIf_unmixed h (a := some a) (fun b hb => by
        injection hb with hb
        exact hno b (Or.inl (by simp [hb])))
      simp only [addOneMachine, hq] at hr
      unfold addM at hr
      cases hl : e.outgoing a with
      | none => simp [hl] at hr
      | some l =>
        simp only [hl] at hr
        injection hr with hr
        subst hr
        simpa [requests, hl] using exact_addAll h core link l
    | mach m =>
      have hq := replaceIf_unmixed h (a := e.appOf m) (fun b hb => hno b (Or.inr ⟨m, by simp, hb⟩))
      simp only [addOneMachine, hq] at hr
      injection hr with hr
      subst hr
      simpa [requests] using exact_add h (.mach m) core link

theorem unmixed_left {e : Env} {os ps : List Op} (h : Unmixed e (os ++ ps)) : Unmixed e os := by
  intro a ⟨r, hr, h1⟩ ⟨r', hr', h2⟩
  exact h a ⟨r, List.mem_append_left _ hr, h1⟩ ⟨r', List.mem_append_left _ hr', h2⟩

theorem exact_run {e : Env} (ho : Owned e) (ps os : List Op) {s s' : State}
    (h : Exact s (os.flatMap (requests e))) (hu : Unmixed e (os ++ ps))
    (h1 : ∀ o ∈ ps, ∃ core link v, o = .add core link [v] ∨ o = .addMachine core link [v])
    (hr : run e ps s = .ok s') : Exact s' ((os ++ ps).flatMap (requests e)) := by
  induction ps generalizing s os with
  | nil =>
    simp only [run] at hr
    injection hr with hr
    subst hr
    simpa using h
  | cons o ps ih =>
    simp only [run] at hr
    cases hq : step e s o with
    | error err => simp [hq] at hr
    | ok s1 =>
      simp only [hq] at hr
      have hu' : Unmixed e ((os ++ [o]) ++ ps) := by simpa using hu
      have := ih (os ++ [o]) (exact_step ho h (unmixed_left hu') (h1 o List.mem_cons_self) hq) hu'
        (fun p hp => h1 p (List.mem_cons_of_mem _ hp)) hr
      simpa using this

theorem exact_empty : Exact State.empty [] := by
  refine ⟨?_, ?_, ?_⟩
  · intro v p h; simp [State.empty, Dict.get?_nil] at h
  · intro u v p h; simp [State.empty, Dict.get?_nil] at h
  · intro v; simp [State.empty, State.lists, Dict.get?_nil, gather]

end Pacman.Targets
