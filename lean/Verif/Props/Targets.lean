import Verif.Proofs.Targets
/-
C40: route target bookkeeping keeps machine vertices separate (false; partial).
C70: route target bookkeeping loses nothing.
-/

namespace Pacman.Targets

open Alloc (VId)

/-- The statement of C40 in full: every core that a machine vertex reaches was asked for it, or for
the application vertex sending with it. It does not hold: `C40_false`. -/
def C40_full : Prop :=
  ∀ (e : Env) (os : List Op) (s : State), Owned e → run e os State.empty = .ok s →
    ∀ m p c, Serves e s m p → c ∈ p.1 → ∃ o ∈ os, ∃ v, Covers e v m ∧ o.asksCore v c

/-- Application vertex 0 sends with machine vertices 0 and 1. -/
def pairEnv : Env := ⟨fun m => if m ≤ 1 then some 0 else none, fun a => if a = 0 then some [0, 1] else none⟩

theorem pairEnv_owned : Owned pairEnv := by
  intro a l m h hm
  unfold pairEnv at *
  simp only at *
  split at h
  · rename_i ha
    injection h with h
    subst h
    subst ha
    simp only [List.mem_cons, List.not_mem_nil, or_false] at hm
    rw [if_pos (by omega)]
  · cases h

/-- The application vertex targets core 1; then machine vertex 0 alone targets core 2. -/
def pairOps : List Op := [.add (some 1) none [.app 0], .add (some 2) none [.mach 0]]

/-- C40 fails: core 2 was asked for machine vertex 0 only, and machine vertex 1 gets it too. -/
theorem C40_false : ¬ C40_full := by
  intro h
  obtain ⟨s, hs⟩ : ∃ s, run pairEnv pairOps State.empty = .ok s ∧
      s.lists (.mach 1) = some ([1, 2], []) := ⟨_, rfl, by decide⟩
  obtain ⟨o, ho, v, hc, ha⟩ := h pairEnv pairOps s pairEnv_owned hs.1 1 ([1, 2], []) 2
    (Or.inl hs.2) (by simp)
  simp only [pairOps, List.mem_cons, List.not_mem_nil, or_false] at ho
  rcases ho with rfl | rfl
  · simp [Op.asksCore] at ha
  · simp only [Op.asksCore, List.mem_cons, List.not_mem_nil, or_false, true_and] at ha
    subst ha
    rcases hc with hc | ⟨a, l, hc, _⟩
    · cases hc
    · cases hc

/-- C40, first part that holds: whatever was added and in whatever order, a core or link in the lists
of a vertex was asked for by a call naming a vertex of the same application vertex. Nothing crosses
from one application vertex to another. Missing: between machine vertices of one application vertex
it can cross. -/
theorem C40_family_partial {e : Env} (ho : Owned e) {os : List Op} {s : State}
    (hr : run e os State.empty = .ok s) {u : VId} {p : List Nat × List Nat}
    (hp : s.lists u = some p) :
    (∀ c ∈ p.1, ∃ o ∈ os, ∃ v, family e v = family e u ∧ o.asksCore v c) ∧
    (∀ k ∈ p.2, ∃ o ∈ os, ∃ v, family e v = family e u ∧ o.asksLink v k) := by
  have h := inv_run ho os (inv_empty e) hr
  refine ⟨fun c hc => ?_, fun k hk => ?_⟩
  · obtain ⟨r, hr', h1, h2⟩ := h.fromC u p c hp hc
    obtain ⟨o, ho', h3⟩ := mem_named_core (by simpa using hr') h2
    exact ⟨o, ho', r.1, h1, h3⟩
  · obtain ⟨r, hr', h1, h2⟩ := h.fromL u p k hp hk
    obtain ⟨o, ho', h3⟩ := mem_named_link (by simpa using hr') h2
    exact ⟨o, ho', r.1, h1, h3⟩

example : ∃ s, run pairEnv pairOps State.empty = .ok s ∧ s.lists (.mach 1) = some ([1, 2], []) :=
  ⟨_, rfl, by decide⟩

/-- C40, second part that holds: if every application vertex is named either always as a whole or
always by machine vertices, each vertex has exactly the cores and links asked for it, in the order
asked, and no others. Missing: the order "as a whole, then by machine vertices". -/
theorem C40_exact_partial {e : Env} (ho : Owned e) {os : List Op} {s : State}
    (hr : run e os State.empty = .ok s) (hu : Unmixed e os) (v : VId) :
    s.lists v = gather (os.flatMap (requests e)) v := by
  have h := exact_run ho (os.flatMap singles) [] exact_empty (by simpa using unmixed_singles hu)
    (by
      intro o ho
      obtain ⟨p, _, ho⟩ := List.mem_flatMap.mp ho
      cases p with
      | add core link vs =>
        obtain ⟨v, _, rfl⟩ := List.mem_map.mp ho
        exact ⟨core, link, v, Or.inl rfl⟩
      | addMachine core link vs =>
        obtain ⟨v, _, rfl⟩ := List.mem_map.mp ho
        exact ⟨core, link, v, Or.inr rfl⟩)
    (s' := s) (by rw [run_singles]; exact hr)
  rw [h.same v]
  simp only [List.nil_append, requests_singles]

/-- Two application vertices, one named as a whole and one by machine vertices. -/
def twoEnv : Env :=
  ⟨fun m => if m ≤ 1 then some 0 else if m = 2 then some 1 else none,
   fun a => if a = 0 then some [0, 1] else if a = 1 then some [2] else none⟩

example : ∃ s, run twoEnv [.addMachine (some 4) none [.app 0], .add none (some 3) [.app 1],
      .add (some 5) none [.mach 1, .app 1]] State.empty = .ok s ∧
    s.lists (.mach 0) = some ([4], []) ∧ s.lists (.mach 1) = some ([4, 5], []) ∧
    s.lists (.app 1) = some ([5], [3]) ∧ s.lists (.mach 2) = none :=
  ⟨_, rfl, by decide, by decide, by decide, by decide⟩

example : Unmixed twoEnv [.addMachine (some 4) none [.app 0], .add none (some 3) [.app 1],
      .add (some 5) none [.mach 1, .app 1]] := by
  intro a hw hs
  obtain ⟨o, ho, hw⟩ := hw
  obtain ⟨o', ho', hs⟩ := hs
  simp only [List.mem_cons, List.not_mem_nil, or_false] at ho ho'
  have ha : a = 1 := by
    rcases ho with rfl | rfl | rfl <;> simpa [Op.whole] using hw
  subst ha
  rcases ho' with rfl | rfl | rfl <;> simp [Op.split, twoEnv] at hs

theorem ensure_keys {s : State} (h : (Dict.keys s.at_).Nodup) (v : VId) : (Dict.keys (ensure s v).at_).Nodup := by
  unfold ensure
  split
  · exact h
  · exact Dict.nodup_set h _ _

theorem addSource_keys {s : State} (h : (Dict.keys s.at_).Nodup) (v : VId) (c k : Option Nat) :
    (Dict.keys (addSource s v c k).at_).Nodup := by
  unfold addSource
  dsimp only
  split
  · exact ensure_keys h v
  · exact ensure_keys h v

theorem addAll_keys (c k : Option Nat) (l : List Nat) : ∀ {s : State}, (Dict.keys s.at_).Nodup →
    (Dict.keys (addAll s c k l).at_).Nodup := by
  induction l with
  | nil => exact fun h => h
  | cons m l ih => exact fun h => ih (addSource_keys h _ _ _)

theorem setAll_keys (p : Nat) (l : List Nat) : ∀ {d : Dict VId Nat}, (Dict.keys d).Nodup → (Dict.keys (setAll d p l)).Nodup := by
  induction l with
  | nil => exact fun h => h
  | cons m l ih => exact fun h => ih (Dict.nodup_set h _ _)

theorem addM_keys {e : Env} {s s' : State} {a : Nat} {c k : Option Nat} (h : (Dict.keys s.at_).Nodup)
    (hr : addM e s a c k = .ok s') : (Dict.keys s'.at_).Nodup := by
  unfold addM at hr
  split at hr
  · cases hr
  · cases hr; exact addAll_keys _ _ _ h

theorem replaceIf_keys {e : Env} {s s' : State} {a : Option Nat} (h : (Dict.keys s.at_).Nodup)
    (hr : replaceIf e s a = .ok s') : (Dict.keys s'.at_).Nodup := by
  unfold replaceIf at hr
  split at hr
  · cases hr; exact h
  · split at hr
    · unfold replaceApp at hr
      split at hr
      · cases hr
      · split at hr
        · cases hr
        · cases hr
          exact setAll_keys _ _ (List.Sublist.nodup (List.Sublist.map _ List.filter_sublist) h)
    · cases hr; exact h

theorem addSources_keys (e : Env) (c k : Option Nat) (vs : List VId) : ∀ {s s' : State}, (Dict.keys s.at_).Nodup →
    addSources e c k vs s = .ok s' → (Dict.keys s'.at_).Nodup := by
  induction vs with
  | nil => intro s s' h hr; cases hr; exact h
  | cons v vs ih =>
    intro s s' h hr
    unfold addSources at hr
    split at hr
    · cases hr
    · rename_i s1 h1
      refine ih ?_ hr
      unfold addOne at h1
      split at h1
      · split at h1
        · exact addM_keys h h1
        · cases h1; exact addSource_keys h _ _ _
      · split at h1
        · cases h1
        · rename_i s2 h2
          cases h1; exact addSource_keys (replaceIf_keys h h2) _ _ _

theorem addMachineSources_keys (e : Env) (c k : Option Nat) (vs : List VId) : ∀ {s s' : State}, (Dict.keys s.at_).Nodup →
    addMachineSources e c k vs s = .ok s' → (Dict.keys s'.at_).Nodup := by
  induction vs with
  | nil => intro s s' h hr; cases hr; exact h
  | cons v vs ih =>
    intro s s' h hr
    unfold addMachineSources at hr
    split at hr
    · cases hr
    · rename_i s1 h1
      refine ih ?_ hr
      unfold addOneMachine at h1
      split at h1
      · split at h1
        · cases h1
        · rename_i s2 h2
          exact addM_keys (replaceIf_keys h h2) h1
      · split at h1
        · cases h1
        · rename_i s2 h2
          cases h1; exact addSource_keys (replaceIf_keys h h2) _ _ _

theorem run_keys (e : Env) (os : List Op) : ∀ {s s' : State}, (Dict.keys s.at_).Nodup → run e os s = .ok s' →
    (Dict.keys s'.at_).Nodup := by
  induction os with
  | nil => intro s s' h hr; cases hr; exact h
  | cons o os ih =>
    intro s s' h hr
    unfold run at hr
    split at hr
    · cases hr
    · rename_i s1 h1
      refine ih ?_ hr
      cases o with
      | add c k vs => exact addSources_keys e c k vs h h1
      | addMachine c k vs => exact addMachineSources_keys e c k vs h h1

/-- C70: `targets_by_source` has each vertex once, with the lists that `get_targets_for_source` gives, and no other. -/
theorem C70_items {e : Env} (ho : Owned e) {os : List Op} {s : State} (hr : run e os State.empty = .ok s) :
    (s.items.map (·.1)).Nodup ∧
    ∀ v x, (v, x) ∈ s.items ↔ ∃ p, x = some p ∧ s.lists v = some p := by
  have hk := run_keys e os (s := State.empty) (by exact List.nodup_nil) hr
  have hw := (inv_run ho os (inv_empty e) hr).wf
  refine ⟨?_, fun v x => ?_⟩
  · unfold State.items
    rw [List.map_map]
    exact hk
  · unfold State.items State.lists
    constructor
    · intro h
      obtain ⟨q, h1, h2⟩ := List.mem_map.1 h
      cases h2
      have hg := Dict.get?_of_mem hk h1
      have hlt := hw _ _ hg
      exact ⟨s.heap[q.2], List.getElem?_eq_getElem hlt, by rw [hg]; exact List.getElem?_eq_getElem hlt⟩
    · rintro ⟨p, rfl, h2⟩
      cases hg : s.at_.get? v with
      | none => rw [hg] at h2; cases h2
      | some a =>
        rw [hg] at h2
        exact List.mem_map.2 ⟨(v, a), Dict.mem_of_get? hg, by rw [← h2]⟩

example : ∃ s, run twoEnv [.add (some 4) none [.app 0], .add none (some 3) [.mach 1]] State.empty = .ok s ∧
    s.items = [(.mach 0, some ([4], [3])), (.mach 1, some ([4], [3]))] :=
  ⟨_, rfl, by decide⟩

/-- C70: nothing asked for is lost: after any calls, in any order, a machine vertex reaches every core
that any call asked for it or for the application vertex sending with it. -/
theorem C70_cores {e : Env} (ho : Owned e) {os : List Op} {s : State}
    (hr : run e os State.empty = .ok s) {o : Op} (hop : o ∈ os) {v : VId} {c m : Nat}
    (ha : o.asksCore v c) (hc : Covers e v m) : ∃ p, Serves e s m p ∧ c ∈ p.1 := by
  have h := inv_run ho os (inv_empty e) hr
  obtain ⟨r, hr', h1, h2⟩ := asksCore_named hop ha
  obtain ⟨p, hs, h3, _⟩ := h.keep r (by simpa using hr') m (h1 ▸ hc)
  exact ⟨p, hs, h3 c h2⟩

/-- C70: the same for links. -/
theorem C70_links {e : Env} (ho : Owned e) {os : List Op} {s : State}
    (hr : run e os State.empty = .ok s) {o : Op} (hop : o ∈ os) {v : VId} {k m : Nat}
    (ha : o.asksLink v k) (hc : Covers e v m) : ∃ p, Serves e s m p ∧ k ∈ p.2 := by
  have h := inv_run ho os (inv_empty e) hr
  obtain ⟨r, hr', h1, h2⟩ := asksLink_named hop ha
  obtain ⟨p, hs, _, h3⟩ := h.keep r (by simpa using hr') m (h1 ▸ hc)
  exact ⟨p, hs, h3 k h2⟩

example : Covers pairEnv (.app 0) 1 ∧ Op.asksCore (.app 0) 1 (.add (some 1) none [.app 0]) :=
  ⟨Or.inr ⟨0, [0, 1], rfl, rfl, by decide⟩, rfl, by decide⟩

/-- C70: an application vertex and a machine vertex it sends with never have entries side by side
(`add_path_entry` refuses the pair). -/
theorem C70_apart {e : Env} (ho : Owned e) {os : List Op} {s : State}
    (hr : run e os State.empty = .ok s) {a m : Nat} {l : List Nat} (hl : e.outgoing a = some l)
    (hm : m ∈ l) : s.lists (.app a) = none ∨ s.lists (.mach m) = none := by
  have h := inv_run ho os (inv_empty e) hr
  cases ha : s.has (.app a) with
  | false => exact Or.inl ((lists_none h.wf).mpr ((has_false _ _).mp ha))
  | true => exact Or.inr ((lists_none h.wf).mpr ((has_false _ _).mp (h.excl a l m hl hm ha)))

example : ∃ s, run pairEnv pairOps State.empty = .ok s ∧ s.lists (.app 0) = none ∧
    s.lists (.mach 0) ≠ none := ⟨_, rfl, by decide, by decide⟩

/-- C70: additions fail only where an application vertex has no splitter. -/
theorem C70_succeeds {e : Env} (hs : ∀ a, ∃ l, e.outgoing a = some l) (os : List Op) (s : State) :
    ∃ s', run e os s = .ok s' := by
  have hrep : ∀ (s : State) (a : Option Nat), ∃ s', replaceIf e s a = .ok s' := by
    intro s a
    unfold replaceIf
    cases a with
    | none => exact ⟨s, rfl⟩
    | some a =>
      simp only
      split
      · rename_i hh
        obtain ⟨p, hp⟩ := (has_iff _ _).mp hh
        obtain ⟨l, hl⟩ := hs a
        unfold replaceApp
        exact ⟨⟨s.heap, setAll (s.at_.erase (.app a)) p l⟩, by simp only [hp, hl]⟩
      · exact ⟨s, rfl⟩
  have haddM : ∀ (s : State) (a : Nat) (core link : Option Nat),
      ∃ s', addM e s a core link = .ok s' := by
    intro s a core link
    obtain ⟨l, hl⟩ := hs a
    unfold addM
    exact ⟨addAll s core link l, by simp only [hl]⟩
  have h1 : ∀ (s : State) (core link : Option Nat) (v : VId),
      ∃ s', addOne e s core link v = .ok s' := by
    intro s core link v
    cases v with
    | app a =>
      simp only [addOne]
      split
      · exact haddM s a core link
      · exact ⟨_, rfl⟩
    | mach m =>
      obtain ⟨s1, h⟩ := hrep s (e.appOf m)
      exact ⟨addSource s1 (.mach m) core link, by simp only [addOne, h]⟩
  have h2 : ∀ (s : State) (core link : Option Nat) (v : VId),
      ∃ s', addOneMachine e s core link v = .ok s' := by
    intro s core link v
    cases v with
    | app a =>
      obtain ⟨s1, h⟩ := hrep s (some a)
      obtain ⟨s2, h'⟩ := haddM s1 a core link
      exact ⟨s2, by simp only [addOneMachine, h, h']⟩
    | mach m =>
      obtain ⟨s1, h⟩ := hrep s (e.appOf m)
      exact ⟨addSource s1 (.mach m) core link, by simp only [addOneMachine, h]⟩
  have h3 : ∀ (core link : Option Nat) (vs : List VId) (s : State),
      ∃ s', addSources e core link vs s = .ok s' := by
    intro core link vs
    induction vs with
    | nil => exact fun s => ⟨s, rfl⟩
    | cons v vs ih =>
      intro s
      obtain ⟨s1, h⟩ := h1 s core link v
      obtain ⟨s2, h'⟩ := ih s1
      exact ⟨s2, by simp only [addSources, h, h']⟩
  have h4 : ∀ (core link : Option Nat) (vs : List VId) (s : State),
      ∃ s', addMachineSources e core link vs s = .ok s' := by
    intro core link vs
    induction vs with
    | nil => exact fun s => ⟨s, rfl⟩
    | cons v vs ih =>
      intro s
      obtain ⟨s1, h⟩ := h2 s core link v
      obtain ⟨s2, h'⟩ := ih s1
      exact ⟨s2, by simp only [addMachineSources, h, h']⟩
  induction os generalizing s with
  | nil => exact ⟨s, rfl⟩
  | cons o os ih =>
    have : ∃ s1, step e s o = .ok s1 := by
      cases o with
      | add core link vs => exact h3 core link vs s
      | addMachine core link vs => exact h4 core link vs s
    obtain ⟨s1, h⟩ := this
    obtain ⟨s2, h'⟩ := ih s1
    exact ⟨s2, by simp only [run, h, h']⟩

example : ∀ a, ∃ l, (⟨fun m => some (m / 2), fun a => some [2 * a, 2 * a + 1]⟩ : Env).outgoing a =
    some l := fun a => ⟨_, rfl⟩

/-- C70: `ensure_source` and `get_targets_for_source` change the lists of no vertex and leave a new
vertex with empty lists. -/
theorem C70_ensure {e : Env} (ho : Owned e) {os : List Op} {s : State}
    (hr : run e os State.empty = .ok s) (v u : VId) :
    (ensure s v).lists u =
      (if u = v ∧ s.lists v = none then some ([], []) else s.lists u) ∧
    (getTargets s v).1.lists u = (ensure s v).lists u ∧
    (getTargets s v).2 = some ((s.lists v).getD ([], [])) := by
  have h := inv_run ho os (inv_empty e) hr
  refine ⟨?_, rfl, ?_⟩
  · rw [ensure_lists h.wf]
    by_cases hc : v = u ∧ s.at_.get? v = none
    · rw [if_pos hc, if_pos ⟨hc.1.symm, (lists_none h.wf).mpr hc.2⟩]
    · rw [if_neg hc, if_neg (fun hh => hc ⟨hh.1.symm, (lists_none h.wf).mp hh.2⟩)]
  · show (ensure s v).lists v = _
    rw [ensure_lists h.wf]
    cases hv : s.at_.get? v with
    | none => simp [(lists_none h.wf).mpr hv]
    | some p =>
      simp only [reduceCtorEq, and_false, if_false]
      cases hl : s.lists v with
      | none => rw [lists_none h.wf, hv] at hl; cases hl
      | some L => rfl

example : ∃ s, run pairEnv pairOps State.empty = .ok s ∧
    (getTargets s (.mach 7)).2 = some ([], []) ∧ (getTargets s (.mach 1)).2 = some ([1, 2], []) :=
  ⟨_, rfl, by decide, by decide⟩

end Pacman.Targets
