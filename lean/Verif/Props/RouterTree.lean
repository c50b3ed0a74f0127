import Verif.Proofs.RouterForest
import Verif.Props.RouterPath
/-
C56: the multi-target search connects every target.
C71: the routes stay trees.
C72: the way from a source to a target joins what is there without crossing it.
C73: source to target and on to all target chips.
-/

namespace Pacman.RPath

/-! ### `_route_to_xys` -/

/-- C56: afterwards each target has a route and is reached by following the routes from the first chip
or from a chip that had a route before. -/
theorem C56_connected {T : Topo} {first : XY} {all targets : List XY} {R R' : Routes}
    (h : routeToXys T first all R targets = .ok R') {t : XY} (ht : t ∈ targets) :
    Routed R' t ∧ ∃ r, (Routed R r ∨ r = first) ∧ Leads R' r t := by
  rcases routeToXys_spec T first all targets R with ⟨R1, v, par, D, h1, hI⟩ | ⟨_, _, _, _, _, h1, _⟩
  · rw [h] at h1
    cases h1
    have htv : t ∈ v := by
      apply Classical.byContradiction
      intro hn
      have := (hI.todoOk t).2 ⟨ht, hn⟩
      cases this
    have hr := hI.done t ht htv
    refine ⟨hr, ?_⟩
    rcases hI.rooted t hr with h0 | ⟨_, r, h2, h3⟩
    · exact ⟨t, Or.inl h0, .refl⟩
    · exact ⟨r, h2, h3⟩
  · rw [h] at h1; cases h1

/-- C56: nothing that was there is changed, and every new edge goes over a working link to an existing
chip which is one of the given chips and had no route before. -/
theorem C56_working {T : Topo} {first : XY} {all targets : List XY} {R R' : Routes}
    (h : routeToXys T first all R targets = .ok R') :
    Extends R R' ∧ ∀ a l b, Edge R' a l b → Edge R a l b ∨ (Wired T a l b ∧ ¬ Routed R b) := by
  rcases routeToXys_spec T first all targets R with ⟨R1, v, par, D, h1, hI⟩ | ⟨_, _, _, _, _, h1, _⟩
  · rw [h] at h1
    cases h1
    refine ⟨hI.grows, fun a l b he => ?_⟩
    rcases hI.edges a l b he with h0 | ⟨h2, h3⟩
    · exact Or.inl h0
    · exact Or.inr ⟨(hI.parOk b a l h2).2.2.2, h3⟩
  · rw [h] at h1; cases h1

/-- C56: every chip that gets a route is the first chip or can be walked to through the given chips. -/
theorem C56_inside {T : Topo} {first : XY} {all targets : List XY} {R R' : Routes}
    (h : routeToXys T first all R targets = .ok R') {c : XY} (hc : Routed R' c) :
    Routed R c ∨ WalkIn T (· ∈ all) first c := by
  rcases routeToXys_spec T first all targets R with ⟨R1, v, par, D, h1, hI⟩ | ⟨_, _, _, _, _, h1, _⟩
  · rw [h] at h1
    cases h1
    rcases hI.rooted c hc with h0 | ⟨h2, _⟩
    · exact Or.inl h0
    · exact Or.inr (hI.walkV c h2)
  · rw [h] at h1; cases h1

/-- C56: it always ends; it fails only with `PacmanRoutingException`, and exactly when some target
cannot be walked to through the given chips. -/
theorem C56_fails {T : Topo} {first : XY} {all targets : List XY} {R : Routes} :
    ((∃ e, routeToXys T first all R targets = .error e) ↔
      ∃ t ∈ targets, ¬ WalkIn T (· ∈ all) first t) ∧
    ∀ e, routeToXys T first all R targets = .error e → e = .routing := by
  rcases routeToXys_spec T first all targets R with ⟨R1, v, par, D, h1, hI⟩ | ⟨v, todo, R1, par, D, h1, hne, hI⟩
  · rw [h1]
    refine ⟨⟨?_, ?_⟩, ?_⟩
    · rintro ⟨e, he⟩; cases he
    · rintro ⟨t, ht, hn⟩
      exfalso
      rw [← hI.complete] at hn
      have := (hI.todoOk t).2 ⟨ht, hn⟩
      cases this
    · intro e he; cases he
  · rw [h1]
    refine ⟨⟨fun _ => ?_, fun _ => ⟨_, rfl⟩⟩, ?_⟩
    · cases todo with
      | nil => exact absurd rfl hne
      | cons t todo =>
        have h2 := (hI.todoOk t).1 List.mem_cons_self
        exact ⟨t, h2.1, fun hw => h2.2 (hI.complete.2 hw)⟩
    · intro e he; cases he; rfl

/-- Four chips, (1, 0) in the middle. -/
def starT : Topo where
  chips := [(0, 0), (1, 0), (2, 0), (1, 1)]
  linkAt := fun c l => decide ((c, l) ∈ [((0, 0), 0), ((1, 0), 3), ((1, 0), 0), ((2, 0), 3),
    ((1, 0), 2), (((1, 1), 5) : XY × Nat)])
  over := fun c l => (c.1 + (linkAdd l).1, c.2 + (linkAdd l).2)

example : routeToXys exT (0, 0) exT.chips [((0, 2), [(5, (0, 1))]), ((0, 1), [])]
      [(1, 2), (2, 1), (0, 0)] =
    .ok [((0, 2), [(5, (0, 1))]), ((0, 1), [(1, (1, 2))]), ((0, 0), []), ((1, 2), [(5, (1, 1))]),
      ((2, 1), []), ((1, 1), [(0, (2, 1))])] := by decide +kernel

/-- The chip (1, 0) is not among the given chips. -/
example : routeToXys starT (0, 0) [(0, 0), (2, 0)] [] [(2, 0)] = .error .routing := by decide +kernel

/-- C71: `_route_to_xys` keeps trees: no chip gets a second parent, no cycle is closed. -/
theorem C71_forest {T : Topo} {first : XY} {all targets : List XY} {R R' : Routes}
    (hR : Forest R) (h : routeToXys T first all R targets = .ok R') : Forest R' := by
  rcases routeToXys_spec T first all targets R with ⟨R1, v, par, D, h1, hI⟩ | ⟨_, _, _, _, _, h1, _⟩
  · rw [h] at h1
    cases h1
    refine forest_extend hR (N := fun a l b => par b = some (a, l)) (D := D) hI.edges hI.grows
      ?_ ?_ ?_
    · intro a l a' l' b e1 e2
      rw [e1] at e2
      simpa using e2
    · exact fun a l b e => (hI.parOk b a l e).2.2.1
    · intro a l b _ he
      rcases hI.ends a l b he with h0 | h0
      · exact (hR.closed a l b h0).mono hI.grows
      · exact h0
  · rw [h] at h1; cases h1

example : Forest [] := by
  refine ⟨?_, ?_, ?_⟩
  · rintro a l b ⟨ch, h, _⟩; simp [Dict.get?_nil] at h
  · rintro a l a' l' b ⟨ch, h, _⟩; simp [Dict.get?_nil] at h
  · rintro a l b ⟨ch, h, _⟩; simp [Dict.get?_nil] at h

/-- A child can be listed more than once: targets (2, 0) and (1, 1) are both behind (1, 0), and
(0, 0) gets the child (1, 0) once for each. What follows the children goes that way twice. -/
theorem C71_listed_twice :
    routeToXys starT (0, 0) starT.chips [] [(2, 0), (1, 1)] =
      .ok [((2, 0), []), ((1, 0), [(0, (2, 0)), (2, (1, 1))]), ((0, 0), [(0, (1, 0)), (0, (1, 0))]),
        ((1, 1), [])] := by decide +kernel

/-! ### `_route_pre_to_post` -/

/-- C72: whenever the direct way leads to the destination and can be repaired without returning to a
removed loop (see C68), `_route_pre_to_post` succeeds. It adds to the routes exactly a walk from the
first chip returned to the second. That walk leaves the source chip, another chip of the source, or a
chip already routed; after that it passes no chip of the source and no routed chip; it ends in the
target or at the destination, passing no chip of the target before.
Missing: the case excluded by `hn` (C68_false). -/
theorem C72_joins_partial {T : Topo} {source dest : XY} {R : Routes} {vec : Int × Int × Int}
    {allSource targets : List XY} {fixed : List Node}
    (hc : Chain T source (longestFirst T vec.1 vec.2.1 vec.2.2 source) dest)
    (hf : withoutErrors T source (longestFirst T vec.1 vec.2.1 vec.2.2 source) = .ok fixed)
    (hn : ∀ ms, Walk T source ms dest →
      fixErrors T source (longestFirst T vec.1 vec.2.1 vec.2.2 source) = .ok ms →
      NoReturn (visits source ms)) :
    ∃ R' pre post ns, preToPost T source dest R vec allSource targets = .ok (R', pre, post) ∧
      Walk T pre ns post ∧ (visits pre ns).Nodup ∧
      (pre = source ∨ pre ∈ allSource ∨ Routed R pre) ∧ (post ∈ targets ∨ post = dest) ∧
      (∀ n ∈ ns, n.2 ∉ allSource ∧ ¬ Routed R n.2) ∧ (∀ n ∈ ns.dropLast, n.2 ∉ targets) ∧
      Extends R R' ∧ Leads R' pre post ∧
      (∀ a l b, Edge R' a l b → Edge R a l b ∨ (Wired T a l b ∧ ∃ n ∈ ns, n.2 = b)) ∧
      (∀ d, Routed R' d ↔ Routed R d ∨ d = pre ∨ ∃ n ∈ ns, n.2 = d) := by
  obtain ⟨hw, hnd⟩ := C68_walk_partial hc hn hf
  obtain ⟨R', pre, post, ns, h1, h2, h3, h4, h5, h6, h7, h8, h9, h10⟩ :=
    preToPost_spec (R := R) (allSource := allSource) (targets := targets) hf hw hnd
  refine ⟨R', pre, post, ns, h1, h2, h3, h4, h5, h6, h7, h8, ?_, ?_, h10⟩
  · exact (leads_hops h2 (fun a l b hm => (h9 a l b).2 (Or.inr hm))).1
  · intro a l b he
    rcases (h9 a l b).1 he with h | h
    · exact Or.inl h
    · exact Or.inr (hops_wired h2 a l b h)

/-- C71: `_route_pre_to_post` keeps trees, whatever the machine and the way, also where the way is
broken (C68): it refuses a chip that has a route. -/
theorem C71_joined_forest {T : Topo} {source dest : XY} {R R' : Routes} {vec : Int × Int × Int}
    {allSource targets : List XY} {pre post : XY} (hR : Forest R)
    (h : preToPost T source dest R vec allSource targets = .ok (R', pre, post)) : Forest R' :=
  preToPost_forest hR h

/-- C73: after `_route_pre_to_post` and `_route_to_xys` from the chip it returned (one target edge, as in
`_route_single_source_to_target`), every target chip is reached by following the routes from the chip
where the way leaves the source, or from a chip that had a route before.
Missing: the case excluded by `hn`. -/
theorem C73_reaches_partial {T : Topo} {source dest : XY} {R R1 R2 : Routes} {vec : Int × Int × Int}
    {allSource targets real : List XY} {pre post : XY}
    (hc : Chain T source (longestFirst T vec.1 vec.2.1 vec.2.2 source) dest)
    (hn : ∀ ms, Walk T source ms dest →
      fixErrors T source (longestFirst T vec.1 vec.2.1 vec.2.2 source) = .ok ms →
      NoReturn (visits source ms))
    (h1 : preToPost T source dest R vec allSource targets = .ok (R1, pre, post))
    (h2 : routeToXys T post targets R1 real = .ok R2) {t : XY} (ht : t ∈ real) :
    Leads R2 pre t ∨ ∃ r, Routed R r ∧ Leads R2 r t := by
  cases hf : withoutErrors T source (longestFirst T vec.1 vec.2.1 vec.2.2 source) with
  | error e =>
    unfold preToPost at h1
    rw [hf] at h1
    cases h1
  | ok fixed =>
    obtain ⟨hw, hnd⟩ := C68_walk_partial hc hn hf
    obtain ⟨R', pre', post', ns, g1, g2, g3, g4, g5, g6, g7, g8, g9, g10⟩ :=
      preToPost_spec (R := R) (allSource := allSource) (targets := targets) hf hw hnd
    rw [h1] at g1
    cases g1
    obtain ⟨l1, l2⟩ := leads_hops g2 (fun a l b hm => (g9 a l b).2 (Or.inr hm))
    have hext := (C56_working h2).1
    obtain ⟨_, r, hr, hl⟩ := C56_connected h2 ht
    rcases hr with hr | rfl
    · rcases (g10 r).1 hr with h | rfl | ⟨n, hn', rfl⟩
      · exact Or.inr ⟨r, h, hl⟩
      · exact Or.inl hl
      · exact Or.inl (((l2 n hn').mono hext).trans hl)
    · exact Or.inl ((l1.mono hext).trans hl)

instance decEqXY2 : DecidableEq (XY × XY) := inferInstance

instance decEqRoutes : DecidableEq Routes := inferInstance

instance decEqJoined : DecidableEq (Routes × XY × XY) := instDecidableEqProd

/-- From (0, 1) to (1, 4) round a missing chip; (1, 3) on the way is in the target. -/
example : preToPost exT (0, 1) (1, 4) [] (0, 2, -1) [(0, 0), (0, 1)] [(1, 3), (1, 4)] =
    .ok ([((0, 1), [(2, (0, 2))]), ((0, 2), [(0, (1, 2))]), ((1, 2), [(2, (1, 3))]), ((1, 3), [])],
      (0, 1), (1, 3)) := by
  decide +kernel

example : longestFirst exT 0 2 (-1) (0, 1) = [(2, (0, 2)), (2, (0, 3)), (1, (1, 4))] ∧
    fixErrors exT (0, 1) (longestFirst exT 0 2 (-1) (0, 1)) =
      .ok [(2, (0, 2)), (0, (1, 2)), (2, (1, 3)), (2, (1, 4))] := by decide +kernel

end Pacman.RPath
