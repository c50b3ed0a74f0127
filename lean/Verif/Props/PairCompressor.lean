import Verif.Proofs.PairCompressor
/-
Properties of the pair compressor (ordered and unordered, Python sort and C-like sort).
`compressTable ordered useCSort nRoutes t` models `_PairCompressor(ordered).compress_table`
with `c_sort = useCSort` on a chip whose router has `nRoutes` entries.
-/

namespace Pacman.Pair

/-- A table used by the examples below: two routes, four entries, merges happen. -/
def demo : List Entry :=
  [⟨0x4, 0xFFFFFFFF, 1, false⟩, ⟨0x8, 0xFFFFFFFF, 2, false⟩,
   ⟨0x5, 0xFFFFFFFF, 1, false⟩, ⟨0x6, 0xFFFFFFFF, 1, true⟩]

theorem demo_valid : AllValid demo := by unfold AllValid demo; decide

theorem demo_disjoint : RouteDisjoint demo := by
  intro a ha b hb h
  rw [Entry.meets_iff (demo_valid a ha) (demo_valid b hb)]
  revert a b
  unfold demo; decide

/-- **C03.** Whatever the pair compressor returns, each key matched by the given table is sent by
first match to the route it was sent to before. -/
theorem C03_pair_preserves_routing (ordered useC : Bool) (n : Nat) (t t' : List Entry)
    (hv : AllValid t) (hd : RouteDisjoint t) (h : compressTable ordered useC n t = .ok t') :
    RoutesSame t t' := by
  obtain ⟨es, hp, hi⟩ := compressTable_spec ordered useC n t hv hd t' h
  intro k hk
  cases hr : routeOf t k with
  | none => exact absurd hr hk
  | some r =>
    obtain ⟨e, he, hm, her⟩ := routeOf_some_mem hr
    rw [← her]
    exact hi.done e (hp.mem_iff.2 he) k hm

/-- **C03**, second part: the result is made of entries a constructor accepts, it uses only routes
of the given table, and it may not be declared defaultable unless the entries it replaces
are: every original entry is inside a result entry with the same route, and if that entry is
defaultable then so was the original. -/
theorem C03_pair_entries (ordered useC : Bool) (n : Nat) (t t' : List Entry)
    (hv : AllValid t) (h : compressTable ordered useC n t = .ok t') :
    AllValid t' ∧ (∀ w ∈ t', ∃ o ∈ t, o.route = w.route) ∧
    (∀ o ∈ t, ∃ w ∈ t', (∀ k, o.Matches k → w.Matches k) ∧ w.route = o.route ∧
      (w.defaultable = true → o.defaultable = true)) := by
  obtain ⟨es, hp, hi⟩ := compressTable_any ordered useC n t hv t' h
  refine ⟨hi.valid, ?_, ?_⟩
  · intro w hw
    obtain ⟨o, ho, hr⟩ := hi.origin w hw
    exact ⟨o, hp.mem_iff.1 ho, hr⟩
  · intro o ho
    obtain ⟨w, hw, hc⟩ := hi.cover o (hp.mem_iff.2 ho)
    exact ⟨w, hw, hc.keys, hc.route, hc.dflt⟩

/-- The hypotheses of C03 are met by `demo`, and its compression is not trivial. -/
example : AllValid demo ∧ RouteDisjoint demo ∧
    compressTable true false 1023 demo =
      .ok [⟨0x8, 0xFFFFFFFF, 2, false⟩, ⟨0x4, 0xFFFFFFFC, 1, false⟩] :=
  ⟨demo_valid, demo_disjoint, by decide +kernel⟩

/-- **C04.** The result of the unordered compressor has no cross-route intersection, and so routes
the same in every order. -/
theorem C04_unordered_order_independent (useC : Bool) (n : Nat) (t t' : List Entry)
    (hv : AllValid t) (hd : RouteDisjoint t) (h : compressTable false useC n t = .ok t') :
    RouteDisjoint t' ∧
    ∀ p, p.Perm t' → RoutesSame t p := by
  obtain ⟨es, hp, hi⟩ := compressTable_spec false useC n t hv hd t' h
  have hd' := hi.unord rfl
  refine ⟨hd', ?_⟩
  intro p hperm k hk
  cases hr : routeOf t k with
  | none => exact absurd hr hk
  | some r =>
    have h1 := C03_pair_preserves_routing false useC n t t' hv hd h k hk
    rw [hr] at h1
    obtain ⟨e, he, hm, her⟩ := routeOf_some_mem h1
    apply routeOf_eq_some_of
    · exact ⟨e, hperm.mem_iff.2 he, hm⟩
    · intro e' he' hm'
      apply Classical.byContradiction
      intro hne
      exact hd' e he e' (hperm.mem_iff.1 he') (by rw [her]; exact fun h => hne h.symm) ⟨k, hm, hm'⟩

example : AllValid demo ∧ RouteDisjoint demo ∧
    compressTable false true 1023 demo =
      .ok [⟨0x8, 0xFFFFFFFF, 2, false⟩, ⟨0x4, 0xFFFFFFFC, 1, false⟩] :=
  ⟨demo_valid, demo_disjoint, by decide +kernel⟩

/-- The ordered compressor does not have this property: the order of its result matters. -/
theorem C04_ordered_needs_order :
    ∃ t t', AllValid t ∧ RouteDisjoint t ∧ compressTable true false 1023 t = .ok t' ∧
      ¬ RouteDisjoint t' := by
  refine ⟨[⟨0x4, 0xFFFFFFFF, 1, false⟩, ⟨0x7, 0xFFFFFFFF, 2, false⟩,
    ⟨0x5, 0xFFFFFFFF, 1, false⟩, ⟨0x6, 0xFFFFFFFF, 1, true⟩],
    [⟨0x7, 0xFFFFFFFF, 2, false⟩, ⟨0x4, 0xFFFFFFFC, 1, false⟩], by unfold AllValid; decide, ?_,
    by decide +kernel, ?_⟩
  · intro a ha b hb h
    have hv : AllValid [⟨0x4, 0xFFFFFFFF, 1, false⟩, ⟨0x7, 0xFFFFFFFF, 2, false⟩,
      ⟨0x5, 0xFFFFFFFF, 1, false⟩, ⟨0x6, 0xFFFFFFFF, 1, true⟩] := by unfold AllValid; decide
    rw [Entry.meets_iff (hv a ha) (hv b hb)]
    revert a b
    decide
  · intro h
    exact h ⟨0x7, 0xFFFFFFFF, 2, false⟩ (by simp) ⟨0x4, 0xFFFFFFFC, 1, false⟩ (by simp) (by decide)
      ⟨0x7, by decide, by decide⟩

/-- **C05.** Compression of any table ends, and the result has no more entries than the table;
it is a table (not an error) whenever the router has room for the distinct routes. -/
theorem C05_pair_never_grows (ordered useC : Bool) (n : Nat) (t t' : List Entry)
    (hv : AllValid t) (h : compressTable ordered useC n t = .ok t') :
    t'.length ≤ t.length := by
  obtain ⟨es, hp, hi⟩ := compressTable_any ordered useC n t hv t' h
  rw [← hp.length_eq]; exact hi.len

/-- **C05**, second part. -/
theorem C05_pair_succeeds (ordered useC : Bool) (n : Nat) (t : List Entry)
    (hv : AllValid t) (hn : n ≠ 0) (hr : (t.map (·.route)).eraseDups.length ≤ n) :
    ∃ t', compressTable ordered useC n t = .ok t' ∧ t'.length ≤ t.length := by
  obtain ⟨t', h⟩ := compressTable_ok ordered useC n t hv hn hr
  exact ⟨t', h, C05_pair_never_grows ordered useC n t t' hv h⟩

/-- The routes fit, and the table shrinks from four entries to two. -/
example : AllValid demo ∧ (demo.map (·.route)).eraseDups.length ≤ 2 ∧
    (∃ t', compressTable true true 2 demo = .ok t' ∧ t'.length = 2) :=
  ⟨demo_valid, by decide, [⟨0x8, 0xFFFFFFFF, 2, false⟩, ⟨0x4, 0xFFFFFFFC, 1, false⟩],
    by decide +kernel, rfl⟩

/-- With more distinct routes than the router has entries the call fails with an `IndexError`
(the arrays at pair_compressor.py:428-430 are too short), rather than returning a table. -/
theorem C05_pair_too_many_routes :
    ∃ t, AllValid t ∧ compressTable true false 1 t = .error .indexError := by
  refine ⟨demo, demo_valid, by decide +kernel⟩

end Pacman.Pair
