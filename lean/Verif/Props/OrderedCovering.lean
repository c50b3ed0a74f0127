import Verif.Proofs.OrderedCoveringRemove
/-
Properties of ordered covering and of the removal of default routes.
`orderedCovering fuel timeUp t target aliases noRaise` models `ordered_covering` with at most
`fuel` rounds of its main loop; `timeUp n` says whether the time limit is found exceeded after
round `n`.
-/

namespace Pacman.OC

/-! ### C08 -/

/-- **C08.** On every table in which entries that match the same key are ordered by the number of bits they do not look
at, whatever ordered covering returns sends every key of the given table where it went before. -/
theorem C08_oc_preserves_routing (fuel : Nat) (timeUp : Nat → Bool) (t : List Entry)
    (target : Option Nat) (noRaise : Bool) (hv : AllValid t) (ho : NarrowFirst t)
    (hf : t.length < fuel) (t' : List Entry) (a' : Aliases)
    (h : orderedCovering fuel timeUp t target [] noRaise = .ok (t', a')) :
    RoutesSame t t' := by
  intro k hk
  by_cases hne : t = []
  · subst hne; exact absurd rfl hk
  · obtain ⟨hI, _⟩ := oc_inv hv ho hf hne h
    cases hl : lookup t k with
    | none => unfold routeOf at hk; rw [hl] at hk; exact absurd rfl hk
    | some o =>
      obtain ⟨e, h1, h2, _⟩ := lookup_of_inv (sortGen_nodup ho) hI ((lookup_sortGen hv ho k).trans hl)
      unfold routeOf
      rw [h1, hl]
      simp [h2]

/-- **C08**, tables in which no two entries match the same key are like that, in any order. -/
theorem C08_oc_orthogonal (fuel : Nat) (timeUp : Nat → Bool) (t : List Entry)
    (target : Option Nat) (noRaise : Bool) (hv : AllValid t) (ho : Orthogonal t)
    (hf : t.length < fuel) (t' : List Entry) (a' : Aliases)
    (h : orderedCovering fuel timeUp t target [] noRaise = .ok (t', a')) :
    RoutesSame t t' :=
  C08_oc_preserves_routing fuel timeUp t target noRaise hv (narrow_of_orthogonal hv ho) hf t' a' h

/-- **C08**, the returned aliases: they list for each entry key/masks of the given table only, each
key/mask of the given table is listed for exactly the entry which now routes the keys it routed, and entries
of the new table are ordered by generality. -/
theorem C08_oc_aliases (fuel : Nat) (timeUp : Nat → Bool) (t : List Entry)
    (target : Option Nat) (noRaise : Bool) (hv : AllValid t) (ho : NarrowFirst t)
    (hf : t.length < fuel) (hne : t ≠ []) (t' : List Entry) (a' : Aliases)
    (h : orderedCovering fuel timeUp t target [] noRaise = .ok (t', a')) :
    (∀ e ∈ t', ∀ x ∈ aliasesOf a' (kmOf e), ∃ o ∈ t, kmOf o = x) ∧
    (∀ o ∈ t, ∀ e ∈ t', kmOf o ∈ aliasesOf a' (kmOf e) →
      ∀ k, lookup t k = some o → lookup t' k = some e) ∧
    (∀ o ∈ t, ∃ e ∈ t', kmOf o ∈ aliasesOf a' (kmOf e)) ∧
    t'.Pairwise (fun a b => generality (kmOf a) ≤ generality (kmOf b)) := by
  obtain ⟨hI, hs⟩ := oc_inv hv ho hf hne h
  have hp := sortGen_perm t
  refine ⟨?_, ?_, ?_, hs⟩
  · intro e he x hx
    obtain ⟨o, h1, h2⟩ := hI.orig e he x hx
    exact ⟨o, hp.mem_iff.1 h1, h2⟩
  · intro o _ e he hx k hk
    exact alias_first (sortGen_nodup ho) hI ((lookup_sortGen hv ho k).trans hk) he hx
  · intro o ho'
    obtain ⟨e, he, h1, _⟩ := hI.cover o (hp.mem_iff.2 ho')
    exact ⟨e, he, h1⟩

/-- A table meeting the hypotheses, for which two entries are merged. -/
def exTable : List Entry :=
  [⟨0x10, 0xFFFFFFFF, 3, false⟩, ⟨0x11, 0xFFFFFFFF, 3, true⟩, ⟨0x20, 0xFFFFFFF0, 5, true⟩,
   ⟨0x12, 0xFFFFFFFF, 5, false⟩]

theorem exTable_ok : AllValid exTable ∧ Orthogonal exTable := by
  constructor
  · intro e he
    simp only [exTable, List.mem_cons, List.not_mem_nil, or_false] at he
    rcases he with rfl | rfl | rfl | rfl <;> decide
  · unfold exTable Orthogonal
    simp only [List.pairwise_cons, List.mem_cons, List.not_mem_nil, or_false, forall_eq_or_imp,
      forall_eq, false_implies, implies_true, List.Pairwise.nil, and_true]
    simp (disch := decide) only [Entry.meets_iff]
    decide

example : orderedCovering 5 (fun _ => false) exTable none [] true =
    .ok ([⟨0x10, 0xFFFFFFFE, 3, false⟩, ⟨0x00, 0xFFFFFFC0, 5, false⟩],
      [((0x10, 0xFFFFFFFE), [(0x10, 0xFFFFFFFF), (0x11, 0xFFFFFFFF)]),
       ((0x00, 0xFFFFFFC0), [(0x12, 0xFFFFFFFF), (0x20, 0xFFFFFFF0)])]) := by decide +kernel

/-! ### C09 -/

/-- **C09.** On every table (also with overlapping entries), with any aliases, ordered covering
ends: it returns a table that is not longer, or raises `MinimisationFailedError` (only if the time
was up or it was told to raise). The only exception is an empty table without a target, see
`C09_empty_table_fails`. -/
theorem C09_oc_terminates (fuel : Nat) (timeUp : Nat → Bool) (t : List Entry)
    (target : Option Nat) (a : Aliases) (noRaise : Bool) (hf : t.length < fuel)
    (hne : t ≠ [] ∨ target ≠ none) :
    (∃ t' a', orderedCovering fuel timeUp t target a noRaise = .ok (t', a') ∧
      t'.length ≤ t.length ∧ (noRaise = false → ∀ n, target = some n → t'.length ≤ n)) ∨
    (orderedCovering fuel timeUp t target a noRaise = .error .minimisationFailed ∧
      ((∃ n, timeUp n = true) ∨ (noRaise = false ∧ target ≠ none))) := by
  have hp := sortGen_perm t
  by_cases ht : t = []
  · subst ht
    have hn : target ≠ none := by
      rcases hne with h | h
      · exact absurd rfl h
      · exact h
    cases target with
    | none => exact absurd rfl hn
    | some n =>
      left
      refine ⟨[], a, ?_, Nat.le_refl _, fun _ m _ => Nat.zero_le _⟩
      cases fuel with
      | zero => omega
      | succ fuel =>
        unfold orderedCovering
        simp [sortGen, stableSort, mainLoop, bind, Except.bind, pure, Except.pure]
  · unfold orderedCovering
    rcases mainLoop_ok (P := fun _ _ => True) target timeUp (fun _ _ _ _ _ _ _ _ _ => trivial)
      fuel 0 (sortGen t) a (by rw [hp.length_eq]; exact hf)
      (fun h => ht (by rw [h] at hp; exact hp.nil_eq.symm)) (sortGen_sorted t) trivial with
      ⟨t2, a2, h1, h2, _⟩ | ⟨h1, n, _, _, h2⟩
    · rw [h1]
      simp only [bind, Except.bind, pure, Except.pure]
      rw [hp.length_eq] at h2
      split
      · rename_i hc
        refine .inr ⟨rfl, .inr ?_⟩
        simp only [Bool.and_eq_true, Bool.not_eq_true'] at hc
        refine ⟨hc.1, ?_⟩
        intro hn; rw [hn] at hc; simp at hc
      · rename_i hc
        refine .inl ⟨t2, a2, rfl, h2, ?_⟩
        intro hr n hn
        subst hn; rw [hr] at hc
        simpa using hc
    · rw [h1]
      exact .inr ⟨rfl, .inl ⟨n, h2⟩⟩

/-- **C09**, as the compressor calls it (no time limit, no raising): a table is always returned. -/
theorem C09_oc_returns (fuel : Nat) (t : List Entry) (target : Option Nat) (a : Aliases)
    (hf : t.length < fuel) (hne : t ≠ [] ∨ target ≠ none) :
    ∃ t' a', orderedCovering fuel (fun _ => false) t target a true = .ok (t', a') ∧
      t'.length ≤ t.length := by
  rcases C09_oc_terminates fuel (fun _ => false) t target a true hf hne with
    ⟨t', a', h1, h2, _⟩ | ⟨_, ⟨n, h⟩ | ⟨h, _⟩⟩
  · exact ⟨t', a', h1, h2⟩
  · simp at h
  · simp at h

/-- A run that reaches its target, and one that fails to. -/
example : (orderedCovering 5 (fun _ => false) exTable (some 3) [] false).isOk = true ∧
    orderedCovering 5 (fun _ => false) exTable (some 1) [] false = .error .minimisationFailed := by
  constructor
  · decide +kernel
  · decide +kernel

/-- An empty table without a target makes the code look at an entry that does not exist. -/
theorem C09_empty_table_fails (fuel : Nat) (timeUp : Nat → Bool) (a : Aliases) (noRaise : Bool) :
    orderedCovering (fuel + 1) timeUp [] none a noRaise = .error .indexError := by
  rfl

/-! ### C10 -/

/-- **C10.** Whatever `remove_default_routes` returns, with its check, treats every key as the given
table does, or leaves it unmatched where the entry it had was defaultable; entries keep their
order. -/
theorem C10_remove_default_safe (t : List Entry) (target : Option Nat) (hv : AllValid t)
    (t' : List Entry) (h : removeDefaultRoutes t target true = .ok t') :
    SafelyRemoved t t' ∧ t'.Sublist t := by
  rw [remove_ok h, kept]
  split
  · exact ⟨keep_safe t hv, keep_sublist t⟩
  · rename_i hc
    simp only [Bool.true_and, Bool.not_eq_true', Bool.not_eq_false, Bool.and_eq_true,
      decide_eq_true_eq] at hc
    exact ⟨filter_safe t (orthogonal_of_one_mask hv hc.1 hc.2), List.filter_sublist⟩

/-- **C10** without the check: safe if no two entries match the same key. -/
theorem C10_remove_default_unchecked (t : List Entry) (target : Option Nat) (ho : Orthogonal t)
    (t' : List Entry) (h : removeDefaultRoutes t target false = .ok t') :
    SafelyRemoved t t' ∧ t' = t.filter (fun e => !e.defaultable) := by
  rw [remove_ok h]
  exact ⟨filter_safe t ho, rfl⟩

/-- The check is needed for tables with overlapping entries. -/
theorem C10_unchecked_needs_orthogonal :
    removeDefaultRoutes [⟨0x10, 0xFFFFFFFF, 3, true⟩, ⟨0x10, 0xFFFFFFF0, 5, false⟩] none false =
      .ok [⟨0x10, 0xFFFFFFF0, 5, false⟩] ∧
    ¬ SafelyRemoved [⟨0x10, 0xFFFFFFFF, 3, true⟩, ⟨0x10, 0xFFFFFFF0, 5, false⟩]
      [⟨0x10, 0xFFFFFFF0, 5, false⟩] := by
  refine ⟨by decide, ?_⟩
  intro h
  have := h 0x10
  revert this
  decide

/-- The removal fails exactly if a target (other than 0) is missed. -/
theorem C10_remove_default_fails (t : List Entry) (target : Option Nat) (check : Bool) :
    (∃ t', removeDefaultRoutes t target check = .ok t' ∧
      ∀ n, target = some n → n ≠ 0 → t'.length ≤ n) ∨
    (removeDefaultRoutes t target check = .error .minimisationFailed ∧
      ∃ t' n, removeDefaultRoutes t none check = .ok t' ∧ target = some n ∧ n < t'.length) := by
  rw [remove_eq]
  split
  · rename_i h
    right
    refine ⟨rfl, ?_⟩
    cases target with
    | none => simp at h
    | some n =>
      refine ⟨kept t check, n, ?_, rfl, ?_⟩
      · rw [remove_eq]; simp
      · simp only [Option.any_some, decide_eq_true_eq] at h; exact h.2
  · rename_i h
    left
    refine ⟨_, rfl, ?_⟩
    intro n hn h0
    subst hn
    simp only [Option.any_some, decide_eq_true_eq, not_and] at h
    have := h h0
    omega

example : removeDefaultRoutes exTable (some 4) true =
    .ok [⟨0x10, 0xFFFFFFFF, 3, false⟩, ⟨0x12, 0xFFFFFFFF, 5, false⟩] ∧ AllValid exTable :=
  ⟨by decide +kernel, exTable_ok.1⟩

/-! ### The whole compressor -/

/-- **C08, C10.** The ordered covering compressor as a whole: whatever it returns for a table in
which entries that match the same key are ordered as above handles each key as its first match says, or
leaves it unmatched where that is defaultable; and it fits the target, if one is set. -/
theorem C08_compressor_preserves_routing (fuel : Nat) (t : List Entry) (target : Option Nat)
    (hv : AllValid t) (ho : NarrowFirst t) (hf : t.length < fuel) (t' : List Entry)
    (h : compressTable fuel t target = .ok t') :
    (∀ k o, lookup t k = some o →
      routeOf t' k = some o.route ∨ (lookup t' k = none ∧ o.defaultable = true)) ∧
    (∀ n, target = some n → n ≠ 0 → t'.length ≤ n) := by
  unfold compressTable at h
  cases hoc : orderedCovering fuel (fun _ => false) t target [] true with
  | error e => rw [hoc] at h; simp [bind, Except.bind] at h
  | ok r =>
    obtain ⟨t1, a1⟩ := r
    rw [hoc] at h
    simp only [bind, Except.bind] at h
    refine ⟨?_, ?_⟩
    · intro k o hk
      have hne : t ≠ [] := by
        intro he; subst he; cases hk
      obtain ⟨hI, _⟩ := oc_inv hv ho hf hne hoc
      obtain ⟨e, h1, h2, h3⟩ := lookup_of_inv (sortGen_nodup ho) hI ((lookup_sortGen hv ho k).trans hk)
      have hv1 : AllValid t1 := fun e he => hI.valid e he
      rcases (C10_remove_default_safe t1 target hv1 t' h).1 k with hs | ⟨hs, e', he', hd⟩
      · left; unfold routeOf; rw [hs, h1]; simp [h2]
      · right
        rw [h1] at he'
        simp only [Option.some.injEq] at he'
        subst he'
        exact ⟨hs, h3 hd⟩
    · rcases C10_remove_default_fails t1 target true with ⟨t2, k1, k2⟩ | ⟨k1, _⟩
      · rw [h] at k1
        simp only [Except.ok.injEq] at k1
        subst k1; exact k2
      · rw [h] at k1; simp at k1

/-- **C08, C10**, tables in which no two entries match the same key. -/
theorem C08_compressor_orthogonal (fuel : Nat) (t : List Entry) (target : Option Nat)
    (hv : AllValid t) (ho : Orthogonal t) (hf : t.length < fuel) (t' : List Entry)
    (h : compressTable fuel t target = .ok t') :
    (∀ o ∈ t, ∀ k, o.Matches k →
      routeOf t' k = some o.route ∨ (lookup t' k = none ∧ o.defaultable = true)) ∧
    (∀ n, target = some n → n ≠ 0 → t'.length ≤ n) := by
  obtain ⟨h1, h2⟩ := C08_compressor_preserves_routing fuel t target hv (narrow_of_orthogonal hv ho) hf t' h
  exact ⟨fun o hm k hk => h1 k o (lookup_orthogonal ho hm hk), h2⟩

example : compressTable 5 exTable none =
    .ok [⟨0x10, 0xFFFFFFFE, 3, false⟩, ⟨0x00, 0xFFFFFFC0, 5, false⟩] := by decide +kernel

/-- A table in which keys are matched twice. The last two entries are merged (the first and the third are not, as what
they would become meets an entry after it). -/
def nestTable : List Entry :=
  [⟨0x10, 0xFFFFFFFF, 3, false⟩, ⟨0x20, 0xFFFFFFFF, 6, false⟩, ⟨0x11, 0xFFFFFFFF, 3, false⟩,
   ⟨0x10, 0xFFFFFFFC, 5, false⟩, ⟨0x18, 0xFFFFFFF8, 5, true⟩]

theorem nestTable_ok : AllValid nestTable ∧ NarrowFirst nestTable ∧ ¬ Orthogonal nestTable := by
  have hv : AllValid nestTable := by unfold AllValid nestTable; decide
  refine ⟨hv, ?_, ?_⟩
  · unfold nestTable NarrowFirst
    have : List.Pairwise (fun a b : Entry => (a.key, a.mask) ≠ (b.key, b.mask) ∧ a.free ≤ b.free) nestTable := by
      unfold nestTable; decide +kernel
    exact this.imp (fun h => ⟨h.1, fun _ => h.2⟩)
  · intro h
    have := List.pairwise_iff_getElem.1 h 0 3 (by decide) (by decide) (by decide)
    exact this ⟨0x10, by decide, by decide⟩

example : compressTable 6 nestTable none =
    .ok [⟨0x10, 0xFFFFFFFF, 3, false⟩, ⟨0x20, 0xFFFFFFFF, 6, false⟩, ⟨0x11, 0xFFFFFFFF, 3, false⟩,
      ⟨0x10, 0xFFFFFFF0, 5, false⟩] := by decide +kernel

/-- The order is needed: the entries are sorted, and then the narrow one takes the key of the wide one. -/
theorem C08_order_needed :
    orderedCovering 3 (fun _ => false) [⟨0x10, 0xFFFFFFF0, 5, false⟩, ⟨0x10, 0xFFFFFFFF, 3, false⟩] none [] true =
      .ok ([⟨0x10, 0xFFFFFFFF, 3, false⟩, ⟨0x10, 0xFFFFFFF0, 5, false⟩], []) ∧
    ¬ RoutesSame [⟨0x10, 0xFFFFFFF0, 5, false⟩, ⟨0x10, 0xFFFFFFFF, 3, false⟩]
      [⟨0x10, 0xFFFFFFFF, 3, false⟩, ⟨0x10, 0xFFFFFFF0, 5, false⟩] := by
  refine ⟨by decide +kernel, ?_⟩
  intro h
  have := h 0x10 (by decide)
  revert this; decide

end Pacman.OC
