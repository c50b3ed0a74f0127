import Verif.Props.PairCompressorFull
import Verif.Props.OrderedCoveringAgain
/-
C150: tables that are compressed twice.
-/

namespace Pacman.Pair

/-- **C150**, what is claimed: what the pair compressor returns may be compressed again, by it or by ordered covering. -/
def C150_full : Prop :=
  ∀ t t' t'', AllValid t → RouteDisjoint t → compressTable true true 1023 t = .ok t' →
    (compressTable true true 1023 t' = .ok t'' ∨ OC.compressTable 1000 t' none = .ok t'') → ∀ k, routeOf t k ≠ none →
    routeOf t'' k = routeOf t k

/-- **C150**, the part that holds: what the unordered compressor returns may be given to either pair compressor again, in
any order. Missing: the ordered one (`C150_pair_twice`, `C150_pair_covering`). -/
theorem C150_unordered_partial (o useC useC' : Bool) (n n' : Nat) (t t' p t'' : List Entry) (hv : AllValid t)
    (hd : RouteDisjoint t) (h : compressTable false useC n t = .ok t') (hp : p.Perm t')
    (h' : compressTable o useC' n' p = .ok t'') : RoutesSame t t'' ∧ t''.length ≤ t'.length := by
  obtain ⟨hd', hsame⟩ := C04_unordered_order_independent useC n t t' hv hd h
  have hv' : AllValid t' := (C03_pair_entries false useC n t t' hv h).1
  have hvp : AllValid p := fun e he => hv' e (hp.mem_iff.1 he)
  have hdp : RouteDisjoint p := fun a ha b hb => hd' a (hp.mem_iff.1 ha) b (hp.mem_iff.1 hb)
  refine ⟨fun k hk => ?_, ?_⟩
  · have h1 := hsame p hp k hk
    rw [← h1]
    exact C03_pair_preserves_routing o useC' n' p t'' hvp hdp h' k (by rw [h1]; exact hk)
  · rw [← hp.length_eq]
    exact C05_pair_never_grows o useC' n' p t'' hvp h'

/-- The unordered compressor leaves no two entries with the same key and mask. -/
theorem unordered_distinct {useC : Bool} {n : Nat} {t t' : List Entry} (hv : AllValid t) (hd : RouteDisjoint t)
    (h : compressTable false useC n t = .ok t') : (t'.map OC.kmOf).Nodup := by
  have hd' := (C04_unordered_order_independent useC n t t' hv hd h).1
  have hv' : AllValid t' := (C03_pair_entries false useC n t t' hv h).1
  refine List.pairwise_map.2 ((C139_no_merge_left false useC n t t' hv h).imp_of_mem ?_)
  intro a b ha hb hab he
  have hk : a.key = b.key := congrArg Prod.fst he
  have hm : a.mask = b.mask := congrArg Prod.snd he
  have hsame : ∀ k, b.Matches k → a.Matches k := by
    intro k hb
    unfold Entry.Matches at hb ⊢
    rw [hk, hm]; exact hb
  have hroute : a.route = b.route := by
    apply Classical.byContradiction
    intro hne
    exact hd' a ha b hb hne ⟨b.key, hsame _ (hv' b hb), hv' b hb⟩
  obtain ⟨c, hc, hne, hmeet⟩ := hab hroute a (hv' a ha) (fun k hk => hk.elim id (hsame k))
  exact hd' c hc a ha hne hmeet

theorem narrow_sorted {t : List Entry} (hv : AllValid t) (hn : (t.map OC.kmOf).Nodup) : NarrowFirst (OC.sortGen t) := by
  have hp := OC.sortGen_perm t
  have h1 : ((OC.sortGen t).map OC.kmOf).Nodup := ((hp.map _).nodup_iff).2 hn
  refine ((List.pairwise_map.1 h1).and (OC.sortGen_sorted t)).imp_of_mem ?_
  intro a b ha hb hab
  refine ⟨hab.1, fun _ => ?_⟩
  rw [← OC.generality_free (hv a (hp.mem_iff.1 ha)), ← OC.generality_free (hv b (hp.mem_iff.1 hb))]
  exact hab.2

/-- **C150**, the part that holds: what the unordered compressor returns may be given to ordered covering. -/
theorem C150_unordered_covering_partial (useC : Bool) (n fuel : Nat) (timeUp : Nat → Bool) (target : Option Nat)
    (noRaise : Bool) (t t' t'' : List Entry) (a : OC.Aliases) (hv : AllValid t) (hd : RouteDisjoint t)
    (h : compressTable false useC n t = .ok t') (hf : t'.length < fuel)
    (h' : OC.orderedCovering fuel timeUp t' target [] noRaise = .ok (t'', a)) : RoutesSame t t'' := by
  have hv' : AllValid t' := (C03_pair_entries false useC n t t' hv h).1
  have hp := OC.sortGen_perm t'
  intro k hk
  have h1 := (C04_unordered_order_independent useC n t t' hv hd h).2 _ hp k hk
  rw [← h1]
  refine OC.C08_oc_preserves_routing fuel timeUp (OC.sortGen t') target noRaise (fun e he => hv' e (hp.mem_iff.1 he))
    (narrow_sorted hv' (unordered_distinct hv hd h)) (by rw [hp.length_eq]; exact hf) t'' a
    ((OC.covering_sorted _ _ _ _ _ _).trans h') k (by rw [h1]; exact hk)

/-- **C150**, with the removal of default routes: a key goes where it went, or is left to default routing where an entry that
the unordered compressor made for its route may be. -/
theorem C150_unordered_default_partial (useC : Bool) (n fuel : Nat) (target : Option Nat) (t t' t'' : List Entry)
    (hv : AllValid t) (hd : RouteDisjoint t) (h : compressTable false useC n t = .ok t') (hf : t'.length < fuel)
    (h' : OC.compressTable fuel t' target = .ok t'') {k : Word} {r : Nat} (hk : routeOf t k = some r) :
    routeOf t'' k = some r ∨
      lookup t'' k = none ∧ ∃ w ∈ t', w.Matches k ∧ w.route = r ∧ w.defaultable = true := by
  have hv' : AllValid t' := (C03_pair_entries false useC n t t' hv h).1
  have hp := OC.sortGen_perm t'
  have h1 := (C04_unordered_order_independent useC n t t' hv hd h).2 _ hp k (by rw [hk]; exact fun h => by cases h)
  rw [hk] at h1
  have h2 : OC.compressTable fuel (OC.sortGen t') target = .ok t'' := by
    unfold OC.compressTable at h' ⊢
    rw [OC.covering_sorted]; exact h'
  have h3 := (OC.C08_compressor_preserves_routing fuel (OC.sortGen t') target (fun e he => hv' e (hp.mem_iff.1 he))
    (narrow_sorted hv' (unordered_distinct hv hd h)) (by rw [hp.length_eq]; exact hf) t'' h2).1
  unfold routeOf at h1
  cases hl : lookup (OC.sortGen t') k with
  | none => rw [hl] at h1; cases h1
  | some o =>
    rw [hl] at h1
    have hr : o.route = r := by simpa using h1
    rcases h3 k o hl with h4 | ⟨h4, h5⟩
    · exact .inl (hr ▸ h4)
    · refine .inr ⟨h4, o, hp.mem_iff.1 (List.mem_of_find?_eq_some hl), ?_, hr, h5⟩
      simpa using List.find?_some hl

/-- Three packets of one route beside one of another. -/
def beside : List Entry :=
  [⟨0, 0xFFFFFFFF, 8, false⟩, ⟨1, 0xFFFFFFFF, 8, false⟩, ⟨2, 0xFFFFFFFF, 8, false⟩, ⟨3, 0xFFFFFFFF, 16, false⟩,
    ⟨0x100, 0xFFFFFFFF, 16, false⟩]

/-- **C150** is false of the pair compressor: the most frequent route becomes a single entry, is the least frequent the
next time, and is put first. -/
theorem C150_pair_twice :
    compressTable true true 1023 beside =
      .ok [⟨3, 0xFFFFFFFF, 16, false⟩, ⟨0x100, 0xFFFFFFFF, 16, false⟩, ⟨0, 0xFFFFFFFC, 8, false⟩] ∧
    compressTable true true 1023 [⟨3, 0xFFFFFFFF, 16, false⟩, ⟨0x100, 0xFFFFFFFF, 16, false⟩, ⟨0, 0xFFFFFFFC, 8, false⟩] =
      .ok [⟨0, 0xFFFFFFFC, 8, false⟩, ⟨0, 0xFFFFFEFC, 16, false⟩] ∧
    routeOf beside 3 = some 16 ∧ routeOf [⟨0, 0xFFFFFFFC, 8, false⟩, ⟨0, 0xFFFFFEFC, 16, false⟩] 3 = some 8 := by
  refine ⟨?_, ?_, ?_, ?_⟩ <;> decide +kernel

/-- **C150**, likewise of the pair compressor after ordered covering. -/
theorem C150_covering_pair :
    OC.compressTable 1000 beside none =
      .ok [⟨3, 0xFFFFFFFF, 16, false⟩, ⟨0x100, 0xFFFFFFFF, 16, false⟩, ⟨0, 0xFFFFFFFC, 8, false⟩] ∧
    (∀ o : Bool, ∃ t, compressTable o true 1023
      [⟨3, 0xFFFFFFFF, 16, false⟩, ⟨0x100, 0xFFFFFFFF, 16, false⟩, ⟨0, 0xFFFFFFFC, 8, false⟩] = .ok t ∧
      routeOf t 3 = some 8) := by
  refine ⟨by decide +kernel, fun o => ?_⟩
  cases o
  · exact ⟨[⟨0, 0xFFFFFFFC, 8, false⟩, ⟨0x100, 0xFFFFFFFF, 16, false⟩, ⟨3, 0xFFFFFFFF, 16, false⟩], by decide +kernel,
      by decide +kernel⟩
  · exact ⟨[⟨0, 0xFFFFFFFC, 8, false⟩, ⟨0, 0xFFFFFEFC, 16, false⟩], by decide +kernel, by decide +kernel⟩

/-- **C150**, and of ordered covering after the pair compressor: it sorts by the number of keys, and the entry made last may
have fewer than the ones before it. -/
theorem C150_pair_covering :
    compressTable true true 1023 [⟨0x10, 0xFFFFFFF0, 16, false⟩, ⟨0, 0xFFFFFFFF, 8, false⟩, ⟨0x20, 0xFFFFFFFF, 8, false⟩,
      ⟨0x30, 0xFFFFFFFF, 8, false⟩] = .ok [⟨0x10, 0xFFFFFFF0, 16, false⟩, ⟨0, 0xFFFFFFCF, 8, false⟩] ∧
    OC.compressTable 1000 [⟨0x10, 0xFFFFFFF0, 16, false⟩, ⟨0, 0xFFFFFFCF, 8, false⟩] none =
      .ok [⟨0, 0xFFFFFFCF, 8, false⟩, ⟨0x10, 0xFFFFFFF0, 16, false⟩] ∧
    routeOf [⟨0x10, 0xFFFFFFF0, 16, false⟩, ⟨0, 0xFFFFFFCF, 8, false⟩] 0x10 = some 16 ∧
    routeOf [⟨0, 0xFFFFFFCF, 8, false⟩, ⟨0x10, 0xFFFFFFF0, 16, false⟩] 0x10 = some 8 := by
  refine ⟨?_, ?_, ?_, ?_⟩ <;> decide +kernel

theorem beside_valid : AllValid beside := by unfold AllValid; decide

theorem beside_disjoint : RouteDisjoint beside := by
  intro a ha b hb h
  rw [Entry.meets_iff (beside_valid a ha) (beside_valid b hb)]
  revert a b
  unfold beside; decide

theorem C150_false : ¬ C150_full := by
  intro h
  have := h beside _ _ beside_valid beside_disjoint C150_pair_twice.1 (.inl C150_pair_twice.2.1) 3 (by decide +kernel)
  revert this
  decide +kernel

/-- The table of the counterexamples through the unordered compressor, then the ordered one. -/
example : ∃ t' t'', compressTable false true 1023 beside = .ok t' ∧ compressTable true false 1023 t' = .ok t'' ∧
    RoutesSame beside t'' := by
  have h : compressTable false true 1023 beside = .ok [⟨3, 0xFFFFFFFF, 16, false⟩, ⟨0x100, 0xFFFFFFFF, 16, false⟩,
      ⟨0, 0xFFFFFFFD, 8, false⟩, ⟨1, 0xFFFFFFFF, 8, false⟩] := by decide +kernel
  have h' : compressTable true false 1023 [⟨3, 0xFFFFFFFF, 16, false⟩, ⟨0x100, 0xFFFFFFFF, 16, false⟩,
      ⟨0, 0xFFFFFFFD, 8, false⟩, ⟨1, 0xFFFFFFFF, 8, false⟩] = .ok [⟨0, 0xFFFFFFFD, 8, false⟩, ⟨1, 0xFFFFFFFF, 8, false⟩,
      ⟨0, 0xFFFFFEFC, 16, false⟩] := by decide +kernel
  exact ⟨_, _, h, h', (C150_unordered_partial true true false 1023 1023 beside _ _ _ beside_valid beside_disjoint h
    (List.Perm.refl _) h').1⟩

/-- The same, then ordered covering, which merges two more entries. -/
example : ∃ t' t'' a, compressTable false true 1023 beside = .ok t' ∧
    OC.orderedCovering 10 (fun _ => false) t' none [] true = .ok (t'', a) ∧ t''.length < t'.length ∧
    RoutesSame beside t'' := by
  have h : compressTable false true 1023 beside = .ok [⟨3, 0xFFFFFFFF, 16, false⟩, ⟨0x100, 0xFFFFFFFF, 16, false⟩,
      ⟨0, 0xFFFFFFFD, 8, false⟩, ⟨1, 0xFFFFFFFF, 8, false⟩] := by decide +kernel
  have h' : OC.orderedCovering 10 (fun _ => false) [⟨3, 0xFFFFFFFF, 16, false⟩, ⟨0x100, 0xFFFFFFFF, 16, false⟩,
      ⟨0, 0xFFFFFFFD, 8, false⟩, ⟨1, 0xFFFFFFFF, 8, false⟩] none [] true = .ok ([⟨1, 0xFFFFFFFF, 8, false⟩,
      ⟨0, 0xFFFFFFFD, 8, false⟩, ⟨0, 0xFFFFFEFC, 16, false⟩],
      [((0, 0xFFFFFEFC), [(3, 0xFFFFFFFF), (0x100, 0xFFFFFFFF)])]) := by decide +kernel
  exact ⟨_, _, _, h, h', by decide, C150_unordered_covering_partial _ _ _ _ _ _ _ _ _ _ beside_valid beside_disjoint h
    (by decide) h'⟩

end Pacman.Pair
