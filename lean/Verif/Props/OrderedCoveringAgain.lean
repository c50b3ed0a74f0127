import Verif.Props.OrderedCovering
/-
C135: ordered covering on what ordered covering returned.
-/

namespace Pacman.OC

/-- `(t', a')` comes from `t` by one or more calls of `ordered_covering`, each with the table and the aliases that the
last one returned. -/
inductive Continued (t : List Entry) : List Entry → Aliases → Prop
  | once {fuel : Nat} {timeUp : Nat → Bool} {target : Option Nat} {noRaise : Bool} {t' : List Entry} {a' : Aliases} :
      t.length < fuel → orderedCovering fuel timeUp t target [] noRaise = .ok (t', a') → Continued t t' a'
  | again {t1 : List Entry} {a1 : Aliases} {fuel : Nat} {timeUp : Nat → Bool} {target : Option Nat} {noRaise : Bool}
      {t' : List Entry} {a' : Aliases} : Continued t t1 a1 → t1.length < fuel →
      orderedCovering fuel timeUp t1 target a1 noRaise = .ok (t', a') → Continued t t' a'

theorem sortGen_same {t : List Entry} (h : Sorted t) : sortGen t = t :=
  stableSort_same _ t (h.imp (fun h => by simpa using h))

theorem again_inv {O t1 : List Entry} {a1 : Aliases} (hI : Inv O t1 a1) (hs : Sorted t1) {fuel : Nat}
    {timeUp : Nat → Bool} {target : Option Nat} {noRaise : Bool} (hf : t1.length < fuel) (hne : t1 ≠ [])
    {t' : List Entry} {a' : Aliases} (h : orderedCovering fuel timeUp t1 target a1 noRaise = .ok (t', a')) :
    Inv O t' a' ∧ Sorted t' ∧ t' ≠ [] := by
  unfold orderedCovering at h
  rw [sortGen_same hs] at h
  rcases mainLoop_ok (P := fun t' a => Inv O t' a) target timeUp
    (fun t a m t' a' hs hP hu ha => applied_inv hs hP hu ha) fuel 0 t1 a1 hf hne hs hI with
    ⟨t2, a2, h1, _, h3, h4, h5⟩ | ⟨h1, _⟩
  · rw [h1] at h
    simp only [bind, Except.bind, pure, Except.pure] at h
    split at h
    · simp at h
    · simp only [Except.ok.injEq, Prod.mk.injEq] at h
      obtain ⟨rfl, rfl⟩ := h
      exact ⟨h5, h4, h3⟩
  · rw [h1] at h
    simp [bind, Except.bind] at h

theorem covering_sorted (fuel : Nat) (timeUp : Nat → Bool) (t : List Entry) (target : Option Nat) (a : Aliases)
    (noRaise : Bool) : orderedCovering fuel timeUp (sortGen t) target a noRaise =
      orderedCovering fuel timeUp t target a noRaise := by
  unfold orderedCovering
  rw [sortGen_same (sortGen_sorted t)]

theorem continued_inv {t : List Entry} (hv : AllValid t) (ho : NarrowFirst t) (hne : t ≠ []) {t' : List Entry}
    {a' : Aliases} (h : Continued t t' a') : Inv (sortGen t) t' a' ∧ Sorted t' ∧ t' ≠ [] := by
  induction h with
  | once hf h =>
    have hp := sortGen_perm t
    exact again_inv (inv_init (fun e he => hv e (hp.mem_iff.1 he)) (sortGen_nodup ho)) (sortGen_sorted t)
      (by rw [hp.length_eq]; exact hf) (fun h => hne (by rw [h] at hp; exact hp.nil_eq.symm)) ((covering_sorted _ _ _ _ _ _).trans h)
  | again _ hf h ih => exact again_inv ih.1 ih.2.1 hf ih.2.2 h

/-- **C135.** However often ordered covering is called with what it last returned, the table sends every key of the
first one where it went before. -/
theorem C135_continued_routes {t : List Entry} (hv : AllValid t) (ho : NarrowFirst t) {t' : List Entry} {a' : Aliases}
    (hne : t ≠ []) (h : Continued t t' a') : RoutesSame t t' ∧ AllValid t' ∧ NarrowFirst t' := by
  obtain ⟨hI, hs, -⟩ := continued_inv hv ho hne h
  refine ⟨?_, fun e he => hI.valid e he, ?_⟩
  · intro k hk
    cases hl : lookup t k with
    | none => unfold routeOf at hk; rw [hl] at hk; exact absurd rfl hk
    | some o =>
      obtain ⟨e, h1, h2, _⟩ := lookup_of_inv (sortGen_nodup ho) hI ((lookup_sortGen hv ho k).trans hl)
      unfold routeOf
      rw [h1, hl]
      simp [h2]
  · have hn : t'.Pairwise (fun a b => kmOf a ≠ kmOf b) := by
      have := hI.nodup
      rwa [List.Nodup, List.pairwise_map] at this
    refine List.Pairwise.imp_of_mem ?_ (List.pairwise_and_iff.2 ⟨hn, hs⟩)
    intro a b ha hb hab
    refine ⟨hab.1, fun _ => ?_⟩
    rw [← generality_free (hI.valid a ha), ← generality_free (hI.valid b hb)]
    exact hab.2

/-- **C135**, the aliases are those of the first table. -/
theorem C135_continued_aliases {t : List Entry} (hv : AllValid t) (ho : NarrowFirst t) {t' : List Entry} {a' : Aliases}
    (hne : t ≠ []) (h : Continued t t' a') :
    (∀ e ∈ t', ∀ x ∈ aliasesOf a' (kmOf e), ∃ o ∈ t, kmOf o = x) ∧
    (∀ o ∈ t, ∃ e ∈ t', kmOf o ∈ aliasesOf a' (kmOf e) ∧ ∀ k, lookup t k = some o → lookup t' k = some e) := by
  obtain ⟨hI, -, -⟩ := continued_inv hv ho hne h
  have hp := sortGen_perm t
  refine ⟨fun e he x hx => ?_, fun o ho' => ?_⟩
  · obtain ⟨o, h1, h2⟩ := hI.orig e he x hx
    exact ⟨o, hp.mem_iff.1 h1, h2⟩
  · obtain ⟨e, he, h1, _⟩ := hI.cover o (hp.mem_iff.2 ho')
    exact ⟨e, he, h1, fun k hk => alias_first (sortGen_nodup ho) hI ((lookup_sortGen hv ho k).trans hk) he h1⟩

/-- **C135**, the same if the aliases are forgotten in between. -/
theorem C135_forgotten_routes {t t1 : List Entry} {a1 : Aliases} (hv : AllValid t) (ho : NarrowFirst t) (hne : t ≠ [])
    (h : Continued t t1 a1) {t' : List Entry} {a' : Aliases} (h1 : Continued t1 t' a') : RoutesSame t t' := by
  obtain ⟨r1, v1, n1⟩ := C135_continued_routes hv ho hne h
  obtain ⟨r2, -, -⟩ := C135_continued_routes v1 n1 (continued_inv hv ho hne h).2.2 h1
  intro k hk
  have e1 := r1 k hk
  rw [← e1]
  exact r2 k (by rw [e1]; exact hk)

/-- A table of which the first call merges two entries, as far as its target goes, and the second one two more. -/
example : ∃ t1 a1 t2 a2, orderedCovering 5 (fun _ => false) exTable (some 3) [] false = .ok (t1, a1) ∧ t1.length = 3 ∧
    orderedCovering 4 (fun _ => false) t1 none a1 true = .ok (t2, a2) ∧ t2.length = 2 ∧ Continued exTable t2 a2 := by
  refine ⟨_, _, _, _, rfl, by decide +kernel, rfl, by decide +kernel, .again (fuel := 4) (timeUp := fun _ => false)
    (target := none) (noRaise := true) (.once (fuel := 5) (timeUp := fun _ => false) (target := some 3) (noRaise := false)
      (by decide) rfl) (by decide +kernel) rfl⟩

/-- **C135**, the warning of the code: entries that were left to default routing are not protected. With default routes
removed in between (the whole compressor called twice) key 0x11 is left to default routing first, then 0x10 and 0x13
become one entry, which matches it. -/
theorem C135_removed_not_protected :
    Orthogonal [⟨0x10, 0xFFFFFFFF, 3, false⟩, ⟨0x11, 0xFFFFFFFF, 5, true⟩, ⟨0x13, 0xFFFFFFFF, 3, false⟩] ∧
    compressTable 4 [⟨0x10, 0xFFFFFFFF, 3, false⟩, ⟨0x11, 0xFFFFFFFF, 5, true⟩, ⟨0x13, 0xFFFFFFFF, 3, false⟩] (some 3) =
      .ok [⟨0x10, 0xFFFFFFFF, 3, false⟩, ⟨0x13, 0xFFFFFFFF, 3, false⟩] ∧
    compressTable 4 [⟨0x10, 0xFFFFFFFF, 3, false⟩, ⟨0x13, 0xFFFFFFFF, 3, false⟩] none =
      .ok [⟨0x10, 0xFFFFFFFC, 3, false⟩] ∧
    routeOf [⟨0x10, 0xFFFFFFFC, 3, false⟩] 0x11 = some 3 :=
  ⟨orthogonal_of_one_mask (by unfold AllValid; decide) (by decide +kernel) (by decide +kernel), by decide +kernel,
    by decide +kernel, by decide +kernel⟩

end Pacman.OC
