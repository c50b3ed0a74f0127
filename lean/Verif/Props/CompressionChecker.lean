import Verif.Proofs.CompressionChecker
/-
Properties of the compression checker.  `compareTables same original compressed` models
`compare_tables`; `same` is the equality of routing entries, which is external, so every
theorem holds for any choice of it.
-/

namespace Pacman.Checker

/-- No two entries of the table have the same key and mask. -/
def DistinctKeyMasks (t : List Entry) : Prop :=
  t.Pairwise (fun a b => ¬ (a.key = b.key ∧ a.mask = b.mask))

/-- The table handles key `k` as the entry `o` says: by first match it gives the route of `o`, or
nothing matches and `o` is defaultable. -/
def Handles (t : List Entry) (o : Entry) (k : Word) : Prop :=
  routeOf t k = some o.route ∨ (lookup t k = none ∧ o.defaultable = true)

/-- **C11**, for compressed tables without repeated key/masks: whatever the checker accepts
handles each key of each original entry as that entry says. Missing: compressed tables with
repeated key/masks, for which the claim is false (`C11_repeated_key_mask_accepted`). -/
theorem C11_checker_sound_partial (same : Entry → Entry → Bool) (original compressed : List Entry)
    (ho : AllValid original) (hc : AllValid compressed) (hd : DistinctKeyMasks compressed)
    (h : compareTables same original compressed = .ok ()) :
    ∀ o ∈ original, ∀ k, o.Matches k → Handles compressed o k := by
  intro o hmem k hk
  unfold compareTables at h
  simp only at h
  rw [codifyTable_nodup (codes_nodup hc hd), forE_ok] at h
  exact compareRoute_sound hc (codify_length o) (h o hmem) k ((in_codify (ho o hmem) k).2 hk)

/-- **C11** as a statement on whole tables: when the entries of the original with different
routes do not intersect, every key it matches gets the same route from the compressed table, or
no match where the original entry found first was defaultable. Missing as above. -/
theorem C11_checker_sound_table_partial (same : Entry → Entry → Bool)
    (original compressed : List Entry)
    (ho : AllValid original) (hc : AllValid compressed) (hd : DistinctKeyMasks compressed)
    (h : compareTables same original compressed = .ok ()) (k : Word) (o : Entry)
    (hk : lookup original k = some o) :
    routeOf compressed k = routeOf original k ∨
      (lookup compressed k = none ∧ o.defaultable = true) := by
  have hm : o.Matches k := by simpa using List.find?_some hk
  have := C11_checker_sound_partial same original compressed ho hc hd h o
    (List.mem_of_find?_eq_some hk) k hm
  rcases this with h1 | h1
  · left; rw [h1]; unfold routeOf; rw [hk]; rfl
  · exact .inr h1

/-- Two entries merged into one, and a defaultable one dropped. -/
example : compareTables (fun _ _ => false)
    [⟨0x10, 0xFFFFFFFF, 3, false⟩, ⟨0x11, 0xFFFFFFFF, 3, false⟩, ⟨0x20, 0xFFFFFFF0, 4, true⟩]
    [⟨0x10, 0xFFFFFFFE, 3, false⟩] = .ok () ∧
    DistinctKeyMasks [⟨0x10, 0xFFFFFFFE, 3, false⟩] := by
  constructor
  · decide +kernel
  · simp [DistinctKeyMasks]

/-- **C11 is false** in general: with a repeated key/mask in the compressed table the checker
looks at the last of them, the router at the first. The table below sends key 0x10 to route 5
instead of 3, and is accepted. -/
theorem C11_repeated_key_mask_accepted (same : Entry → Entry → Bool) :
    compareTables same [⟨0x10, 0xFFFFFFFF, 3, false⟩]
      [⟨0x10, 0xFFFFFFFF, 5, false⟩, ⟨0x10, 0xFFFFFFFF, 3, false⟩] = .ok () ∧
    routeOf [⟨0x10, 0xFFFFFFFF, 3, false⟩] 0x10 = some 3 ∧
    routeOf [⟨0x10, 0xFFFFFFFF, 5, false⟩, ⟨0x10, 0xFFFFFFFF, 3, false⟩] 0x10 = some 5 := by
  refine ⟨?_, by decide, by decide⟩
  have h1 : codifyTable [⟨0x10, 0xFFFFFFFF, 5, false⟩, ⟨0x10, 0xFFFFFFFF, 3, false⟩] =
    [(codify ⟨0x10, 0xFFFFFFFF, 3, false⟩, ⟨0x10, 0xFFFFFFFF, 3, false⟩)] := by decide +kernel
  unfold compareTables
  simp only
  rw [h1, forE_ok]
  intro o ho
  rw [List.mem_singleton] at ho
  subst ho
  refine compareRoute_complete (t := [⟨0x10, 0xFFFFFFFF, 3, false⟩]) (by simp [AllValid, Entry.Valid])
    (codify_length _) ?_ ?_
  · intro c hc k hk hm hd
    simp only [List.mem_singleton] at hc
    subst hc; exact hd
  · intro k hk
    rw [in_codify (by decide)] at hk
    left; unfold routeOf; rw [lookup_cons_pos hk]; rfl

/-- **C12.** A compressed table without repeated key/masks which handles every key of every
original entry as the entry says, and has no defaultable entry matching a key of a
non-defaultable original entry, is accepted. -/
theorem C12_checker_complete (same : Entry → Entry → Bool) (original compressed : List Entry)
    (ho : AllValid original) (hc : AllValid compressed) (hd : DistinctKeyMasks compressed)
    (hdef : ∀ o ∈ original, ∀ c ∈ compressed, o.Meets c → c.defaultable = true →
      o.defaultable = true)
    (h : ∀ o ∈ original, ∀ k, o.Matches k → Handles compressed o k) :
    compareTables same original compressed = .ok () := by
  unfold compareTables
  simp only
  rw [codifyTable_nodup (codes_nodup hc hd), forE_ok]
  intro o hmem
  refine compareRoute_complete hc (codify_length o) ?_ ?_
  · intro c hcm k hk hm
    exact hdef o hmem c hcm ⟨k, (in_codify (ho o hmem) k).1 hk, hm⟩
  · intro k hk
    exact h o hmem k ((in_codify (ho o hmem) k).1 hk)

/-- A table meeting the hypotheses: one original entry served by two overlapping ones. -/
example : ∀ k, (⟨0x10, 0xFFFFFFF0, 3, false⟩ : Entry).Matches k →
    Handles [⟨0x10, 0xFFFFFFF8, 3, false⟩, ⟨0x10, 0xFFFFFFF0, 3, false⟩] ⟨0x10, 0xFFFFFFF0, 3, false⟩ k := by
  intro k hk
  left
  unfold routeOf
  by_cases h : (⟨0x10, 0xFFFFFFF8, 3, false⟩ : Entry).Matches k
  · rw [lookup_cons_pos h]; rfl
  · rw [lookup_cons_neg h, lookup_cons_pos hk]; rfl

/-- The condition on defaultable entries in `C12_checker_complete` is needed: here the compressed
table routes every key as the original, but its only entry is marked defaultable. -/
theorem C12_defaultable_entry_rejected (same : Entry → Entry → Bool) :
    (∀ k, routeOf [⟨0x10, 0xFFFFFFF0, 3, true⟩] k = routeOf [⟨0x10, 0xFFFFFFF0, 3, false⟩] k) ∧
    compareTables same [⟨0x10, 0xFFFFFFF0, 3, false⟩] [⟨0x10, 0xFFFFFFF0, 3, true⟩] =
      .error .routing := by
  constructor
  · intro k
    unfold routeOf
    by_cases h : (⟨0x10, 0xFFFFFFF0, 3, true⟩ : Entry).Matches k
    · rw [lookup_cons_pos h, lookup_cons_pos (e := ⟨0x10, 0xFFFFFFF0, 3, false⟩) h]; rfl
    · rw [lookup_cons_neg h, lookup_cons_neg (e := ⟨0x10, 0xFFFFFFF0, 3, false⟩) h]
  · have h1 : codifyTable [⟨0x10, 0xFFFFFFF0, 3, true⟩] =
      [(codify ⟨0x10, 0xFFFFFFF0, 3, true⟩, ⟨0x10, 0xFFFFFFF0, 3, true⟩)] := by decide +kernel
    unfold compareTables
    simp only
    rw [h1, forE, compareRoute, if_pos (by decide +kernel), if_neg (by simp),
      if_pos (by rfl)]
    cases same ⟨0x10, 0xFFFFFFF0, 3, false⟩ ⟨0x10, 0xFFFFFFF0, 3, true⟩ <;> simp [compareRoute]

/-- Likewise the condition on repeated key/masks: the second entry is never used, but makes the
checker reject the table. -/
theorem C12_repeated_key_mask_rejected (same : Entry → Entry → Bool) :
    routeOf [⟨0x10, 0xFFFFFFFF, 3, false⟩, ⟨0x10, 0xFFFFFFFF, 5, false⟩] 0x10 = some 3 ∧
    compareTables same [⟨0x10, 0xFFFFFFFF, 3, false⟩]
      [⟨0x10, 0xFFFFFFFF, 3, false⟩, ⟨0x10, 0xFFFFFFFF, 5, false⟩] = .error .routing := by
  refine ⟨by decide, ?_⟩
  have h1 : codifyTable [⟨0x10, 0xFFFFFFFF, 3, false⟩, ⟨0x10, 0xFFFFFFFF, 5, false⟩] =
    [(codify ⟨0x10, 0xFFFFFFFF, 5, false⟩, ⟨0x10, 0xFFFFFFFF, 5, false⟩)] := by decide +kernel
  unfold compareTables
  simp only
  rw [h1, forE, compareRoute, if_pos (by decide +kernel), if_pos (by simp)]

end Pacman.Checker
