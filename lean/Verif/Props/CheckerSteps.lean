import Verif.Props.CompressionChecker
/-
The compression checker over several steps: a table compressed, checked, compressed again and
checked against the step before only.
-/

namespace Pacman.Checker

/-- An entry that is not defaultable has each of its keys matched by an entry that is not
defaultable either and has its route. -/
theorem compareRoute_firm {same : Entry → Entry → Bool} {o : Entry} {t : List Entry}
    (hv : AllValid t) (ho : o.defaultable = false) {code : Code} (hl : code.length = 32)
    (h : compareRoute same o (t.map (fun e => (codify e, e))) code = .ok ()) (k : Word)
    (hk : In code (bitsOf k)) :
    ∃ c ∈ t, c.Matches k ∧ c.route = o.route ∧ c.defaultable = false := by
  induction t generalizing code with
  | nil =>
    rw [List.map_nil, compareRoute, ho] at h
    simp at h
  | cons c t ih =>
    have hv' : AllValid t := fun e he => hv e (by simp [he])
    have hcv := hv c (by simp)
    have up : (∃ c ∈ t, c.Matches k ∧ c.route = o.route ∧ c.defaultable = false) →
        ∃ d ∈ c :: t, d.Matches k ∧ d.route = o.route ∧ d.defaultable = false :=
      fun ⟨d, h1, h2⟩ => ⟨d, List.mem_cons_of_mem _ h1, h2⟩
    rw [List.map_cons, compareRoute] at h
    have hlc : code.length = (codify c).length := by rw [hl, codify_length]
    split at h
    · rename_i hcov
      split at h
      · simp at h
      · rename_i hroute
        have hroute : o.route = c.route := by simpa using hroute
        split at h
        · split at h
          · simp at h
          · exact up (ih hv' hl h hk)
        · rename_i hdef
          by_cases hm : c.Matches k
          · exact ⟨c, by simp, hm, hroute.symm, by simpa [ho] using hdef⟩
          · rw [forE_ok] at h
            obtain ⟨r, hr, hrk⟩ := (remainders_iff hlc hcov (bitsOf k)).2
              ⟨hk, fun hh => hm ((in_codify hcv k).1 hh)⟩
            exact up (ih hv' (by rw [remainders_length hr, hl]) (h r hr) hrk)
    · exact up (ih hv' hl h hk)

/-- An accepted table has, for each key of an entry that is not defaultable, an entry that is not
defaultable and has the same route. -/
theorem accepted_firm {same : Entry → Entry → Bool} {A B : List Entry}
    (ha : AllValid A) (hb : AllValid B) (hd : DistinctKeyMasks B)
    (h : compareTables same A B = .ok ()) {o : Entry} (hmem : o ∈ A)
    (ho : o.defaultable = false) {k : Word} (hk : o.Matches k) :
    ∃ c ∈ B, c.Matches k ∧ c.route = o.route ∧ c.defaultable = false := by
  unfold compareTables at h
  simp only at h
  rw [codifyTable_nodup (codes_nodup hb hd), forE_ok] at h
  exact compareRoute_firm hb ho (codify_length o) (h o hmem) k ((in_codify (ha o hmem) k).2 hk)

/-- **C159.** If the checker accepts `B` for `A` and `C` for `B`, then `C` handles as `A` says each
key of an entry of `A` that is not defaultable, and each key of a defaultable one that `B` matches.
Missing: the keys of defaultable entries that `B` left to default routing, of which the claim is
false (`C159_false`); compressed tables with repeated key/masks, as for C11. -/
theorem C159_steps_partial (same : Entry → Entry → Bool) (A B C : List Entry)
    (ha : AllValid A) (hb : AllValid B) (hc : AllValid C)
    (hdb : DistinctKeyMasks B) (hdc : DistinctKeyMasks C)
    (h1 : compareTables same A B = .ok ()) (h2 : compareTables same B C = .ok ())
    (o : Entry) (hmem : o ∈ A) (k : Word) (hk : o.Matches k)
    (hd : o.defaultable = true → lookup B k ≠ none) :
    Handles C o k := by
  cases ho : o.defaultable with
  | false =>
    obtain ⟨b, hbm, hbk, hbr, hbd⟩ := accepted_firm ha hb hdb h1 hmem ho hk
    rcases C11_checker_sound_partial same B C hb hc hdc h2 b hbm k hbk with h | h
    · left; rw [h, hbr]
    · rw [hbd] at h; simp at h
  | true =>
    have hne := hd ho
    rcases C11_checker_sound_partial same A B ha hb hdb h1 o hmem k hk with h | h
    · unfold routeOf at h
      cases hl : lookup B k with
      | none => exact absurd hl hne
      | some b =>
        rw [hl] at h
        have hbr : b.route = o.route := by simpa using h
        have hbk : b.Matches k := by simpa using List.find?_some hl
        rcases C11_checker_sound_partial same B C hb hc hdc h2 b
          (List.mem_of_find?_eq_some hl) k hbk with h' | h'
        · left; rw [h', hbr]
        · exact .inr ⟨h'.1, ho⟩
    · exact absurd h.1 hne

/-- **C159**: without defaultable entries in the first and the last table the checker would also
have accepted the last for the first. -/
theorem C159_accepted_partial (same : Entry → Entry → Bool) (A B C : List Entry)
    (ha : AllValid A) (hb : AllValid B) (hc : AllValid C)
    (hdb : DistinctKeyMasks B) (hdc : DistinctKeyMasks C)
    (hA : ∀ o ∈ A, o.defaultable = false) (hC : ∀ c ∈ C, c.defaultable = false)
    (h1 : compareTables same A B = .ok ()) (h2 : compareTables same B C = .ok ()) :
    compareTables same A C = .ok () := by
  refine C12_checker_complete same A C ha hc hdc ?_ ?_
  · intro o _ c hcm _ hcd
    rw [hC c hcm] at hcd; simp at hcd
  · intro o hmem k hk
    refine C159_steps_partial same A B C ha hb hc hdb hdc h1 h2 o hmem k hk ?_
    rw [hA o hmem]; simp

/-- Four entries in two steps to one, by way of two entries. -/
example :
    let A : List Entry := [⟨0x10, 0xFFFFFFFF, 3, false⟩, ⟨0x11, 0xFFFFFFFF, 3, false⟩,
      ⟨0x12, 0xFFFFFFFF, 3, false⟩, ⟨0x13, 0xFFFFFFFF, 3, false⟩]
    let B : List Entry := [⟨0x10, 0xFFFFFFFE, 3, false⟩, ⟨0x12, 0xFFFFFFFE, 3, false⟩]
    let C : List Entry := [⟨0x10, 0xFFFFFFFC, 3, false⟩]
    compareTables (fun _ _ => false) A B = .ok () ∧ compareTables (fun _ _ => false) B C = .ok () ∧
    DistinctKeyMasks B ∧ DistinctKeyMasks C := by
  refine ⟨by decide +kernel, by decide +kernel, by simp [DistinctKeyMasks],
    by simp [DistinctKeyMasks]⟩

/-- **C159 is false** of defaultable entries: left out in the first step, their keys may be taken
by any entry of the second. Both steps are accepted, though key 0x10 now goes to route 5 and not
3, and the checker would not have accepted the last table for the first. -/
theorem C159_false :
    let same : Entry → Entry → Bool := fun _ _ => false
    let A : List Entry := [⟨0x10, 0xFFFFFFFF, 3, true⟩, ⟨0x11, 0xFFFFFFFF, 5, false⟩]
    let B : List Entry := [⟨0x11, 0xFFFFFFFF, 5, false⟩]
    let C : List Entry := [⟨0x10, 0xFFFFFFFE, 5, false⟩]
    compareTables same A B = .ok () ∧ compareTables same B C = .ok () ∧
    compareTables same A C = .error .routing ∧
    routeOf A 0x10 = some 3 ∧ routeOf C 0x10 = some 5 := by
  refine ⟨by decide +kernel, by decide +kernel, by decide +kernel, by decide, by decide⟩

/-- A table whose entries do not meet has no repeated key/masks. -/
theorem distinct_of_orthogonal {t : List Entry} (hv : AllValid t) (h : Orthogonal t) :
    DistinctKeyMasks t := by
  refine List.Pairwise.imp_of_mem ?_ h
  intro a b ha hb hn heq
  refine hn ⟨a.key, hv a ha, ?_⟩
  have := hv b hb
  rw [heq.1]; exact this

theorem orthogonal_eq {t : List Entry} (h : Orthogonal t) {a b : Entry} (ha : a ∈ t) (hb : b ∈ t)
    {k : Word} (hak : a.Matches k) (hbk : b.Matches k) : a = b := by
  induction t with
  | nil => simp at ha
  | cons c t ih =>
    rw [Orthogonal, List.pairwise_cons] at h
    rw [List.mem_cons] at ha hb
    rcases ha with rfl | ha
    · rcases hb with rfl | hb
      · rfl
      · exact absurd ⟨k, hak, hbk⟩ (h.1 b hb)
    · rcases hb with rfl | hb
      · exact absurd ⟨k, hbk, hak⟩ (h.1 a ha)
      · exact ih h.2 ha hb

/-- **C159**: the checker accepts a table whose entries do not meet for itself, and in any order:
the compressed table may list the entries of the original as it likes. -/
theorem C159_itself (same : Entry → Entry → Bool) (t t' : List Entry) (hv : AllValid t)
    (h : Orthogonal t) (hp : t.Perm t') : compareTables same t t' = .ok () := by
  have hv' : AllValid t' := fun e he => hv e (hp.mem_iff.2 he)
  have h' : Orthogonal t' := hp.pairwise h (fun hn ⟨k, h1, h2⟩ => hn ⟨k, h2, h1⟩)
  refine C12_checker_complete same t t' hv hv' (distinct_of_orthogonal hv' h') ?_ ?_
  · rintro o ho c hc ⟨k, h1, h2⟩ hcd
    rw [orthogonal_eq h ho (hp.mem_iff.2 hc) h1 h2]; exact hcd
  · intro o ho k hk
    left
    unfold routeOf
    cases hl : lookup t' k with
    | none =>
      have := List.find?_eq_none.1 hl o (hp.mem_iff.1 ho)
      simp [hk] at this
    | some c =>
      have hck : c.Matches k := by simpa using List.find?_some hl
      have := orthogonal_eq h ho (hp.mem_iff.2 (List.mem_of_find?_eq_some hl)) hk hck
      rw [this]; rfl

/-- Entries that meet nowhere, one of them defaultable, and the same in another order. -/
example : Orthogonal [⟨0x10, 0xFFFFFFFE, 3, false⟩, ⟨0x20, 0xFFFFFFF0, 4, true⟩] ∧
    compareTables (fun _ _ => true)
      [⟨0x10, 0xFFFFFFFE, 3, false⟩, ⟨0x20, 0xFFFFFFF0, 4, true⟩]
      [⟨0x20, 0xFFFFFFF0, 4, true⟩, ⟨0x10, 0xFFFFFFFE, 3, false⟩] = .ok () := by
  refine ⟨?_, by decide +kernel⟩
  simp only [Orthogonal, List.pairwise_cons, List.mem_singleton, forall_eq, List.not_mem_nil,
    false_implies, implies_true, List.Pairwise.nil, and_true]
  rintro ⟨k, h1, h2⟩
  unfold Entry.Matches at h1 h2
  simp only at h1 h2
  have e1 : (k &&& 0xFFFFFFFE#32) &&& 0xFFFFFFF0#32 = k &&& 0xFFFFFFF0#32 := by
    rw [BitVec.and_assoc]; rfl
  have h1' : k &&& 0xFFFFFFFE#32 = 0x10#32 := h1
  have h2' : k &&& 0xFFFFFFF0#32 = 0x20#32 := h2
  rw [h1', h2'] at e1
  exact absurd e1 (by decide)

/-- **C159**: a compressed table is accepted exactly for the original tables each of whose entries
it is accepted for: in any order, with entries repeated, or with some of them left out. -/
theorem C159_entries (same : Entry → Entry → Bool) (original compressed : List Entry) :
    compareTables same original compressed = .ok () ↔
      ∀ o ∈ original, compareTables same [o] compressed = .ok () := by
  unfold compareTables
  simp only [forE_ok, List.mem_singleton, forall_eq]

/-- One of two entries is not handled. -/
example : compareTables (fun _ _ => false)
    [⟨0x10, 0xFFFFFFFF, 3, false⟩, ⟨0x11, 0xFFFFFFFF, 4, false⟩] [⟨0x10, 0xFFFFFFFE, 3, false⟩] =
      .error .routing ∧
    compareTables (fun _ _ => false) [⟨0x10, 0xFFFFFFFF, 3, false⟩]
      [⟨0x10, 0xFFFFFFFE, 3, false⟩] = .ok () := by
  refine ⟨by decide +kernel, by decide +kernel⟩

end Pacman.Checker
