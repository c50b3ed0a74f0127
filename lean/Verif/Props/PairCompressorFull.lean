import Verif.Proofs.PairFull
import Verif.Proofs.PairSort
import Verif.Props.PairCompressor
/-
How far the pair compressor compresses (pair_compressor.py:62-138, the description of the
algorithm): it stops only when no two entries of one route can be merged any more, and with
ordered results the most frequent route ends as one entry at the end of the table.
-/

namespace Pacman.Pair

/-- Whatever would stand for both `a` and `b` meets an entry of `C` with another route. -/
def InTheWay (C : List Entry) (a b : Entry) : Prop :=
  ∀ m : Entry, m.Valid → (∀ k, a.Matches k ∨ b.Matches k → m.Matches k) →
    ∃ c ∈ C, c.route ≠ a.route ∧ c.Meets m

/-- How many entries of the table have the route. -/
def uses (t : List Entry) (r : Nat) : Nat := (t.filter (fun e => decide (e.route = r))).length

theorem occurs_uses (t : List Entry) (r : Nat) : occurs t r = uses t r := by
  unfold occurs uses
  rw [List.countP_eq_length_filter]
  congr 1

/-- What is known of the result, with the order of the routes. -/
theorem compressTable_full (o useC : Bool) (n : Nat) (t t' : List Entry) (hv : AllValid t)
    (h : compressTable o useC n t = .ok t') :
    ∃ pos es, es.Perm t ∧ FullInv o pos t' es [] ∧
      (∀ a ∈ es, ∀ b ∈ es, pos a.route = pos b.route → a.route = b.route) ∧
      (∀ a ∈ es, ∀ b ∈ es, pos a.route ≤ pos b.route → occurs t b.route ≤ occurs t a.route) := by
  unfold compressTable at h
  simp only [bind, Except.bind] at h
  cases hh : histogram n t with
  | error e => simp [hh] at h
  | ok hist =>
    simp only [hh] at h
    have hes : ∃ es, (if useC then cSort hist t else pySort n hist t) = .ok es ∧
        compressSorted o es = .ok t' := by
      cases useC with
      | true =>
        simp only [if_true] at h ⊢
        cases hs : cSort hist t with
        | error e => simp [hs] at h
        | ok es => simp only [hs] at h; exact ⟨es, rfl, h⟩
      | false =>
        simp only [Bool.false_eq_true, if_false] at h ⊢
        cases hs : pySort n hist t with
        | error e => simp [hs] at h
        | ok es => simp only [hs] at h; exact ⟨es, rfl, h⟩
    obtain ⟨es, he, h⟩ := hes
    obtain ⟨hp, pos, hf, hi, hc⟩ := sorts_spec useC n t hist hh es he
    obtain ⟨W, hW, hinv⟩ := compressSorted_full o pos es
      (fun e he => hv e (hp.mem_iff.1 he)) ⟨hf, hi⟩
    rw [hW] at h
    cases h
    exact ⟨pos, es, hp, hinv, hi, hc⟩

theorem meets_of_intersect {a b c m : Entry} (hv : c.Valid) (ha : a.Valid) (hb : b.Valid)
    (hi : intersect c.key c.mask (mergeE a b).key (mergeE a b).mask = true) (hm : m.Valid)
    (h : ∀ k, a.Matches k ∨ b.Matches k → m.Matches k) : c.Meets m := by
  have hg : Gen m (mergeE a b) := gen_merge (gen_of_keys ha (fun k hk => h k (Or.inl hk)))
    (gen_of_keys hb (fun k hk => h k (Or.inr hk)))
  rw [Entry.meets_iff hv hm]
  have := intersect_gen hm hg hi
  simpa [intersect] using this

/-- **C139.** In the result of the pair compressor no two entries of one route can be replaced by
one: whatever entry matches all that the two match would meet an entry of another route. -/
theorem C139_no_merge_left (o useC : Bool) (n : Nat) (t t' : List Entry) (hv : AllValid t)
    (h : compressTable o useC n t = .ok t') :
    t'.Pairwise (fun a b => a.route = b.route → InTheWay t' a b) := by
  obtain ⟨pos, es, _, hinv, _, _⟩ := compressTable_full o useC n t t' hv h
  refine hinv.stuck.imp_of_mem ?_
  intro a b ha hb hs hab m hm hk
  obtain ⟨c, cv, hne, hi, hc⟩ := hs hab
  rcases hc with hc | ⟨hc, _⟩
  · cases hc
  · exact ⟨c, hc, hne, meets_of_intersect cv (hinv.valid a ha) (hinv.valid b hb) hi hm hk⟩

/-- **C139**, ordered results: the entry in the way stands behind the two, so that its keys would
go the wrong way. -/
theorem C139_ordered (useC : Bool) (n : Nat) (t t' : List Entry) (hv : AllValid t)
    (h : compressTable true useC n t = .ok t') (A B C : List Entry) (a b : Entry)
    (ht : t' = A ++ a :: B ++ b :: C) (hab : a.route = b.route) : InTheWay C a b := by
  obtain ⟨pos, es, _, hinv, _, _⟩ := compressTable_full true useC n t t' hv h
  intro m hm hk
  have hsub : [a, b].Sublist t' := by
    rw [ht]
    have h1 : [a].Sublist (A ++ a :: B) := List.singleton_sublist.2 (by simp)
    have h2 : [b].Sublist (b :: C) := List.singleton_sublist.2 (by simp)
    simpa using h1.append h2
  have ha : a ∈ t' := hsub.subset (by simp)
  have hb : b ∈ t' := hsub.subset (by simp)
  obtain ⟨c, cv, hne, hi, hc⟩ := (List.pairwise_iff_forall_sublist.1 hinv.stuck) hsub hab
  rcases hc with hc | ⟨hc, hlt⟩
  · cases hc
  · refine ⟨c, ?_, hne, meets_of_intersect cv (hinv.valid a ha) (hinv.valid b hb) hi hm hk⟩
    have hlt := hlt rfl
    have hf := hinv.falling
    rw [ht] at hc hf
    rcases List.mem_append.1 hc with hc | hc
    · exfalso
      have := (List.pairwise_append.1 hf).2.2 c hc b (by simp)
      rw [← hab] at this
      omega
    · rcases List.mem_cons.1 hc with hc | hc
      · subst hc
        exact absurd hab.symm hne
      · exact hc

/-- **C139**, again: the unordered compressor finds nothing to do in its own result, with either
sort and whatever the router. -/
theorem C139_again (useC useC' : Bool) (n n' : Nat) (t t' t'' : List Entry) (hv : AllValid t)
    (h : compressTable false useC n t = .ok t')
    (h' : compressTable false useC' n' t' = .ok t'') : t''.Perm t' := by
  have hv' : AllValid t' := by
    obtain ⟨pos, es, _, hinv, _, _⟩ := compressTable_full false useC n t t' hv h
    exact hinv.valid
  have hst := C139_no_merge_left false useC n t t' hv h
  obtain ⟨es, hp, hc⟩ := compressTable_perm false useC' n' t' t'' h'
  have hve : AllValid es := fun e he => hv' e (hp.mem_iff.1 he)
  have hst' : es.Pairwise (fun a b => a.route = b.route → InTheWay t' a b) := by
    refine (List.Perm.pairwise_iff ?_ hp).2 hst
    intro a b hab hr m hm hk
    obtain ⟨c, hc, hne, hmeet⟩ := hab hr.symm m hm (fun k hk' => hk k hk'.symm)
    exact ⟨c, hc, by rw [hr]; exact hne, hmeet⟩
  rw [compressSorted_same es hve ?_] at hc
  · cases hc; exact hp
  · refine hst'.imp_of_mem ?_
    intro a b ha hb hs hab
    obtain ⟨c, hc, hne, hmeet⟩ := hs hab (mergeE a b) (mergeE_valid a b) (by
      intro k hk
      rcases hk with hk | hk
      · exact mergeE_left (hve a ha) hk
      · exact mergeE_right (hve b hb) hk)
    refine ⟨c, hp.mem_iff.2 hc, hne, ?_⟩
    rw [Entry.meets_iff (hv' c hc) (mergeE_valid a b)] at hmeet
    simpa [intersect] using hmeet

/-- **C140.** The result is in order of how often the routes were used in the given table, rare
ones first, and the entries of each route stand together. -/
theorem C140_rare_first (o useC : Bool) (n : Nat) (t t' : List Entry) (hv : AllValid t)
    (h : compressTable o useC n t = .ok t') :
    t'.Pairwise (fun a b => uses t a.route ≤ uses t b.route) ∧
    ∀ A B C a b c, t' = A ++ a :: (B ++ b :: C) → c ∈ B → a.route = b.route → c.route = a.route := by
  obtain ⟨pos, es, _, hinv, hi, hc⟩ := compressTable_full o useC n t t' hv h
  refine ⟨?_, ?_⟩
  · refine hinv.falling.imp_of_mem ?_
    intro a b ha hb hle
    obtain ⟨a', ha', ea⟩ := hinv.origin a ha
    obtain ⟨b', hb', eb⟩ := hinv.origin b hb
    rw [← occurs_uses, ← occurs_uses, ← ea, ← eb]
    exact hc b' hb' a' ha' (by rw [ea, eb]; exact hle)
  · intro A B C a b c ht hcB hab
    have hf := hinv.falling
    have ha : a ∈ t' := by rw [ht]; simp
    have hc' : c ∈ t' := by rw [ht]; simp [hcB]
    rw [ht] at hf
    have h1 := List.pairwise_cons.1 (List.pairwise_append.1 hf).2.1
    have h2 := h1.1 c (by simp [hcB])
    have h3 := (List.pairwise_append.1 h1.2).2.2 c hcB b (by simp)
    rw [← hab] at h3
    obtain ⟨a', ha', ea⟩ := hinv.origin a ha
    obtain ⟨c', hc'', ec⟩ := hinv.origin c hc'
    have := hi c' hc'' a' ha' (by rw [ea, ec]; omega)
    rw [← ea, ← ec]; exact this

/-- **C140**, ordered results: all entries of a most frequent route are merged into a single one,
the last of the table. -/
theorem C140_most_frequent (useC : Bool) (n : Nat) (t t' : List Entry) (hv : AllValid t)
    (hne : t ≠ []) (h : compressTable true useC n t = .ok t') :
    ∃ I e, t' = I ++ [e] ∧ (∀ i ∈ I, i.route ≠ e.route) ∧ ∀ r, uses t r ≤ uses t e.route := by
  obtain ⟨pos, es, hp, hinv, hi, hc⟩ := compressTable_full true useC n t t' hv h
  have hne' : t' ≠ [] := by
    obtain ⟨x, hx⟩ := List.exists_mem_of_ne_nil t hne
    obtain ⟨w, hw, _⟩ := hinv.cover x (hp.mem_iff.2 hx)
    intro h0; rw [h0] at hw; cases hw
  rcases List.eq_nil_or_concat t' with h0 | ⟨I, e, h0⟩
  · exact absurd h0 hne'
  rw [List.concat_eq_append] at h0
  refine ⟨I, e, h0, ?_, ?_⟩
  · intro i hiI hr
    obtain ⟨A, B, hAB⟩ := List.append_of_mem hiI
    obtain ⟨c, hcc, _⟩ := C139_ordered useC n t t' hv h A B [] i e (by rw [h0, hAB]) hr
      ⟨0, 0, 0, false⟩ (by decide) (fun k _ => by unfold Entry.Matches; simp)
    cases hcc
  · intro r
    by_cases hr : ∃ x ∈ t, x.route = r
    · obtain ⟨x, hx, rfl⟩ := hr
      obtain ⟨w, hw, er⟩ := hinv.cover x (hp.mem_iff.2 hx)
      have hf := (C140_rare_first true useC n t t' hv h).1
      rw [← er]
      rw [h0] at hw hf
      rcases List.mem_append.1 hw with hw | hw
      · exact (List.pairwise_append.1 hf).2.2 w hw e (by simp)
      · simp at hw; subst hw; exact Nat.le_refl _
    · have : uses t r = 0 := by
        unfold uses
        rw [List.length_eq_zero_iff, List.filter_eq_nil_iff]
        intro x hx hxr
        exact hr ⟨x, hx, of_decide_eq_true hxr⟩
      rw [this]; exact Nat.zero_le _

/-- Three routes; the most frequent (route 1) uses keys on both sides of the others. -/
def threeRoutes : List Entry :=
  [⟨0x0, 0xFFFFFFFF, 1, false⟩, ⟨0x9, 0xFFFFFFFF, 1, false⟩, ⟨0x6, 0xFFFFFFFF, 1, true⟩,
   ⟨0x3, 0xFFFFFFFF, 1, false⟩, ⟨0x1, 0xFFFFFFFF, 2, false⟩, ⟨0x2, 0xFFFFFFFF, 2, false⟩,
   ⟨0x8, 0xFFFFFFFF, 4, false⟩, ⟨0xF, 0xFFFFFFFF, 2, false⟩]

/-- With an ordered result route 1 is one entry, and the entries of route 2 are kept apart by
those of route 1, which stand behind them. -/
example : AllValid threeRoutes ∧ threeRoutes ≠ [] ∧
    compressTable true false 1023 threeRoutes =
      .ok [⟨0x8, 0xFFFFFFFF, 4, false⟩, ⟨0x1, 0xFFFFFFFF, 2, false⟩, ⟨0x2, 0xFFFFFFFF, 2, false⟩,
        ⟨0xF, 0xFFFFFFFF, 2, false⟩, ⟨0x0, 0xFFFFFFF0, 1, false⟩] :=
  ⟨by unfold AllValid; decide, by decide, by decide +kernel⟩

/-- The unordered compressor merges what it can and then nothing more, with either sort. -/
example : AllValid demo ∧ compressTable false false 1023 demo =
      .ok [⟨0x8, 0xFFFFFFFF, 2, false⟩, ⟨0x4, 0xFFFFFFFC, 1, false⟩] ∧
    compressTable false true 2 [⟨0x8, 0xFFFFFFFF, 2, false⟩, ⟨0x4, 0xFFFFFFFC, 1, false⟩] =
      .ok [⟨0x4, 0xFFFFFFFC, 1, false⟩, ⟨0x8, 0xFFFFFFFF, 2, false⟩] :=
  ⟨demo_valid, by decide +kernel, by decide +kernel⟩

end Pacman.Pair
