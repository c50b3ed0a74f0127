import Verif.Props.OrderedCovering
/-
C149: how much of what may be left to default routing is removed.
-/

namespace Pacman.OC

/-- Some entry could be left to default routing: it is defaultable, and no entry behind it has one of its keys. -/
def Spare (t : List Entry) : Prop :=
  ∃ pre e post, t = pre ++ e :: post ∧ e.defaultable = true ∧ ∀ d ∈ post, ¬ e.Meets d

/-- The table after so many calls of `remove_default_routes`. -/
def removed : Nat → List Entry → Except PyErr (List Entry)
  | 0, t => .ok t
  | n + 1, t => do removed n (← removeDefaultRoutes t none true)

theorem intersect_meets {a b : Entry} (ha : a.Valid) (hb : b.Valid) :
    intersect (kmOf a) (kmOf b) = true ↔ a.Meets b := by
  rw [Entry.meets_iff ha hb]
  unfold intersect kmOf
  exact decide_eq_true_iff

theorem any_meets {e : Entry} {t : List Entry} (he : e.Valid) (hv : AllValid t) :
    t.any (fun d => intersect (kmOf e) (kmOf d)) = true ↔ ∃ d ∈ t, e.Meets d := by
  rw [List.any_eq_true]
  constructor
  · rintro ⟨d, hd, h⟩
    exact ⟨d, hd, (intersect_meets he (hv d hd)).1 h⟩
  · rintro ⟨d, hd, h⟩
    exact ⟨d, hd, (intersect_meets he (hv d hd)).2 h⟩

theorem keep_orthogonal {t : List Entry} (hv : AllValid t) (ho : Orthogonal t) :
    removeDefaultRoutes.keep t = t.filter (fun e => !e.defaultable) := by
  induction t with
  | nil => rfl
  | cons e t ih =>
    have hv' : AllValid t := fun d hd => hv d (by simp [hd])
    obtain ⟨h1, h2⟩ := List.pairwise_cons.1 ho
    have hn : t.any (fun d => intersect (kmOf e) (kmOf d)) = false := by
      rw [Bool.eq_false_iff]
      intro h
      obtain ⟨d, hd, hm⟩ := (any_meets (hv e (by simp)) hv').1 h
      exact h1 d hd hm
    rw [removeDefaultRoutes.keep, hn, ih hv' h2]
    cases hd : e.defaultable <;> simp [hd]

/-- The short cut for tables with one mask makes no difference. -/
theorem kept_keep {t : List Entry} (hv : AllValid t) : kept t true = removeDefaultRoutes.keep t := by
  unfold kept
  split
  · rfl
  · rename_i hc
    simp only [Bool.true_and, Bool.not_eq_true', Bool.not_eq_false, Bool.and_eq_true, decide_eq_true_eq] at hc
    exact (keep_orthogonal hv (orthogonal_of_one_mask hv hc.1 hc.2)).symm

theorem remove_none (t : List Entry) (hv : AllValid t) :
    removeDefaultRoutes t none true = .ok (removeDefaultRoutes.keep t) := by
  rw [remove_eq, kept_keep hv]
  simp

theorem keep_full {t : List Entry} (hv : AllValid t) : removeDefaultRoutes.keep t = t ↔ ¬ Spare t := by
  induction t with
  | nil =>
    refine ⟨fun _ => ?_, fun _ => rfl⟩
    rintro ⟨pre, e, post, h, -⟩
    simp at h
  | cons e t ih =>
    have hv' : AllValid t := fun d hd => hv d (by simp [hd])
    have ih := ih hv'
    have hlen := (keep_sublist t).length_le
    constructor
    · rintro h ⟨pre, x, post, h1, h2, h3⟩
      cases pre with
      | nil =>
        rw [List.nil_append] at h1
        obtain ⟨rfl, rfl⟩ := List.cons.inj h1
        have hn : t.any (fun d => intersect (kmOf e) (kmOf d)) = false := by
          rw [Bool.eq_false_iff]
          intro h
          obtain ⟨d, hd, hm⟩ := (any_meets (hv e (by simp)) hv').1 h
          exact h3 d hd hm
        rw [removeDefaultRoutes.keep, hn, h2] at h
        have := congrArg List.length h
        simp at this
        omega
      | cons y pre =>
        rw [List.cons_append] at h1
        refine ih.1 ?_ ⟨pre, x, post, (List.cons.inj h1).2, h2, h3⟩
        rw [removeDefaultRoutes.keep] at h
        split at h
        · exact (List.cons.inj h).2
        · split at h
          · exact (List.cons.inj h).2
          · have := congrArg List.length h
            simp at this
            omega
    · intro h
      have ht : ¬ Spare t := by
        rintro ⟨pre, x, post, h1, h2, h3⟩
        exact h ⟨e :: pre, x, post, by rw [h1]; rfl, h2, h3⟩
      rw [removeDefaultRoutes.keep, ih.2 ht]
      cases hd : e.defaultable with
      | false => simp
      | true =>
        have : t.any (fun d => intersect (kmOf e) (kmOf d)) = true := by
          rw [any_meets (hv e (by simp)) hv']
          apply Classical.byContradiction
          intro hne
          exact h ⟨[], e, t, rfl, hd, fun d hd' hm => hne ⟨d, hd', hm⟩⟩
        rw [this]
        simp

theorem safely_trans {a b c : List Entry} (h1 : SafelyRemoved a b) (h2 : SafelyRemoved b c) :
    SafelyRemoved a c := by
  intro k
  rcases h2 k with h | ⟨h, e, he, hd⟩
  · rw [h]; exact h1 k
  · rcases h1 k with h' | ⟨h', -⟩
    · exact .inr ⟨h, e, h' ▸ he, hd⟩
    · rw [h'] at he; cases he

/-- **C149**: the table returned is the given one exactly if no entry could be left to default routing. So if some could, at
least one is removed. -/
theorem C149_progress (t : List Entry) (hv : AllValid t) :
    ∃ t', removeDefaultRoutes t none true = .ok t' ∧ (t' = t ↔ ¬ Spare t) ∧ (Spare t → t'.length < t.length) := by
  refine ⟨_, remove_none t hv, keep_full hv, fun h => ?_⟩
  refine Nat.lt_of_le_of_ne (keep_sublist t).length_le fun he => ?_
  exact (keep_full hv).1 ((keep_sublist t).eq_of_length he) h

/-- **C149**: what is claimed: after a call nothing is left that could be removed. -/
def C149_full : Prop :=
  ∀ t t', AllValid t → removeDefaultRoutes t none true = .ok t' → ¬ Spare t'

theorem keep_apart {t : List Entry} (hv : AllValid t)
    (ha : t.Pairwise (fun a b => a.defaultable = true → b.defaultable = true → ¬ a.Meets b)) :
    ¬ Spare (removeDefaultRoutes.keep t) := by
  induction t with
  | nil =>
    rintro ⟨pre, e, post, h, -⟩
    simp [removeDefaultRoutes.keep] at h
  | cons e t ih =>
    have hv' : AllValid t := fun d hd => hv d (by simp [hd])
    obtain ⟨h1, h2⟩ := List.pairwise_cons.1 ha
    have ih := ih hv' h2
    have hcons : (e.defaultable = true → ∃ d ∈ removeDefaultRoutes.keep t, e.Meets d) →
        ¬ Spare (e :: removeDefaultRoutes.keep t) := by
      rintro hd ⟨pre, x, post, h3, h4, h5⟩
      cases pre with
      | nil =>
        rw [List.nil_append] at h3
        obtain ⟨rfl, rfl⟩ := List.cons.inj h3
        obtain ⟨d, hd, hm⟩ := hd h4
        exact h5 d hd hm
      | cons y pre =>
        rw [List.cons_append] at h3
        exact ih ⟨pre, x, post, (List.cons.inj h3).2, h4, h5⟩
    have hstay : ∀ {l : List Entry} {d : Entry}, d ∈ l → d.defaultable = false → d ∈ removeDefaultRoutes.keep l := by
      intro l
      induction l with
      | nil => intro d hd; cases hd
      | cons y l ihl =>
        intro d hd hf
        rw [removeDefaultRoutes.keep]
        rcases List.mem_cons.1 hd with rfl | hd
        · simp [hf]
        · split
          · exact List.mem_cons_of_mem _ (ihl hd hf)
          · split
            · exact List.mem_cons_of_mem _ (ihl hd hf)
            · exact ihl hd hf
    rw [removeDefaultRoutes.keep]
    split
    · rename_i hd
      exact hcons fun h => by rw [h] at hd; cases hd
    · rename_i hd
      split
      · rename_i hany
        refine hcons fun h => ?_
        obtain ⟨d, hd', hm⟩ := (any_meets (hv e (by simp)) hv').1 hany
        refine ⟨d, hstay hd' ?_, hm⟩
        rw [Bool.eq_false_iff]
        exact fun hdd => h1 d hd' h hdd hm
      · exact ih

/-- **C149**, the part that holds: if no two defaultable entries share a key, as in tables in which no entries do, all that
can be removed is removed at once, and another call returns the same table. Missing: other tables (`C149_false`). -/
theorem C149_apart_partial (t t' : List Entry) (hv : AllValid t)
    (ha : t.Pairwise (fun a b => a.defaultable = true → b.defaultable = true → ¬ a.Meets b))
    (h : removeDefaultRoutes t none true = .ok t') :
    ¬ Spare t' ∧ removeDefaultRoutes t' none true = .ok t' := by
  rw [remove_none t hv] at h
  cases h
  have hk := keep_apart hv ha
  have hv' : AllValid (removeDefaultRoutes.keep t) := fun e he => hv e ((keep_sublist t).subset he)
  refine ⟨hk, ?_⟩
  rw [remove_none _ hv', (keep_full hv').2 hk]

theorem removed_spec : ∀ (n : Nat) (t : List Entry), AllValid t → t.length ≤ n →
    ∃ t', removed n t = .ok t' ∧ ¬ Spare t' ∧ SafelyRemoved t t' ∧ t'.Sublist t := by
  intro n
  induction n with
  | zero =>
    intro t hv hl
    have : t = [] := List.length_eq_zero_iff.1 (by omega)
    subst this
    refine ⟨[], rfl, ?_, fun k => .inl rfl, List.Sublist.refl _⟩
    rintro ⟨pre, e, post, h, -⟩
    simp at h
  | succ n ih =>
    intro t hv hl
    have hv' : AllValid (removeDefaultRoutes.keep t) := fun e he => hv e ((keep_sublist t).subset he)
    have hr : removed (n + 1) t = removed n (removeDefaultRoutes.keep t) := by
      rw [removed, remove_none t hv]; rfl
    rw [hr]
    by_cases hs : Spare t
    · have hlt : (removeDefaultRoutes.keep t).length < t.length :=
        Nat.lt_of_le_of_ne (keep_sublist t).length_le fun he =>
          (keep_full hv).1 ((keep_sublist t).eq_of_length he) hs
      obtain ⟨t', h1, h2, h3, h4⟩ := ih _ hv' (by omega)
      exact ⟨t', h1, h2, safely_trans (keep_safe t hv) h3, h4.trans (keep_sublist t)⟩
    · rw [(keep_full hv).2 hs]
      have hfix : ∀ n, removed n t = .ok t := by
        intro n
        induction n with
        | zero => rfl
        | succ n ih =>
          rw [removed, remove_none t hv, (keep_full hv).2 hs]
          exact ih
      exact ⟨t, hfix n, hs, fun k => .inl rfl, List.Sublist.refl _⟩

/-- **C149**: called again and again, as many times as the table has entries, it does remove all of them, and what is returned
still treats all keys as the first table did, or leaves them to default routing where that said so. -/
theorem C149_again (t : List Entry) (hv : AllValid t) :
    ∃ t', removed t.length t = .ok t' ∧ ¬ Spare t' ∧ SafelyRemoved t t' ∧ t'.Sublist t :=
  removed_spec t.length t hv (Nat.le_refl _)

/-- Four packets that go straight on, one of them in another direction. -/
def straight : List Entry :=
  [⟨1, 0xFFFFFFFF, 8, true⟩, ⟨0, 0xFFFFFFFF, 16, true⟩, ⟨2, 0xFFFFFFFF, 16, true⟩, ⟨3, 0xFFFFFFFF, 16, true⟩]

/-- **C149** is false of the code: entries behind are looked at that are removed themselves. -/
theorem C149_false : ¬ C149_full := by
  intro h
  refine h [⟨1, 0xFFFFFFFF, 8, true⟩, ⟨0, 0xFFFFFFFC, 16, true⟩] [⟨1, 0xFFFFFFFF, 8, true⟩] ?_ (by decide +kernel) ?_
  · intro e he
    simp only [List.mem_cons, List.not_mem_nil, or_false] at he
    rcases he with rfl | rfl <;> (unfold Entry.Valid; decide)
  · exact ⟨[], _, [], rfl, rfl, fun d hd => by cases hd⟩

/-- **C149**: so the compressor keeps an entry of a table of which it would keep none had it removed default routes first. -/
theorem C149_compressed :
    compressTable 100 straight none = .ok [⟨1, 0xFFFFFFFF, 8, true⟩] ∧
    removeDefaultRoutes straight none true = .ok [] := by
  constructor <;> decide +kernel

/-- **C149**: and it may refuse such a table: of eight entries, all of which may be left to default routing, it keeps two,
which are too many for a router with one. -/
theorem C149_refused :
    compressTable 100 (straight ++ straight.map (fun e => { e with key := e.key + 16, route := e.route / 4 })) (some 1) =
      .error .minimisationFailed ∧
    removeDefaultRoutes (straight ++ straight.map (fun e => { e with key := e.key + 16, route := e.route / 4 }))
      (some 1) true = .ok [] := by
  constructor <;> decide +kernel

/-- Two defaultable entries, one of them before one that is not and has some of its keys. -/
example : ∃ t', removeDefaultRoutes [⟨1, 0xFFFFFFFF, 8, true⟩, ⟨4, 0xFFFFFFFF, 8, true⟩, ⟨0, 0xFFFFFFFC, 16, false⟩]
    none true = .ok t' ∧ t'.length = 2 ∧ ¬ Spare t' := by
  refine ⟨[⟨1, 0xFFFFFFFF, 8, true⟩, ⟨0, 0xFFFFFFFC, 16, false⟩], by decide +kernel, rfl,
    (C149_apart_partial [⟨1, 0xFFFFFFFF, 8, true⟩, ⟨4, 0xFFFFFFFF, 8, true⟩, ⟨0, 0xFFFFFFFC, 16, false⟩] _ ?_ ?_
      (by decide +kernel)).1⟩
  · intro e he
    simp only [List.mem_cons, List.not_mem_nil, or_false] at he
    rcases he with rfl | rfl | rfl <;> (unfold Entry.Valid; decide)
  · refine .cons ?_ (.cons ?_ (.cons ?_ .nil))
    · intro b hb _ hd
      simp only [List.mem_cons, List.not_mem_nil, or_false] at hb
      rcases hb with rfl | rfl
      · rw [Entry.meets_iff (by unfold Entry.Valid; decide) (by unfold Entry.Valid; decide)]
        decide
      · cases hd
    · intro b hb _ hd
      cases List.mem_singleton.1 hb
      cases hd
    · intro b hb
      cases hb

end Pacman.OC
