import Verif.Proofs.OrderedCoveringApply
/-
Helper lemmas: first matches under the invariant of ordered covering, and removal of entries.
-/

namespace Pacman.OC

theorem before_first {O : List Entry} (hn : (O.map kmOf).Nodup) {o : Entry} {k : Word} (hl : lookup O k = some o)
    {y : KM} (hy : y.Has k) : ¬ Before O y (kmOf o) := by
  rintro ⟨i, j, p, q, hij, hi, hj, rfl, hq⟩
  unfold lookup at hl
  obtain ⟨_, n, hnl, hne, hno⟩ := List.find?_eq_some_iff_getElem.1 hl
  have hjl : j < O.length := by
    rcases Nat.lt_or_ge j O.length with h | h
    · exact h
    · rw [List.getElem?_eq_none h] at hj; simp at hj
  have hjn : j = n := by
    refine (List.getElem?_inj (l := O.map kmOf) (by simpa using hjl) hn).1 ?_
    rw [List.getElem?_map, List.getElem?_map, hj, List.getElem?_eq_getElem hnl, hne, Option.map_some, Option.map_some, hq]
  have hil : i < O.length := by omega
  rw [List.getElem?_eq_getElem hil] at hi
  simp only [Option.some.injEq] at hi
  have := hno i (by omega)
  rw [hi] at this
  have hp : p.Matches k := hy
  simp [hp] at this

/-- The entry that stands for the first match of a key is the first match of the key. -/
theorem alias_first {O t : List Entry} {a : Aliases} (hn : (O.map kmOf).Nodup) (hI : Inv O t a) {o : Entry} {k : Word}
    (hl : lookup O k = some o) {e : Entry} (he : e ∈ t) (h1 : kmOf o ∈ aliasesOf a (kmOf e)) :
    lookup t k = some e := by
  have hk : o.Matches k := by unfold lookup at hl; simpa using List.find?_some hl
  obtain ⟨pre, post, rfl⟩ := List.append_of_mem he
  have hem : e.Matches k := ((hI.al e he).2 _ h1).2 k hk
  unfold lookup
  rw [List.find?_append]
  have hpre : pre.find? (fun e => decide (e.Matches k)) = none := by
    rw [List.find?_eq_none]
    intro q hq hqk
    have := (List.pairwise_append.1 hI.order).2.2 q hq e (by simp)
    have hqk : q.Matches k := by simpa using hqk
    obtain ⟨y, _, hy, hb⟩ := this _ h1 k hqk hk
    exact before_first hn hl hy hb
  rw [hpre, Option.none_or, List.find?_cons_of_pos (by simpa using hem)]

theorem lookup_of_inv {O t : List Entry} {a : Aliases} (hn : (O.map kmOf).Nodup) (hI : Inv O t a) {o : Entry} {k : Word}
    (hl : lookup O k = some o) :
    ∃ e, lookup t k = some e ∧ e.route = o.route ∧ (e.defaultable = true → o.defaultable = true) := by
  have hmem : o ∈ O := by unfold lookup at hl; exact List.mem_of_find?_eq_some hl
  obtain ⟨e, he, h1, h2, h3⟩ := hI.cover o hmem
  exact ⟨e, alias_first hn hI hl he h1, h2, h3⟩

theorem generality_free {e : Entry} (hv : e.Valid) : generality (kmOf e) = e.free := by
  unfold generality Entry.free
  apply List.countP_congr
  intro i hi
  have hi : i < 32 := by simpa using hi
  have h2 := and_eq_iff.1 hv i hi
  simp only [kmOf, BitVec.getLsbD_and, BitVec.getLsbD_not, hi, decide_true, Bool.true_and] at *
  revert h2
  cases e.mask.getLsbD i <;> cases e.key.getLsbD i <;> simp

theorem narrow_nodup {t : List Entry} (h : NarrowFirst t) : (t.map kmOf).Nodup := by
  rw [List.Nodup, List.pairwise_map]
  exact h.imp (fun h => h.1)

theorem sortGen_nodup {t : List Entry} (h : NarrowFirst t) : ((sortGen t).map kmOf).Nodup :=
  (((sortGen_perm t).map kmOf).nodup_iff).2 (narrow_nodup h)

/-- Sorting by generality changes no first match. -/
theorem lookup_sortGen {t : List Entry} (hv : AllValid t) (h : NarrowFirst t) (k : Word) :
    lookup (sortGen t) k = lookup t k := by
  unfold lookup sortGen
  rw [← List.head?_filter, ← List.head?_filter, stableSort_filter_of]
  refine List.Pairwise.imp_of_mem ?_ h
  intro a b ha hb hab h1 h2
  rw [decide_eq_true_eq] at *
  rw [generality_free (hv a ha), generality_free (hv b hb)]
  exact hab.2 ⟨k, h1, h2⟩

theorem oc_inv {fuel : Nat} {timeUp : Nat → Bool} {t : List Entry} {target : Option Nat}
    {noRaise : Bool} (hv : AllValid t) (ho : NarrowFirst t) (hf : t.length < fuel) (hne : t ≠ [])
    {t' : List Entry} {a' : Aliases}
    (h : orderedCovering fuel timeUp t target [] noRaise = .ok (t', a')) :
    Inv (sortGen t) t' a' ∧ Sorted t' := by
  have hp := sortGen_perm t
  have hInit : Inv (sortGen t) (sortGen t) [] :=
    inv_init (fun e he => hv e (hp.mem_iff.1 he)) (sortGen_nodup ho)
  unfold orderedCovering at h
  rcases mainLoop_ok (P := fun t' a => Inv (sortGen t) t' a) target timeUp
    (fun t a m t' a' hs hP hu ha => applied_inv hs hP hu ha) fuel 0 (sortGen t) []
    (by rw [hp.length_eq]; exact hf) (fun h => hne (by rw [h] at hp; exact hp.nil_eq.symm))
    (sortGen_sorted t) hInit with ⟨t2, a2, h1, _, _, h4, h5⟩ | ⟨h1, _⟩
  · rw [h1] at h
    simp only [bind, Except.bind, pure, Except.pure] at h
    split at h
    · simp at h
    · simp only [Except.ok.injEq, Prod.mk.injEq] at h
      obtain ⟨rfl, rfl⟩ := h
      exact ⟨h5, h4⟩
  · rw [h1] at h
    simp [bind, Except.bind] at h

theorem lookup_orthogonal {t : List Entry} (ho : Orthogonal t) {o : Entry} (h : o ∈ t) {k : Word}
    (hk : o.Matches k) : lookup t k = some o := by
  obtain ⟨pre, post, rfl⟩ := List.append_of_mem h
  unfold lookup
  have hpre : pre.find? (fun e => decide (e.Matches k)) = none := by
    rw [List.find?_eq_none]
    intro q hq hqk
    exact (List.pairwise_append.1 ho).2.2 q hq o (by simp) ⟨k, by simpa using hqk, hk⟩
  rw [List.find?_append, hpre, Option.none_or, List.find?_cons_of_pos (by simpa using hk)]

theorem keep_sublist (t : List Entry) : (removeDefaultRoutes.keep t).Sublist t := by
  induction t with
  | nil => exact List.Sublist.refl _
  | cons e t ih =>
    rw [removeDefaultRoutes.keep]
    split
    · exact ih.cons₂ e
    · split
      · exact ih.cons₂ e
      · exact ih.cons e

theorem lookup_none_sublist {t t' : List Entry} {k : Word} (hs : t'.Sublist t)
    (h : lookup t k = none) : lookup t' k = none := by
  unfold lookup at *
  rw [List.find?_eq_none] at *
  exact fun e he => h e (hs.subset he)

theorem lookup_cons (e : Entry) (t : List Entry) (k : Word) :
    lookup (e :: t) k = if e.Matches k then some e else lookup t k := by
  unfold lookup
  by_cases h : e.Matches k
  · rw [List.find?_cons_of_pos (by simpa using h), if_pos h]
  · rw [List.find?_cons_of_neg (by simpa using h), if_neg h]

theorem keep_safe (t : List Entry) (hv : AllValid t) : SafelyRemoved t (removeDefaultRoutes.keep t) := by
  intro k
  induction t with
  | nil => exact .inl rfl
  | cons e t ih =>
    have hv' : AllValid t := fun e he => hv e (by simp [he])
    have ih := ih hv'
    have hcons : ∀ l, (lookup l k = lookup t k ∨
        (lookup l k = none ∧ ∃ e, lookup t k = some e ∧ e.defaultable = true)) →
        (lookup (e :: l) k = lookup (e :: t) k ∨ (lookup (e :: l) k = none ∧
          ∃ e', lookup (e :: t) k = some e' ∧ e'.defaultable = true)) := by
      intro l hl
      rw [lookup_cons, lookup_cons]
      split
      · exact .inl rfl
      · exact hl
    rw [removeDefaultRoutes.keep]
    split
    · exact hcons _ ih
    · rename_i hd
      split
      · exact hcons _ ih
      · rename_i hany
        rw [lookup_cons]
        split
        · rename_i hm
          right
          refine ⟨?_, e, rfl, by simpa using hd⟩
          apply lookup_none_sublist (keep_sublist t)
          unfold lookup
          rw [List.find?_eq_none]
          intro d hd' hdk
          apply hany
          rw [List.any_eq_true]
          have hdk : d.Matches k := by simpa using hdk
          have h1 : (kmOf e).Ok := hv e (by simp)
          have h2 : (kmOf d).Ok := hv' d hd'
          exact ⟨d, hd', (intersect_iff h1 h2).2 ⟨k, hm, hdk⟩⟩
        · exact ih

theorem filter_safe (t : List Entry) (ho : Orthogonal t) :
    SafelyRemoved t (t.filter (fun e => !e.defaultable)) := by
  intro k
  cases hl : lookup t k with
  | none => exact .inl (lookup_none_sublist List.filter_sublist hl)
  | some e =>
    have hm : e.Matches k := by simpa using List.find?_some hl
    have hmem := List.mem_of_find?_eq_some hl
    cases hd : e.defaultable with
    | false =>
      left
      exact lookup_orthogonal (ho.sublist List.filter_sublist)
        (List.mem_filter.2 ⟨hmem, by simp [hd]⟩) hm
    | true =>
      right
      refine ⟨?_, e, rfl, hd⟩
      unfold lookup
      rw [List.find?_eq_none]
      intro q hq hqk
      have hqm := List.mem_filter.1 hq
      have hqk : q.Matches k := by simpa using hqk
      have := lookup_orthogonal ho hqm.1 hqk
      rw [hl] at this
      simp only [Option.some.injEq] at this
      subst this
      simp [hd] at hqm

theorem length_eraseDups_le {α : Type} [BEq α] [LawfulBEq α] :
    ∀ (n : Nat) (l : List α), l.length ≤ n → l.eraseDups.length ≤ l.length := by
  intro n
  induction n with
  | zero => intro l h; have := List.length_eq_zero_iff.1 (Nat.le_zero.1 h); subst this; simp
  | succ n ih =>
    intro l hl
    cases l with
    | nil => simp
    | cons a l =>
      rw [List.eraseDups_cons]
      simp only [List.length_cons] at hl ⊢
      have h1 := List.length_filter_le (fun b => !b == a) l
      have := ih (l.filter (fun b => !b == a)) (by omega)
      omega

theorem nodup_of_eraseDups {α : Type} [BEq α] [LawfulBEq α] :
    ∀ (l : List α), l.length = l.eraseDups.length → l.Nodup := by
  intro l
  induction l with
  | nil => simp
  | cons a l ih =>
    intro h
    rw [List.eraseDups_cons] at h
    simp only [List.length_cons, Nat.add_right_cancel_iff] at h
    have h1 := List.length_filter_le (fun b => !b == a) l
    have h2 := length_eraseDups_le _ (l.filter (fun b => !b == a)) (Nat.le_refl _)
    have h3 : (l.filter (fun b => !b == a)).length = l.length := by omega
    have h4 : l.filter (fun b => !b == a) = l := by
      rw [List.filter_eq_self]
      exact List.length_filter_eq_length_iff.1 h3
    rw [h4] at h
    rw [List.nodup_cons]
    refine ⟨?_, ih h⟩
    intro ha
    have := List.filter_eq_self.1 h4 a ha
    simp at this

theorem one_of_eraseDups {α : Type} [BEq α] [LawfulBEq α] {l : List α}
    (h : l.eraseDups.length = 1) : ∀ a ∈ l, ∀ b ∈ l, a = b := by
  cases l with
  | nil => simp
  | cons x l =>
    rw [List.eraseDups_cons] at h
    simp only [List.length_cons, Nat.add_eq_right, List.length_eq_zero_iff] at h
    have hall : ∀ b ∈ l, b = x := by
      intro b hb
      cases hf : l.filter (fun b => !b == x) with
      | nil =>
        have := List.filter_eq_nil_iff.1 hf b hb
        simpa using this
      | cons y ys => rw [hf, List.eraseDups_cons] at h; simp at h
    have : ∀ b ∈ x :: l, b = x := by
      intro b hb
      rw [List.mem_cons] at hb
      rcases hb with rfl | hb
      · rfl
      · exact hall b hb
    intro a ha b hb
    rw [this a ha, this b hb]

theorem orthogonal_of_one_mask {t : List Entry} (hv : AllValid t)
    (h1 : (t.map (·.mask)).eraseDups.length = 1)
    (h2 : t.length = (t.map (·.key)).eraseDups.length) : Orthogonal t := by
  have hn : (t.map (·.key)).Nodup := nodup_of_eraseDups _ (by rw [List.length_map]; exact h2)
  rw [List.Nodup, List.pairwise_map] at hn
  refine List.Pairwise.imp_of_mem ?_ hn
  intro a b ha hb hk hm
  have hmask := one_of_eraseDups h1 a.mask (List.mem_map.2 ⟨a, ha, rfl⟩) b.mask
    (List.mem_map.2 ⟨b, hb, rfl⟩)
  rw [Entry.meets_iff (hv a ha) (hv b hb), ← hmask, hv a ha] at hm
  apply hk
  rw [hm, hmask]
  exact hv b hb

/-- The entries kept, whatever the target. -/
def kept (t : List Entry) (check : Bool) : List Entry :=
  if check && !(decide ((t.map (·.mask)).eraseDups.length = 1) &&
      decide (t.length = (t.map (·.key)).eraseDups.length)) then removeDefaultRoutes.keep t
  else t.filter (fun e => !e.defaultable)

theorem remove_eq (t : List Entry) (target : Option Nat) (check : Bool) :
    removeDefaultRoutes t target check =
      if target.any (fun n => decide (n ≠ 0 ∧ (kept t check).length > n)) then
        .error .minimisationFailed else .ok (kept t check) := rfl

theorem remove_ok {t : List Entry} {target : Option Nat} {check : Bool} {t' : List Entry}
    (h : removeDefaultRoutes t target check = .ok t') : t' = kept t check := by
  rw [remove_eq] at h
  split at h
  · simp at h
  · simp only [Except.ok.injEq] at h; exact h.symm

end Pacman.OC
