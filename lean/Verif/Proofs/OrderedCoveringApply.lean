import Verif.Proofs.OrderedCovering
import Verif.Proofs.Dict
/-
Ordered covering: what applying a merge does, and the invariant of the main loop.
-/

namespace Pacman.OC

/-- The entries at positions not in `ents`, counting from `i`. -/
def surv (ents : List Nat) : Nat → List Entry → List Entry
  | _, [] => []
  | i, e :: l => if i ∈ ents then surv ents (i + 1) l else e :: surv ents (i + 1) l

theorem surv_append (ents : List Nat) (l1 l2 : List Entry) (i : Nat) :
    surv ents i (l1 ++ l2) = surv ents i l1 ++ surv ents (i + l1.length) l2 := by
  induction l1 generalizing i with
  | nil => rfl
  | cons e l ih =>
    rw [List.cons_append, surv, surv, ih]
    have : i + 1 + l.length = i + (e :: l).length := by simp; omega
    rw [this]
    split <;> rfl

theorem surv_sublist (ents : List Nat) (l : List Entry) (i : Nat) : (surv ents i l).Sublist l := by
  induction l generalizing i with
  | nil => exact List.Sublist.refl _
  | cons e l ih =>
    rw [surv]
    split
    · exact (ih _).cons e
    · exact (ih _).cons₂ e

theorem mem_surv {ents : List Nat} {l : List Entry} {i : Nat} {e : Entry} :
    e ∈ surv ents i l ↔ ∃ j, l[j]? = some e ∧ i + j ∉ ents := by
  induction l generalizing i with
  | nil => simp [surv]
  | cons x l ih =>
    have h : e ∈ surv ents i (x :: l) ↔ (i ∉ ents ∧ e = x) ∨ e ∈ surv ents (i + 1) l := by
      rw [surv]
      split
      · rename_i hi; simp [hi]
      · rename_i hi; simp [hi]
    rw [h, ih]
    constructor
    · rintro (⟨h1, rfl⟩ | ⟨j, h1, h2⟩)
      · exact ⟨0, rfl, h1⟩
      · refine ⟨j + 1, by simpa using h1, ?_⟩
        have : i + (j + 1) = i + 1 + j := by omega
        rw [this]; exact h2
    · rintro ⟨j, h1, h2⟩
      cases j with
      | zero => left; simp at h1; exact ⟨h2, h1.symm⟩
      | succ j =>
        right
        refine ⟨j, by simpa using h1, ?_⟩
        have : i + (j + 1) = i + 1 + j := by omega
        rw [← this]; exact h2

theorem surv_length {ents : List Nat} (hn : ents.Nodup) (l : List Entry) (i : Nat) :
    (surv ents i l).length + ents.countP (fun j => decide (i ≤ j ∧ j < i + l.length)) = l.length := by
  induction l generalizing i with
  | nil =>
    have : ents.countP (fun j => decide (i ≤ j ∧ j < i + ([] : List Entry).length)) = 0 := by
      rw [List.countP_eq_zero]; intro a _; simp
    rw [this]; rfl
  | cons e l ih =>
    have hc : ents.countP (fun j => decide (i ≤ j ∧ j < i + (e :: l).length)) =
        ents.countP (fun j => decide (i + 1 ≤ j ∧ j < i + 1 + l.length)) +
        (if i ∈ ents then 1 else 0) := by
      clear ih
      induction ents with
      | nil => rfl
      | cons x ents ihe =>
        rw [List.nodup_cons] at hn
        have ihe := ihe hn.2
        rw [List.countP_cons, List.countP_cons, ihe]
        by_cases hx : x = i
        · subst hx
          have : ¬ x ∈ ents := hn.1
          have h2 : ¬ (x + 1 ≤ x ∧ x < x + 1 + l.length) := by omega
          have h3 : x ≤ x ∧ x < x + (e :: l).length := by simp
          simp only [this, h2, h3, decide_true, decide_false]
          simp
        · have h1 : i ∈ x :: ents ↔ i ∈ ents := by simp [Ne.symm hx]
          simp only [h1, List.length_cons]
          have h2 : (i ≤ x ∧ x < i + (l.length + 1)) ↔ (i + 1 ≤ x ∧ x < i + 1 + l.length) := by omega
          simp only [decide_eq_decide.2 h2]
          omega
    have ih := ih (i + 1)
    rw [hc, surv]
    split
    · rename_i h
      simp only [List.length_cons] at *
      omega
    · rename_i h
      simp only [List.length_cons] at *
      omega

theorem surv_length_all {ents : List Nat} (hn : ents.Nodup) {t : List Entry}
    (h : ∀ i ∈ ents, i < t.length) : (surv ents 0 t).length + ents.length = t.length := by
  have h1 := surv_length hn t 0
  have h2 : ents.countP (fun j => decide (0 ≤ j ∧ j < 0 + t.length)) = ents.length := by
    rw [List.countP_eq_length]
    intro a ha
    have := h a ha
    simp; omega
  omega

/-- The entries written by the loop of `apply`. -/
theorem applyLoop_list (m : Merge) (ne : Entry) (l : List Entry) :
    ∀ (i : Nat) (ours : List KM) (a : Aliases),
    (applyLoop m ne i l ours a).1 =
      if i ≤ m.insertionIndex ∧ m.insertionIndex < i + l.length then
        surv m.entries i (l.take (m.insertionIndex - i)) ++
          ne :: surv m.entries m.insertionIndex (l.drop (m.insertionIndex - i))
      else surv m.entries i l := by
  induction l with
  | nil =>
    intro i ours a
    rw [if_neg (by simp)]; rfl
  | cons e l ih =>
    intro i ours a
    have hcase : (applyLoop m ne i (e :: l) ours a).1 =
        (if i = m.insertionIndex then [ne] else []) ++
        ((if i ∈ m.entries then [] else [e]) ++
          (if i + 1 ≤ m.insertionIndex ∧ m.insertionIndex < i + 1 + l.length then
            surv m.entries (i + 1) (l.take (m.insertionIndex - (i + 1))) ++
              ne :: surv m.entries m.insertionIndex (l.drop (m.insertionIndex - (i + 1)))
          else surv m.entries (i + 1) l)) := by
      rw [applyLoop]
      by_cases hi : i ∈ m.entries
      · simp only [hi, if_true]
        rw [ih]; rfl
      · simp only [hi, if_false]
        rw [ih]; simp
    rw [hcase, List.length_cons]
    generalize hI : m.insertionIndex = ins
    by_cases h1 : i = ins
    · subst h1
      rw [if_pos rfl, if_neg (by omega : ¬ (i + 1 ≤ i ∧ i < i + 1 + l.length)),
        if_pos (by omega : i ≤ i ∧ i < i + (l.length + 1)), Nat.sub_self, List.take_zero,
        List.drop_zero]
      by_cases hi : i ∈ m.entries <;> simp [surv, hi]
    · rw [if_neg h1]
      by_cases h2 : i + 1 ≤ ins ∧ ins < i + 1 + l.length
      · have h3 : ins - i = (ins - (i + 1)) + 1 := by omega
        rw [if_pos h2, if_pos (by omega : i ≤ ins ∧ ins < i + (l.length + 1)), h3,
          List.take_succ_cons, List.drop_succ_cons]
        by_cases hi : i ∈ m.entries <;> simp [surv, hi]
      · rw [if_neg h2, if_neg (by omega : ¬ (i ≤ ins ∧ ins < i + (l.length + 1)))]
        by_cases hi : i ∈ m.entries <;> simp [surv, hi]

theorem aliasesOf_congr {a a' : Aliases} {km : KM} (h : a.get? km = a'.get? km) :
    aliasesOf a km = aliasesOf a' km := by
  unfold aliasesOf; rw [h]

/-- The aliases collected by the loop of `apply`, and those left. -/
theorem applyLoop_aliases (m : Merge) (ne : Entry) (l : List Entry) :
    ∀ (i : Nat) (ours : List KM) (a : Aliases), (l.map kmOf).Nodup →
    (∀ x, x ∈ (applyLoop m ne i l ours a).2.1 ↔ x ∈ ours ∨
      ∃ j e, i + j ∈ m.entries ∧ l[j]? = some e ∧ x ∈ aliasesOf a (kmOf e)) ∧
    (∀ km, (∀ j e, l[j]? = some e → i + j ∈ m.entries → kmOf e ≠ km) →
      Dict.get? (applyLoop m ne i l ours a).2.2 km = Dict.get? a km) := by
  induction l with
  | nil =>
    intro i ours a _
    constructor
    · intro x; simp [applyLoop]
    · intro km _; rfl
  | cons e l ih =>
    intro i ours a hn
    rw [List.map_cons, List.nodup_cons] at hn
    by_cases hi : i ∈ m.entries
    · have hr : (applyLoop m ne i (e :: l) ours a).2 =
          (applyLoop m ne (i + 1) l (ours ++ aliasesOf a (kmOf e)) (a.erase (kmOf e))).2 := by
        rw [applyLoop]; simp [hi]
      rw [hr]
      obtain ⟨h1, h2⟩ := ih (i + 1) (ours ++ aliasesOf a (kmOf e)) (a.erase (kmOf e)) hn.2
      have hal : ∀ (j : Nat) (e' : Entry), l[j]? = some e' →
          aliasesOf (a.erase (kmOf e)) (kmOf e') = aliasesOf a (kmOf e') := by
        intro j e' he'
        apply aliasesOf_congr
        rw [Dict.get?_erase, if_neg]
        intro heq
        apply hn.1
        rw [heq]
        exact List.mem_map.2 ⟨e', List.mem_of_getElem? he', rfl⟩
      constructor
      · intro x
        rw [h1 x, List.mem_append, or_assoc]
        constructor
        · rintro (h | h | ⟨j, e', hj, he', hx⟩)
          · exact .inl h
          · exact .inr ⟨0, e, hi, rfl, h⟩
          · refine .inr ⟨j + 1, e', ?_, by simpa using he', ?_⟩
            · have : i + (j + 1) = i + 1 + j := by omega
              rw [this]; exact hj
            · rw [← hal j e' he']; exact hx
        · rintro (h | ⟨j, e', hj, he', hx⟩)
          · exact .inl h
          · cases j with
            | zero => simp at he'; subst he'; exact .inr (.inl hx)
            | succ j =>
              have he' : l[j]? = some e' := by simpa using he'
              refine .inr (.inr ⟨j, e', ?_, he', ?_⟩)
              · have : i + (j + 1) = i + 1 + j := by omega
                rw [← this]; exact hj
              · rw [hal j e' he']; exact hx
      · intro km hkm
        rw [h2 km, Dict.get?_erase, if_neg]
        · exact hkm 0 e rfl hi
        · intro j e' he' hj
          refine hkm (j + 1) e' (by simpa using he') ?_
          have : i + (j + 1) = i + 1 + j := by omega
          rw [this]; exact hj
    · have hr : (applyLoop m ne i (e :: l) ours a).2 = (applyLoop m ne (i + 1) l ours a).2 := by
        rw [applyLoop]; simp [hi]
      rw [hr]
      obtain ⟨h1, h2⟩ := ih (i + 1) ours a hn.2
      constructor
      · intro x
        rw [h1 x]
        constructor
        · rintro (h | ⟨j, e', hj, he', hx⟩)
          · exact .inl h
          · refine .inr ⟨j + 1, e', ?_, by simpa using he', hx⟩
            have : i + (j + 1) = i + 1 + j := by omega
            rw [this]; exact hj
        · rintro (h | ⟨j, e', hj, he', hx⟩)
          · exact .inl h
          · cases j with
            | zero => exact absurd hj hi
            | succ j =>
              refine .inr ⟨j, e', ?_, by simpa using he', hx⟩
              have : i + (j + 1) = i + 1 + j := by omega
              rw [← this]; exact hj
      · intro km hkm
        apply h2 km
        intro j e' he' hj
        refine hkm (j + 1) e' (by simpa using he') ?_
        have : i + (j + 1) = i + 1 + j := by omega
        rw [this]; exact hj

/-- What applying a usable merge gives. -/
structure Applied (t : List Entry) (a : Aliases) (m : Merge) (t' : List Entry) (a' : Aliases) where
  first : Entry
  firstMem : ∃ i ∈ m.entries, t[i]? = some first
  eq : t' = surv m.entries 0 (t.take m.insertionIndex) ++
    ⟨m.km.1, m.km.2, first.route, m.defaultable⟩ ::
    surv m.entries m.insertionIndex (t.drop m.insertionIndex)
  len : t'.length + m.entries.length = t.length + 1
  al : a' = (applyLoop m ⟨m.km.1, m.km.2, first.route, m.defaultable⟩ 0 t [] a).2.2.set m.km
    (applyLoop m ⟨m.km.1, m.km.2, first.route, m.defaultable⟩ 0 t [] a).2.1

theorem asc_nodup {l : List Nat} (h : l.Pairwise (· < ·)) : l.Nodup :=
  h.imp (fun hab heq => by omega)

theorem apply_ok {t : List Entry} {a : Aliases} {m : Merge} (hu : Usable t a m) :
    ∃ t' a', apply t a m = .ok (t', a') ∧ Nonempty (Applied t a m t' a') := by
  have hne : m.entries ≠ [] := by
    intro h; have := hu.two; rw [h] at this; simp at this
  obtain ⟨i, is, his⟩ : ∃ i is, m.entries = i :: is := by
    cases h : m.entries with
    | nil => exact absurd h hne
    | cons i is => exact ⟨i, is, rfl⟩
  have hi : i < t.length := hu.cand.lt i (by rw [his]; simp)
  have hins := hu.isMerge.insLe
  generalize hE : t[i] = e
  have hlist : (if m.insertionIndex = t.length then
      (applyLoop m ⟨m.km.1, m.km.2, e.route, m.defaultable⟩ 0 t [] a).1 ++
        [(⟨m.km.1, m.km.2, e.route, m.defaultable⟩ : Entry)]
      else (applyLoop m ⟨m.km.1, m.km.2, e.route, m.defaultable⟩ 0 t [] a).1) =
      surv m.entries 0 (t.take m.insertionIndex) ++
        ⟨m.km.1, m.km.2, e.route, m.defaultable⟩ ::
        surv m.entries m.insertionIndex (t.drop m.insertionIndex) := by
    rw [applyLoop_list]
    by_cases h : m.insertionIndex = t.length
    · rw [if_pos h, if_neg (by omega), h]; simp [surv]
    · rw [if_neg h, if_pos (by omega)]; rfl
  have hsurv := surv_length_all (asc_nodup hu.cand.asc) hu.cand.lt
  have hsplit : surv m.entries 0 t = surv m.entries 0 (t.take m.insertionIndex) ++
      surv m.entries m.insertionIndex (t.drop m.insertionIndex) := by
    have h1 := surv_append m.entries (t.take m.insertionIndex) (t.drop m.insertionIndex) 0
    rw [List.take_append_drop] at h1
    rw [h1]
    congr 2
    rw [List.length_take]; omega
  have hlen : (surv m.entries 0 (t.take m.insertionIndex) ++
        (⟨m.km.1, m.km.2, e.route, m.defaultable⟩ : Entry) ::
        surv m.entries m.insertionIndex (t.drop m.insertionIndex)).length + m.entries.length
        = t.length + 1 := by
    rw [hsplit, List.length_append] at hsurv
    rw [List.length_append, List.length_cons]
    omega
  refine ⟨_, _, ?_, ⟨⟨e, ⟨i, by rw [his]; simp, by rw [List.getElem?_eq_getElem hi, hE]⟩, rfl, hlen, rfl⟩⟩⟩
  unfold apply
  simp only
  split
  · rename_i h; exact absurd h hne
  · rename_i j js hj
    have hij : j = i := by rw [his] at hj; simp at hj; exact hj.1.symm
    subst hij
    rw [getE_ok hi, hE]
    simp only [bind, Except.bind, pure, Except.pure]
    rw [hlist]
    rw [if_pos]
    have := hu.two
    omega

/-! ### The invariant -/

/-- `x` comes before `y` in the table. -/
def Before (O : List Entry) (x y : KM) : Prop :=
  ∃ (i j : Nat) (o o' : Entry), i < j ∧ O[i]? = some o ∧ O[j]? = some o' ∧ kmOf o = x ∧ kmOf o' = y

/-- The aliases of the entries of the table are the original key/masks they stand for. An earlier entry that meets one of
them stands, for the keys met, for an original that came before it. -/
structure Inv (O t : List Entry) (a : Aliases) : Prop where
  valid : ∀ e ∈ t, (kmOf e).Ok
  nodup : (t.map kmOf).Nodup
  al : ∀ e ∈ t, aliasesOf a (kmOf e) ≠ [] ∧
    ∀ x ∈ aliasesOf a (kmOf e), x.Ok ∧ x.Sub (kmOf e)
  order : t.Pairwise (fun q e => ∀ x ∈ aliasesOf a (kmOf e), ∀ k, (kmOf q).Has k → x.Has k →
    ∃ y ∈ aliasesOf a (kmOf q), y.Has k ∧ Before O y x)
  cover : ∀ o ∈ O, ∃ e ∈ t, kmOf o ∈ aliasesOf a (kmOf e) ∧ e.route = o.route ∧
    (e.defaultable = true → o.defaultable = true)
  orig : ∀ e ∈ t, ∀ x ∈ aliasesOf a (kmOf e), ∃ o ∈ O, kmOf o = x

theorem inv_init {O : List Entry} (hv : ∀ e ∈ O, (kmOf e).Ok) (hn : (O.map kmOf).Nodup) : Inv O O [] := by
  have hal : ∀ km, aliasesOf [] km = [km] := fun km => rfl
  refine ⟨hv, hn, ?_, ?_, ?_, ?_⟩
  · intro e he
    rw [hal]
    refine ⟨by simp, ?_⟩
    intro x hx
    rw [List.mem_singleton] at hx
    subst hx
    exact ⟨hv e he, fun k hk => hk⟩
  · rw [List.pairwise_iff_getElem]
    intro i j hi hj hij x hx k hk _
    rw [hal, List.mem_singleton] at hx
    subst hx
    exact ⟨kmOf O[i], by rw [hal]; simp, hk, i, j, O[i], O[j], hij, List.getElem?_eq_getElem hi,
      List.getElem?_eq_getElem hj, rfl, rfl⟩
  · intro o ho
    exact ⟨o, ho, by rw [hal]; simp, rfl, id⟩
  · intro e he x hx
    rw [hal, List.mem_singleton] at hx
    exact ⟨e, he, hx.symm⟩

theorem applied_sorted {t t' : List Entry} {a a' : Aliases} {m : Merge} (hs : Sorted t)
    (hu : Usable t a m) (ha : Applied t a m t' a') : Sorted t' := by
  rw [ha.eq]
  unfold Sorted
  rw [List.pairwise_append, List.pairwise_cons]
  have hins := hu.isMerge.ins hs
  have h1 : ∀ q ∈ surv m.entries 0 (t.take m.insertionIndex),
      generality (kmOf q) < generality m.km := by
    intro q hq
    obtain ⟨j, hj, _⟩ := mem_surv.1 hq
    rw [List.getElem?_take] at hj
    split at hj
    · rename_i hlt
      have hjl : j < t.length := by have := hu.isMerge.insLe; omega
      rw [List.getElem?_eq_getElem hjl] at hj
      simp only [Option.some.injEq] at hj
      subst hj
      exact (hins j hjl).1 hlt
    · simp at hj
  have h2 : ∀ q ∈ surv m.entries m.insertionIndex (t.drop m.insertionIndex),
      generality m.km ≤ generality (kmOf q) := by
    intro q hq
    obtain ⟨j, hj, _⟩ := mem_surv.1 hq
    rw [List.getElem?_drop] at hj
    have hjl : m.insertionIndex + j < t.length := by
      rcases Nat.lt_or_ge (m.insertionIndex + j) t.length with h | h
      · exact h
      · rw [List.getElem?_eq_none h] at hj; simp at hj
    rw [List.getElem?_eq_getElem hjl] at hj
    simp only [Option.some.injEq] at hj
    subst hj
    have := (hins _ hjl).2
    omega
  refine ⟨hs.sublist ((surv_sublist _ _ _).trans (List.take_sublist _ _)),
    ⟨fun q hq => h2 q hq, hs.sublist ((surv_sublist _ _ _).trans (List.drop_sublist _ _))⟩, ?_⟩
  intro p hp q hq
  rw [List.mem_cons] at hq
  rcases hq with rfl | hq
  · exact Nat.le_of_lt (h1 p hp)
  · have := h1 p hp; have := h2 q hq; omega

theorem applied_inv {O t t' : List Entry} {a a' : Aliases} {m : Merge} (hs : Sorted t)
    (hI : Inv O t a) (hu : Usable t a m) (ha : Applied t a m t' a') : Inv O t' a' := by
  obtain ⟨first, hfirst, heq, _, hal⟩ := ha
  generalize hne : (⟨m.km.1, m.km.2, first.route, m.defaultable⟩ : Entry) = ne at *
  have hnekm : kmOf ne = m.km := by rw [← hne]; rfl
  have hmok := hu.isMerge.okKM
  obtain ⟨l1, l2⟩ := applyLoop_aliases m ne t 0 [] a hI.nodup
  -- nothing below the place of the merged entry has an alias it meets
  have hdown : ∀ (j : Nat) (e : Entry), t[j]? = some e → m.insertionIndex ≤ j →
      ∀ x ∈ aliasesOf a (kmOf e), ¬ m.km.Meet x := by
    intro j e hj hle x hx hmeet
    have hmem : e ∈ t := List.mem_of_getElem? hj
    have hin : x ∈ covered t a m := by
      unfold covered
      rw [List.mem_flatMap]
      refine ⟨e, ?_, ?_⟩
      · apply List.mem_of_getElem? (i := j - m.insertionIndex)
        rw [List.getElem?_drop, ← hj]; congr 1; omega
      · rw [List.mem_filter]
        exact ⟨hx, (intersect_iff hmok ((hI.al e hmem).2 x hx).1).2 hmeet⟩
    rw [hu.down] at hin
    simp at hin
  -- the merged entries are all above the place of the merged entry
  have hents : ∀ i ∈ m.entries, i < m.insertionIndex := by
    intro i hi
    rcases Nat.lt_or_ge i m.insertionIndex with h | h
    · exact h
    · exfalso
      have hil := hu.cand.lt i hi
      have hie := List.getElem?_eq_getElem hil
      have hmem := List.getElem_mem hil
      obtain ⟨x, hx⟩ := List.exists_mem_of_ne_nil _ (hI.al t[i] hmem).1
      have := (hI.al t[i] hmem).2 x hx
      exact hdown i t[i] hie h x hx ⟨x.1, hu.isMerge.sub hi hie _ (this.2 _ this.1.has), this.1.has⟩
  have hnd : ∀ (i j : Nat) (e e' : Entry), t[i]? = some e → t[j]? = some e' → kmOf e = kmOf e' → i = j := by
    intro i j e e' hi hj hk
    have h1 : (t.map kmOf)[i]? = some (kmOf e) := by rw [List.getElem?_map, hi]; rfl
    have h2 : (t.map kmOf)[j]? = some (kmOf e) := by rw [List.getElem?_map, hj, hk]; rfl
    have hil : i < (t.map kmOf).length := by
      rcases Nat.lt_or_ge i (t.map kmOf).length with h | h
      · exact h
      · rw [List.getElem?_eq_none h] at h1; simp at h1
    exact (List.getElem?_inj hil hI.nodup).1 (h1.trans h2.symm)
  -- survivors: their key/mask differs from the merged one, and their aliases stay
  have hkm : ∀ (j : Nat) (e : Entry), t[j]? = some e → kmOf e ≠ m.km := by
    intro j e hj hk
    have hmem : e ∈ t := List.mem_of_getElem? hj
    rcases Nat.lt_or_ge j m.insertionIndex with h | h
    · have hjl : j < t.length := by have := hu.isMerge.insLe; omega
      have := (hu.isMerge.ins hs j hjl).1 h
      rw [List.getElem?_eq_getElem hjl] at hj
      simp only [Option.some.injEq] at hj
      rw [hj, hk] at this
      omega
    · obtain ⟨x, hx⟩ := List.exists_mem_of_ne_nil _ (hI.al e hmem).1
      have := (hI.al e hmem).2 x hx
      refine hdown j e hj h x hx ⟨x.1, ?_, this.1.has⟩
      rw [← hk]; exact this.2 _ this.1.has
  have hkeep : ∀ (j : Nat) (e : Entry), t[j]? = some e → j ∉ m.entries →
      aliasesOf a' (kmOf e) = aliasesOf a (kmOf e) := by
    intro j e hj hje
    apply aliasesOf_congr
    rw [hal, Dict.get?_set_ne _ _ (Ne.symm (hkm j e hj)), l2]
    intro i e' hi hie hk
    rw [Nat.zero_add] at hie
    have := hnd i j e' e hi hj hk
    subst this
    exact hje hie
  have hnew : ∀ x, x ∈ aliasesOf a' m.km ↔
      ∃ i e, i ∈ m.entries ∧ t[i]? = some e ∧ x ∈ aliasesOf a (kmOf e) := by
    intro x
    have : aliasesOf a' m.km = (applyLoop m ne 0 t [] a).2.1 := by
      unfold aliasesOf; rw [hal, Dict.get?_set_self]; rfl
    rw [this, l1]
    simp
  -- membership in the new table
  have hmem1 : ∀ q ∈ surv m.entries 0 (t.take m.insertionIndex),
      ∃ j, j < m.insertionIndex ∧ t[j]? = some q ∧ j ∉ m.entries := by
    intro q hq
    obtain ⟨j, hj, hje⟩ := mem_surv.1 hq
    rw [List.getElem?_take] at hj
    split at hj
    · rename_i hlt
      exact ⟨j, hlt, hj, by simpa using hje⟩
    · simp at hj
  have hmem2 : ∀ q ∈ surv m.entries m.insertionIndex (t.drop m.insertionIndex),
      ∃ j, m.insertionIndex ≤ j ∧ t[j]? = some q ∧ j ∉ m.entries := by
    intro q hq
    obtain ⟨j, hj, hje⟩ := mem_surv.1 hq
    rw [List.getElem?_drop] at hj
    exact ⟨m.insertionIndex + j, by omega, hj, hje⟩
  have hmem : ∀ e, e ∈ t' ↔ e = ne ∨ ∃ j, t[j]? = some e ∧ j ∉ m.entries := by
    intro e
    rw [heq, List.mem_append, List.mem_cons]
    constructor
    · rintro (h | h | h)
      · obtain ⟨j, _, h1, h2⟩ := hmem1 e h; exact .inr ⟨j, h1, h2⟩
      · exact .inl h
      · obtain ⟨j, _, h1, h2⟩ := hmem2 e h; exact .inr ⟨j, h1, h2⟩
    · rintro (h | ⟨j, h1, h2⟩)
      · exact .inr (.inl h)
      · rcases Nat.lt_or_ge j m.insertionIndex with h | h
        · left
          rw [mem_surv]
          exact ⟨j, by rw [List.getElem?_take, if_pos h]; exact h1, by simpa using h2⟩
        · right; right
          rw [mem_surv]
          refine ⟨j - m.insertionIndex, ?_, ?_⟩
          · rw [List.getElem?_drop, ← h1]; congr 1; omega
          · have : m.insertionIndex + (j - m.insertionIndex) = j := by omega
            rw [this]; exact h2
  have hsub12 : (surv m.entries 0 (t.take m.insertionIndex) ++
      surv m.entries m.insertionIndex (t.drop m.insertionIndex)).Sublist t := by
    have := (surv_sublist m.entries (t.take m.insertionIndex) 0).append
      (surv_sublist m.entries (t.drop m.insertionIndex) m.insertionIndex)
    rwa [List.take_append_drop] at this
  refine ⟨?_, ?_, ?_, ?_, ?_, ?_⟩
  · intro e he
    rcases (hmem e).1 he with rfl | ⟨j, h1, h2⟩
    · rw [hnekm]; exact hmok
    · exact hI.valid e (List.mem_of_getElem? h1)
  · have hn12 := hI.nodup.sublist (hsub12.map kmOf)
    rw [heq, List.map_append, List.map_cons]
    rw [List.map_append, List.nodup_append] at hn12
    rw [List.nodup_append, List.nodup_cons]
    refine ⟨hn12.1, ⟨?_, hn12.2.1⟩, ?_⟩
    · intro h
      obtain ⟨q, hq, hqk⟩ := List.mem_map.1 h
      obtain ⟨j, _, h1, _⟩ := hmem2 q hq
      exact hkm j q h1 (by rw [hqk, hnekm])
    · intro x hx y hy
      rw [List.mem_cons] at hy
      rcases hy with rfl | hy
      · obtain ⟨q, hq, hqk⟩ := List.mem_map.1 hx
        obtain ⟨j, _, h1, _⟩ := hmem1 q hq
        intro hxy
        exact hkm j q h1 (by rw [hqk, hxy, hnekm])
      · exact hn12.2.2 x hx y hy
  · intro e he
    rcases (hmem e).1 he with rfl | ⟨j, h1, h2⟩
    · rw [hnekm]
      constructor
      · obtain ⟨i, hi, hie⟩ := hfirst
        obtain ⟨x, hx⟩ := List.exists_mem_of_ne_nil _ (hI.al first (List.mem_of_getElem? hie)).1
        exact List.ne_nil_of_mem ((hnew x).2 ⟨i, first, hi, hie, hx⟩)
      · intro x hx
        obtain ⟨i, e', hi, hie, hx⟩ := (hnew x).1 hx
        have := (hI.al e' (List.mem_of_getElem? hie)).2 x hx
        exact ⟨this.1, fun k hk => hu.isMerge.sub hi hie k (this.2 k hk)⟩
    · rw [hkeep j e h1 h2]
      exact hI.al e (List.mem_of_getElem? h1)
  · -- the order
    have hkept : ∀ e ∈ surv m.entries 0 (t.take m.insertionIndex) ++
        surv m.entries m.insertionIndex (t.drop m.insertionIndex),
        aliasesOf a' (kmOf e) = aliasesOf a (kmOf e) := by
      intro e he
      rw [List.mem_append] at he
      rcases he with he | he
      · obtain ⟨j, _, h1, h2⟩ := hmem1 e he; exact hkeep j e h1 h2
      · obtain ⟨j, _, h1, h2⟩ := hmem2 e he; exact hkeep j e h1 h2
    have h12 : (surv m.entries 0 (t.take m.insertionIndex) ++
        surv m.entries m.insertionIndex (t.drop m.insertionIndex)).Pairwise
        (fun q e => ∀ x ∈ aliasesOf a' (kmOf e), ∀ k, (kmOf q).Has k → x.Has k →
          ∃ y ∈ aliasesOf a' (kmOf q), y.Has k ∧ Before O y x) := by
      refine List.Pairwise.imp_of_mem ?_ (hI.order.sublist hsub12)
      intro q e hq he h
      rw [hkept e he, hkept q hq]
      exact h
    rw [List.pairwise_append] at h12
    rw [heq, List.pairwise_append, List.pairwise_cons]
    refine ⟨h12.1, ⟨?_, h12.2.1⟩, ?_⟩
    · intro e he x hx k hk1 hk2
      obtain ⟨j, hle, h1, h2⟩ := hmem2 e he
      rw [hkeep j e h1 h2] at hx
      rw [hnekm] at hk1
      exact absurd ⟨k, hk1, hk2⟩ (hdown j e h1 hle x hx)
    · intro q hq e he
      rw [List.mem_cons] at he
      rcases he with rfl | he
      · intro x hx k hk1 hk2
        rw [hnekm] at hx
        obtain ⟨i, e', hi, hie, hx⟩ := (hnew x).1 hx
        obtain ⟨j, hlt, h1, h2⟩ := hmem1 q hq
        have hij : i ≠ j := fun h => h2 (h ▸ hi)
        have hme' : e' ∈ t := List.mem_of_getElem? hie
        have hx' := (hI.al e' hme').2 x hx
        rw [hkeep j q h1 h2]
        rcases Nat.lt_or_ge j i with h | h
        · have hil := hu.cand.lt i hi
          have hjl : j < t.length := by omega
          have := List.pairwise_iff_getElem.1 hI.order j i hjl hil h
          rw [List.getElem?_eq_getElem hjl] at h1
          rw [List.getElem?_eq_getElem hil] at hie
          simp only [Option.some.injEq] at h1 hie
          rw [h1, hie] at this
          exact this x hx k hk1 hk2
        · have := hu.up i hi j (by omega) hlt e' q hie h1
          have hm2 : (kmOf e').Meet (kmOf q) := ⟨k, hx'.2 k hk2, hk1⟩
          rw [(intersect_iff (hI.valid e' hme') (hI.valid q (List.mem_of_getElem? h1))).2 hm2] at this
          simp at this
      · exact h12.2.2 q hq e he
  · intro o ho
    obtain ⟨e, he, h1, h2, h3⟩ := hI.cover o ho
    obtain ⟨j, hjl, hj⟩ := List.mem_iff_getElem.1 he
    have hj : t[j]? = some e := by rw [List.getElem?_eq_getElem hjl, hj]
    by_cases hje : j ∈ m.entries
    · refine ⟨ne, (hmem ne).2 (.inl rfl), ?_, ?_, ?_⟩
      · rw [hnekm, hnew]
        exact ⟨j, e, hje, hj, h1⟩
      · obtain ⟨i, hi, hie⟩ := hfirst
        rw [← h2, ← hne]
        exact hu.cand.route i hi j hje first e hie hj
      · intro hd
        apply h3
        obtain ⟨es, he1, _, he3, _⟩ := hu.isMerge.es
        have : m.defaultable = true := by rw [← hne] at hd; exact hd
        rw [he3, List.all_eq_true] at this
        exact this e ((he1 e).2 ⟨j, hje, hj⟩)
    · refine ⟨e, (hmem e).2 (.inr ⟨j, hj, hje⟩), ?_, h2, h3⟩
      rw [hkeep j e hj hje]; exact h1
  · intro e he x hx
    rcases (hmem e).1 he with rfl | ⟨j, h1, h2⟩
    · rw [hnekm] at hx
      obtain ⟨i, e', hi, hie, hx⟩ := (hnew x).1 hx
      exact hI.orig e' (List.mem_of_getElem? hie) x hx
    · rw [hkeep j e h1 h2] at hx
      exact hI.orig e (List.mem_of_getElem? h1) x hx

/-! ### The main loop -/

theorem mainLoop_ok {P : List Entry → Aliases → Prop} (target : Option Nat) (timeUp : Nat → Bool)
    (hstep : ∀ t a m t' a', Sorted t → P t a → Usable t a m → Applied t a m t' a' → P t' a') :
    ∀ (fuel round : Nat) (t : List Entry) (a : Aliases), t.length < fuel → t ≠ [] → Sorted t → P t a →
    (∃ t' a', mainLoop target timeUp fuel round t a = .ok (t', a') ∧ t'.length ≤ t.length ∧
      t' ≠ [] ∧ Sorted t' ∧ P t' a') ∨
    (mainLoop target timeUp fuel round t a = .error .minimisationFailed ∧
      ∃ n, round ≤ n ∧ n < round + t.length ∧ timeUp n = true) := by
  intro fuel
  induction fuel with
  | zero => intro r t a h; omega
  | succ fuel ih =>
    intro round t a hf hne hs hP
    rw [mainLoop]
    by_cases hc : target.all (fun n => decide (t.length > n)) = true
    · rw [if_pos hc]
      simp only [bind, Except.bind, pure, Except.pure]
      obtain ⟨m, h1, h2⟩ := bestMerge_ok hne hs a (Nat.lt_succ_self t.length)
      rw [h1]
      simp only
      split
      · exact .inl ⟨t, a, rfl, Nat.le_refl _, hne, hs, hP⟩
      · rename_i hg
        have hu := h2 (by omega)
        obtain ⟨t', a', h3, ⟨h4⟩⟩ := apply_ok hu
        rw [h3]
        simp only
        have hlen := h4.len
        have htwo := hu.two
        have hpos : 0 < t.length := List.length_pos_iff.2 hne
        split
        · rename_i ht
          exact .inr ⟨rfl, round, Nat.le_refl _, by omega, ht⟩
        · have hne' : t' ≠ [] := by
            rw [h4.eq]; simp
          rcases ih (round + 1) t' a' (by omega) hne' (applied_sorted hs hu h4)
            (hstep t a m t' a' hs hP hu h4) with ⟨t2, a2, k1, k2, k3⟩ | ⟨k1, n, k2, k3, k4⟩
          · exact .inl ⟨t2, a2, k1, by omega, k3⟩
          · exact .inr ⟨k1, n, by omega, by omega, k4⟩
    · rw [if_neg hc]
      exact .inl ⟨t, a, rfl, Nat.le_refl _, hne, hs, hP⟩

theorem sortGen_perm (t : List Entry) : (sortGen t).Perm t := stableSort_perm _ t

theorem sortGen_sorted (t : List Entry) : Sorted (sortGen t) := by
  unfold Sorted sortGen
  have := stableSort_sorted (fun a b : Entry => decide (generality (kmOf a) ≤ generality (kmOf b)))
    (by intro a b; simp; omega) (by intro a b c; simp; omega) t
  exact this.imp (by intro a b h; simpa using h)

end Pacman.OC
