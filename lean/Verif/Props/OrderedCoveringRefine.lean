import Verif.Props.OrderedCovering
/-
C136: refining a merge that would hide keys gives up only the smallest set of entries that will do (false; partial).
-/

namespace Pacman.OC

/-- Entry `i` looks at the bit and has the value there. -/
def shows (t : List Entry) (b : Nat) (v : Bool) (i : Nat) : Bool :=
  match t[i]? with
  | some e => e.mask.getLsbD b && (e.key.getLsbD b == v)
  | none => false

/-- The entries of a merge left if the bit is to have the value in all of them. -/
def left (t : List Entry) (m : Merge) (b : Nat) (v : Bool) : List Nat := m.entries.filter (shows t b v)

/-- The bits that a key/mask looks at and the merge does not. -/
def Settable (m : Merge) (km : KM) (b : Nat) : Prop := b < 32 ∧ km.2.getLsbD b = true ∧ m.km.2.getLsbD b = false

/-- How many they are. -/
def settables (m : Merge) (km : KM) : Nat := (List.range 32).countP (fun b => km.2.getLsbD b && !m.km.2.getLsbD b)

/-- One of the ways not to hide a key/mask below: that bit `b` has value `v` in all entries merged. It is one for a key/mask
that no other one hidden has fewer of. -/
def Way (t : List Entry) (a : Aliases) (m : Merge) (b : Nat) (v : Bool) : Prop :=
  ∃ km ∈ covered t a m, (∀ km' ∈ covered t a m, settables m km ≤ settables m km') ∧ Settable m km b ∧ v = !km.1.getLsbD b

/-- A round of the `while` loop that gets to the removal, ordered_covering.py:675-741. -/
def round (t : List Entry) (a : Aliases) (m : Merge) : Except PyErr Merge :=
  removeLoop t (sortedBits ((covered t a m).foldl (stringent m.km.2) (33, [])).2) [] m

/-- C136: what a round leaves is the largest of what the ways leave. -/
def C136_full : Prop := ∀ (t : List Entry) (a : Aliases) (is : List Nat) (m m' : Merge), AllValid t → Orthogonal t →
  mkMerge t is = .ok m → m.entries ≠ [] → covered t a m ≠ [] → (∀ km ∈ covered t a m, settables m km ≠ 0) →
  round t a m = .ok m' → ∃ b v, Way t a m b v ∧ m'.entries = left t m b v ∧
    ∀ b' v', Way t a m b' v' → (left t m b' v').length ≤ m'.entries.length

theorem mem_bitsSet {w : Word} {b : Nat} : b ∈ bitsSet w ↔ b < 32 ∧ w.getLsbD b = true := by
  unfold bitsSet
  rw [List.mem_filter, List.mem_range]

theorem settables_eq (m : Merge) (km : KM) : (bitsSet (km.2 &&& ~~~m.km.2)).length = settables m km := by
  unfold bitsSet settables
  rw [← List.countP_eq_length_filter]
  refine List.countP_congr (fun b hb => ?_)
  rw [List.mem_range] at hb
  simp [hb]

theorem mem_settable {m : Merge} {km : KM} {b : Nat} : b ∈ bitsSet (km.2 &&& ~~~m.km.2) ↔ Settable m km b := by
  rw [mem_bitsSet]
  unfold Settable
  refine ⟨fun ⟨h1, h2⟩ => ?_, fun ⟨h1, h2, h3⟩ => ⟨h1, ?_⟩⟩
  · simp [h1] at h2
    exact ⟨h1, h2⟩
  · rw [BitVec.getLsbD_and, BitVec.getLsbD_not, h2, h3]
    simp [h1]

/-- What the loop over the hidden key/masks has found. -/
structure Found (m : Merge) (seen : List KM) (s : Nat × List (Nat × Bool)) : Prop where
  least : ∀ km ∈ seen, s.1 ≤ settables m km
  ways : ∀ b v, (b, v) ∈ s.2 ↔ ∃ km ∈ seen, settables m km = s.1 ∧ Settable m km b ∧ v = !km.1.getLsbD b
  met : (seen = [] ∧ s.1 = 33) ∨ ∃ km ∈ seen, settables m km = s.1

theorem found_none {m : Merge} : Found m [] (33, []) where
  least := fun _ h => by cases h
  ways := by simp
  met := Or.inl ⟨rfl, rfl⟩

theorem found_step {m : Merge} {seen : List KM} {s : Nat × List (Nat × Bool)} (h : Found m seen s) (km : KM) :
    Found m (seen ++ [km]) (stringent m.km.2 s km) := by
  have hnew : ∀ b v, (b, v) ∈ (bitsSet (km.2 &&& ~~~m.km.2)).map (fun b => (b, !km.1.getLsbD b)) ↔
      Settable m km b ∧ v = !km.1.getLsbD b := by
    intro b v
    rw [List.mem_map]
    refine ⟨fun ⟨b', h1, h2⟩ => ?_, fun ⟨h1, h2⟩ => ⟨b, mem_settable.2 h1, by rw [h2]⟩⟩
    injection h2 with e1 e2
    subst e1
    exact ⟨mem_settable.1 h1, e2.symm⟩
  unfold stringent
  simp only [settables_eq]
  by_cases h1 : settables m km ≤ s.1
  · rw [if_pos h1]
    by_cases h2 : settables m km < s.1
    · rw [if_pos h2]
      refine ⟨fun k hk => ?_, fun b v => ?_, Or.inr ⟨km, by simp, rfl⟩⟩
      · rcases List.mem_append.mp hk with hk | hk
        · have := h.least k hk; simp only; omega
        · rw [List.mem_singleton] at hk; subst hk; exact Nat.le_refl _
      · rw [hnew b v]
        refine ⟨fun ⟨k1, k2⟩ => ⟨km, by simp, rfl, k1, k2⟩, fun ⟨k, k1, k2, k3, k4⟩ => ?_⟩
        rcases List.mem_append.mp k1 with k1 | k1
        · have := h.least k k1; simp only at k2; omega
        · rw [List.mem_singleton] at k1; subst k1; exact ⟨k3, k4⟩
    · rw [if_neg h2]
      have he : settables m km = s.1 := by omega
      refine ⟨fun k hk => ?_, fun b v => ?_, Or.inr ⟨km, by simp, he⟩⟩
      · rcases List.mem_append.mp hk with hk | hk
        · exact h.least k hk
        · rw [List.mem_singleton] at hk; subst hk; exact Nat.le_of_eq he.symm
      · rw [List.mem_append, h.ways b v, hnew b v]
        constructor
        · rintro (⟨k, k1, k2⟩ | ⟨k1, k2⟩)
          · exact ⟨k, List.mem_append_left _ k1, k2⟩
          · exact ⟨km, by simp, he, k1, k2⟩
        · rintro ⟨k, k1, k2⟩
          rcases List.mem_append.mp k1 with k1 | k1
          · exact Or.inl ⟨k, k1, k2⟩
          · rw [List.mem_singleton] at k1; subst k1; exact Or.inr k2.2
  · rw [if_neg h1]
    refine ⟨fun k hk => ?_, fun b v => ?_, ?_⟩
    · rcases List.mem_append.mp hk with hk | hk
      · exact h.least k hk
      · rw [List.mem_singleton] at hk; subst hk; omega
    · rw [h.ways b v]
      constructor
      · rintro ⟨k, k1, k2⟩
        exact ⟨k, List.mem_append_left _ k1, k2⟩
      · rintro ⟨k, k1, k2⟩
        rcases List.mem_append.mp k1 with k1 | k1
        · exact ⟨k, k1, k2⟩
        · rw [List.mem_singleton] at k1; subst k1; omega
    · rcases h.met with ⟨-, h2⟩ | ⟨k, k1, k2⟩
      · have : settables m km ≤ 32 := by
          rw [← settables_eq]; exact bitsSet_length _
        omega
      · exact Or.inr ⟨k, List.mem_append_left _ k1, k2⟩

theorem found_all {m : Merge} (l : List KM) : ∀ (seen : List KM) (s : Nat × List (Nat × Bool)), Found m seen s →
    Found m (seen ++ l) (l.foldl (stringent m.km.2) s) := by
  induction l with
  | nil => intro seen s h; rw [List.append_nil]; exact h
  | cons km l ih =>
    intro seen s h
    rw [List.foldl_cons, show seen ++ km :: l = (seen ++ [km]) ++ l by simp]
    exact ih _ _ (found_step h km)

/-- The bits and values kept by the loop are the ways. -/
theorem mem_ways {t : List Entry} {a : Aliases} {m : Merge} {b : Nat} {v : Bool} :
    (b, v) ∈ ((covered t a m).foldl (stringent m.km.2) (33, [])).2 ↔ Way t a m b v := by
  have h := found_all (m := m) (covered t a m) [] (33, []) found_none
  rw [List.nil_append] at h
  rw [h.ways b v]
  constructor
  · rintro ⟨km, k1, k2, k3⟩
    exact ⟨km, k1, fun km' k => by rw [k2]; exact h.least km' k, k3⟩
  · rintro ⟨km, k1, k2, k3⟩
    refine ⟨km, k1, ?_, k3⟩
    rcases h.met with ⟨h1, -⟩ | ⟨k, h1, h2⟩
    · rw [h1] at k1; cases k1
    · have := k2 k h1
      have := h.least km k1
      omega

/-- What is to be removed for a bit is what does not show it. -/
theorem workingRemove_iff {t : List Entry} {b : Nat} {v : Bool} {is : List Nat} (h : ∀ i ∈ is, i < t.length) :
    ∃ w, workingRemove t b v is = .ok w ∧ ∀ i, i ∈ w ↔ i ∈ is ∧ shows t b v i = false := by
  induction is with
  | nil => exact ⟨[], rfl, by simp⟩
  | cons i is ih =>
    obtain ⟨w, h1, h2⟩ := ih (fun j hj => h j (List.mem_cons_of_mem _ hj))
    have hi := h i List.mem_cons_self
    rw [workingRemove, getE_ok hi, h1]
    simp only [bind, Except.bind, pure, Except.pure]
    have hs : shows t b v i = (t[i].mask.getLsbD b && (t[i].key.getLsbD b == v)) := by
      unfold shows
      rw [List.getElem?_eq_getElem hi]
    have hneg : (!t[i].mask.getLsbD b || t[i].key.getLsbD b == !v) = !shows t b v i := by
      rw [hs]
      cases t[i].mask.getLsbD b <;> cases t[i].key.getLsbD b <;> cases v <;> rfl
    rw [hneg]
    cases hsv : shows t b v i with
    | false =>
      refine ⟨i :: w, rfl, fun j => ?_⟩
      rw [List.mem_cons, List.mem_cons, h2 j]
      constructor
      · rintro (rfl | ⟨k1, k2⟩)
        · exact ⟨Or.inl rfl, hsv⟩
        · exact ⟨Or.inr k1, k2⟩
      · rintro ⟨rfl | k1, k2⟩
        · exact Or.inl rfl
        · exact Or.inr ⟨k1, k2⟩
    | true =>
      refine ⟨w, rfl, fun j => ?_⟩
      rw [List.mem_cons, h2 j]
      constructor
      · rintro ⟨k1, k2⟩
        exact ⟨Or.inr k1, k2⟩
      · rintro ⟨rfl | k1, k2⟩
        · rw [hsv] at k2; cases k2
        · exact ⟨k1, k2⟩

/-- If all entries merged have a value at a bit then so has the merge. -/
theorem merge_shows {t : List Entry} {m : Merge} (hm : IsMerge t m) (hne : m.entries ≠ []) {b : Nat} {v : Bool} (hb : b < 32)
    (h : ∀ i ∈ m.entries, shows t b v i = true) : m.km.2.getLsbD b = true ∧ m.km.1.getLsbD b = v := by
  obtain ⟨es, h1, h2, -, h4⟩ := hm.es
  have hes : ∀ e ∈ es, e.mask.getLsbD b = true ∧ e.key.getLsbD b = v := by
    intro e he
    obtain ⟨i, hi, hie⟩ := (h1 e).1 he
    have := h i hi
    unfold shows at this
    rw [hie] at this
    simpa using this
  have hne' : es ≠ [] := by
    intro h0
    rw [h0] at h4
    exact hne (List.length_eq_zero_iff.1 h4.symm)
  obtain ⟨e0, he0⟩ := List.exists_mem_of_ne_nil _ hne'
  have ha : es.all (fun e => e.key.getLsbD b) = v := by
    cases v with
    | true => rw [List.all_eq_true]; exact fun e he => (hes e he).2
    | false => rw [List.all_eq_false]; exact ⟨e0, he0, by rw [(hes e0 he0).2]; simp⟩
  have ho : es.any (fun e => e.key.getLsbD b) = v := by
    cases v with
    | true => rw [List.any_eq_true]; exact ⟨e0, he0, (hes e0 he0).2⟩
    | false => rw [List.any_eq_false]; exact fun e he => by rw [(hes e he).2]; simp
  have hk : es.all (fun e => e.mask.getLsbD b) = true := by
    rw [List.all_eq_true]; exact fun e he => (hes e he).1
  have hmask : (mergeKM es).2.getLsbD b = true := by
    rw [mergeKM_mask es b hb, ha, ho, hk]
    simp
  rw [h2]
  refine ⟨hmask, ?_⟩
  rw [mergeKM_key es b hb, hmask, ha, Bool.and_true]

/-- A key/mask with the other value at a bit is not met. -/
theorem apart_of_bit {x y : KM} {b : Nat} {v : Bool} (h1 : x.2.getLsbD b = true) (h2 : x.1.getLsbD b = v)
    (h3 : y.2.getLsbD b = true) (h4 : y.1.getLsbD b = !v) : intersect x y = false := by
  unfold intersect
  rw [decide_eq_false_iff_not]
  intro h
  have := congrArg (fun w : Word => w.getLsbD b) h
  simp only [BitVec.getLsbD_and, h1, h2, h3, h4] at this
  cases v <;> simp at this

/-- C136, what holds: a round gives up at least one entry. All that is left has the value of one of the ways at its bit, so
that a merge of it, unless it is empty, does not hide a key/mask for which that was a way. If there is only one way then the
round gives up just what this takes.
Missing: that no more is given up where there are several ways (`C136_false`). -/
theorem C136_round_partial {t : List Entry} (ht : t ≠ []) (a : Aliases) {m : Merge} (hm : IsMerge t m) (hne : m.entries ≠ [])
    (hc : covered t a m ≠ []) (h0 : ∀ km ∈ covered t a m, settables m km ≠ 0) :
    ∃ m', round t a m = .ok m' ∧ IsMerge t m' ∧ m'.entries.length < m.entries.length ∧
      ∃ b v, Way t a m b v ∧ m'.entries.Sublist (left t m b v) ∧
        (m'.entries ≠ [] → ∀ km ∈ covered t a m, km.2.getLsbD b = true → km.1.getLsbD b = !v →
          intersect m'.km km = false) ∧
        ((∀ b' v', Way t a m b' v' → b' = b ∧ v' = v) → m'.entries = left t m b v) := by
  obtain ⟨hs1, -, -⟩ := foldl_stringent (covered t a m) (33, []) (strInv_init m.km.2)
  -- there is a way
  have hfound := found_all (m := m) (covered t a m) [] (33, []) found_none
  rw [List.nil_append] at hfound
  have hex : ∃ x, x ∈ ((covered t a m).foldl (stringent m.km.2) (33, [])).2 := by
    rcases hfound.met with ⟨h1, -⟩ | ⟨km, h1, h2⟩
    · exact absurd h1 hc
    · have h3 : 0 < settables m km := Nat.pos_of_ne_zero (h0 km h1)
      rw [← settables_eq] at h3
      obtain ⟨b, hb⟩ := List.exists_mem_of_ne_nil _ (List.length_pos_iff.1 h3)
      exact ⟨(b, !km.1.getLsbD b), (hfound.ways _ _).2 ⟨km, h1, h2, mem_settable.1 hb, rfl⟩⟩
  obtain ⟨x, hx⟩ := hex
  have hbits : sortedBits ((covered t a m).foldl (stringent m.km.2) (33, [])).2 ≠ [] :=
    List.ne_nil_of_mem (mem_sortedBits hx (hs1.1 x hx).1)
  obtain ⟨m', k1, k2, -, k4⟩ := removeLoop_lt ht hm hne hbits (fun y hy => hs1.1 y (sortedBits_mem hy))
  refine ⟨m', k1, k2, k4, ?_⟩
  have hnd : (sortedBits ((covered t a m).foldl (stringent m.km.2) (33, [])).2).Nodup := by
    unfold sortedBits
    exact List.Pairwise.filter _ (by decide +kernel)
  cases hb : sortedBits ((covered t a m).foldl (stringent m.km.2) (33, [])).2 with
  | nil => exact absurd hb hbits
  | cons y bits =>
    obtain ⟨b, v⟩ := y
    have hw : Way t a m b v := mem_ways.1 (sortedBits_mem (by rw [hb]; exact List.mem_cons_self))
    rw [hb] at k1 hnd
    obtain ⟨w, q1, q2⟩ := workingRemove_iff (b := b) (v := v) hm.lt
    rw [removeLoop, q1] at k1
    simp only [bind, Except.bind, true_or, if_true] at k1
    have hfil : m.entries.filter (fun i => decide (i ∉ w)) = left t m b v := by
      unfold left
      refine List.filter_congr (fun i hi => ?_)
      cases hsv : shows t b v i with
      | true =>
        have : i ∉ w := fun h => by rw [((q2 i).1 h).2] at hsv; cases hsv
        simp [this]
      | false => simp [(q2 i).2 ⟨hi, hsv⟩]
    obtain ⟨m1, r1, r2, r3⟩ := mkMerge_ok (is := m.entries.filter (fun i => decide (i ∉ w))) ht
      (fun i hi => hm.lt i (List.mem_filter.1 hi).1)
    rw [r1] at k1
    simp only at k1
    obtain ⟨r, p1, p2, p3⟩ := removeLoop_ok ht bits w m1 r3
    rw [k1] at p1
    cases p1
    rw [r2, hfil] at p3
    refine ⟨b, v, hw, p3, fun hne' km hkm e1 e2 => ?_, fun hone => ?_⟩
    · obtain ⟨_, _, _, ⟨hlt, -, -⟩, -⟩ := hw
      have hsh : ∀ i ∈ m'.entries, shows t b v i = true := fun i hi => (List.mem_filter.1 (p3.subset hi)).2
      obtain ⟨g1, g2⟩ := merge_shows k2 hne' hlt hsh
      exact apart_of_bit g1 g2 e1 e2
    · cases bits with
      | nil =>
        rw [removeLoop] at k1
        cases k1
        rw [r2, hfil]
      | cons z bits =>
        have hz : Way t a m z.1 z.2 := mem_ways.1 (sortedBits_mem (by rw [hb]; simp))
        obtain ⟨e1, e2⟩ := hone _ _ hz
        rw [List.nodup_cons] at hnd
        exact absurd (show (b, v) ∈ z :: bits by rw [← e1, ← e2]; exact List.mem_cons_self) hnd.1

/-- Six entries with one route and a wide one below. In bits 3 and 2 the wide one has 01; of the others three have 00, two
have 10 and one has 11. -/
def sixTable : List Entry :=
  [⟨0, 0xFFFFFFFF, 1, false⟩, ⟨1, 0xFFFFFFFF, 1, false⟩, ⟨2, 0xFFFFFFFF, 1, false⟩, ⟨8, 0xFFFFFFFF, 1, false⟩,
   ⟨9, 0xFFFFFFFF, 1, false⟩, ⟨0xC, 0xFFFFFFFF, 1, false⟩, ⟨4, 0xC, 2, false⟩]

theorem six_valid : AllValid sixTable := by unfold AllValid; decide

theorem six_orthogonal : Orthogonal sixTable := by
  have h : sixTable.Pairwise (fun a b => ¬ a.key &&& b.mask = b.key &&& a.mask) := by decide +kernel
  refine List.Pairwise.imp_of_mem ?_ h
  intro a b ha hb hn
  rwa [Entry.meets_iff (six_valid a ha) (six_valid b hb)]

/-- All six merged. -/
def sixMerge : Merge := ⟨[0, 1, 2, 3, 4, 5], (0, 0xFFFFFFF0), false, 5, 6⟩

theorem six_merge : mkMerge sixTable [0, 1, 2, 3, 4, 5] = .ok sixMerge := by decide +kernel

theorem six_covered : covered sixTable [] sixMerge = [(4, 0xC)] := by decide +kernel

theorem six_way {b : Nat} {v : Bool} : Way sixTable [] sixMerge b v ↔ (b = 3 ∧ v = true) ∨ (b = 2 ∧ v = false) := by
  rw [← mem_ways, six_covered, show ([((4 : Word), (0xC : Word))].foldl (stringent sixMerge.km.2) (33, [])).2 =
    [(2, false), (3, true)] by decide +kernel]
  simp
  constructor
  · rintro (h | h)
    · exact Or.inr h
    · exact Or.inl h
  · rintro (h | h)
    · exact Or.inr h
    · exact Or.inl h

/-- C136 is false: of the six entries two are left, although five need not be given up. The merge is replaced for each of the
ways (line 741), not after the smallest set is known, so that the sets of several of them are given up. -/
theorem C136_false : ¬ C136_full := by
  intro h
  obtain ⟨b, v, -, -, h3⟩ := h sixTable [] [0, 1, 2, 3, 4, 5] sixMerge ⟨[3, 4], (8, 0xFFFFFFFE), false, 1, 6⟩ six_valid
    six_orthogonal six_merge (by decide) (by rw [six_covered]; simp) (by rw [six_covered]; decide +kernel)
    (by decide +kernel)
  have := h3 2 false (six_way.2 (Or.inr ⟨rfl, rfl⟩))
  rw [show left sixTable sixMerge 2 false = [0, 1, 2, 3, 4] by decide +kernel] at this
  simp at this

/-- So ordered covering takes the table of seven entries to one of six, though five of them may be merged at once, which
hides nothing and leaves three. -/
theorem C136_longer :
    (∃ t' a', orderedCovering 8 (fun _ => false) sixTable none [] true = .ok (t', a') ∧ t'.length = 6) ∧
    ∃ m t' a', mkMerge sixTable [0, 1, 2, 3, 4] = .ok m ∧ covered sixTable [] m = [] ∧ apply sixTable [] m = .ok (t', a') ∧
      t'.length = 3 ∧ RoutesSame sixTable t' := by
  refine ⟨⟨_, _, rfl, by decide +kernel⟩, ⟨[0, 1, 2, 3, 4], (0, 0xFFFFFFF4), false, 4, 6⟩,
    [⟨0xC, 0xFFFFFFFF, 1, false⟩, ⟨0, 0xFFFFFFF4, 1, false⟩, ⟨4, 0xC, 2, false⟩], _, by decide +kernel, by decide +kernel,
    rfl, rfl, ?_⟩
  have hv : AllValid [⟨0xC, 0xFFFFFFFF, 1, false⟩, ⟨0, 0xFFFFFFF4, 1, false⟩, ⟨4, 0xC, 2, false⟩] := by
    unfold AllValid; decide
  have ho : Orthogonal [⟨0xC, 0xFFFFFFFF, 1, false⟩, ⟨0, 0xFFFFFFF4, 1, false⟩, ⟨4, 0xC, 2, false⟩] := by
    have h : List.Pairwise (fun a b : Entry => ¬ a.key &&& b.mask = b.key &&& a.mask)
      [⟨0xC, 0xFFFFFFFF, 1, false⟩, ⟨0, 0xFFFFFFF4, 1, false⟩, ⟨4, 0xC, 2, false⟩] := by decide +kernel
    refine List.Pairwise.imp_of_mem ?_ h
    intro a b ha hb hn
    rwa [Entry.meets_iff (hv a ha) (hv b hb)]
  have hin : ∀ o ∈ sixTable, ∃ e ∈ [(⟨0xC, 0xFFFFFFFF, 1, false⟩ : Entry), ⟨0, 0xFFFFFFF4, 1, false⟩, ⟨4, 0xC, 2, false⟩],
      e.route = o.route ∧ o.mask &&& e.mask = e.mask ∧ o.key &&& e.mask = e.key := by decide +kernel
  intro k hk
  cases hl : lookup sixTable k with
  | none => exact absurd (by unfold routeOf; rw [hl]; rfl) hk
  | some o =>
    have h1 : o ∈ sixTable := List.mem_of_find?_eq_some hl
    have h2 : o.Matches k := by simpa using List.find?_some hl
    obtain ⟨e, h3, h4, h5, h6⟩ := hin o h1
    have h7 : e.Matches k := by
      unfold Entry.Matches at h2 ⊢
      rw [← h5, ← BitVec.and_assoc, h2, h6]
    unfold routeOf
    rw [hl, lookup_orthogonal ho h3 h7]
    simp [h4]

/-- The example of the documentation, ordered_covering.py:553-581: there is one way, by which two entries are left. -/
def docTable : List Entry :=
  [⟨1, 0xFFFFFFFF, 3, false⟩, ⟨3, 0xFFFFFFFF, 3, false⟩, ⟨4, 0xFFFFFFFF, 3, false⟩, ⟨0, 0xFFFFFFFB, 3, false⟩,
   ⟨4, 4, 5, false⟩]

def docMerge : Merge := ⟨[0, 1, 2, 3], (0, 0xFFFFFFF8), false, 3, 4⟩

theorem doc_covered : covered docTable [] docMerge = [(4, 4)] := by decide +kernel

theorem doc_way {b : Nat} {v : Bool} : Way docTable [] docMerge b v ↔ b = 2 ∧ v = false := by
  rw [← mem_ways, doc_covered, show ([((4 : Word), (4 : Word))].foldl (stringent docMerge.km.2) (33, [])).2 =
    [(2, false)] by decide +kernel]
  simp

example : ∃ m', round docTable [] docMerge = .ok m' ∧ m'.entries = [0, 1] := by
  obtain ⟨m, h1, -, h3⟩ := mkMerge_ok (t := docTable) (is := [0, 1, 2, 3]) (by decide) (by decide)
  rw [show mkMerge docTable [0, 1, 2, 3] = .ok docMerge by decide +kernel] at h1
  cases h1
  obtain ⟨m', h4, -, -, b, v, h5, -, -, h6⟩ := C136_round_partial (by decide) [] h3 (by decide)
    (by rw [doc_covered]; simp) (by rw [doc_covered]; decide +kernel)
  obtain ⟨rfl, rfl⟩ := doc_way.1 h5
  exact ⟨m', h4, by rw [h6 (fun _ _ h => doc_way.1 h)]; decide +kernel⟩

end Pacman.OC
