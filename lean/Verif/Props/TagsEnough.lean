import Verif.Props.Tags
/-
C144: when tags can be allocated.
-/

namespace Pacman.TagAlloc

/-- How many of the requests ask for the tag. -/
def asking (rs : List Req) (w : Nat) : Nat := (rs.filter (fun r => decide (r.tag = some w))).length

/-- There are no more requests than tags on all boards, and no more requests for a tag than boards that have it. -/
def Enough (m : Machine) (rs : List Req) : Prop :=
  rs.length ≤ 7 * m.eths.length ∧
  ∀ w, asking rs w ≤ if 1 ≤ w ∧ w ≤ 7 then m.eths.length else 0

theorem subset_length {α : Type} [DecidableEq α] : ∀ (a b : List α), a.Nodup → (∀ x ∈ a, x ∈ b) →
    a.length ≤ b.length := by
  intro a
  induction a with
  | nil => intro b _ _; exact Nat.zero_le _
  | cons x a ih =>
    intro b hn hs
    rw [List.nodup_cons] at hn
    have hx : x ∈ b := hs x (by simp)
    have := ih (b.erase x) hn.2 (fun y hy => by
      have hne : y ≠ x := fun h => hn.1 (h ▸ hy)
      exact (List.mem_erase_of_ne hne).2 (hs y (by simp [hy])))
    rw [List.length_erase_of_mem hx] at this
    have hpos : 0 < b.length := List.length_pos_of_mem hx
    simp only [List.length_cons]
    omega

theorem Good.key {m : Machine} {r : Req} {o : Op} (h : Good m r o) (he : r.eth ∈ m.eths) :
    (∃ c ∈ m.eths, o.key.1 = m.addr c) ∧ 1 ≤ o.key.2 ∧ o.key.2 ≤ 7 ∧ ∀ w, r.tag = some w → o.key.2 = w := by
  cases r with
  | ip v e q =>
    obtain ⟨c, hc, t, rfl, h1, h2, h3⟩ := h
    exact ⟨⟨c, hc, rfl⟩, h1, h2, h3⟩
  | rev v e q =>
    obtain ⟨t, p, rfl, h1, h2, h3, -⟩ := h
    exact ⟨⟨e, he, rfl⟩, h1, h2, h3⟩

/-- The additions for requests of a tag are of that tag. -/
theorem matched_count {m : Machine} (w : Nat) : ∀ {rs : List Req} {acc : List Op}, Matched m rs acc →
    (∀ r ∈ rs, r.eth ∈ m.eths) → rs.length = acc.length ∧
    asking rs w ≤ (acc.filter (fun o => decide (o.key.2 = w))).length ∧
    ((∀ r ∈ rs, r.tag ≠ none) → (acc.filter (fun o => decide (o.key.2 = w))).length ≤ asking rs w) := by
  intro rs
  induction rs with
  | nil =>
    intro acc h _
    cases acc with
    | nil => exact ⟨rfl, Nat.le_refl _, fun _ => Nat.le_refl _⟩
    | cons o acc => exact h.elim
  | cons r rs ih =>
    intro acc h he
    cases acc with
    | nil => exact h.elim
    | cons o acc =>
      obtain ⟨h1, h2, h3⟩ := ih h.2 (fun r hr => he r (List.mem_cons_of_mem _ hr))
      obtain ⟨-, -, -, hk⟩ := h.1.key (he r List.mem_cons_self)
      refine ⟨by rw [List.length_cons, List.length_cons, h1], ?_, ?_⟩
      · unfold asking at h2 ⊢
        by_cases hr : r.tag = some w
        · rw [List.filter_cons_of_pos (by simpa using hr), List.filter_cons_of_pos (by simpa using hk w hr)]
          simp only [List.length_cons]; omega
        · rw [List.filter_cons_of_neg (by simpa using hr)]
          refine Nat.le_trans h2 ?_
          exact (List.Sublist.filter _ (List.sublist_cons_self o acc)).length_le
      · intro ht
        have h4 := h3 (fun r hr => ht r (List.mem_cons_of_mem _ hr))
        unfold asking at h4 ⊢
        cases hr : r.tag with
        | none => exact absurd hr (ht r List.mem_cons_self)
        | some x =>
          have hx := hk x hr
          by_cases hw : x = w
          · subst hw
            rw [List.filter_cons_of_pos (by simpa using hx), List.filter_cons_of_pos (by simpa using hr)]
            simp only [List.length_cons]; omega
          · rw [List.filter_cons_of_neg (by rw [hx]; simpa using hw),
              List.filter_cons_of_neg (by rw [hr]; simpa using hw)]
            exact h4

/-- **C144**, needed: whatever the requests are, also with reverse IP tags, if the allocation succeeds there are
enough tags for them. -/
theorem C144_needed {m : Machine} {ps : List Placed} (hs : Sound m ps) {t : Tags} (h : allocate m ps = .ok t) :
    Enough m (requests ps) := by
  obtain ⟨s, acc, rfl, ha⟩ := allocate_inv hs h
  have hre := requests_eth hs
  have hkey : ∀ o ∈ acc, (∃ c ∈ m.eths, o.key.1 = m.addr c) ∧ 1 ≤ o.key.2 ∧ o.key.2 ≤ 7 := by
    intro o ho
    obtain ⟨r, hr, hg⟩ := ha.matched.exists_of_mem ho
    obtain ⟨h1, h2, h3, -⟩ := hg.key (hre r hr)
    exact ⟨h1, h2, h3⟩
  refine ⟨?_, ?_⟩
  · rw [(matched_count 0 ha.matched hre).1]
    have := subset_length (acc.map Op.key)
      (m.eths.flatMap (fun c => [1, 2, 3, 4, 5, 6, 7].map (fun w => (m.addr c, w)))) ha.keys (by
        intro k hk
        obtain ⟨o, ho, rfl⟩ := List.mem_map.1 hk
        obtain ⟨⟨c, hc, h1⟩, h2, h3⟩ := hkey o ho
        refine List.mem_flatMap.2 ⟨c, hc, List.mem_map.2 ⟨o.key.2, ?_, ?_⟩⟩
        · simp only [List.mem_cons, List.not_mem_nil, or_false]; omega
        · rw [← h1])
    rw [List.length_map, List.length_flatMap] at this
    have h7 : (m.eths.map (fun c => ([1, 2, 3, 4, 5, 6, 7].map (fun w => (m.addr c, w))).length)).sum =
        7 * m.eths.length := by
      simp only [List.length_map, List.length_cons, List.length_nil]
      induction m.eths with
      | nil => rfl
      | cons c cs ih => rw [List.map_cons, List.sum_cons, ih, List.length_cons]; omega
    rw [h7] at this
    exact this
  · intro w
    have h1 := (matched_count w ha.matched hre).2.1
    have hsub : ∀ k ∈ (acc.filter (fun o => decide (o.key.2 = w))).map Op.key,
        k ∈ if 1 ≤ w ∧ w ≤ 7 then m.eths.map (fun c => (m.addr c, w)) else [] := by
      intro k hk
      obtain ⟨o, ho, rfl⟩ := List.mem_map.1 hk
      obtain ⟨ho, hw⟩ := List.mem_filter.1 ho
      have hw := of_decide_eq_true hw
      obtain ⟨⟨c, hc, h1⟩, h2, h3⟩ := hkey o ho
      rw [if_pos (by omega)]
      exact List.mem_map.2 ⟨c, hc, by rw [← h1, ← hw]⟩
    have hn : ((acc.filter (fun o => decide (o.key.2 = w))).map Op.key).Nodup :=
      ha.keys.sublist (List.filter_sublist.map _)
    have := subset_length _ _ hn hsub
    rw [List.length_map] at this
    by_cases hw : 1 ≤ w ∧ w ≤ 7
    · rw [if_pos hw, List.length_map] at this; rw [if_pos hw]; omega
    · rw [if_neg hw, List.length_nil] at this; rw [if_neg hw]; omega

/-- **C144**, exactly: if each vertex has IP tags only and those that ask for a tag
come first, the allocation succeeds exactly if there are enough tags, and otherwise raises `PacmanNotFoundError`. What
is missing: automatic tags before others, see `C144_order_false`, and reverse IP tags, see `C28_spill_fails`. -/
theorem C144_enough_partial {m : Machine} {ps : List Placed} (hs : Sound m ps) (hm : m.eths.Nodup)
    (hip : ∀ p ∈ ps, p.revtags = [])
    (hord : (requests ps).Pairwise (fun a b => a.tag = none → b.tag = none)) :
    (Enough m (requests ps) → ∃ t, allocate m ps = .ok t) ∧
    (¬ Enough m (requests ps) → allocate m ps = .error .notFound) := by
  have hnorev : ∀ v b q, Req.rev v b q ∉ requests ps := by
    intro v b q hr
    unfold requests at hr
    obtain ⟨p, hp, hr⟩ := List.mem_flatMap.1 hr
    rw [hip p hp] at hr
    simp at hr
  have hfail : ∀ e, allocate m ps = .error e → e = .notFound := by
    intro e he
    obtain ⟨done, r, rest, t, h1, -, h3⟩ := C27_fails_only hs he
    rcases h3 with ⟨h3, -⟩ | ⟨-, v, b, q, h3, -⟩
    · exact h3
    · exact absurd (by rw [h1, h3]; simp) (hnorev v b q)
  refine ⟨?_, ?_⟩
  · intro hen
    cases ha : allocate m ps with
    | ok t => exact ⟨t, rfl⟩
    | error e =>
      exfalso
      have hre := requests_eth hs
      obtain ⟨done, r, rest, t, h1, h2, h3⟩ := C27_fails_only hs ha
      have h3 : ∀ c ∈ m.eths, Taken m t c r.tag := by
        rcases h3 with ⟨-, h3⟩ | ⟨-, v, b, q, h3, -⟩
        · exact h3
        · exact absurd (by rw [h1, h3]; simp) (hnorev v b q)
      have hdone : ∀ r ∈ done, r.eth ∈ m.eths := fun r hr => hre r (by rw [h1]; simp [hr])
      unfold allocateReqs at h2
      cases hf : foldE (stepReq m) init done with
      | error e => rw [hf] at h2; cases h2
      | ok s =>
        rw [hf] at h2
        cases h2
        obtain ⟨acc, hi⟩ := fold_inv hs.distinct (ainv_init m) hdone hf
        rw [List.nil_append] at hi
        have huse : ∀ c ∈ m.eths, ∀ w, 1 ≤ w → w ≤ 7 → (r.tag = none ∨ r.tag = some w) →
            (m.addr c, w) ∈ acc.map Op.key := by
          intro c hc w hw hw' hr
          obtain ⟨o, ho, hk⟩ := (inUse_iff hi.inv _).1 (h3 c hc w hw hw' hr)
          exact List.mem_map.2 ⟨o, ho, hk⟩
        have hnd : ∀ w : Nat, (m.eths.map (fun c => (m.addr c, w))).Nodup := by
          intro w
          refine List.Pairwise.map _ ?_ ((List.Pairwise.and_mem).1 hm)
          intro a b hab h
          exact hab.2.2 (hs.distinct a hab.1 b hab.2.1 (congrArg Prod.fst h))
        cases hr : r.tag with
        | some w =>
          have hw := hen.2 w
          have hcount : asking done w + 1 ≤ asking (requests ps) w := by
            unfold asking
            rw [h1, List.filter_append, List.length_append, List.filter_cons_of_pos (by simpa using hr),
              List.length_cons]
            omega
          split at hw
          · rename_i hrange
            have hall : ∀ x ∈ done, x.tag ≠ none := by
              intro x hx hx'
              have ho := hord
              rw [h1] at ho
              have := (List.pairwise_append.1 ho).2.2 x hx r (by simp) hx'
              rw [hr] at this; cases this
            have h5 := (matched_count w hi.matched hdone).2.2 hall
            have h6 := subset_length (m.eths.map (fun c => (m.addr c, w)))
              ((acc.filter (fun o => decide (o.key.2 = w))).map Op.key) (hnd w) (by
                intro k hk
                obtain ⟨c, hc, rfl⟩ := List.mem_map.1 hk
                obtain ⟨o, ho, hk⟩ := List.mem_map.1 (huse c hc w hrange.1 hrange.2 (.inr hr))
                exact List.mem_map.2 ⟨o, List.mem_filter.2 ⟨ho, by simp [hk]⟩, hk⟩)
            rw [List.length_map, List.length_map] at h6
            omega
          · omega
        | none =>
          have h5 := (matched_count 0 hi.matched hdone).1
          have h6 : ∀ l : List Nat, (∀ c ∈ l, c ∈ m.eths) → l.Nodup →
              (l.flatMap (fun c => [1, 2, 3, 4, 5, 6, 7].map (fun w => (m.addr c, w)))).Nodup ∧
              (l.flatMap (fun c => [1, 2, 3, 4, 5, 6, 7].map (fun w => (m.addr c, w)))).length = 7 * l.length := by
            intro l
            induction l with
            | nil => intro _ _; exact ⟨List.nodup_nil, rfl⟩
            | cons c l ih =>
              intro hl hln
              rw [List.nodup_cons] at hln
              obtain ⟨i1, i2⟩ := ih (fun c hc => hl c (List.mem_cons_of_mem _ hc)) hln.2
              rw [List.flatMap_cons]
              refine ⟨List.nodup_append.2 ⟨?_, i1, ?_⟩, ?_⟩
              · refine List.Pairwise.map _ ?_ (by decide : [1, 2, 3, 4, 5, 6, 7].Pairwise (fun a b : Nat => a ≠ b))
                intro a b hab h
                exact hab (congrArg Prod.snd h)
              · intro x hx y hy hxy
                subst hxy
                obtain ⟨w, -, rfl⟩ := List.mem_map.1 hx
                obtain ⟨c', hc', hy⟩ := List.mem_flatMap.1 hy
                obtain ⟨w', -, hy⟩ := List.mem_map.1 hy
                have := hs.distinct c' (hl c' (List.mem_cons_of_mem _ hc')) c (hl c List.mem_cons_self)
                  (congrArg Prod.fst hy)
                exact hln.1 (this ▸ hc')
              · rw [List.length_append, i2, List.length_cons]
                simp only [List.length_map, List.length_cons, List.length_nil]
                omega
          obtain ⟨j1, j2⟩ := h6 m.eths (fun _ h => h) hm
          have h7 := subset_length _ (acc.map Op.key) j1 (by
            intro k hk
            obtain ⟨c, hc, hk⟩ := List.mem_flatMap.1 hk
            obtain ⟨w, hw, rfl⟩ := List.mem_map.1 hk
            have : 1 ≤ w ∧ w ≤ 7 := by
              simp only [List.mem_cons, List.not_mem_nil, or_false] at hw; omega
            exact huse c hc w this.1 this.2 (.inl hr))
          rw [j2, List.length_map] at h7
          have h8 := hen.1
          rw [h1, List.length_append, List.length_cons] at h8
          omega
  · intro hen
    cases ha : allocate m ps with
    | ok t => exact absurd (C144_needed hs ha) hen
    | error e => rw [hfail e ha]

/-- C144 is violated: the same two requests are granted in one order and not in the other, as the automatic tag is the
one that is asked for afterwards. -/
theorem C144_order_false :
    let one : Machine := ⟨[0], fun c => c⟩
    Enough one (requests [⟨20, 0, [⟨9, none, true, none⟩], []⟩, ⟨21, 0, [⟨8, none, true, some 7⟩], []⟩]) ∧
    allocate one [⟨20, 0, [⟨9, none, true, none⟩], []⟩, ⟨21, 0, [⟨8, none, true, some 7⟩], []⟩] = .error .notFound ∧
    (allocate one [⟨21, 0, [⟨8, none, true, some 7⟩], []⟩, ⟨20, 0, [⟨9, none, true, none⟩], []⟩]).isOk = true := by
  refine ⟨⟨by decide, ?_⟩, by decide +kernel, by decide +kernel⟩
  intro w
  by_cases h : w = 7
  · subst h; decide
  · have : asking (requests [⟨20, 0, [⟨9, none, true, none⟩], []⟩, ⟨21, 0, [⟨8, none, true, some 7⟩], []⟩]) w = 0 := by
      unfold asking
      rw [List.length_eq_zero_iff, List.filter_eq_nil_iff]
      intro r hr hw0
      have hw := of_decide_eq_true hw0
      have : r.tag = none ∨ r.tag = some 7 := by clear hw hw0; revert r; decide
      rcases this with h' | h' <;> rw [h'] at hw <;> cases hw
      exact h rfl
    rw [this]; exact Nat.zero_le _

/-- Tag 3 is asked for on each of the boards, and twelve more tags on the first. -/
def spreadPlaced : List Placed :=
  [⟨20, 0, [⟨9, some 50, true, some 3⟩, ⟨8, none, false, some 3⟩], []⟩, ⟨21, 0, List.replicate 12 ⟨8, some 60, true, none⟩, []⟩]

example : Sound twoBoards spreadPlaced ∧ twoBoards.eths.Nodup ∧ (∀ p ∈ spreadPlaced, p.revtags = []) ∧
    (requests spreadPlaced).Pairwise (fun a b => a.tag = none → b.tag = none) ∧
    (requests spreadPlaced).length = 7 * twoBoards.eths.length ∧
    (allocate twoBoards spreadPlaced).isOk = true := by
  refine ⟨⟨?_, by decide⟩, by decide, by decide, by decide, by decide, by decide +kernel⟩
  intro a _ b _ h
  have h : 100 + a = 100 + b := h
  omega

end Pacman.TagAlloc
