import Verif.Spec.Placer
import Verif.Props.Placements
/-
The search for chips: what the lists of chips of the placer stand for.
-/

namespace Pacman.Placer

open Plc (Placement Store Inv)

/-! ### Basics -/

theorem addKey_mem {l : List XY} {x y : XY} : y ∈ addKey l x ↔ y ∈ l ∨ y = x := by
  unfold addKey
  split
  · rename_i h
    constructor
    · exact .inl
    · rintro (h' | rfl)
      · exact h'
      · exact h
  · simp

theorem addKey_nodup {l : List XY} {x : XY} (h : l.Nodup) : (addKey l x).Nodup := by
  unfold addKey
  split
  · exact h
  · rename_i hx
    exact Plc.nodup_snoc h hx

theorem onChip_eq {s : Store} {l : List Placement} (h : Inv s l) (c : XY) :
    (Plc.placementsOnChip s c).2 = at_ l c := by
  unfold Plc.placementsOnChip
  have := Plc.onChip_fst s c
  simp only [this, h.chip c, List.map_map]
  unfold at_
  have : ((fun x : Nat × Placement => x.2) ∘ fun a : Placement => (a.p, a)) = id := rfl
  rw [this, List.map_id]
  rfl

theorem onChip_inv {s : Store} {l : List Placement} (h : Inv s l) (c : XY) :
    Inv (Plc.placementsOnChip s c).1 l := h.touch c

theorem at_append (l l' : List Placement) (c : XY) : at_ (l ++ l') c = at_ l c ++ at_ l' c :=
  List.filter_append ..

theorem mem_at {l : List Placement} {c : XY} {a : Placement} : a ∈ at_ l c ↔ a ∈ l ∧ (a.x, a.y) = c := by
  simp [at_]

theorem needs_append (M : Machine) (l l' : List Placement) (c : XY) :
    needs M (l ++ l') c = needs M l c ++ needs M l' c := by
  simp [needs, at_append]

theorem load_mono (M : Machine) (l l' : List Placement) (c : XY) : load M l c ≤ load M (l ++ l') c := by
  rw [load, load, needs_append]
  exact M.costs.mono _ _

theorem needs_none (M : Machine) {l : List Placement} {c : XY} (h : ∀ a ∈ l, (a.x, a.y) ≠ c) : needs M l c = [] := by
  have : at_ l c = [] := by
    unfold at_
    rw [List.filter_eq_nil_iff]
    intro a ha
    simpa using h a ha
  simp [needs, this]

/-- Placements on other chips do not count. -/
theorem load_other (M : Machine) (l : List Placement) {l' : List Placement} {c : XY} (h : ∀ a ∈ l', (a.x, a.y) ≠ c) :
    load M (l ++ l') c = load M l c := by
  rw [load, load, needs_append, needs_none M h, List.append_nil]

theorem needs_all (M : Machine) {l : List Placement} {c : XY} (h : ∀ a ∈ l, (a.x, a.y) = c) :
    needs M l c = l.map (fun a => M.need a.vertex) := by
  have : at_ l c = l := by
    unfold at_
    rw [List.filter_eq_self]
    intro a ha
    simpa using h a ha
  rw [needs, this]

theorem Costs.mono_cons (C : Costs) (x : Nat) (l : List Nat) : C.total l ≤ C.total (x :: l) :=
  Nat.le_trans (C.mono l [x]) (Nat.le_of_eq (C.perm (List.perm_append_comm (l₁ := l) (l₂ := [x]))))

theorem Costs.Le.refl (C : Costs) (xs : List Nat) : C.Le xs xs := fun _ => Nat.le_refl _

theorem Costs.Le.trans {C : Costs} {xs ys zs : List Nat} (h : C.Le xs ys) (g : C.Le ys zs) : C.Le xs zs :=
  fun ws => Nat.le_trans (h ws) (g ws)

theorem Costs.Le.total {C : Costs} {xs ys : List Nat} (h : C.Le xs ys) : C.total xs ≤ C.total ys := by
  have := h []
  rwa [List.append_nil, List.append_nil] at this

theorem Costs.Le.of_perm {C : Costs} {xs ys : List Nat} (h : xs.Perm ys) : C.Le xs ys :=
  fun _ => Nat.le_of_eq (C.perm (h.append_right _))

theorem Costs.Le.append_right {C : Costs} {xs ys : List Nat} (h : C.Le xs ys) (ws : List Nat) :
    C.Le (xs ++ ws) (ys ++ ws) := by
  intro zs
  rw [List.append_assoc, List.append_assoc]
  exact h _

theorem Costs.Le.append_left {C : Costs} {xs ys : List Nat} (h : C.Le xs ys) (ws : List Nat) :
    C.Le (ws ++ xs) (ws ++ ys) :=
  (Costs.Le.of_perm List.perm_append_comm).trans ((h.append_right ws).trans (.of_perm List.perm_append_comm))

/-- What has been said of one machine vertex for numbers of bytes. -/
theorem Costs.bytes_le {xs ys : List Nat} : Costs.bytes.Le xs ys ↔ xs.sum ≤ ys.sum := by
  constructor
  · intro h
    exact h.total
  · intro h zs
    show (xs ++ zs).sum ≤ (ys ++ zs).sum
    rw [List.sum_append, List.sum_append]
    omega

/-- `M.chips` are the chips in the grid. -/
theorem mem_chips {M : Machine} {c : XY} : c ∈ M.chips ↔ c.1 < M.width ∧ c.2 < M.height ∧ M.has c = true := by
  unfold Machine.chips
  rw [List.mem_filter, List.mem_flatMap]
  constructor
  · rintro ⟨⟨x, hx, hc⟩, hh⟩
    obtain ⟨y, hy, rfl⟩ := List.mem_map.1 hc
    exact ⟨List.mem_range.1 hx, List.mem_range.1 hy, hh⟩
  · rintro ⟨h1, h2, h3⟩
    exact ⟨⟨c.1, List.mem_range.2 h1, List.mem_map.2 ⟨c.2, List.mem_range.2 h2, rfl⟩⟩, h3⟩

theorem chips_nodup (M : Machine) : M.chips.Nodup := by
  unfold Machine.chips
  refine List.Pairwise.filter _ ?_
  have hn : ∀ n, (List.range n).Nodup := fun n => List.nodup_range
  have key : ∀ w : List Nat, w.Nodup →
      (w.flatMap (fun x => (List.range M.height).map (fun y => (x, y)))).Nodup := by
    intro w hw
    induction w with
    | nil => simp
    | cons x w ih =>
      rw [List.nodup_cons] at hw
      rw [List.flatMap_cons, List.nodup_append]
      refine ⟨?_, ih hw.2, ?_⟩
      · refine List.Pairwise.map _ ?_ (hn M.height)
        intro a b hab he
        exact hab (congrArg Prod.snd he)
      · intro a ha b hb hab
        subst hab
        obtain ⟨y, _, rfl⟩ := List.mem_map.1 ha
        obtain ⟨x', hx', hb'⟩ := List.mem_flatMap.1 hb
        obtain ⟨y', _, he⟩ := List.mem_map.1 hb'
        have hxx : x' = x := congrArg Prod.fst he
        exact hw.1 (hxx ▸ hx')
  exact key _ (hn M.width)

/-! ### Cores -/

theorem removeAll_ok {free free' : List Nat} {on : List Placement} (h : removeAll free on = .ok free') :
    (∀ p ∈ free', p ∈ free) ∧ (free.Nodup → free'.Nodup ∧ ∀ p ∈ free', p ∉ on.map (·.p)) ∧
    free'.length + on.length = free.length := by
  induction on generalizing free with
  | nil =>
    cases h
    exact ⟨fun p hp => hp, fun hn => ⟨hn, by simp⟩, rfl⟩
  | cons a on ih =>
    rw [removeAll] at h
    split at h
    · rename_i hm
      obtain ⟨h1, h2, h3⟩ := ih h
      refine ⟨fun p hp => List.mem_of_mem_erase (h1 p hp), ?_, ?_⟩
      · intro hn
        obtain ⟨hn', hp'⟩ := h2 (hn.erase _)
        refine ⟨hn', ?_⟩
        intro p hp hm'
        rw [List.map_cons, List.mem_cons] at hm'
        rcases hm' with rfl | hm'
        · exact (List.Nodup.not_mem_erase hn) (h1 _ hp)
        · exact hp' p hp hm'
      · rw [List.length_erase_of_mem hm] at h3
        have := List.length_pos_of_mem hm
        simp only [List.length_cons]
        omega
    · cases h

theorem removeAll_total {free : List Nat} {on : List Placement} (hf : ∀ a ∈ on, a.p ∈ free)
    (hn : (on.map (·.p)).Nodup) : ∃ free', removeAll free on = .ok free' := by
  induction on generalizing free with
  | nil => exact ⟨free, rfl⟩
  | cons a on ih =>
    rw [removeAll, if_pos (hf a (by simp))]
    rw [List.map_cons, List.nodup_cons] at hn
    refine ih ?_ hn.2
    intro b hb
    have hne : b.p ≠ a.p := fun he => hn.1 (he ▸ List.mem_map.2 ⟨b, hb, rfl⟩)
    exact (List.mem_erase_of_ne hne).2 (hf b (by simp [hb]))

theorem removeAll_error {free : List Nat} {on : List Placement} {e : PyErr} (h : removeAll free on = .error e) :
    e = .valueError := by
  induction on generalizing free with
  | nil => cases h
  | cons a on ih =>
    rw [removeAll] at h
    split at h
    · exact ih h
    · cases h
      rfl

theorem at_cores_nodup {s : Store} {l : List Placement} (h : Inv s l) (c : XY) : ((at_ l c).map (·.p)).Nodup := by
  have hl := h.locs
  rw [List.Nodup, List.pairwise_map] at hl ⊢
  unfold at_
  have h2 := List.Pairwise.filter (fun a : Placement => decide ((a.x, a.y) = c)) hl
  refine List.Pairwise.imp_of_mem ?_ h2
  intro a b ha hb hab he
  have ha : (a.x, a.y) = c := by simpa using (List.mem_filter.1 ha).2
  have hb : (b.x, b.y) = c := by simpa using (List.mem_filter.1 hb).2
  have hxy := ha.trans hb.symm
  rw [Prod.mk.injEq] at hxy
  exact hab (by simp [Placement.loc, hxy.1, hxy.2, he])

/-- Taking cores: the vertices in order on the first of the free cores. -/
theorem takeCores_ok {c : XY} {vs free free' : List Nat} {as : List Placement}
    (h : takeCores c vs free = .ok (free', as)) :
    as.map (·.vertex) = vs ∧ (∀ a ∈ as, (a.x, a.y) = c) ∧ free = as.map (·.p) ++ free' := by
  induction vs generalizing free as with
  | nil =>
    cases h
    exact ⟨rfl, by simp, rfl⟩
  | cons v vs ih =>
    cases free with
    | nil => cases h
    | cons p free =>
      rw [takeCores] at h
      cases hr : takeCores c vs free with
      | error e => simp only [hr] at h; cases h
      | ok r =>
        simp only [hr] at h
        cases h
        obtain ⟨h1, h2, h3⟩ := ih hr
        refine ⟨by simp [h1], ?_, by simp [h3]⟩
        intro a ha
        rcases List.mem_cons.1 ha with rfl | ha
        · rfl
        · exact h2 a ha

theorem takeCores_total {c : XY} {vs free : List Nat} (h : vs.length ≤ free.length) :
    ∃ r, takeCores c vs free = .ok r := by
  induction vs generalizing free with
  | nil => exact ⟨_, rfl⟩
  | cons v vs ih =>
    cases free with
    | nil => simp at h
    | cons p free =>
      obtain ⟨r, hr⟩ := ih (free := free) (by simpa using h)
      exact ⟨_, by rw [takeCores, hr]⟩

theorem takeCores_error {c : XY} {vs free : List Nat} {e : PyErr} (h : takeCores c vs free = .error e) :
    e = .indexError := by
  induction vs generalizing free with
  | nil => cases h
  | cons v vs ih =>
    cases free with
    | nil => cases h; rfl
    | cons p free =>
      rw [takeCores] at h
      cases hr : takeCores c vs free with
      | error e' =>
        simp only [hr] at h
        cases h
        exact ih hr
      | ok r => simp only [hr] at h; cases h

/-! ### Neighbours -/

/-- The neighbours that are known. -/
structure Near (M : Machine) (st : State) : Prop where
  nodup : (st.same ++ st.other).Nodup
  fresh : ∀ c ∈ st.same ++ st.other, c ∉ st.prepared
  has : ∀ c ∈ st.same ++ st.other, M.has c = true
  same : ∀ c ∈ st.same, some (M.board c) = st.eth
  other : ∀ c ∈ st.other, some (M.board c) ≠ st.eth

theorem addNeighbours_ok {M : Machine} {ds : List XY} {st st' : State} (h : addNeighbours M ds st = .ok st')
    (hN : Near M st) :
    ∃ same other, st' = { st with same := same, other := other } ∧ Near M st' ∧
      (∀ c ∈ same ++ other, c ∈ st.same ++ st.other ∨ c ∈ ds) := by
  induction ds generalizing st with
  | nil =>
    obtain rfl : st = st' := by simpa [addNeighbours] using h
    exact ⟨st.same, st.other, rfl, hN, fun c hc => .inl hc⟩
  | cons d ds ih =>
    rw [addNeighbours] at h
    split at h
    · cases h
    · rename_i hd
      have hd : M.has d = true := by simpa using hd
      split at h
      · rename_i hf
        split at h
        · rename_i hb
          obtain ⟨s1, o1, he, hN', hm⟩ := ih h ⟨by
              simp only
              have hn := List.nodup_append.1 hN.nodup
              rw [List.nodup_append]
              refine ⟨addKey_nodup hn.1, hn.2.1, ?_⟩
              intro a ha b hb' hab
              subst hab
              rcases addKey_mem.1 ha with ha | rfl
              · exact hn.2.2 a ha a hb' rfl
              · exact hN.other a hb' hb, by
              intro c hc
              simp only at hc
              rw [List.mem_append, addKey_mem] at hc
              rcases hc with (hc | rfl) | hc
              · exact hN.fresh c (by simp [hc])
              · exact hf.2
              · exact hN.fresh c (by simp [hc]), by
              intro c hc
              simp only at hc
              rw [List.mem_append, addKey_mem] at hc
              rcases hc with (hc | rfl) | hc
              · exact hN.has c (by simp [hc])
              · exact hd
              · exact hN.has c (by simp [hc]), by
              intro c hc
              rcases addKey_mem.1 hc with hc | rfl
              · exact hN.same c hc
              · exact hb, hN.other⟩
          refine ⟨s1, o1, he, hN', ?_⟩
          intro c hc
          rcases hm c hc with h1 | h1
          · simp only at h1
            rw [List.mem_append, addKey_mem] at h1
            rcases h1 with (h1 | rfl) | h1
            · exact .inl (by simp [h1])
            · exact .inr (by simp)
            · exact .inl (by simp [h1])
          · exact .inr (by simp [h1])
        · rename_i hb
          obtain ⟨s1, o1, he, hN', hm⟩ := ih h ⟨by
              simp only
              have hn := List.nodup_append.1 hN.nodup
              rw [List.nodup_append]
              refine ⟨hn.1, addKey_nodup hn.2.1, ?_⟩
              intro a ha b hb' hab
              subst hab
              rcases addKey_mem.1 hb' with hb' | rfl
              · exact hn.2.2 a ha a hb' rfl
              · exact hb (hN.same a ha), by
              intro c hc
              simp only at hc
              rw [List.mem_append, addKey_mem] at hc
              rcases hc with hc | hc | rfl
              · exact hN.fresh c (by simp [hc])
              · exact hN.fresh c (by simp [hc])
              · exact hf.2, by
              intro c hc
              simp only at hc
              rw [List.mem_append, addKey_mem] at hc
              rcases hc with hc | hc | rfl
              · exact hN.has c (by simp [hc])
              · exact hN.has c (by simp [hc])
              · exact hd, hN.same, by
              intro c hc
              rcases addKey_mem.1 hc with hc | rfl
              · exact hN.other c hc
              · exact hb⟩
          refine ⟨s1, o1, he, hN', ?_⟩
          intro c hc
          rcases hm c hc with h1 | h1
          · simp only at h1
            rw [List.mem_append, addKey_mem] at h1
            rcases h1 with h1 | h1 | rfl
            · exact .inl (by simp [h1])
            · exact .inl (by simp [h1])
            · exact .inr (by simp)
          · exact .inr (by simp [h1])
      · obtain ⟨s1, o1, he, hN', hm⟩ := ih h hN
        refine ⟨s1, o1, he, hN', ?_⟩
        intro c hc
        rcases hm c hc with h1 | h1
        · exact .inl h1
        · exact .inr (by simp [h1])

theorem addNeighbours_error {M : Machine} {ds : List XY} {st : State} {e : PyErr}
    (h : addNeighbours M ds st = .error e) : e = .keyError ∧ ∃ d ∈ ds, M.has d = false := by
  induction ds generalizing st with
  | nil => cases h
  | cons d ds ih =>
    have key : ∀ st', addNeighbours M ds st' = .error e → e = .keyError ∧ ∃ d' ∈ d :: ds, M.has d' = false := by
      intro st' h'
      obtain ⟨h1, d', h2, h3⟩ := ih h'
      exact ⟨h1, d', by simp [h2], h3⟩
    rw [addNeighbours] at h
    split at h
    · rename_i hd
      cases h
      exact ⟨rfl, d, by simp, hd⟩
    · split at h
      · split at h
        · exact key _ h
        · exact key _ h
      · exact key _ h

/-- Popping a neighbour. -/
theorem popNeighbour_some {M : Machine} {st st' : State} {c : XY} (h : popNeighbour M st = some (c, st'))
    (hN : Near M st) :
    (∃ same other eth, st' = { st with same := same, other := other, eth := eth }) ∧ Near M st' ∧
    c ∈ st.same ++ st.other ∧ c ∉ st'.same ++ st'.other ∧
    (∀ d ∈ st'.same ++ st'.other, d ∈ st.same ++ st.other) ∧
    (st'.same ++ st'.other).length + 1 = (st.same ++ st.other).length := by
  unfold popNeighbour at h
  have hnd := hN.nodup
  split at h
  · rename_i c' r hs
    cases h
    rw [hs] at hnd
    have hsub : ∀ d ∈ r ++ st.other, d ∈ st.same ++ st.other := by
      intro d hd
      rw [hs]
      simp only [List.cons_append, List.mem_cons]
      exact .inr hd
    rw [List.cons_append, List.nodup_cons] at hnd
    refine ⟨⟨r, st.other, st.eth, rfl⟩, ⟨hnd.2, fun d hd => hN.fresh d (hsub d hd), fun d hd => hN.has d (hsub d hd),
      fun d hd => hN.same d (by rw [hs]; exact List.mem_cons_of_mem _ hd), hN.other⟩, by rw [hs]; simp, hnd.1, hsub,
      by rw [hs]; simp⟩
  · rename_i hs
    split at h
    · rename_i c' r ho
      cases h
      rw [hs, ho, List.nil_append, List.nodup_cons] at hnd
      have hsub : ∀ d, d ∈ r → d ∈ st.same ++ st.other := by
        intro d hd
        rw [hs, ho]
        simp [hd]
      have hsplit : ∀ d, d ∈ r.filter (fun d => decide (M.board d = M.board c)) ++
          r.filter (fun d => decide (M.board d ≠ M.board c)) ↔ d ∈ r := by
        intro d
        simp only [List.mem_append, List.mem_filter, decide_eq_true_eq]
        by_cases hb : M.board d = M.board c <;> simp [hb]
      refine ⟨⟨_, _, _, rfl⟩, ⟨?_, ?_, ?_, ?_, ?_⟩, by rw [hs, ho]; simp, ?_, ?_, ?_⟩
      · simp only
        rw [List.nodup_append]
        refine ⟨List.Pairwise.filter _ hnd.2, List.Pairwise.filter _ hnd.2, ?_⟩
        intro a ha b hb hab
        subst hab
        simp only [List.mem_filter, decide_eq_true_eq] at ha hb
        exact hb.2 ha.2
      · intro d hd
        exact hN.fresh d (hsub d ((hsplit d).1 hd))
      · intro d hd
        exact hN.has d (hsub d ((hsplit d).1 hd))
      · intro d hd
        simp only [List.mem_filter, decide_eq_true_eq] at hd
        simp [hd.2]
      · intro d hd
        simp only [List.mem_filter, decide_eq_true_eq] at hd
        simpa using hd.2
      · intro hd
        exact hnd.1 ((hsplit c).1 hd)
      · intro d hd
        exact hsub d ((hsplit d).1 hd)
      · simp only [hs, ho, List.nil_append, List.length_append, List.length_cons]
        have := List.length_eq_countP_add_countP (fun d => decide (M.board d = M.board c)) (l := r)
        simp only [List.countP_eq_length_filter, decide_eq_true_eq] at this
        simp only [ne_eq, decide_not] at *
        omega
    · cases h

theorem popNeighbour_none {M : Machine} {st : State} (h : popNeighbour M st = none) :
    st.same = [] ∧ st.other = [] := by
  unfold popNeighbour at h
  split at h
  · cases h
  · rename_i hs
    split at h
    · cases h
    · rename_i ho
      exact ⟨hs, ho⟩

end Pacman.Placer
