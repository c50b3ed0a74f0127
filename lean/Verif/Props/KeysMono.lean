import Verif.Props.AllocatorFits
/-
C148: a graph with less in it gets its keys too, and the order does not matter.
-/

namespace Pacman.Alloc

/-- The second partition is the first, perhaps with fewer machine vertices, in any order, and with fewer keys for them. -/
def PartOf (p q : Part) : Prop :=
  q.pre = p.pre ∧ q.ident = p.ident ∧ q.fixed = p.fixed ∧
  ∀ v ∈ q.outgoing, ∃ u ∈ p.outgoing, v.id = u.id ∧ v.fixed = u.fixed ∧ v.nKeys ≤ u.nKeys

/-- Each of the second partitions is part of one of the first. -/
def LessOf (ps qs : List Part) : Prop := ∀ q ∈ qs, ∃ p ∈ ps, PartOf p q

theorem PartOf.length {qs : List Part} (hwf : WF qs) {p q : Part} (hq : q ∈ qs) (h : PartOf p q) :
    q.outgoing.length ≤ p.outgoing.length := by
  have h1 : (q.outgoing.map (·.id)).Nodup := by
    have := (List.pairwise_flatMap.1 hwf.machs).1 q hq
    rw [List.pairwise_map] at this
    refine List.pairwise_map.2 (this.imp fun {a b} hab he => hab ?_)
    simp [mk, he]
  have h2 := List.Nodup.length_le_of_subset h1 (l₂ := p.outgoing.map (·.id)) (by
    intro i hi
    obtain ⟨v, hv, rfl⟩ := List.mem_map.1 hi
    obtain ⟨u, hu, he, -⟩ := h.2.2.2 v hv
    exact List.mem_map.2 ⟨u, hu, he.symm⟩)
  simpa using h2

theorem LessOf.senders {ps qs : List Part} (hwf : WF qs) (h : LessOf ps qs) :
    (qs.filter (fun p => decide (p.outgoing ≠ []))).length ≤ (ps.filter (fun p => decide (p.outgoing ≠ []))).length := by
  have h1 : ((qs.filter (fun p => decide (p.outgoing ≠ []))).map (fun p => (p.pre, p.ident))).Nodup :=
    List.Pairwise.sublist (List.Sublist.map _ List.filter_sublist) hwf.pairs
  have h2 := List.Nodup.length_le_of_subset h1
      (l₂ := (ps.filter (fun p => decide (p.outgoing ≠ []))).map (fun p => (p.pre, p.ident))) (by
    intro i hi
    obtain ⟨q, hq, rfl⟩ := List.mem_map.1 hi
    obtain ⟨hq, ho⟩ := List.mem_filter.1 hq
    obtain ⟨v, hv⟩ := List.exists_mem_of_ne_nil _ (of_decide_eq_true ho)
    obtain ⟨p, hp, h3, h4, -, h5⟩ := h q hq
    obtain ⟨u, hu, -⟩ := h5 v hv
    refine List.mem_map.2 ⟨p, List.mem_filter.2 ⟨hp, decide_eq_true ?_⟩, by rw [h3, h4]⟩
    intro he
    rw [he] at hu; cases hu)
  simpa using h2

/-- **C148.** If keys are found for some partitions they are found, in either mode, for any that have less: partitions
left out, machine vertices left out, fewer keys for machine vertices, and all in another order. -/
theorem C148_less {flexible flexible' : Bool} {ps qs : List Part} (hwf : WF ps) (hi : NoIdleFixed ps) (hc : Counted ps)
    (hwf' : WF qs) (hi' : NoIdleFixed qs) (hc' : Counted qs) (hless : LessOf ps qs)
    (h : ∃ infos, allocate flexible ps = .ok infos) : ∃ infos, allocate flexible' qs = .ok infos := by
  obtain ⟨ha, w, hw, hwide, L, hL, hroom⟩ := (C126_iff hwf hi hc).1 h
  refine (C126_iff hwf' hi' hc').2 ⟨?_, w, hw, ?_, L, ?_, Nat.le_trans (Nat.add_le_add_right (hless.senders hwf') _) hroom⟩
  · intro q hq
    obtain ⟨p, hp, hpq⟩ := hless q hq
    have hlen := hpq.length hwf' hq
    obtain ⟨-, -, hf, hv⟩ := hpq
    rcases ha p hp with ⟨h1, h2⟩ | ⟨akm, h1, h2 | ⟨u, h2, h3⟩⟩
    · refine .inl ⟨hf.trans h1, fun v hvq => ?_⟩
      obtain ⟨u, hu, -, he, -⟩ := hv v hvq
      rw [he]; exact h2 u hu
    · refine .inr ⟨akm, hf.trans h1, .inl fun v hvq => ?_⟩
      obtain ⟨u, hu, -, he, -⟩ := hv v hvq
      rw [he]; exact h2 u hu
    · refine .inr ⟨akm, hf.trans h1, ?_⟩
      cases ho : q.outgoing with
      | nil => exact .inl fun v hv => by cases hv
      | cons v vs =>
        rw [h2, ho] at hlen
        have : vs = [] := List.length_eq_zero_iff.1 (by simp only [List.length_cons, List.length_nil] at hlen; omega)
        subst this
        refine .inr ⟨v, rfl, ?_⟩
        obtain ⟨u', hu, -, he, -⟩ := hv v (by rw [ho]; exact List.mem_cons_self)
        rw [h2] at hu
        rw [he, List.mem_singleton.1 hu]; exact h3
  · intro q hq hfix
    obtain ⟨p, hp, hpq⟩ := hless q hq
    have hlen := hpq.length hwf' hq
    obtain ⟨-, -, hf, hv⟩ := hpq
    obtain ⟨a, m, h1, h2, h3⟩ := hwide p hp (hf ▸ hfix)
    refine ⟨a, m, fun v hvq => ?_, Nat.le_trans hlen h2, h3⟩
    obtain ⟨u, hu, -, -, he⟩ := hv v hvq
    exact Nat.le_trans he (h1 u hu)
  · rintro i ⟨km, ⟨q, hq, hk⟩, hx⟩
    obtain ⟨p, hp, -, -, hf, hv⟩ := hless q hq
    refine hL i ⟨km, ⟨p, hp, ?_⟩, hx⟩
    rcases hk with hk | ⟨v, hvq, hk⟩
    · exact .inl (hf ▸ hk)
    · obtain ⟨u, hu, -, he, -⟩ := hv v hvq
      exact .inr ⟨u, hu, he ▸ hk⟩

/-- **C148**: whether keys are found does not depend on the order of the partitions. -/
theorem C148_order {flexible : Bool} {ps qs : List Part} (hwf : WF ps) (hi : NoIdleFixed ps) (hc : Counted ps)
    (hperm : ps.Perm qs) :
    (∃ infos, allocate flexible ps = .ok infos) ↔ ∃ infos, allocate flexible qs = .ok infos := by
  have hwf' : WF qs :=
    ⟨((hperm.map _).nodup_iff).1 hwf.pairs, ((hperm.flatMap_right _).nodup_iff).1 hwf.machs,
      fun p hp => hwf.valid p (hperm.mem_iff.2 hp), fun p hp => hwf.validM p (hperm.mem_iff.2 hp)⟩
  have hi' : NoIdleFixed qs := fun p hp => hi p (hperm.mem_iff.2 hp)
  have hc' : Counted qs := fun p hp => hc p (hperm.mem_iff.2 hp)
  have self : ∀ p : Part, PartOf p p := fun p => ⟨rfl, rfl, rfl, fun v hv => ⟨v, hv, rfl, rfl, Nat.le_refl _⟩⟩
  exact ⟨C148_less hwf hi hc hwf' hi' hc' fun q hq => ⟨q, hperm.mem_iff.2 hq, self q⟩,
    C148_less hwf' hi' hc' hwf hi hc fun q hq => ⟨q, hperm.mem_iff.1 hq, self q⟩⟩

/-- A device with half of all keys, perhaps fixed, and two partitions of one vertex with an eighth each. -/
def withDevice (km : Option (Word × Word)) : List Part :=
  [⟨1, 0, [⟨10, 2 ^ 31, 0, km, 0⟩], km, 1⟩, ⟨2, 0, [free 20 (2 ^ 29) 0], none, 1⟩, ⟨3, 0, [free 30 (2 ^ 29) 0], none, 1⟩]

/-- **C148**: to ask for less in another sense does not help: with the key of the device fixed keys are found; if any key will
do for it they are not, though three quarters of all keys are enough. -/
theorem C148_unfixed_false :
    (allocate true (withDevice (some (0x80000000, 0x80000000)))).isOk = true ∧
    (allocate false (withDevice (some (0x80000000, 0x80000000)))).isOk = true ∧
    allocate true (withDevice none) = .error .routeInfoAllocation ∧
    allocate false (withDevice none) = .error .routeInfoAllocation := by
  refine ⟨?_, ?_, ?_, ?_⟩ <;> decide +kernel

/-- One partition of `withDevice` is left out, the others are in another order and one has fewer keys. -/
example : ∃ infos, allocate false [⟨3, 0, [free 30 (2 ^ 20) 0], none, 1⟩,
    ⟨1, 0, [⟨10, 2 ^ 31, 0, some (0x80000000, 0x80000000), 0⟩], some (0x80000000, 0x80000000), 1⟩] = .ok infos := by
  refine C148_less (flexible := true) (ps := withDevice (some (0x80000000, 0x80000000)))
    ⟨by decide, by decide, ?_, ?_⟩ ?_ ?_ ⟨by decide, by decide, ?_, ?_⟩ ?_ ?_ ?_ ?_
  · intro p hp akm h
    simp only [withDevice, List.mem_cons, List.not_mem_nil, or_false] at hp
    rcases hp with rfl | rfl | rfl <;> cases h
    decide
  · intro p hp v hv km h
    simp only [withDevice, List.mem_cons, List.not_mem_nil, or_false] at hp
    rcases hp with rfl | rfl | rfl <;> cases List.mem_singleton.1 hv <;> cases h
    decide
  · intro p hp h
    simp only [withDevice, List.mem_cons, List.not_mem_nil, or_false] at hp
    rcases hp with rfl | rfl | rfl <;> cases h
  · intro p hp _ _
    simp only [withDevice, List.mem_cons, List.not_mem_nil, or_false] at hp
    rcases hp with rfl | rfl | rfl <;> exact Nat.le_refl 1
  · intro p hp akm h
    simp only [List.mem_cons, List.not_mem_nil, or_false] at hp
    rcases hp with rfl | rfl <;> cases h
    decide
  · intro p hp v hv km h
    simp only [List.mem_cons, List.not_mem_nil, or_false] at hp
    rcases hp with rfl | rfl <;> cases List.mem_singleton.1 hv <;> cases h
    decide
  · intro p hp h
    simp only [List.mem_cons, List.not_mem_nil, or_false] at hp
    rcases hp with rfl | rfl <;> cases h
  · intro p hp _ _
    simp only [List.mem_cons, List.not_mem_nil, or_false] at hp
    rcases hp with rfl | rfl <;> exact Nat.le_refl 1
  · intro q hq
    simp only [List.mem_cons, List.not_mem_nil, or_false] at hq
    rcases hq with rfl | rfl
    · refine ⟨_, .tail _ (.tail _ (.head _)), rfl, rfl, rfl, fun v hv => ⟨_, .head _, ?_⟩⟩
      cases List.mem_singleton.1 hv
      exact ⟨rfl, rfl, by decide⟩
    · exact ⟨_, .head _, rfl, rfl, rfl, fun v hv => ⟨v, hv, rfl, rfl, Nat.le_refl _⟩⟩
  · cases h : allocate true (withDevice (some (0x80000000, 0x80000000))) with
    | ok infos => exact ⟨infos, rfl⟩
    | error e =>
      have := C148_unfixed_false.1
      rw [h] at this
      cases this

end Pacman.Alloc
