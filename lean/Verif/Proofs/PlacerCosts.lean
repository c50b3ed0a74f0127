import Verif.Spec.PlacerCosts
import Verif.Props.SdramParts
/-
SDRAM costs as the placer sees them: lemmas.
-/

namespace Pacman.Sdram

theorem firsts_mem {l : List ((Nat × String) × Cost)} {q : (Nat × String) × Cost} (h : q ∈ firsts l) : q ∈ l := by
  induction l with
  | nil => exact h
  | cons a l ih =>
    rw [firsts] at h
    rcases List.mem_cons.1 h with h | h
    · rw [h]; exact List.mem_cons_self
    · exact List.mem_cons_of_mem _ (ih (List.mem_filter.1 h).1)

theorem firsts_nodup (l : List ((Nat × String) × Cost)) : ((firsts l).map (·.1)).Nodup := by
  induction l with
  | nil => exact List.nodup_nil
  | cons a l ih =>
    rw [firsts, List.map_cons, List.nodup_cons]
    refine ⟨?_, ih.sublist (List.filter_sublist.map _)⟩
    intro h
    obtain ⟨r, hr, hk⟩ := List.mem_map.1 h
    have := (List.mem_filter.1 hr).2
    simp only [decide_eq_true_eq] at this
    exact this hk

theorem firsts_keys {l : List ((Nat × String) × Cost)} {q : (Nat × String) × Cost} (h : q ∈ l) : q.1 ∈ (firsts l).map (·.1) := by
  induction l with
  | nil => cases h
  | cons a l ih =>
    rw [firsts, List.map_cons]
    by_cases hk : q.1 = a.1
    · rw [hk]; exact List.mem_cons_self
    · rcases List.mem_cons.1 h with h | h
      · exact absurd (by rw [h]) hk
      · obtain ⟨r, hr, hrk⟩ := List.mem_map.1 (ih h)
        refine List.mem_cons_of_mem _ (List.mem_map.2 ⟨r, List.mem_filter.2 ⟨hr, ?_⟩, hrk⟩)
        simp only [decide_eq_true_eq]
        rw [hrk]; exact hk

theorem firsts_one (l : List Cost) : OnePerKey l (firsts (l.flatMap blocks)) := by
  refine ⟨firsts_nodup _, ?_, ?_⟩
  · intro q hq
    obtain ⟨a, ha, h⟩ := List.mem_flatMap.1 (firsts_mem hq)
    exact ⟨a, ha, h⟩
  · intro a ha q hq
    exact firsts_keys (List.mem_flatMap.2 ⟨a, ha, hq⟩)

/-- Leading blocks stay. -/
theorem firsts_append (l l' : List ((Nat × String) × Cost)) : ∃ r, firsts (l ++ l') = firsts l ++ r ∧ ∀ q ∈ r, q ∈ l' := by
  induction l with
  | nil => exact ⟨firsts l', rfl, fun q hq => firsts_mem hq⟩
  | cons a l ih =>
    obtain ⟨r, h1, h2⟩ := ih
    refine ⟨r.filter (fun x => decide (x.1 ≠ a.1)), ?_, fun q hq => h2 q (List.mem_filter.1 hq).1⟩
    rw [List.cons_append, firsts, firsts, h1, List.filter_append, List.cons_append]

section
variable {cost : Nat → Cost} {t : Option Nat}

theorem Good.agree_list (h : Good cost t) (l : List Nat) : Agree (l.map cost) := by
  intro a ha b hb k v w hv hw
  obtain ⟨i, -, rfl⟩ := List.mem_map.1 ha
  obtain ⟨j, -, rfl⟩ := List.mem_map.1 hb
  exact h.agree i j k v w hv hw

theorem own_const (n : Int) : own (.const n) = (n, 0) := by rw [own]

theorem blocks_const (n : Int) : blocks (.const n) = [] := by rw [blocks]

/-- The own part of good costs has a total, which is not negative and grows with them. -/
theorem own_amount (h : Good cost t) (l : List Nat) :
    ∃ x : Nat, varTotal ((l.map cost).map (fun a => (own a).1)).sum (sumQ ((l.map cost).map (fun a => (own a).2))) t =
      .ok (x : Int) := by
  have h1 : 0 ≤ ((l.map cost).map (fun a => (own a).1)).sum := by
    induction l with
    | nil => simp
    | cons i l ih =>
      have := h.fixed i
      simp only [List.map_cons, List.sum_cons]
      omega
  have h2 := (sumQ_nonneg (l := (l.map cost).map (fun a => (own a).2)) (by
    intro a ha
    obtain ⟨c, hc, rfl⟩ := List.mem_map.1 ha
    obtain ⟨i, -, rfl⟩ := List.mem_map.1 hc
    exact h.per i)).1
  generalize ((l.map cost).map (fun a => (own a).1)).sum = f at h1
  cases t with
  | some n =>
    generalize sumQ ((l.map cost).map (fun a => (own a).2)) = p at h2
    refine ⟨((f : Rat) + p * (n : Rat)).ceil.toNat, ?_⟩
    unfold varTotal
    have hc : 0 ≤ ((f : Rat) + p * (n : Rat)).ceil := by
      have h3 : (0 : Rat) ≤ (f : Rat) := Rat.intCast_nonneg.2 h1
      have h4 : (0 : Rat) ≤ (n : Rat) := by exact_mod_cast Nat.zero_le n
      have h5 : (0 : Rat) ≤ (f : Rat) + p * (n : Rat) := Rat.add_nonneg h3 (Rat.mul_nonneg h2 h4)
      have h6 : (((f : Rat) + p * (n : Rat)).ceil : Rat) ≥ (f : Rat) + p * (n : Rat) := Rat.le_ceil
      exact Rat.intCast_nonneg.1 (Rat.le_trans h5 h6)
    rw [Int.toNat_of_nonneg hc]
  | none =>
    have h3 : sumQ ((l.map cost).map (fun a => (own a).2)) = 0 := by
      clear h2
      induction l with
      | nil => rfl
      | cons i l ih => simp only [List.map_cons, sumQ, h.known i rfl]; rw [ih, Rat.add_zero]
    refine ⟨f.toNat, ?_⟩
    unfold varTotal
    rw [h3]
    simp only [if_true]
    rw [Int.toNat_of_nonneg h1]

theorem blocks_amount {bs : List ((Nat × String) × Cost)} (h : ∀ q ∈ bs, ∃ x : Nat, total t q.2 = .ok (x : Int)) :
    sumE (bs.map (fun q => total t q.2)) = .ok (((bs.map (fun q => amount (total t q.2))).sum : Nat) : Int) := by
  induction bs with
  | nil => rfl
  | cons q bs ih =>
    obtain ⟨x, hx⟩ := h q List.mem_cons_self
    rw [List.map_cons, sumE, ih (fun r hr => h r (List.mem_cons_of_mem _ hr)), hx, List.map_cons, List.sum_cons, hx]
    simp [addE, amount]

theorem good_blocks (h : Good cost t) {l : List Nat} {bs : List ((Nat × String) × Cost)} (hbs : OnePerKey (l.map cost) bs) :
    ∀ q ∈ bs, ∃ x : Nat, total t q.2 = .ok (x : Int) := by
  intro q hq
  obtain ⟨a, ha, hqa⟩ := hbs.mem q hq
  obtain ⟨i, -, rfl⟩ := List.mem_map.1 ha
  exact h.shared i q hqa

/-- The own parts and one block per key come to the tally, whichever blocks are taken. -/
theorem tally_eq (h : Good cost t) {l : List Nat} {bs : List ((Nat × String) × Cost)} (hbs : OnePerKey (l.map cost) bs) :
    sumE (varTotal ((l.map cost).map (fun a => (own a).1)).sum (sumQ ((l.map cost).map (fun a => (own a).2))) t ::
      bs.map (fun q => total t q.2)) = .ok (tally t (l.map cost) : Int) := by
  have hw : ∀ a ∈ l.map cost, WF a := by
    intro a ha
    obtain ⟨i, -, rfl⟩ := List.mem_map.1 ha
    exact h.wf i
  have h1 := sumE_perm (blocks_total hw (h.agree_list l) hbs (firsts_one _) t)
  obtain ⟨x, hx⟩ := own_amount h l
  rw [sumE, h1, blocks_amount (good_blocks h (firsts_one _)), hx]
  unfold tally
  rw [hx]
  simp [addE, amount]

theorem tally_perm (h : Good cost t) {l l' : List Nat} (hp : l.Perm l') : tally t (l.map cost) = tally t (l'.map cost) := by
  have hpc := hp.map cost
  have h1 := tally_eq h (firsts_one (l.map cost))
  have hone : OnePerKey (l'.map cost) (firsts ((l.map cost).flatMap blocks)) := by
    have := firsts_one (l.map cost)
    refine ⟨this.nodup, fun q hq => ?_, fun a ha => this.all a (hpc.mem_iff.2 ha)⟩
    obtain ⟨a, ha, hq⟩ := this.mem q hq
    exact ⟨a, hpc.mem_iff.1 ha, hq⟩
  have h2 := tally_eq h hone
  rw [sum_perm (hpc.map (fun a => (own a).1)), sumQ_perm (hpc.map (fun a => (own a).2)), h2] at h1
  have h3 := Except.ok.inj h1
  omega

theorem varTotal_mono {f f' : Int} {p p' : Rat} (hf : f ≤ f') (hp : p ≤ p') {x y : Nat} (h : varTotal f p t = .ok (x : Int))
    (h' : varTotal f' p' t = .ok (y : Int)) : x ≤ y := by
  unfold varTotal at h h'
  cases t with
  | some n =>
    simp only at h h'
    have h1 := Except.ok.inj h
    have h2 := Except.ok.inj h'
    have hle : ((f : Rat) + p * (n : Rat)) ≤ ((f' : Rat) + p' * (n : Rat)) := by
      have hn : (0 : Rat) ≤ (n : Rat) := by exact_mod_cast Nat.zero_le n
      have k1 : (f : Rat) ≤ (f' : Rat) := by exact_mod_cast hf
      have k2 : p * (n : Rat) ≤ p' * (n : Rat) := Rat.mul_le_mul_of_nonneg_right hp hn
      exact Rat.le_trans (Rat.add_le_add_right.2 k1) (Rat.add_le_add_left.2 k2)
    have := Rat.ceil_le_iff.2 (Rat.le_trans hle Rat.le_ceil)
    omega
  | none =>
    simp only at h h'
    split at h
    · split at h'
      · have h1 := Except.ok.inj h
        have h2 := Except.ok.inj h'
        omega
      · cases h'
    · cases h

theorem tally_mono (h : Good cost t) (l l' : List Nat) : tally t (l.map cost) ≤ tally t ((l ++ l').map cost) := by
  obtain ⟨x, hx⟩ := own_amount h l
  obtain ⟨y, hy⟩ := own_amount h (l ++ l')
  have hxy : x ≤ y := by
    refine varTotal_mono ?_ ?_ hx hy
    · rw [List.map_append, List.map_append, List.sum_append]
      have : 0 ≤ ((l'.map cost).map (fun a => (own a).1)).sum := by
        clear hy
        induction l' with
        | nil => simp
        | cons i l ih =>
          have := h.fixed i
          simp only [List.map_cons, List.sum_cons]
          omega
      omega
    · rw [List.map_append, List.map_append, sumQ_append]
      have := (sumQ_nonneg (l := (l'.map cost).map (fun a => (own a).2)) (by
        intro a ha
        obtain ⟨c, hc, rfl⟩ := List.mem_map.1 ha
        obtain ⟨i, -, rfl⟩ := List.mem_map.1 hc
        exact h.per i)).1
      have := Rat.add_le_add_left (c := sumQ ((l.map cost).map (fun a => (own a).2))) |>.2 this
      rwa [Rat.add_zero] at this
  obtain ⟨r, hr, -⟩ := firsts_append ((l.map cost).flatMap blocks) ((l'.map cost).flatMap blocks)
  unfold tally
  rw [hx, hy, List.map_append (f := cost), List.flatMap_append, hr, List.map_append, List.sum_append]
  simp only [amount]
  omega

end

end Pacman.Sdram
