import Verif.Proofs.AllocatorFixed
import Verif.Proofs.RoutingTables
/-
The sizes of the zones.
-/

namespace Pacman.Alloc

theorem le_two_pow_clog2 (n : Nat) : n ≤ 2 ^ clog2 n := by
  unfold clog2
  split
  · omega
  · have := @Nat.lt_log2_self (n - 1)
    omega

theorem le_two_pow_bitsNeeded (n : Nat) : n ≤ 2 ^ bitsNeeded n := by
  unfold bitsNeeded
  split
  · omega
  · exact le_two_pow_clog2 n

theorem le_maxKeys {vs : List MVertex} {v : MVertex} (h : v ∈ vs) : v.nKeys ≤ maxKeys vs := by
  induction vs with
  | nil => simp at h
  | cons w vs ih =>
    rw [maxKeys]
    rw [List.mem_cons] at h
    rcases h with rfl | h
    · exact Nat.le_max_left _ _
    · exact Nat.le_trans (ih h) (Nat.le_max_right _ _)

/-- The sizes are enough for the partition. -/
structure Fits (z : Zones) (p : Part) : Prop where
  atoms : bitsNeeded (maxKeys p.outgoing) ≤ z.atoms
  machine : bitsNeeded p.outgoing.length ≤ z.machine
  both : bitsNeeded p.outgoing.length + bitsNeeded (maxKeys p.outgoing) ≤ z.both

/-- The sizes only grow. -/
structure ZLe (z z' : Zones) : Prop where
  atoms : z.atoms ≤ z'.atoms
  machine : z.machine ≤ z'.machine
  both : z.both ≤ z'.both
  le : z.machine ≤ z.both → z'.machine ≤ z'.both
  sum : z.both ≤ z.machine + z.atoms → z'.both ≤ z'.machine + z'.atoms

theorem ZLe.trans {a b c : Zones} (h : ZLe a b) (h' : ZLe b c) : ZLe a c :=
  ⟨Nat.le_trans h.1 h'.1, Nat.le_trans h.2 h'.2, Nat.le_trans h.3 h'.3, fun k => h'.4 (h.4 k), fun k => h'.5 (h.5 k)⟩

theorem Fits.mono {z z' : Zones} {p : Part} (h : ZLe z z') (f : Fits z p) : Fits z' p :=
  ⟨Nat.le_trans f.1 h.1, Nat.le_trans f.2 h.2, Nat.le_trans f.3 h.3⟩

theorem zoneOne_le (fixed : Fixed) (z : Zones) (p : Part) : ZLe z (zoneOne fixed z p) := by
  unfold zoneOne
  split
  · exact ⟨Nat.le_refl _, Nat.le_refl _, Nat.le_refl _, id, id⟩
  · split
    · simp only
      split
      · exact ⟨Nat.le_refl _, Nat.le_refl _, Nat.le_refl _, id, id⟩
      · refine ⟨Nat.le_max_left _ _, Nat.le_max_left _ _, Nat.le_max_left _ _, ?_, ?_⟩ <;>
        intro h <;>
        simp only
        · exact Nat.max_le.2 ⟨Nat.le_trans h (Nat.le_max_left _ _),
            Nat.le_trans (Nat.le_add_right _ _) (Nat.le_max_right _ _)⟩
        · exact Nat.max_le.2 ⟨Nat.le_trans h (Nat.add_le_add (Nat.le_max_left _ _)
            (Nat.le_max_left _ _)), Nat.add_le_add (Nat.le_max_right _ _) (Nat.le_max_right _ _)⟩
    · exact ⟨Nat.le_refl _, Nat.le_refl _, Nat.le_refl _, id, id⟩

theorem zoneOne_fits (fixed : Fixed) (z : Zones) (p : Part) (h : fixed.get? (ak p) = none)
    (hm : 0 < maxKeys p.outgoing) : Fits (zoneOne fixed z p) p := by
  unfold zoneOne
  have hne : p.outgoing ≠ [] := by
    intro h0
    rw [h0] at hm
    simp [maxKeys] at hm
  rw [if_neg hne, if_pos hm]
  have h' : fixed.get? (p.ident, VId.app p.pre) = none := h
  simp only [h', Option.isSome_none, Bool.false_eq_true, if_false]
  exact ⟨Nat.le_max_right _ _, Nat.le_max_right _ _, Nat.le_max_right _ _⟩

theorem bitsNeeded_zero : bitsNeeded 0 = 0 := rfl

theorem zoneOne_perPart (fixed : Fixed) (z : Zones) (p : Part) :
    (zoneOne fixed z p).perPart = if p.outgoing = [] then z.perPart
      else z.perPart.set (p.pre, p.ident) (bitsNeeded (maxKeys p.outgoing)) := by
  unfold zoneOne
  split
  · rfl
  · split
    · simp only
      split <;> rfl
    · rename_i h
      have : maxKeys p.outgoing = 0 := by omega
      rw [this, bitsNeeded_zero]

/-- The zones after all partitions. -/
structure ZInv (fixed : Fixed) (ps : List Part) (z0 z : Zones) : Prop where
  le : ZLe z0 z
  bits : ∀ p ∈ ps, p.outgoing ≠ [] →
    z.perPart.get? (p.pre, p.ident) = some (bitsNeeded (maxKeys p.outgoing))
  frame : ∀ k, (∀ p ∈ ps, k ≠ (p.pre, p.ident)) → z.perPart.get? k = z0.perPart.get? k
  length : z.perPart.length = z0.perPart.length + (ps.filter (fun p => decide (p.outgoing ≠ []))).length
  fits : ∀ p ∈ ps, fixed.get? (ak p) = none → 0 < maxKeys p.outgoing → Fits z p

theorem zones_inv (fixed : Fixed) : ∀ (ps : List Part) (z0 : Zones),
    (ps.map (fun p => (p.pre, p.ident))).Nodup →
    (∀ p ∈ ps, z0.perPart.get? (p.pre, p.ident) = none) →
    ZInv fixed ps z0 (ps.foldl (zoneOne fixed) z0) := by
  intro ps
  induction ps with
  | nil =>
    intro z0 _ _
    exact ⟨⟨Nat.le_refl _, Nat.le_refl _, Nat.le_refl _, id, id⟩, by simp, fun _ _ => rfl, by simp, by simp⟩
  | cons p ps ih =>
    intro z0 hn h0
    rw [List.map_cons, List.nodup_cons] at hn
    rw [List.foldl_cons]
    have hne : ∀ q ∈ ps, (p.pre, p.ident) ≠ (q.pre, q.ident) := by
      intro q hq heq
      exact hn.1 (List.mem_map.2 ⟨q, hq, heq.symm⟩)
    have h1 := zoneOne_perPart fixed z0 p
    have h := ih (zoneOne fixed z0 p) hn.2 (by
      intro q hq
      rw [h1]
      split
      · exact h0 q (by simp [hq])
      · rw [Dict.get?_set_ne _ _ (hne q hq)]
        exact h0 q (by simp [hq]))
    refine ⟨(zoneOne_le fixed z0 p).trans h.le, ?_, ?_, ?_, ?_⟩
    · intro q hq hout
      rw [List.mem_cons] at hq
      rcases hq with rfl | hq
      · rw [h.frame _ hne, h1, if_neg hout, Dict.get?_set_self]
      · exact h.bits q hq hout
    · intro k hk
      rw [h.frame k (fun q hq => hk q (by simp [hq])), h1]
      split
      · rfl
      · exact Dict.get?_set_ne _ _ (Ne.symm (hk p (by simp)))
    · rw [h.length, h1, List.filter_cons]
      split
      · rename_i he; simp [he]
      · rename_i he
        rw [Dict.set_new (h0 p (by simp)), List.length_append]
        simp [he]; omega
    · intro q hq hf hm
      rw [List.mem_cons] at hq
      rcases hq with rfl | hq
      · exact Fits.mono h.le (zoneOne_fits fixed z0 q hf hm)
      · exact h.fits q hq hf hm

theorem calculateZones_inv (fixed : Fixed) (ps : List Part)
    (hn : (ps.map (fun p => (p.pre, p.ident))).Nodup) :
    ZInv fixed ps ⟨0, 0, 0, []⟩ (calculateZones fixed ps) :=
  zones_inv fixed ps _ hn (fun _ _ => rfl)

/-- What a successful check of the zones gives. -/
structure Checked (flexible : Bool) (fixed : Fixed) (z z' : Zones) (used : List Nat) : Prop where
  perPart : z'.perPart = z.perPart
  usedEq : used = fixedUsed z.both fixed
  both : z.both ≤ z'.both
  room : ∃ ab, z.perPart.length + used.length ≤ 2 ^ ab ∧ ab + z'.both ≤ 32
  flex : flexible = true → z' = z
  same : z.both = z.machine + z.atoms → z'.both = z.both
  glob : flexible = false → z'.machine = z.machine ∧ z'.atoms + z'.machine = z'.both

theorem checkZones_ok {flexible : Bool} {fixed : Fixed} {z z' : Zones} {used : List Nat}
    (hm : z.machine ≤ z.both) (h : checkZones flexible fixed z = .ok (z', used))
    (hb : z.both ≤ z.machine + z.atoms) :
    Checked flexible fixed z z' used := by
  unfold checkZones at h
  have hk : bitsInKey = 32 := rfl
  simp only at h
  by_cases h1 : bitsNeeded (List.length z.perPart) + z.both > bitsInKey
  · rw [if_pos h1] at h; simp at h
  · rw [if_neg h1] at h
    by_cases h2 : bitsNeeded (List.length z.perPart + (fixedUsed z.both fixed).length) + z.both > bitsInKey
    · rw [if_pos h2] at h; simp at h
    · rw [if_neg h2] at h
      by_cases hf : flexible = true
      · rw [if_pos hf] at h
        simp only [Except.ok.injEq, Prod.mk.injEq] at h
        obtain ⟨rfl, rfl⟩ := h
        exact ⟨rfl, rfl, Nat.le_refl _, ⟨_, le_two_pow_bitsNeeded _, by omega⟩, fun _ => rfl, fun _ => rfl,
          by intro h; rw [hf] at h; simp at h⟩
      · rw [if_neg hf] at h
        by_cases h3 : bitsNeeded (List.length z.perPart + (fixedUsed z.both fixed).length) + z.machine
            + z.atoms > bitsInKey
        · rw [if_pos h3] at h
          simp only [Except.ok.injEq, Prod.mk.injEq] at h
          obtain ⟨rfl, rfl⟩ := h
          refine ⟨rfl, rfl, by simp only; omega, ⟨_, le_two_pow_bitsNeeded _, by simp only; omega⟩,
            by intro h; exact absurd h hf, by intro h; simp only; omega, fun _ => ⟨rfl, by simp only; omega⟩⟩
        · rw [if_neg h3] at h
          simp only [Except.ok.injEq, Prod.mk.injEq] at h
          obtain ⟨rfl, rfl⟩ := h
          exact ⟨rfl, rfl, hb, ⟨_, le_two_pow_bitsNeeded _, by simp only; omega⟩,
            by intro h; exact absurd h hf, by intro h; simp only; omega, fun _ => ⟨rfl, by simp only; omega⟩⟩

end Pacman.Alloc
