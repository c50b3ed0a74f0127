import Verif.Props.OrderedCoveringBest
import Verif.Props.DefaultSpare

/-!
# C157: targets of ordered covering
-/

namespace Pacman.OC

/-- Stopped at a target, the loop goes on to a lower one as if it had not been stopped. -/
theorem mainLoop_lower {n : Nat} {target : Option Nat} (hk : ∀ k, target = some k → k ≤ n) : ∀ (f f' round : Nat)
    (t : List Entry) (a : Aliases) (t1 : List Entry) (a1 : Aliases), t.length < f → t.length < f' → t ≠ [] → Sorted t →
    mainLoop (some n) (fun _ => false) f round t a = .ok (t1, a1) →
    mainLoop target (fun _ => false) f' 0 t1 a1 = mainLoop target (fun _ => false) f' 0 t a ∧ t1.length ≤ t.length := by
  intro f
  induction f with
  | zero => intro f' r t a t1 a1 h; omega
  | succ f ih =>
    intro f' round t a t1 a1 hf hf' hne hs h
    rw [mainLoop] at h
    split at h
    · rename_i hgt
      obtain ⟨m, h1, h2⟩ := bestMerge_ok hne hs a (Nat.lt_succ_self t.length)
      rw [h1] at h
      simp only [bind, Except.bind, pure, Except.pure] at h
      split at h
      · cases h; exact ⟨rfl, Nat.le_refl _⟩
      · rename_i hg
        have hu := h2 (by omega)
        obtain ⟨t2, a2, h3, ⟨h4⟩⟩ := apply_ok hu
        rw [h3] at h
        have hlen := h4.len
        have htwo := hu.two
        have hpos : 0 < t.length := List.length_pos_iff.2 hne
        have hne2 : t2 ≠ [] := by rw [h4.eq]; simp
        have hs2 := applied_sorted hs hu h4
        obtain ⟨i1, i2⟩ := ih f' (round + 1) t2 a2 t1 a1 (by omega) (by omega) hne2 hs2 h
        refine ⟨?_, by omega⟩
        rw [i1]
        cases f' with
        | zero => omega
        | succ f' =>
          have hall : target.all (fun k => decide (t.length > k)) = true := by
            cases target with
            | none => rfl
            | some k =>
              have := hk k rfl
              have h5 : n < t.length := by simpa using hgt
              simp only [Option.all_some, decide_eq_true_eq]
              omega
          have hrhs : mainLoop target (fun _ => false) (f' + 1) 0 t a = mainLoop target (fun _ => false) f' 1 t2 a2 := by
            rw [mainLoop, h1]
            simp only [bind, Except.bind, pure, Except.pure]
            rw [if_pos hall, if_neg hg, h3]
            rfl
          rw [hrhs]
          exact mainLoop_fuel _ _ _ _ _ _ (by omega) (by omega) hne2 hs2
    · cases h; exact ⟨rfl, Nat.le_refl _⟩

/-- **C157.** Without a time limit, ordered covering called with a lower target, or with none, never returns a longer table. -/
theorem C157_lower {fuel n : Nat} {t : List Entry} {a : Aliases} {target : Option Nat} (hk : ∀ k, target = some k → k ≤ n)
    (hf : t.length < fuel) (hne : t ≠ []) {q q' : Bool} {t1 t2 : List Entry} {a1 a2 : Aliases}
    (h1 : orderedCovering fuel (fun _ => false) t (some n) a q = .ok (t1, a1))
    (h2 : orderedCovering fuel (fun _ => false) t target a q' = .ok (t2, a2)) : t2.length ≤ t1.length := by
  have hl : (sortGen t).length < fuel := by rw [(sortGen_perm t).length_eq]; exact hf
  obtain ⟨h3, h4, -⟩ := mainLoop_spent fuel 0 _ a t1 a1 hl (sortGen_ne hne) (sortGen_sorted t) (covering_loop h1)
  obtain ⟨h5, h6⟩ := mainLoop_lower hk fuel fuel 0 _ a t1 a1 hl hl (sortGen_ne hne) (sortGen_sorted t) (covering_loop h1)
  rw [covering_loop h2] at h5
  have hl1 : t1.length < fuel := by omega
  obtain ⟨t', a', h7, h8⟩ := C09_oc_returns fuel t1 target a1 hl1 (.inl h3)
  have h9 := covering_loop h7
  rw [sortGen_same h4, h5] at h9
  cases h9
  exact h8

/-- What is returned above the target is what is returned without one. -/
theorem above_target {fuel n : Nat} {t : List Entry} {a : Aliases} (hf : t.length < fuel) (hne : t ≠ []) {q : Bool}
    {t1 t2 : List Entry} {a1 a2 : Aliases} (h1 : orderedCovering fuel (fun _ => false) t (some n) a q = .ok (t1, a1))
    (h2 : orderedCovering fuel (fun _ => false) t none a true = .ok (t2, a2)) (hn : n < t1.length) : t1 = t2 := by
  have hl : (sortGen t).length < fuel := by rw [(sortGen_perm t).length_eq]; exact hf
  obtain ⟨h3, h4, h5⟩ := mainLoop_spent fuel 0 _ a t1 a1 hl (sortGen_ne hne) (sortGen_sorted t) (covering_loop h1)
  have hsp : Spent t1 a1 := by
    rcases h5 with h5 | ⟨k, h5, h6⟩
    · exact h5
    · cases h5; omega
  have h6 := C138_resumed hf hne h1
  rw [h2] at h6
  have h7 := covering_loop h6
  rw [sortGen_same h4] at h7
  obtain ⟨m, k1, -⟩ := bestMerge_ok h3 h4 a1 (Nat.lt_succ_self t1.length)
  cases fuel with
  | zero => omega
  | succ f =>
    rw [mainLoop, k1] at h7
    simp only [bind, Except.bind, pure, Except.pure] at h7
    rw [if_pos (by rfl), if_pos ((spent_iff h3 h4 k1).1 hsp)] at h7
    cases h7
    rfl

/-- **C157.** A target is met exactly if the table is as short as that when ordered covering goes as far as it can. -/
theorem C157_met {fuel n : Nat} {t : List Entry} {a : Aliases} (hf : t.length < fuel) (hne : t ≠ []) :
    (∃ r, orderedCovering fuel (fun _ => false) t (some n) a false = .ok r) ↔
    ∃ t2 a2, orderedCovering fuel (fun _ => false) t none a false = .ok (t2, a2) ∧ t2.length ≤ n := by
  obtain ⟨t1, a1, h1, -⟩ := C09_oc_returns fuel t (some n) a hf (.inl hne)
  obtain ⟨t2, a2, h2, -⟩ := C09_oc_returns fuel t none a hf (.inl hne)
  have hle := C157_lower (by intro k hk; cases hk) hf hne h1 h2
  have e1 := covering_loop h1
  have e2 := covering_loop h2
  have f2 : orderedCovering fuel (fun _ => false) t none a false = .ok (t2, a2) := by
    unfold orderedCovering
    rw [e2]
    rfl
  have f1 : orderedCovering fuel (fun _ => false) t (some n) a false =
      if t1.length > n then .error .minimisationFailed else .ok (t1, a1) := by
    unfold orderedCovering
    rw [e1]
    simp [bind, Except.bind, pure, Except.pure]
  rw [f1, f2]
  constructor
  · rintro ⟨r, h⟩
    split at h
    · cases h
    · exact ⟨t2, a2, rfl, by omega⟩
  · rintro ⟨t3, a3, h3, h4⟩
    cases h3
    refine ⟨(t1, a1), if_neg fun hgt => ?_⟩
    have := above_target hf hne h1 h2 hgt
    subst this
    omega

theorem remove_length {t t' : List Entry} {c : Bool} (h : removeDefaultRoutes t none c = .ok t') : t'.length ≤ t.length := by
  unfold removeDefaultRoutes at h
  simp only [Option.any_none, Bool.false_eq_true, if_false, Except.ok.injEq] at h
  rw [← h]
  split
  · exact (keep_sublist t).length_le
  · exact List.filter_sublist.length_le

theorem remove_target {t t' : List Entry} {n : Nat} {c : Bool} (h : removeDefaultRoutes t none c = .ok t') :
    removeDefaultRoutes t (some n) c = if n ≠ 0 ∧ t'.length > n then .error .minimisationFailed else .ok t' := by
  unfold removeDefaultRoutes at h ⊢
  simp only [Option.any_none, Bool.false_eq_true, if_false, Except.ok.injEq] at h
  simp only [Option.any_some, decide_eq_true_eq, h]

theorem remove_some (t : List Entry) (c : Bool) : ∃ t', removeDefaultRoutes t none c = .ok t' := by
  unfold removeDefaultRoutes
  simp

/-- **C157.** The compressor of ordered covering, which removes default routes too, gets a table into `n` entries exactly if it
does when it compresses as far as it can. -/
theorem C157_table {fuel n : Nat} {t : List Entry} (hf : t.length < fuel) (hne : t ≠ []) (hn : n ≠ 0) :
    (∃ t', compressTable fuel t (some n) = .ok t') ↔ ∃ t', compressTable fuel t none = .ok t' ∧ t'.length ≤ n := by
  obtain ⟨t1, a1, h1, -⟩ := C09_oc_returns fuel t (some n) [] hf (.inl hne)
  obtain ⟨t2, a2, h2, -⟩ := C09_oc_returns fuel t none [] hf (.inl hne)
  have hle := C157_lower (by intro k hk; cases hk) hf hne h1 h2
  obtain ⟨r1, g1⟩ := remove_some t1 true
  obtain ⟨r2, g2⟩ := remove_some t2 true
  have c1 : compressTable fuel t (some n) = if n ≠ 0 ∧ r1.length > n then .error .minimisationFailed else .ok r1 := by
    unfold compressTable
    rw [h1]
    exact remove_target g1
  have c2 : compressTable fuel t none = .ok r2 := by
    unfold compressTable
    rw [h2]
    exact g2
  have l1 := remove_length g1
  have l2 := remove_length g2
  rw [c1, c2]
  by_cases hgt : n < t1.length
  · have := above_target hf hne h1 h2 hgt
    subst this
    rw [g1] at g2
    cases g2
    constructor
    · rintro ⟨r, h⟩
      split at h
      · cases h
      · exact ⟨_, rfl, by omega⟩
    · rintro ⟨r, h3, h4⟩
      cases h3
      exact ⟨_, if_neg (by omega)⟩
  · exact ⟨fun _ => ⟨_, rfl, by omega⟩, fun _ => ⟨_, if_neg (by omega)⟩⟩

/-- **C157**, what is not so: that the compressor with default routes removed never returns a longer table for a lower target.
Entries that default routing could replace are merged with others, and stay. -/
theorem C157_default_false : ¬ ∀ (fuel n : Nat) (t t1 t2 : List Entry), t.length < fuel → t ≠ [] →
    compressTable fuel t (some n) = .ok t1 → compressTable fuel t none = .ok t2 → t2.length ≤ t1.length := by
  intro h
  have := h 100 4 straight [] [⟨1, 0xFFFFFFFF, 8, true⟩] (by decide) (by decide) (by decide +kernel) (by decide +kernel)
  revert this
  decide

/-- The table of C137: two merges of it are made; it fits into three entries after the first, and into one less after both. -/
example : exTable.length < 5 ∧ exTable ≠ [] ∧
    (∃ r, orderedCovering 5 (fun _ => false) exTable (some 2) [] false = .ok r) ∧
    (∃ t', compressTable 5 exTable (some 2) = .ok t') ∧ ¬ (∃ t', compressTable 5 exTable (some 1) = .ok t') := by
  have hlen : exTable.length < 5 := by decide
  have hne : exTable ≠ [] := by decide
  have h1 : (orderedCovering 5 (fun _ => false) exTable none [] false).map (fun r => r.1.length) = .ok 2 := by decide +kernel
  have h2 : (compressTable 5 exTable none).map List.length = .ok 2 := by decide +kernel
  refine ⟨hlen, hne, (C157_met hlen hne).2 ?_, (C157_table hlen hne (by decide)).2 ?_, fun h => ?_⟩
  · cases h : orderedCovering 5 (fun _ => false) exTable none [] false with
    | error e => rw [h] at h1; cases h1
    | ok r =>
      rw [h] at h1
      exact ⟨r.1, r.2, rfl, Nat.le_of_eq (Except.ok.inj h1)⟩
  · cases h : compressTable 5 exTable none with
    | error e => rw [h] at h2; cases h2
    | ok r =>
      rw [h] at h2
      exact ⟨r, rfl, Nat.le_of_eq (Except.ok.inj h2)⟩
  · obtain ⟨t', h3, h4⟩ := (C157_table hlen hne (by decide)).1 h
    rw [h3] at h2
    have : t'.length = 2 := Except.ok.inj h2
    omega

/-- Four entries become three for a target of three, and two for a target of two. -/
example : ∃ t1 a1 t2 a2, orderedCovering 5 (fun _ => false) exTable (some 3) [] true = .ok (t1, a1) ∧
    orderedCovering 5 (fun _ => false) exTable (some 2) [] true = .ok (t2, a2) ∧ t2.length ≤ t1.length := by
  obtain ⟨t1, a1, h1, -⟩ := C09_oc_returns 5 exTable (some 3) [] (by decide) (.inl (by decide))
  obtain ⟨t2, a2, h2, -⟩ := C09_oc_returns 5 exTable (some 2) [] (by decide) (.inl (by decide))
  exact ⟨t1, a1, t2, a2, h1, h2, C157_lower (by intro k hk; cases hk; decide) (by decide) (by decide) h1 h2⟩

end Pacman.OC
