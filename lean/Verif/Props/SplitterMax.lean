import Verif.Props.Splitters
/-
C96: setting the maximum number of atoms per core.
-/

namespace Pacman.Split

open Slices (Slice multiSlices checkAtoms rasterIds)

/-- C96, as far as it holds: after a maximum that is accepted the atoms of a vertex can be split, each into one slice, none
over the maximum. Missing: a maximum of 0 in one dimension, which is accepted (see `C96_zero`). -/
theorem C96_accepted_partial {E : Env} {W W' : World} {v : Nat} {m : Option (List Nat)}
    (h : setMax E W v m = (W', .ok ())) (hs : ∀ a ∈ (E.app v).shape, 0 < a) (hm : m ≠ some [0]) :
    ∃ l ss, m = some l ∧ multiSlices ⟨(E.app v).shape, (W'.app v).maxPer⟩ = .ok ss ∧
      (ss.flatMap rasterIds).Perm (List.range (E.app v).nAtoms) ∧ ∀ s ∈ ss, s.n ≤ Slices.prod l := by
  unfold setMax at h
  injection h with h1 h2
  subst h1
  cases m with
  | none => cases h2
  | some l =>
    simp only at h2
    have hmax : ((W.setApp v { W.app v with maxPer := some l }).app v).maxPer = some l := by simp
    rw [hmax]
    have hv : Slices.Vertex.Valid ⟨(E.app v).shape, some l⟩ := by
      unfold checkAtoms at h2
      split at h2
      · cases h2
      · rename_i hlen
        simp only [ne_eq, Decidable.not_not] at hlen
        refine ⟨hs, ?_⟩
        intro m' hm'
        injection hm' with hm'
        subst hm'
        split at h2
        · obtain ⟨h3, h4⟩ := Slices.checkDims_spec hlen h2
          exact ⟨hlen, h3, fun _ => h4⟩
        · rename_i h1
          refine ⟨hlen, ?_, ?_⟩
          · intro c hc
            cases l with
            | nil => cases hc
            | cons c0 l0 =>
              have : l0 = [] := by
                rw [← List.length_eq_zero_iff]
                simp only [List.length_cons] at hlen
                omega
              subst this
              rw [List.mem_singleton] at hc
              subst hc
              rcases Nat.eq_zero_or_pos c with h0 | h0
              · subst h0; exact absurd rfl hm
              · exact h0
          · intro hne d hd
            simp only at hne
            have : (E.app v).shape.length = 0 := by omega
            rw [List.length_eq_zero_iff] at this
            rw [this] at hd
            simp at hd
    have hok : ∃ ss, multiSlices ⟨(E.app v).shape, some l⟩ = .ok ss := by
      by_cases hl : (E.app v).shape.length = 1
      · obtain ⟨n, hn⟩ : ∃ n, (E.app v).shape = [n] := by
          cases hsh : (E.app v).shape with
          | nil => rw [hsh] at hl; simp at hl
          | cons n r =>
            rw [hsh] at hl
            simp only [List.length_cons, Nat.add_eq_right, List.length_eq_zero_iff] at hl
            exact ⟨n, by rw [hl]⟩
        obtain ⟨hml, hmp, -⟩ := hv.2 l rfl
        simp only [hn] at hml
        obtain ⟨k, hk⟩ : ∃ k, l = [k] := by
          cases l with
          | nil => simp at hml
          | cons k r =>
            simp only [List.length_cons, List.length_nil, Nat.zero_add, Nat.add_eq_right,
              List.length_eq_zero_iff] at hml
            exact ⟨k, by rw [hml]⟩
        subst hk
        obtain ⟨ss, h3, -⟩ := Slices.C43_slices_tile n k (hs n (by rw [hn]; simp)) (hmp k (by simp))
        refine ⟨ss, ?_⟩
        rw [hn, ← h3]
        unfold multiSlices
        simp [Slices.maxPerDim, checkAtoms, Except.map, bind, Except.bind]
      · obtain ⟨ss, h3, -⟩ := Slices.C44_slices_tile hv hl
        exact ⟨ss, h3⟩
    obtain ⟨ss, hss⟩ := hok
    obtain ⟨t1, t2, -⟩ := multi_tile hss
    exact ⟨l, ss, rfl, hss, t1, t2⟩

/-- C96 does not hold: a maximum of 0 is accepted, and the partitioner then divides by it. -/
theorem C96_zero :
    let W := run demo demoNew [.setSplitter 0 0, .setMax 0 (some [0])]
    (step demo demoNew (.setMax 0 (some [0]))).2 = .ok () ∧
    (partition demo W 17 100 [0]).2 = .error .zeroDivision := by decide +kernel

/-- C96: `None`, which is documented to make the shape the maximum, always raises, though the maximum is then set so. -/
theorem C96_none (E : Env) (W : World) (v : Nat) :
    (setMax E W v none).2 = .error .typeError ∧ ((setMax E W v none).1.app v).maxPer = none := by
  unfold setMax
  simp

/-- C96: a maximum that is refused is set all the same: from then on the atoms cannot be split, until another one is
set. -/
theorem C96_refused_kept {E : Env} {W : World} {v : Nat} {l : List Nat} {e : PyErr}
    (h : (setMax E W v (some l)).2 = .error e) :
    ((setMax E W v (some l)).1.app v).maxPer = some l ∧
    multiSlices ⟨(E.app v).shape, ((setMax E W v (some l)).1.app v).maxPer⟩ = .error e := by
  have hmax : ((setMax E W v (some l)).1.app v).maxPer = some l := by
    unfold setMax
    simp
  refine ⟨hmax, ?_⟩
  rw [hmax]
  unfold setMax at h
  simp only at h
  unfold multiSlices
  simp [Slices.maxPerDim, h, Except.map, bind, Except.bind]

example : (setMax demo demoNew 3 (some [4, 2])).2 = .ok () ∧ (setMax demo demoNew 3 (some [3, 2])).2 = .error .valueError ∧
    (setMax demo demoNew 3 (some [4])).2 = .error .valueError := by decide +kernel

end Pacman.Split
