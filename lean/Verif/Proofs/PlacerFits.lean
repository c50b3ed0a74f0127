import Verif.Proofs.PlacerMore
/-
A vertex all of whose groups fit on one chip: lemmas.
-/

namespace Pacman.Placer

open Plc (Placement Store Inv)

/-- The cores that the groups take. -/
def coresOf (gs : List (List Nat × Nat)) : Nat := (gs.map (fun g => g.1.length)).sum

/-- The costs of the groups. -/
def costsOf (gs : List (List Nat × Nat)) : List Nat := gs.map (fun g => g.2)

/-- A search has not run out of chips, and the chip is still among the starts. -/
def StillOpen (c : XY) : Except PyErr (Option (List Placement) × State) → Prop
  | .error e => e ≠ .place
  | .ok (none, st) => c ∈ st.restored ++ st.chips
  | .ok (some _, _) => True

theorem addNeighbours_pool {M : Machine} {ds : List XY} : ∀ {st st' : State}, addNeighbours M ds st = .ok st' →
    st'.restored = st.restored ∧ st'.chips = st.chips ∧ st'.cur = st.cur := by
  induction ds with
  | nil => intro st st' h; cases h; exact ⟨rfl, rfl, rfl⟩
  | cons d ds ih =>
    intro st st' h
    rw [addNeighbours] at h
    split at h
    · cases h
    · split at h
      · split at h
        · have := ih h; exact this
        · have := ih h; exact this
      · exact ih h

/-- The starts are not touched. -/
def SamePool (st : State) : Except PyErr (State × Bool) → Prop
  | .error e => e ≠ .place
  | .ok (st', _) => st'.restored = st.restored ∧ st'.chips = st.chips ∧ (st.cur ≠ none → st'.cur ≠ none)

theorem spaceOn_pool {M : Machine} {c : XY} {n sdram : Nat} {st : State} :
    SamePool st (spaceOn M c n sdram st) := by
  unfold spaceOn
  simp only
  split
  · exact ⟨rfl, rfl, id⟩
  · split
    · rename_i e h
      rw [removeAll_error h]
      exact (by decide : PyErr.valueError ≠ .place)
    · split
      · exact ⟨rfl, rfl, id⟩
      · split
        · split
          · rename_i e h
            unfold couldFit at h
            split at h
            · cases h
            · cases h; exact (by decide : PyErr.tooBig ≠ .place)
          · exact ⟨rfl, rfl, id⟩
        · split
          · rename_i e h
            rw [(addNeighbours_error h).1]
            exact (by decide : PyErr.keyError ≠ .place)
          · rename_i st' h
            obtain ⟨h1, h2, h3⟩ := addNeighbours_pool h
            exact ⟨h1, h2, fun _ => by rw [h3]; simp⟩

theorem nextNeighbour_pool {M : Machine} {n sdram : Nat} (fuel : Nat) : ∀ {st : State},
    match nextNeighbour M n sdram fuel st with
    | .error e => e ≠ .place
    | .ok (_, st') => st'.restored = st.restored ∧ st'.chips = st.chips ∧ (st.cur ≠ none → st'.cur ≠ none) := by
  induction fuel with
  | zero => intro st; exact (by decide : PyErr.outOfFuel ≠ .place)
  | succ fuel ih =>
    intro st
    rw [nextNeighbour]
    cases hp : popNeighbour M st with
    | none => exact ⟨rfl, rfl, id⟩
    | some r =>
      obtain ⟨c, st1⟩ := r
      have h1 : st1.restored = st.restored ∧ st1.chips = st.chips ∧ st1.cur = st.cur := by
        unfold popNeighbour at hp
        split at hp
        · cases hp; exact ⟨rfl, rfl, rfl⟩
        · split at hp
          · cases hp; exact ⟨rfl, rfl, rfl⟩
          · cases hp
      simp only
      have h2 := spaceOn_pool (M := M) (c := c) (n := n) (sdram := sdram) (st := st1)
      cases hs : spaceOn M c n sdram st1 with
      | error e => rw [hs] at h2; exact h2
      | ok r =>
        obtain ⟨st2, b⟩ := r
        rw [hs] at h2
        have h3 : st2.restored = st.restored ∧ st2.chips = st.chips ∧ (st.cur ≠ none → st2.cur ≠ none) :=
          ⟨h2.1.trans h1.1, h2.2.1.trans h1.2.1, fun h => h2.2.2 (by rw [h1.2.2]; exact h)⟩
        cases b with
        | true => exact h3
        | false =>
          have h4 := ih (st := st2)
          simp only
          cases hn : nextNeighbour M n sdram fuel st2 with
          | error e => rw [hn] at h4; exact h4
          | ok r =>
            obtain ⟨oc, st3⟩ := r
            rw [hn] at h4
            exact ⟨h4.1.trans h3.1, h4.2.1.trans h3.2.1, fun h => h4.2.2 (h3.2.2 h)⟩

/-- Once it has started on some chip, a search does not touch the starts. -/
theorem prepareLoop_pool {M : Machine} {fuel : Nat} {c : XY} (gs : List (List Nat × Nat)) :
    ∀ {st : State} {acc : List Placement}, st.cur ≠ none → c ∈ st.restored ++ st.chips →
      StillOpen c (prepareLoop M fuel gs st acc) := by
  induction gs with
  | nil => intro st acc _ _; exact trivial
  | cons g gs ih =>
    intro st acc hcur hc
    rw [prepareLoop]
    cases hv : filterVertices M st.store g.1 with
    | error e => rw [filter_error hv]; exact (by decide : PyErr.notImplemented ≠ .place)
    | ok ws =>
      cases ws with
      | nil => exact ih hcur hc
      | cons w ws =>
        simp only
        unfold nextChip
        cases hcc : st.cur with
        | none => exact absurd hcc hcur
        | some d =>
          simp only
          by_cases hroom : (w :: ws).length ≤ st.free.length ∧ M.costs.total (g.2 :: st.used) ≤ M.sdram d
          · rw [if_pos hroom]
            simp only
            cases ht : takeCores d g.1 st.free with
            | error e => rw [takeCores_error ht]; exact (by decide : PyErr.indexError ≠ .place)
            | ok r => exact ih (by simp [hcc]) hc
          · rw [if_neg hroom]
            have h1 := nextNeighbour_pool (M := M) (n := (w :: ws).length) (sdram := g.2) fuel (st := st)
            cases hn : nextNeighbour M (w :: ws).length g.2 fuel st with
            | error e => rw [hn] at h1; exact h1
            | ok r =>
              obtain ⟨oc, st1⟩ := r
              rw [hn] at h1
              obtain ⟨h2, h3, h4⟩ := h1
              have hc1 : c ∈ st1.restored ++ st1.chips := by rw [h2, h3]; exact hc
              cases oc with
              | none => exact hc1
              | some d' =>
                simp only
                cases ht : takeCores d' g.1 st1.free with
                | error e => rw [takeCores_error ht]; exact (by decide : PyErr.indexError ≠ .place)
                | ok r => exact ih (h4 hcur) hc1

/-- A search that is on a chip with room for all that is left stays there. -/
theorem prepareLoop_stay {M : Machine} {fuel : Nat} {c d : XY} (gs : List (List Nat × Nat)) :
    ∀ {st : State} {acc : List Placement}, st.cur = some c → coresOf gs ≤ st.free.length →
      M.costs.total (st.used ++ costsOf gs) ≤ M.sdram c → StillOpen d (prepareLoop M fuel gs st acc) := by
  induction gs with
  | nil => intro st acc _ _ _; exact trivial
  | cons g gs ih =>
    intro st acc hcur h1 h2
    have e1 : coresOf (g :: gs) = g.1.length + coresOf gs := by simp [coresOf]
    have e2 : M.costs.total (g.2 :: st.used ++ costsOf gs) ≤ M.sdram c := by
      refine Nat.le_trans (Nat.le_of_eq (M.costs.perm ?_)) h2
      exact (List.perm_middle (l₁ := st.used) (l₂ := costsOf gs) (a := g.2)).symm
    have e3 : M.costs.total (st.used ++ costsOf gs) ≤ M.sdram c :=
      Nat.le_trans (M.costs.mono_cons g.2 _) e2
    have e4 : M.costs.total (g.2 :: st.used) ≤ M.sdram c := Nat.le_trans (M.costs.mono _ _) e2
    rw [prepareLoop]
    cases hv : filterVertices M st.store g.1 with
    | error e => rw [filter_error hv]; exact (by decide : PyErr.notImplemented ≠ .place)
    | ok ws =>
      cases ws with
      | nil => exact ih hcur (by omega) e3
      | cons w ws =>
        have hlen := filter_length hv
        simp only
        unfold nextChip
        rw [hcur]
        simp only
        rw [if_pos ⟨by omega, e4⟩]
        simp only
        cases ht : takeCores c g.1 st.free with
        | error e => rw [takeCores_error ht]; exact (by decide : PyErr.indexError ≠ .place)
        | ok r =>
          obtain ⟨rest, as⟩ := r
          obtain ⟨t1, -, t2⟩ := takeCores_ok ht
          have h3 : st.free.length = g.1.length + rest.length := by
            rw [t2, List.length_append, ← t1, List.length_map, List.length_map]
          exact ih rfl (by simp only; omega) e2

/-- The chip has room for all of the groups, and is not taken to be full. -/
structure Holds (M : Machine) (l : List Placement) (gs : List (List Nat × Nat)) (c : XY) : Prop where
  open_ : ¬ Filled M l c
  cores : (at_ l c).length + coresOf gs ≤ (M.cores c).length
  bytes : M.costs.total (needs M l c ++ costsOf gs) ≤ M.sdram c

theorem prepareLoop_start {M : Machine} {l : List Placement} {fuel : Nat} (hf : M.chips.length < fuel) {c : XY}
    (gs : List (List Nat × Nat)) : ∀ {st : State} {acc : List Placement}, st.cur = none → Book M st l →
      c ∈ st.restored ++ st.chips → Holds M l gs c → StillOpen c (prepareLoop M fuel gs st acc) := by
  induction gs with
  | nil => intro st acc _ _ _ _; exact trivial
  | cons g gs ih =>
    intro st acc hcur hB hc hH
    have e1 : coresOf (g :: gs) = g.1.length + coresOf gs := by simp [coresOf]
    have e2 : M.costs.total (needs M l c ++ [g.2] ++ costsOf gs) ≤ M.sdram c := by
      have := hH.bytes
      rw [List.append_assoc]
      exact this
    have e3 : M.costs.total (needs M l c ++ costsOf gs) ≤ M.sdram c := by
      refine Nat.le_trans (M.costs.mono_cons g.2 _) (Nat.le_trans (Nat.le_of_eq (M.costs.perm ?_)) hH.bytes)
      exact (List.perm_middle (l₁ := needs M l c) (l₂ := costsOf gs) (a := g.2)).symm
    have e4 : M.costs.total (needs M l c ++ [g.2]) ≤ M.sdram c := Nat.le_trans (M.costs.mono _ _) e2
    have hcores := hH.cores
    rw [prepareLoop]
    cases hv : filterVertices M st.store g.1 with
    | error e => rw [filter_error hv]; exact (by decide : PyErr.notImplemented ≠ .place)
    | ok ws =>
      cases ws with
      | nil => exact ih hcur hB hc ⟨hH.open_, by omega, e3⟩
      | cons w ws =>
        have hlen := filter_length hv
        have hsm : ¬ Small M l (w :: ws).length g.2 c := by
          unfold Small
          omega
        have hB1 : Book M { st with same := [], other := [] } l := ⟨hB.inv, hB.nodup, hB.sub, hB.all, hB.full⟩
        have hl := hB.left
        have hS := startLoop_spec (n := (w :: ws).length) (sdram := g.2) (fuel := fuel) hB1 rfl rfl
          (by simp only [List.length_append]; omega)
        simp only
        unfold nextChip
        rw [hcur]
        simp only
        unfold nextStart
        cases hs : startLoop M (w :: ws).length g.2 fuel { st with same := [], other := [] } with
        | error e =>
          rw [hs] at hS
          simp only at hS ⊢
          intro he
          exact (hS.2.2 he c hc).elim hH.open_ hsm
        | ok r =>
          obtain ⟨d, st1⟩ := r
          rw [hs] at hS
          simp only at hS ⊢
          cases ht : takeCores d g.1 st1.free with
          | error e => rw [takeCores_error ht]; exact (by decide : PyErr.indexError ≠ .place)
          | ok r =>
            obtain ⟨rest, as⟩ := r
            simp only
            rcases hS.kept c hc hH.open_ hsm with rfl | h1
            · obtain ⟨t1, -, t2⟩ := takeCores_ok ht
              have h3 : st1.free.length = g.1.length + rest.length := by
                rw [t2, List.length_append, ← t1, List.length_map, List.length_map]
              have h4 := hS.room.all
              have h5 := hS.room.used
              exact prepareLoop_stay gs hS.room.cur (by simp only; omega) (by simp only [h5]; exact e2)
            · exact prepareLoop_pool gs (by simp only [hS.room.cur]; simp) h1

theorem attempts_fits {M : Machine} {l : List Placement} {fuel : Nat} (hG : Grid M) (hf : M.chips.length < fuel)
    {gs : List (List Nat × Nat)} {c : XY} (hH : Holds M l gs c) {k : Nat} {st : State} (hB : Book M st l)
    (hc : c ∈ st.restored ++ st.chips) : attempts M fuel gs k st ≠ .error .place := by
  induction k generalizing st with
  | zero => intro h; cases h
  | succ k ih =>
    rw [attempts]
    have hP : Prep M False l [] { st with prepared := [], cur := none } :=
      .inl ⟨rfl, rfl, ⟨hB.inv, hB.nodup, hB.sub, hB.all, hB.full⟩⟩
    have hS := prepareLoop_spec (gs := gs) hG hf (fun k => k.elim) hP
    have hO := prepareLoop_start hf gs (st := { st with prepared := [], cur := none }) (acc := []) (c := c) rfl
      ⟨hB.inv, hB.nodup, hB.sub, hB.all, hB.full⟩ hc hH
    unfold prepare
    cases hp : prepareLoop M fuel gs { st with prepared := [], cur := none } [] with
    | error e =>
      rw [hp] at hO
      simp only
      intro h
      cases h
      exact hO rfl
    | ok r =>
      obtain ⟨oa, st'⟩ := r
      rw [hp] at hS hO
      cases oa with
      | some as => simp
      | none => exact ih hS.1 hO

/-- A vertex all of whose groups fit on one chip does not run out of chips. -/
theorem placeVertex_fits {M : Machine} {l : List Placement} {fuel : Nat} (hG : Grid M) (hf : M.chips.length < fuel)
    {v : AppV} {st : State} (hB : Book M st l) {c : XY} (hc : M.has c = true) (hH : Holds M l v.groups c) :
    placeVertex M fuel v st ≠ .error .place := by
  intro h
  unfold placeVertex at h
  split at h
  · cases h
  · have hB1 : Book M { st with restored := st.restored ++ st.tried, tried := [] } l := by
      refine ⟨hB.inv, ?_, ?_, ?_, hB.full⟩
      · simp only [List.nil_append]
        refine (List.Perm.nodup_iff ?_).1 hB.nodup
        rw [← List.append_assoc]
        exact List.Perm.append_right _ List.perm_append_comm
      · intro c hc
        refine hB.sub c ?_
        simp only [List.nil_append, List.mem_append] at hc ⊢
        rcases hc with (h | h) | h
        · exact .inr (.inl h)
        · exact .inl h
        · exact .inr (.inr h)
      · intro c hc
        refine (hB.all c hc).imp ?_ id
        intro hc
        simp only [List.nil_append, List.mem_append] at hc ⊢
        rcases hc with h | h | h
        · exact .inl (.inr h)
        · exact .inl (.inl h)
        · exact .inr h
    have hpool : c ∈ (st.restored ++ st.tried) ++ st.chips := by
      rcases hB1.all c (mem_chips.2 ⟨(hG c hc).1, (hG c hc).2, hc⟩) with h1 | h1
      · simpa using h1
      · exact absurd (hB.full c h1) hH.open_
    have h1 := attempts_fits (k := fuel) hG hf hH hB1 hpool
    split at h
    · rename_i e ha
      cases h
      exact h1 ha
    · split at h
      · rename_i hr
        cases h
        have := addAll_error (s := _) (as := _) (e := .place) (congrArg Prod.snd hr)
        exact absurd this (by decide)
      · cases h

end Pacman.Placer
