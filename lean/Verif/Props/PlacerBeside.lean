import Verif.Proofs.PlacerBeside
/-
C131: vertices are placed beside monitors, and beside vertices with fixed locations.
-/

namespace Pacman.Placer

open Plc (Placement Store Inv)

/-- Beside what is already there each chip has the cores and the SDRAM that the placer counts on: the fields `__max_cores` and
`__max_sdram`. -/
structure Counted (M : Machine) (l : List Placement) : Prop where
  some_ : 1 ≤ M.maxCores
  cores : ∀ c, M.has c = true → (freeOn M l c : Int) = M.maxCores
  sdram : ∀ c, M.has c = true → (load M l c : Int) + M.maxSdram ≤ M.sdram c

/-- C131 in full: beside monitors, a machine vertex that needs no more SDRAM than they leave is placed. -/
def C131_full : Prop :=
  ∀ (M : Machine) (fuel : Nat) (os : List Plc.Op) (m x : Nat), M.costs = Costs.bytes → Order M → Grid M → M.chips.length < fuel →
    Sane M (Plc.placements (given os)) → Counted M (Plc.placements (given os)) → M.chips ≠ [] → M.virtual m = false →
    m ∉ (Plc.placements (given os)).map (·.vertex) → M.need m ≤ x → (x : Int) ≤ M.maxSdram →
    ∃ s, place M fuel [⟨[([m], x)], false⟩] (given os) = .ok s

/-- A chip that is taken to be full is not chosen. -/
theorem spaceOn_heavy {M : Machine} {l : List Placement} {c : XY} {n sdram : Nat} {st : State} (hI : Inv st.store l)
    (hc : (load M l c : Int) > M.cap) : (∃ e, spaceOn M c n sdram st = .error e) ∨
      ∃ st', spaceOn M c n sdram st = .ok (st', false) ∧ Inv st'.store l ∧ st'.restored = st.restored ∧ st'.chips = st.chips := by
  have hc' : (M.costs.total (usedBy M (at_ l c)) : Int) > M.cap := hc
  have h2 := onChip_inv hI c
  unfold spaceOn
  simp only
  rw [onChip_eq hI]
  split
  · exact .inr ⟨_, rfl, h2, rfl, rfl⟩
  · split
    · exact .inl ⟨_, rfl⟩
    · exact .inr ⟨_, rfl, h2, rfl, rfl⟩

theorem startLoop_heavy {M : Machine} {l : List Placement} {n sdram : Nat} : ∀ (fuel : Nat) (st : State), Inv st.store l →
    (∀ c ∈ st.restored ++ st.chips, (load M l c : Int) > M.cap) → ∃ e, startLoop M n sdram fuel st = .error e := by
  intro fuel
  induction fuel with
  | zero => intro st _ _; exact ⟨_, rfl⟩
  | succ fuel ih =>
    intro st hI h
    rw [startLoop]
    have hP := popStart_spec (st := st)
    cases hp : popStart st with
    | error e => exact ⟨e, rfl⟩
    | ok r =>
      obtain ⟨c, st1⟩ := r
      rw [hp] at hP
      obtain ⟨d, re, ch, rfl, he, hd⟩ := hP
      simp only
      rw [he] at h
      rcases spaceOn_heavy (n := n) (sdram := sdram)
          (st := { st with restored := re, chips := ch, tried := st.tried ++ [c], eth := some (M.board c) }) hI
          (h c (by simp)) with ⟨e, h1⟩ | ⟨st', h1, h2, h3, h4⟩
      · rw [h1]
        exact ⟨e, rfl⟩
      · rw [h1]
        refine ih st' h2 fun x hx => h x ?_
        rw [h3, h4] at hx
        exact List.mem_append_right _ (List.mem_cons_of_mem _ hx)

/-- Why C131 fails: the placer takes the SDRAM of the monitors off what it counts on, and then counts it as used. If they need more than
the cap on each chip, then no vertex is placed, however little it needs. -/
theorem C131_counted_twice {M : Machine} {fuel : Nat} (os : List Plc.Op)
    (hcap : ∀ c ∈ M.chips, (load M (Plc.placements (given os)) c : Int) > M.maxSdram - Int.fdiv M.maxSdram M.maxCores)
    {v : AppV} {vs : List AppV} (hvf : ∀ w ∈ v :: vs, w.isFixed = false) {u : Nat} {us : List Nat} {x : Nat}
    {gs : List (List Nat × Nat)} (hg : v.groups = (u :: us, x) :: gs)
    (hu : ∀ w ∈ u :: us, M.virtual w = false ∧ w ∉ (Plc.placements (given os)).map (·.vertex)) (s : Store) :
    place M fuel (v :: vs) (given os) ≠ .ok s := by
  intro h
  have hI := given_inv os
  unfold place at h
  cases h0 : initial M (given os) with
  | error e => rw [h0] at h; cases h
  | ok st =>
    rw [h0] at h
    simp only at h
    rw [initial_store h0] at h
    have hfix : ∀ (ws : List AppV) (s : Store), (∀ w ∈ ws, w.isFixed = false) → fixedAll M ws s = .ok s := by
      intro ws
      induction ws with
      | nil => intro s _; rfl
      | cons w ws ih =>
        intro s hw
        rw [fixedAll, if_neg (by rw [hw w List.mem_cons_self]; simp)]
        exact ih s (fun w' hw' => hw w' (List.mem_cons_of_mem _ hw'))
    rw [hfix _ _ hvf] at h
    simp only at h
    have hB := book_initial h0 hI
    rw [placeAll] at h
    have hfail : ∃ e, placeVertex M fuel v { st with store := given os } = .error e := by
      unfold placeVertex
      rw [if_neg (by rw [hg]; simp)]
      cases fuel with
      | zero => exact ⟨_, rfl⟩
      | succ f =>
        rw [attempts]
        unfold prepare
        rw [hg, prepareLoop]
        obtain ⟨ws, hw⟩ := filter_total (M := M) hI (vs := u :: us) (.inr fun w hw => (hu w hw).2)
        have hmem := (filter_ok hI hw).1
        show ∃ e, (match (match (match filterVertices M (given os) (u :: us) with
          | .error err => .error err
          | .ok [] => _
          | .ok (w :: ws') => _ : Except PyErr (Option (List Placement) × State)) with
          | .error err => .error err
          | .ok (some as, st) => .ok (as, st)
          | .ok (none, st) => _ : Except PyErr (List Placement × State)) with
          | .error err => .error err
          | .ok (as, st) => _ : Except PyErr State) = .error e
        rw [hw]
        cases ws with
        | nil => exact absurd ((hmem u).2 ⟨by simp, (hu u (by simp)).2, (hu u (by simp)).1⟩) (by simp)
        | cons w ws =>
          simp only
          unfold nextChip
          simp only
          unfold nextStart
          obtain ⟨e, he⟩ := startLoop_heavy (M := M) (n := (w :: ws).length) (sdram := x) (f + 1)
            { st with store := given os, restored := st.restored ++ st.tried, tried := [], prepared := [], cur := none, same := [], other := [] } hI (by
              intro c hc
              refine hcap c (hB.sub c ?_)
              simp only [List.mem_append] at hc ⊢
              rcases hc with (hc | hc) | hc
              · exact .inr (.inl hc)
              · exact .inl hc
              · exact .inr (.inr hc))
          rw [he]
          exact ⟨e, rfl⟩
    obtain ⟨e, he⟩ := hfail
    rw [he] at h
    cases h

/-- Two chips, with a monitor on core 1 of each that needs `m` of the 100 bytes; the placer counts on the other three cores, and on the
other bytes. -/
def monM (m : Nat) : Machine :=
  { demo with maxSdram := 100 - m, maxCores := 3, need := fun v => if v = 100 ∨ v = 101 then m else 10 }

def monOs : List Plc.Op := [.add ⟨100, 0, 0, 1⟩, .add ⟨101, 1, 0, 1⟩]

theorem mon_order (m : Nat) : Order (monM m) := demo_order

theorem mon_grid (m : Nat) : Grid (monM m) := demo_grid

theorem mon_chips (m : Nat) : (monM m).chips = [(0, 0), (1, 0)] := by
  show demo.chips = _
  decide +kernel

theorem mon_sane (m : Nat) (l : List Placement) (h : ∀ a ∈ l, a.p ∈ [1, 2, 3, 4]) : Sane (monM m) l :=
  ⟨(demo_sane l h).links, (demo_sane l h).cores, (demo_sane l h).offered⟩

theorem mon_each {m : Nat} {P : XY → Prop} (h0 : P (0, 0)) (h1 : P (1, 0)) : ∀ c, (monM m).has c = true → P c := by
  intro c hc
  have hc : c = (0, 0) ∨ c = (1, 0) := by simpa [monM, demo] using hc
  rcases hc with rfl | rfl
  · exact h0
  · exact h1

/-- C131 fails: monitors that need 60 of the 100 bytes leave 40, and nothing is placed there. -/
theorem C131_false : ¬ C131_full := by
  intro h
  obtain ⟨s, hs⟩ := h (monM 60) 3 monOs 1 10 rfl (mon_order _) (mon_grid _) (by rw [mon_chips]; decide)
    (mon_sane _ _ (by decide +kernel)) ⟨by decide, mon_each (by decide +kernel) (by decide +kernel),
      mon_each (by decide +kernel) (by decide +kernel)⟩ (by rw [mon_chips]; simp) (by decide) (by decide +kernel) (by decide) (by decide)
  exact C131_counted_twice monOs (by rw [mon_chips]; decide +kernel) (by simp) rfl (by decide +kernel) s hs

/-- Vertices that need no cores can be left out. -/
theorem allFind_skip {M : Machine} {k : Nat} {n : AppV → Nat} : ∀ {vs : List AppV} {t : Nat},
    AllFind M k t ((vs.filter (fun v => !v.isFixed)).map n) → AllFind M k t (vs.map (fun v => if v.isFixed then 0 else n v)) := by
  intro vs
  induction vs with
  | nil => intro t _; exact trivial
  | cons v vs ih =>
    intro t h
    rw [List.map_cons]
    cases hv : v.isFixed with
    | true =>
      rw [List.filter_cons_of_neg (by simp [hv])] at h
      exact ⟨fun u _ => ⟨(0, 0), [], List.nodup_nil, (by simp), by simp⟩, ih h⟩
    | false =>
      rw [List.filter_cons_of_pos (by simp [hv])] at h
      exact ⟨h.1, ih h.2⟩

/-- C131, what holds: if the vertices with a fixed location are placed beside the monitors, then all vertices are, if those without fixed
location have machine vertices of at most `b` bytes, what is already there leaves SDRAM for that on each chip and below the cap, and
each finds as many free cores on chips that are linked however those before it lie.
Missing: machine vertices for which SDRAM is the limit (`C131_false`); vertices for which it depends on where those before lie. -/
theorem C131_beside_partial {M : Machine} {fuel k b : Nat} (hb : M.costs = Costs.bytes) (hO : Order M) (hG : Grid M)
    (hf : M.chips.length < fuel) (os : List Plc.Op) (hS : Sane M (Plc.placements (given os))) (vs : List AppV)
    (hn : (allVerts vs).Nodup) (hmc : 1 ≤ M.maxCores) (hms : (b : Int) ≤ M.maxSdram)
    (hfix : ∀ v ∈ vs, v.isFixed = true → ∀ u ∈ v.groups.flatMap (·.1), M.virtual u = false)
    (hfree : ∀ v ∈ vs, v.isFixed = false → (∀ g ∈ v.groups, ∃ m, g.1 = [m] ∧ M.virtual m = true) ∨
      ∀ g ∈ v.groups, ∃ m, g.1 = [m] ∧ M.virtual m = false ∧ M.need m ≤ g.2 ∧ g.2 ≤ b ∧
        m ∉ (Plc.placements (given os)).map (·.vertex))
    {s1 : Store} (h1 : place M fuel (vs.filter (·.isFixed)) (given os) = .ok s1) (hL : Leaves M k b (Plc.placements s1))
    (hroom : AllFind M k (taken M k (Plc.placements s1)) ((vs.filter (fun v => !v.isFixed)).map (onCores M))) :
    ∃ s, place M fuel vs (given os) = .ok s := by
  have hI := given_inv os
  unfold place at h1 ⊢
  cases h0 : initial M (given os) with
  | error e => rw [h0] at h1; cases h1
  | ok st =>
    rw [h0] at h1
    simp only at h1 ⊢
    rw [initial_store h0] at h1 ⊢
    rw [fixedAll_filter] at h1
    have hF := fixedAll_spec hO (vs := vs) hI
    cases h2 : fixedAll M vs (given os) with
    | error e => rw [h2] at h1; cases h1
    | ok s2 =>
      rw [h2] at hF h1
      obtain ⟨fs, hI2, hN⟩ := hF
      simp only at h1 ⊢
      have hB := book_initial h0 hI2
      have hidle : ∀ v ∈ vs, v.isFixed = true → Idle M (Plc.placements (given os) ++ fs) v := by
        intro v hv hvf g hg
        refine .inr fun u hu => ?_
        obtain ⟨-, c, -, h3⟩ := hN.group v hv hvf g hg
        obtain ⟨a, ha, hau, -⟩ := h3 u hu (hfix v hv hvf u (List.mem_flatMap.2 ⟨g, hg, hu⟩))
        rw [List.map_append]
        exact List.mem_append_right _ (List.mem_map.2 ⟨a, ha, hau⟩)
      obtain ⟨st', h3, h4⟩ := placeAll_idle hG hf (vs.filter (·.isFixed)) (vs := vs.filter (·.isFixed)) hB (by
        intro v hv
        obtain ⟨h3, h4⟩ := List.mem_filter.1 hv
        exact hidle v h3 h4)
      rw [h3] at h1
      injection h1 with h1
      have hs1 : Plc.placements s1 = Plc.placements (given os) ++ fs := by
        rw [← h1, h4]
        exact placements_eq hI2
      rw [hs1] at hL hroom
      obtain ⟨st2, h5⟩ := settle_all hb hG hf hmc hms vs (fun v => if v.isFixed then 0 else onCores M v) vs _ _ _ hB
        ⟨hS.links, hS.cores, by
          intro a ha
          rcases List.mem_append.1 ha with ha | ha
          · exact hS.offered a ha
          · exact (hN.offered a ha).2⟩ hL (Nat.le_refl _) (by
          intro v hv
          cases hvf : v.isFixed with
          | true => exact .inl (hidle v hv hvf)
          | false =>
            rcases hfree v hv hvf with h6 | h6
            · exact .inl fun g hg => .inl (h6 g hg)
            · refine .inr ⟨fun g hg => ?_, ?_⟩
              · obtain ⟨m, k1, k2, k3, k4, k5⟩ := h6 g hg
                refine ⟨m, k1, k2, k3, k4, ?_⟩
                rw [List.map_append, List.mem_append]
                rintro (k6 | k6)
                · exact k5 k6
                · obtain ⟨a, ha, hav⟩ := List.mem_map.1 k6
                  obtain ⟨⟨w, hw, hwf, k7⟩, -⟩ := hN.verts a ha
                  have := app_unique hn hv hw (List.mem_flatMap.2 ⟨g, hg, by rw [k1]; simp⟩) (hav ▸ k7)
                  rw [← this, hvf] at hwf
                  cases hwf
              · have h7 : Little M b [] v := fun g hg => by
                  obtain ⟨m, k1, k2, k3, k4, k5⟩ := h6 g hg
                  exact ⟨m, k1, k2, k3, k4, by simp⟩
                rw [if_neg (by simp), ← h7.length]
                unfold onCores
                rw [List.filter_eq_self.2]
                · exact Nat.le_refl _
                · intro u hu
                  obtain ⟨g, hg, hug⟩ := List.mem_flatMap.1 hu
                  obtain ⟨m, k1, k2, -⟩ := h6 g hg
                  rw [k1, List.mem_singleton] at hug
                  rw [hug, k2]; rfl) hn (allFind_skip hroom)
      rw [h5]
      exact ⟨_, rfl⟩

/-- Four application vertices: vertex 8 is fixed to a core, vertex 7 is virtual, and there is one with four machine vertices. -/
def monVs : List AppV :=
  [⟨[([1], 17), ([2], 17), ([3], 17), ([4], 17)], false⟩, ⟨[([8], 10)], true⟩, ⟨[([7], 0)], false⟩, ⟨[([5], 10)], false⟩]

def monFixed : Store := (place (monM 20) 3 [⟨[([8], 10)], true⟩] (given monOs)).toOption.getD Plc.Store.empty

theorem mon_fixed : place (monM 20) 3 [⟨[([8], 10)], true⟩] (given monOs) = .ok monFixed ∧
    Plc.placements monFixed = [⟨100, 0, 0, 1⟩, ⟨101, 1, 0, 1⟩, ⟨8, 1, 0, 2⟩] := by decide +kernel

example : ∃ s, place (monM 20) 3 monVs (given monOs) = .ok s :=
  C131_beside_partial (k := 3) (b := 17) rfl (mon_order _) (mon_grid _) (by rw [mon_chips]; decide) monOs
    (mon_sane _ _ (by decide +kernel)) monVs (by decide) (by decide) (by decide) (by decide +kernel)
    (by
      intro v hv hvf
      have hv' : v = ⟨[([1], 17), ([2], 17), ([3], 17), ([4], 17)], false⟩ ∨ v = ⟨[([8], 10)], true⟩ ∨ v = ⟨[([7], 0)], false⟩ ∨
          v = ⟨[([5], 10)], false⟩ := by simpa [monVs] using hv
      rcases hv' with rfl | rfl | rfl | rfl
      · refine .inr fun g hg => ?_
        have hg' : g = ([1], 17) ∨ g = ([2], 17) ∨ g = ([3], 17) ∨ g = ([4], 17) := by simpa using hg
        rcases hg' with rfl | rfl | rfl | rfl <;> exact ⟨_, rfl, by decide +kernel⟩
      · cases hvf
      · refine .inl fun g hg => ?_
        have hg' : g = ([7], 0) := by simpa using hg
        subst hg'
        exact ⟨_, rfl, by decide +kernel⟩
      · refine .inr fun g hg => ?_
        have hg' : g = ([5], 10) := by simpa using hg
        subst hg'
        exact ⟨_, rfl, by decide +kernel⟩)
    (show place (monM 20) 3 [⟨[([8], 10)], true⟩] (given monOs) = .ok monFixed from mon_fixed.1)
    (by
      rw [mon_fixed.2]
      exact ⟨mon_each (by decide +kernel) (by decide +kernel), fun c hc => mon_each (P := fun c => ((load (monM 20) _ c +
        (freeOn (monM 20) _ c - 1) * 17 : Nat) : Int) ≤ _) (by decide +kernel) (by decide +kernel) c hc.1,
        fun c hc => mon_each (P := fun c => load (monM 20) _ c + freeOn (monM 20) _ c * 17 ≤ _) (by decide +kernel) (by decide +kernel) c hc.1⟩)
    (by
      rw [mon_fixed.2]
      have h1 : taken (monM 20) 3 [⟨100, 0, 0, 1⟩, ⟨101, 1, 0, 1⟩, ⟨8, 1, 0, 2⟩] = 1 := by decide +kernel
      have h2 : (monVs.filter (fun v => !v.isFixed)).map (onCores (monM 20)) = [4, 0, 1] := by decide +kernel
      rw [h1, h2]
      refine ⟨finds_connected (s := (0, 0)) ?_ (mon_grid _) (by decide) (by rw [mon_chips]; decide),
        finds_chip (by decide) (by rw [mon_chips]; decide), finds_chip (by decide) (by rw [mon_chips]; decide), trivial⟩
      rw [mon_chips]
      have h0 : Way (monM 20) (fun d => (monM 20).has d = true) (0, 0) (0, 0) := .here rfl
      intro c hc
      have hc' : c = (0, 0) ∨ c = (1, 0) := by simpa using hc
      rcases hc' with rfl | rfl
      · exact h0
      · exact .step h0 (by decide) rfl)

end Pacman.Placer
