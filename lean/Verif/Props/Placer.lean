import Verif.Proofs.PlacerMore
/-
C31 to C35 and C80 to C82: the placer. `Plc.run Plc.Store.empty os` are the system placements, however they
came about, `Plc.placements` lists the placements of a store.
-/

namespace Pacman.Placer

open Plc (Placement Store Inv)

/-- The system placements. -/
abbrev given (os : List Plc.Op) : Store := Plc.run Store.empty os

theorem given_inv (os : List Plc.Op) : Inv (given os) (Plc.placements (given os)) := by
  have h := Plc.run_inv Plc.inv_empty os
  rw [List.nil_append] at h
  rw [(Plc.C30_bijection os).2.2.1]
  exact h

theorem placements_eq {s : Store} {l : List Placement} (h : Inv s l) : Plc.placements s = l := by
  unfold Plc.placements
  rw [h.vertex, List.map_map]
  exact List.map_id _

/-- The vertices in the groups of all application vertices. -/
def allVerts (vs : List AppV) : List Nat := vs.flatMap (fun v => v.groups.flatMap (·.1))

theorem allVerts_eq (vs : List AppV) : allVerts vs = vs.flatMap AppV.verts := rfl

theorem app_unique {vs : List AppV} (hn : (vs.flatMap AppV.verts).Nodup) {v w : AppV} (hv : v ∈ vs) (hw : w ∈ vs)
    {u : Nat} (huv : u ∈ v.verts) (huw : u ∈ w.verts) : v = w := by
  induction vs with
  | nil => cases hv
  | cons x vs ih =>
    rw [List.flatMap_cons] at hn
    have hn' := List.nodup_append.1 hn
    rcases List.mem_cons.1 hv with h1 | h1 <;> rcases List.mem_cons.1 hw with h2 | h2
    · rw [h1, h2]
    · exact absurd rfl (hn'.2.2 u (h1 ▸ huv) u (List.mem_flatMap.2 ⟨w, h2, huw⟩))
    · exact absurd rfl (hn'.2.2 u (h2 ▸ huw) u (List.mem_flatMap.2 ⟨v, h1, huv⟩))
    · exact ih hn'.2.1 h1 h2

/-! ### Examples -/

/-- Two linked chips on one board with four cores each. Vertex 7 is virtual, vertices 8 and 9 are fixed to cores
2 and 1 of the second chip, vertex 6 to the first chip. -/
def demo : Machine where
  width := 2
  height := 1
  has := fun c => decide (c = (0, 0) ∨ c = (1, 0))
  cores := fun _ => [1, 2, 3, 4]
  sdram := fun _ => 100
  board := fun _ => (0, 0)
  links := fun c => if c = (0, 0) then [(1, 0)] else [(0, 0)]
  maxSdram := 100
  maxCores := 4
  virtual := fun v => decide (v = 7)
  need := fun v => if v = 6 then 200 else if v = 7 then 0 else 10
  fixed := fun v => if v = 8 then some ((1, 0), some 2) else if v = 9 then some ((1, 0), some 1)
    else if v = 6 then some ((0, 0), none) else none
  iter := id

theorem demo_order : Order demo := fun l => List.Perm.refl l

theorem demo_grid : Grid demo := by
  intro c hc
  have hc : c = (0, 0) ∨ c = (1, 0) := by simpa [demo] using hc
  rcases hc with rfl | rfl <;> decide

theorem demo_sane (l : List Placement) (h : ∀ a ∈ l, a.p ∈ [1, 2, 3, 4]) : Sane demo l := by
  refine ⟨?_, fun _ => (show [1, 2, 3, 4].Nodup by decide), h⟩
  intro c hc d hd
  have hc : c = (0, 0) ∨ c = (1, 0) := by simpa [demo] using hc
  rcases hc with rfl | rfl
  · have : d = (1, 0) := by simpa [demo] using hd
    subst this
    rfl
  · have : d = (0, 0) := by simpa [demo] using hd
    subst this
    rfl

/-- Two application vertices: one with two groups, one of which holds the virtual vertex, and one with a group
of two. -/
def demoVs : List AppV :=
  [⟨[([1, 2], 20), ([7], 0), ([3, 4], 30)], false⟩, ⟨[([5], 10)], false⟩, ⟨[([8], 10)], true⟩]

/-- A monitor on a core of the first chip. -/
def demoOs : List Plc.Op := [.add ⟨100, 0, 0, 1⟩]

/-- What the placer makes of it. -/
def demoPlaced : List Placement :=
  [⟨100, 0, 0, 1⟩, ⟨8, 1, 0, 2⟩, ⟨1, 0, 0, 2⟩, ⟨2, 0, 0, 3⟩, ⟨3, 1, 0, 1⟩, ⟨4, 1, 0, 3⟩, ⟨5, 0, 0, 4⟩]

/-- The placements of a result. -/
def listed (r : Except PyErr Store) : Option (List Placement) :=
  match r with
  | .ok s => some (Plc.placements s)
  | .error _ => none

theorem demo_placed : listed (place demo 3 demoVs (given demoOs)) = some demoPlaced := by decide +kernel

theorem demo_ok : ∃ s', place demo 3 demoVs (given demoOs) = .ok s' := by
  have := demo_placed
  unfold listed at this
  split at this
  · rename_i s' hs
    exact ⟨s', hs⟩
  · cases this

/-! ### C31 -/

/-- C31: whenever the placer succeeds, no core holds two vertices and no vertex is on two cores, the system
placements are kept, every other placement is for a vertex of the graph and is on a core that an existing chip
offers, and every vertex that is not virtual has a placement. -/
theorem C31_unique {M : Machine} {fuel : Nat} (hO : Order M) (hG : Grid M) (hf : M.chips.length < fuel)
    (os : List Plc.Op) (vs : List AppV) {s' : Store} (h : place M fuel vs (given os) = .ok s') :
    ((Plc.placements s').map (fun a => (a.x, a.y, a.p))).Nodup ∧
    ((Plc.placements s').map (fun a => a.vertex)).Nodup ∧
    (∃ new, Plc.placements s' = Plc.placements (given os) ++ new ∧
      ∀ a ∈ new, a.vertex ∈ allVerts vs ∧ M.has (a.x, a.y) = true ∧ a.p ∈ M.cores (a.x, a.y)) ∧
    (∀ u ∈ allVerts vs, M.virtual u = false → ∃ a, Plc.getOfVertex s' u = .ok a) := by
  obtain ⟨fs, l', hN, hI, hC⟩ := place_ok False hO hG hf (fun k => k.elim) (given_inv os) h
  rw [placements_eq hI]
  refine ⟨hI.locs, hI.verts, ?_, ?_⟩
  · obtain ⟨as, h1, h2, h3⟩ := hC.prefix
    refine ⟨fs ++ as, by rw [h1, List.append_assoc], ?_⟩
    intro a ha
    rcases List.mem_append.1 ha with ha | ha
    · obtain ⟨⟨v, hv, _, hm⟩, _⟩ := hN.verts a ha
      exact ⟨List.mem_flatMap.2 ⟨v, hv, hm⟩, hN.offered a ha⟩
    · obtain ⟨v, hv, hm⟩ := h3 a ha
      exact ⟨List.mem_flatMap.2 ⟨v, hv, hm⟩, h2 a ha⟩
  · intro u hu hv
    obtain ⟨v, hv', hm⟩ := List.mem_flatMap.1 hu
    obtain ⟨g, hg, hug⟩ := List.mem_flatMap.1 hm
    have hp := hC.placed v hv' g hg u hug hv
    have := (hI.placed_iff u).2 (by
      obtain ⟨a, ha, hau⟩ := List.mem_map.1 hp
      exact ⟨a, ha, hau⟩)
    unfold Plc.isPlaced at this
    unfold Plc.getOfVertex
    cases hq : s'.byVertex.get? u with
    | none => rw [hq] at this; cases this
    | some a => exact ⟨a, rfl⟩

example : ∃ s', Order demo ∧ Grid demo ∧ demo.chips.length < 3 ∧ place demo 3 demoVs (given demoOs) = .ok s' := by
  obtain ⟨s', h⟩ := demo_ok
  exact ⟨s', demo_order, demo_grid, by decide +kernel, h⟩

/-! ### C32 -/

/-- C32 in full: after the placer, on each chip the vertices need at most the SDRAM of the chip. -/
def C32_full : Prop :=
  ∀ (M : Machine) (fuel : Nat) (vs : List AppV) (s' : Store), Order M → Grid M → M.chips.length < fuel →
    (∀ v ∈ vs, Covered M v.groups) → place M fuel vs (given []) = .ok s' →
    ∀ c, M.has c = true → load M (Plc.placements s') c ≤ M.sdram c

/-- C32 fails: the SDRAM is not looked at when a vertex is put at a fixed location. -/
theorem C32_false : ¬ C32_full := by
  intro h
  have hp : listed (place demo 3 [⟨[([6], 200)], true⟩] (given [])) = some [⟨6, 0, 0, 1⟩] := by decide +kernel
  unfold listed at hp
  split at hp
  · rename_i s' hs
    have h1 := h demo 3 [⟨[([6], 200)], true⟩] s' demo_order demo_grid (by decide +kernel) (by
      intro v hv g hg
      simp only [List.mem_singleton] at hv
      subst hv
      simp only [List.mem_singleton] at hg
      subst hg
      exact Costs.bytes_le.2 (by decide)) hs (0, 0) (by decide)
    rw [Option.some.inj hp] at h1
    exact absurd h1 (by decide +kernel)
  · cases hp

/-- C32, what holds: if the groups ask for the SDRAM of their vertices, then each chip on which the placer was free
to put a vertex (one that has no placement before and is in no application vertex with a fixed location) holds no
more than its SDRAM, counting all placements. Missing: chips that only hold vertices with a fixed location. -/
theorem C32_free_partial {M : Machine} {fuel : Nat} (hO : Order M) (hG : Grid M) (hf : M.chips.length < fuel)
    (os : List Plc.Op) (vs : List AppV) (hK : ∀ v ∈ vs, Covered M v.groups) {s' : Store}
    (h : place M fuel vs (given os) = .ok s') {a : Placement} (ha : a ∈ Plc.placements s')
    (hnew : a.vertex ∉ (Plc.placements (given os)).map (·.vertex))
    (hfree : ∀ v ∈ vs, v.isFixed = true → ∀ g ∈ v.groups, a.vertex ∉ g.1) :
    load M (Plc.placements s') (a.x, a.y) ≤ M.sdram (a.x, a.y) := by
  obtain ⟨fs, l', hN, hI, hC⟩ := place_ok True hO hG hf (fun _ => hK) (given_inv os) h
  rw [placements_eq hI] at ha ⊢
  rcases hC.loads trivial (a.x, a.y) with h1 | ⟨bs, h1, h2⟩
  · exact h1
  · exfalso
    rw [h1] at ha
    rcases List.mem_append.1 ha with ha | ha
    · rcases List.mem_append.1 ha with ha | ha
      · exact hnew (List.mem_map.2 ⟨a, ha, rfl⟩)
      · obtain ⟨⟨v, hv, hvf, hm⟩, _⟩ := hN.verts a ha
        obtain ⟨g, hg, hag⟩ := List.mem_flatMap.1 hm
        exact hfree v hv hvf g hg hag
    · exact h2 a ha rfl

/-- C32 without fixed locations: if the system placements keep to the SDRAM of each chip, so do all placements. -/
theorem C32_no_fixed_partial {M : Machine} {fuel : Nat} (hO : Order M) (hG : Grid M) (hf : M.chips.length < fuel)
    (os : List Plc.Op) (vs : List AppV) (hK : ∀ v ∈ vs, Covered M v.groups) (hfree : ∀ v ∈ vs, v.isFixed = false)
    (hsys : ∀ c, load M (Plc.placements (given os)) c ≤ M.sdram c) {s' : Store}
    (h : place M fuel vs (given os) = .ok s') (c : XY) :
    load M (Plc.placements s') c ≤ M.sdram c := by
  obtain ⟨fs, l', hN, hI, hC⟩ := place_ok True hO hG hf (fun _ => hK) (given_inv os) h
  rw [placements_eq hI]
  have hfs : fs = [] := by
    cases fs with
    | nil => rfl
    | cons a fs =>
      obtain ⟨⟨v, hv, hvf, _⟩, _⟩ := hN.verts a (by simp)
      rw [hfree v hv] at hvf
      cases hvf
  subst hfs
  rw [List.append_nil] at hC
  rcases hC.loads trivial c with h1 | ⟨bs, h1, h2⟩
  · exact h1
  · rw [h1, load_other M _ h2]
    exact hsys c

theorem demo_covered : ∀ v ∈ demoVs, Covered demo v.groups := by
  have h : ∀ v ∈ demoVs, ∀ g ∈ v.groups, (g.1.map demo.need).sum ≤ [g.2].sum := by decide
  intro v hv g hg
  exact Costs.bytes_le.2 (h v hv g hg)

example : ∃ s', place demo 3 demoVs (given demoOs) = .ok s' ∧ (⟨3, 1, 0, 1⟩ : Placement) ∈ demoPlaced ∧
    (3 ∉ (Plc.placements (given demoOs)).map (·.vertex)) ∧
    (∀ v ∈ demoVs, v.isFixed = true → ∀ g ∈ v.groups, 3 ∉ g.1) ∧ load demo demoPlaced (1, 0) = 30 := by
  obtain ⟨s', h⟩ := demo_ok
  exact ⟨s', h, by decide, by decide +kernel, by decide, by decide +kernel⟩

/-! ### C33 -/

/-- C33: if no vertex is in two groups and none is placed before, then after the placer the vertices of each group
that are not virtual are all on one chip. -/
theorem C33_together {M : Machine} {fuel : Nat} (hO : Order M) (hG : Grid M) (hf : M.chips.length < fuel)
    (os : List Plc.Op) (vs : List AppV) (hn : (allVerts vs).Nodup)
    (hl : ∀ u ∈ allVerts vs, u ∉ (Plc.placements (given os)).map (·.vertex)) {s' : Store}
    (h : place M fuel vs (given os) = .ok s') :
    ∀ v ∈ vs, ∀ g ∈ v.groups, ∃ c, ∀ u ∈ g.1, M.virtual u = false → On (Plc.placements s') u c := by
  obtain ⟨fs, l', hN, hI, hC⟩ := place_ok False hO hG hf (fun k => k.elim) (given_inv os) h
  rw [placements_eq hI]
  intro v hv g hg
  cases hvf : v.isFixed with
  | true =>
    obtain ⟨_, c, _, h2⟩ := hN.group v hv hvf g hg
    refine ⟨c, fun u hu hv' => ?_⟩
    obtain ⟨a, ha, hau, hac, _⟩ := h2 u hu hv'
    obtain ⟨bs, h3, _⟩ := hC.prefix
    exact ⟨a, by rw [h3]; simp [ha], hau, hac⟩
  | false =>
    have hfs : ∀ u ∈ v.verts, u ∉ ((Plc.placements (given os)) ++ fs).map (·.vertex) := by
      intro u hu hm
      rw [List.map_append, List.mem_append] at hm
      rcases hm with hm | hm
      · exact hl u (List.mem_flatMap.2 ⟨v, hv, hu⟩) hm
      · obtain ⟨a, ha, rfl⟩ := List.mem_map.1 hm
        obtain ⟨⟨w, hw, hwf, hm'⟩, _⟩ := hN.verts a ha
        have hvw : w = v := by
          rw [allVerts_eq] at hn
          exact app_unique hn hw hv hm' hu
        rw [hvw, hvf] at hwf
        cases hwf
    obtain ⟨l1, as, bs, h3, h4, h5, _⟩ := hC.made hn hv hfs
    rcases h4.settled g hg with h6 | ⟨c, h6⟩
    · refine ⟨(0, 0), fun u hu hv' => ?_⟩
      rcases h6 u hu with h7 | h7
      · exact absurd h7 (h5 u (List.mem_flatMap.2 ⟨g, hg, hu⟩))
      · rw [hv'] at h7
        cases h7
    · refine ⟨c, fun u hu _ => ?_⟩
      obtain ⟨_, a, ha, hau, hac⟩ := h6 u hu
      exact ⟨a, by rw [h3]; simp [ha], hau, hac⟩

/-- The hypothesis of C33 is needed: a group whose vertices are also in two other groups may be split. -/
theorem C33_shared : listed (place demo 3 [⟨[([1, 2, 3], 30), ([4, 5, 10], 30)], false⟩, ⟨[([1, 4], 20)], false⟩]
    (given [])) = some [⟨1, 0, 0, 1⟩, ⟨2, 0, 0, 2⟩, ⟨3, 0, 0, 3⟩, ⟨4, 1, 0, 1⟩, ⟨5, 1, 0, 2⟩, ⟨10, 1, 0, 3⟩] := by
  decide +kernel

example : (allVerts demoVs).Nodup ∧ (∀ u ∈ allVerts demoVs, u ∉ (Plc.placements (given demoOs)).map (·.vertex)) ∧
    ∃ s', place demo 3 demoVs (given demoOs) = .ok s' :=
  ⟨by decide, by decide +kernel, demo_ok⟩

/-! ### C34 -/

/-- C34, termination: the search for places always ends; no loop runs more often than there are chips. -/
theorem C34_ends {M : Machine} {fuel : Nat} (hO : Order M) (hG : Grid M) (hf : M.chips.length < fuel)
    (os : List Plc.Op) (vs : List AppV) : place M fuel vs (given os) ≠ .error .outOfFuel := by
  intro h
  unfold place at h
  cases h0 : initial M (given os) with
  | error e =>
    rw [h0] at h
    unfold initial at h0
    split at h0
    · cases h0
      cases h
    · cases h0
  | ok st =>
    rw [h0] at h
    simp only at h
    rw [initial_store h0] at h
    have h1 := fixedAll_spec hO (vs := vs) (given_inv os)
    cases h2 : fixedAll M vs (given os) with
    | error e =>
      rw [h2] at h h1
      cases h
      rcases h1 with h3 | h3 | h3
      · cases h3
      · cases h3
      · exact h3.1 rfl
    | ok s1 =>
      rw [h2] at h h1
      obtain ⟨fs, hI1, hN⟩ := h1
      simp only at h
      have h3 := placeAll_spec (K := False) (all := vs) (vs := vs) (fuel := fuel) hG hf (fun k => k.elim) (book_initial h0 hI1)
      cases h4 : placeAll M fuel vs vs { st with store := s1 } with
      | error e =>
        rw [h4] at h h3
        cases h
        rcases h3 with h5 | h5 | h5
        · cases h5
        · cases h5
        · exact h5.1 rfl
      | ok st' => rw [h4] at h; cases h

/-- C34, the outcome: on a machine whose links lead to chips and which offers each core once, for a graph in which no
vertex is in two groups or placed before, no group is empty and no group mixes virtual vertices with others, the
placer succeeds or raises PacmanPlaceException, PacmanTooBigToPlace or, if there are vertices with a fixed location,
PacmanConfigurationException or NotImplementedError. -/
theorem C34_outcome {M : Machine} {fuel : Nat} (hO : Order M) (hG : Grid M) (hf : M.chips.length < fuel)
    (hc : M.maxCores ≠ 0) (os : List Plc.Op) (hS : Sane M (Plc.placements (given os))) (vs : List AppV)
    (hn : (allVerts vs).Nodup) (hl : ∀ u ∈ allVerts vs, u ∉ (Plc.placements (given os)).map (·.vertex))
    (hg : ∀ v ∈ vs, ∀ g ∈ v.groups, g.1 ≠ [] ∧
      ((∀ u ∈ g.1, M.virtual u = true) ∨ (∀ u ∈ g.1, M.virtual u = false))) :
    (∃ s', place M fuel vs (given os) = .ok s') ∨ place M fuel vs (given os) = .error .place ∨
    place M fuel vs (given os) = .error .tooBig ∨
    ((∃ v ∈ vs, v.isFixed = true) ∧ (place M fuel vs (given os) = .error .configuration ∨
      place M fuel vs (given os) = .error .notImplemented)) := by
  have h0 : initial M (given os) = .ok ⟨given os, M.chips, [], [], [], [], none, [], [], none, [], []⟩ := by
    unfold initial
    rw [if_neg hc]
  unfold place
  rw [h0]
  simp only
  have h1 := fixedAll_spec hO (vs := vs) (given_inv os)
  cases h2 : fixedAll M vs (given os) with
  | error e =>
    rw [h2] at h1
    have hex : ∃ v ∈ vs, v.isFixed = true := by
      refine Classical.byContradiction (fun hno => ?_)
      have : ∀ s, fixedAll M vs s = .ok s := by
        intro s
        have hno' : ∀ v ∈ vs, v.isFixed = false := by
          intro v hv
          cases hvf : v.isFixed with
          | false => rfl
          | true => exact absurd ⟨v, hv, hvf⟩ hno
        clear h2 h1 hno hn hl hg
        induction vs with
        | nil => rfl
        | cons v vs ih =>
          rw [fixedAll, if_neg (by rw [hno' v (by simp)]; simp)]
          exact ih (fun w hw => hno' w (by simp [hw]))
      rw [this] at h2
      cases h2
    refine .inr (.inr (.inr ⟨hex, ?_⟩))
    simp only
    rcases h1 with h3 | h3 | h3
    · exact .inl (by rw [h3])
    · exact .inr (by rw [h3])
    · exact absurd ⟨hS.cores, hn, hl⟩ h3.2.2
  | ok s1 =>
    rw [h2] at h1
    obtain ⟨fs, hI1, hN⟩ := h1
    simp only
    have h3 := placeAll_spec (K := False) (all := vs) (vs := vs) (fuel := fuel) hG hf (fun k => k.elim)
      (book_initial h0 hI1)
    simp only at h3
    cases h4 : placeAll M fuel vs vs ⟨s1, M.chips, [], [], [], [], none, [], [], none, [], []⟩ with
    | error e =>
      rw [h4] at h3
      simp only
      rcases h3 with h5 | h5 | h5
      · exact .inr (.inr (.inl (by rw [h5])))
      · exact .inr (.inl (by rw [h5]))
      · refine absurd ⟨⟨⟨hS.links, hS.cores, ?_⟩, ?_, hn⟩, fun v hv g hg' => (hg v hv g hg').1⟩ h5.2
        · intro a ha
          rcases List.mem_append.1 ha with ha | ha
          · exact hS.offered a ha
          · exact (hN.offered a ha).2
        · intro v hv g hg'
          refine ⟨(hg v hv g hg').2, ?_⟩
          have hold : ∀ u ∈ g.1, u ∉ (Plc.placements (given os)).map (·.vertex) := fun u hu =>
            hl u (List.mem_flatMap.2 ⟨v, hv, List.mem_flatMap.2 ⟨g, hg', hu⟩⟩)
          cases hvf : v.isFixed with
          | true =>
            obtain ⟨_, c, ⟨w, hw, hwv, _⟩, h7⟩ := hN.group v hv hvf g hg'
            refine .inl (fun u hu => ?_)
            have huv : M.virtual u = false := by
              rcases (hg v hv g hg').2 with h8 | h8
              · rw [h8 w hw] at hwv
                cases hwv
              · exact h8 u hu
            obtain ⟨a, ha, hau, _⟩ := h7 u hu huv
            rw [List.map_append]
            exact List.mem_append_right _ (List.mem_map.2 ⟨a, ha, hau⟩)
          | false =>
            refine .inr (fun u hu hm => ?_)
            rw [List.map_append, List.mem_append] at hm
            rcases hm with hm | hm
            · exact hold u hu hm
            · obtain ⟨a, ha, rfl⟩ := List.mem_map.1 hm
              obtain ⟨⟨w, hw, hwf, hm'⟩, _⟩ := hN.verts a ha
              have hvw : w = v := app_unique hn hw hv hm' (List.mem_flatMap.2 ⟨g, hg', hu⟩)
              rw [hvw, hvf] at hwf
              cases hwf
    | ok st' => exact .inl ⟨_, rfl⟩

/-- PacmanTooBigToPlace is only raised if there is a group with more vertices or SDRAM than any chip has. -/
theorem C34_too_big {M : Machine} {fuel : Nat} (os : List Plc.Op) (vs : List AppV)
    (h : place M fuel vs (given os) = .error .tooBig) :
    ∃ v ∈ vs, ∃ g ∈ v.groups, M.maxSdram < (M.costs.total [g.2] : Int) ∨ M.maxCores < (g.1.length : Int) := by
  unfold place at h
  cases h0 : initial M (given os) with
  | error e =>
    rw [h0] at h
    unfold initial at h0
    split at h0
    · cases h0
      cases h
    · cases h0
  | ok st =>
    rw [h0] at h
    simp only at h
    cases h2 : fixedAll M vs st.store with
    | error e =>
      rw [h2] at h
      cases h
      exact absurd h2 fixedAll_not_tooBig
    | ok s1 =>
      rw [h2] at h
      simp only at h
      cases h4 : placeAll M fuel vs vs { st with store := s1 } with
      | error e =>
        rw [h4] at h
        cases h
        exact placeAll_tooBig h4
      | ok st' => rw [h4] at h; cases h

example : place demo 3 [⟨[([1, 2, 3, 4, 5], 10)], false⟩] (given []) = .error .tooBig ∧
    place demo 3 [⟨[([1, 2, 3], 10), ([4, 5, 10], 10), ([11, 12], 10)], false⟩] (given []) = .error .place := by
  decide +kernel

example : Sane demo (Plc.placements (given demoOs)) ∧ demo.maxCores ≠ 0 ∧ (allVerts demoVs).Nodup ∧
    (∀ u ∈ allVerts demoVs, u ∉ (Plc.placements (given demoOs)).map (·.vertex)) ∧
    (∀ v ∈ demoVs, ∀ g ∈ v.groups, g.1 ≠ [] ∧
      ((∀ u ∈ g.1, demo.virtual u = true) ∨ (∀ u ∈ g.1, demo.virtual u = false))) := by
  refine ⟨demo_sane _ (by decide +kernel), by decide, by decide, by decide +kernel, by decide⟩

/-- With an empty group, running out of chips is reported as an IndexError: the report looks at the first vertex of
each group. -/
theorem C34_empty_group : place demo 3 [⟨[([], 0)], false⟩,
    ⟨[([1, 2, 3], 10), ([4, 5, 10], 10), ([11, 12], 10)], false⟩] (given []) = .error .indexError := by
  decide +kernel

end Pacman.Placer
