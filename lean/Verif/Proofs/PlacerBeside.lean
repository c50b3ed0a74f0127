import Verif.Proofs.PlacerShared
import Verif.Spec.PlacerBeside
/-
Small machine vertices are placed beside what is already there: lemmas.
-/

namespace Pacman.Placer

open Plc (Placement Store Inv)

/-- A vertex for which nothing is left to be placed: each group is a virtual machine vertex, or is placed already. -/
def Idle (M : Machine) (l : List Placement) (v : AppV) : Prop :=
  ∀ g ∈ v.groups, (∃ m, g.1 = [m] ∧ M.virtual m = true) ∨ ∀ u ∈ g.1, u ∈ l.map (·.vertex)

/-- What is needed of the other vertices: groups of one machine vertex each, of at most `b` bytes. -/
def Little (M : Machine) (b : Nat) (l : List Placement) (v : AppV) : Prop :=
  ∀ g ∈ v.groups, ∃ m, g.1 = [m] ∧ M.virtual m = false ∧ M.need m ≤ g.2 ∧ g.2 ≤ b ∧ m ∉ l.map (·.vertex)

theorem filterVertices_placed {M : Machine} {s : Store} {l : List Placement} (hI : Inv s l) {vs : List Nat}
    (h : ∀ u ∈ vs, u ∈ l.map (·.vertex)) : filterVertices M s vs = .ok [] := by
  obtain ⟨ws, hw⟩ := filter_total (M := M) hI (vs := vs) (.inl h)
  rw [hw]
  have := (filter_ok hI hw).1
  cases ws with
  | nil => rfl
  | cons w ws => exact absurd (h w ((this w).1 (by simp)).1) ((this w).1 (by simp)).2.1

theorem prepareLoop_idle {M : Machine} {fuel : Nat} {l : List Placement} : ∀ {gs : List (List Nat × Nat)} {st : State}
    {acc : List Placement}, Inv st.store l →
    (∀ g ∈ gs, (∃ m, g.1 = [m] ∧ M.virtual m = true) ∨ ∀ u ∈ g.1, u ∈ l.map (·.vertex)) →
    prepareLoop M fuel gs st acc = .ok (some acc, st) := by
  intro gs
  induction gs with
  | nil => intro st acc _ _; rfl
  | cons g gs ih =>
    intro st acc hI h
    have hg : filterVertices M st.store g.1 = .ok [] := by
      rcases h g List.mem_cons_self with ⟨m, h1, h2⟩ | h1
      · rw [h1]; exact filterVertices_virtual h2
      · exact filterVertices_placed hI h1
    unfold prepareLoop
    rw [hg]
    exact ih hI (fun g hg => h g (List.mem_cons_of_mem _ hg))

/-- Such a vertex is passed over. -/
theorem placeVertex_idle {M : Machine} {fuel : Nat} (hf : 0 < fuel) {v : AppV} {l : List Placement} {st : State} (hB : Book M st l)
    (hv : Idle M l v) : ∃ st', placeVertex M fuel v st = .ok st' ∧ st'.store = st.store := by
  unfold placeVertex
  by_cases hg : v.groups = []
  · rw [if_pos hg]; exact ⟨st, rfl, rfl⟩
  · rw [if_neg hg]
    obtain ⟨f, rfl⟩ : ∃ f, fuel = f + 1 := ⟨fuel - 1, by omega⟩
    rw [attempts]
    unfold prepare
    have key := prepareLoop_idle (fuel := f + 1) (l := l) (acc := [])
      (st := { st with restored := st.restored ++ st.tried, tried := [], prepared := [], cur := none }) hB.inv hv
    rw [key]
    exact ⟨_, rfl, rfl⟩

theorem freeOn_append (M : Machine) (l as : List Placement) (c : XY) :
    freeOn M (l ++ as) c = freeOn M l c - (at_ as c).length := by
  unfold freeOn
  rw [at_append, List.length_append]
  omega

theorem load_append {M : Machine} (hb : M.costs = Costs.bytes) (l as : List Placement) (c : XY) :
    load M (l ++ as) c = load M l c + load M as c := by
  unfold load
  rw [hb, needs_append]
  exact List.sum_append

theorem load_small {M : Machine} (hb : M.costs = Costs.bytes) {as : List Placement} {b : Nat}
    (h : ∀ a ∈ as, M.need a.vertex ≤ b) (c : XY) : load M as c ≤ (at_ as c).length * b := by
  unfold load needs
  rw [hb]
  have h1 : ∀ a ∈ at_ as c, M.need a.vertex ≤ b := fun a ha => h a (mem_at.1 ha).1
  revert h1
  generalize at_ as c = bs
  intro h1
  show (bs.map _).sum ≤ _
  induction bs with
  | nil => simp
  | cons a bs ih =>
    have := ih (fun a ha => h1 a (List.mem_cons_of_mem _ ha))
    have h2 := h1 a List.mem_cons_self
    rw [List.map_cons, List.sum_cons, List.length_cons, Nat.succ_mul]
    omega

/-- With machine vertices of at most `b` bytes on some of the free cores, there is still enough left. -/
theorem Leaves.append {M : Machine} {k b : Nat} {l as : List Placement} (hb : M.costs = Costs.bytes) (h : Leaves M k b l)
    (ha : ∀ a ∈ as, M.need a.vertex ≤ b) : Leaves M k b (l ++ as) := by
  have hs : ∀ c, Spare M (l ++ as) c → Spare M l c ∧ (at_ as c).length < freeOn M l c := by
    rintro c ⟨h1, h2⟩
    rw [freeOn_append] at h2
    exact ⟨⟨h1, by omega⟩, by omega⟩
  have hmul : ∀ c, Spare M (l ++ as) c → freeOn M (l ++ as) c * b + (at_ as c).length * b = freeOn M l c * b ∧
      (freeOn M (l ++ as) c - 1) * b + (at_ as c).length * b = (freeOn M l c - 1) * b := by
    intro c hc
    obtain ⟨h1, h2⟩ := hs c hc
    rw [freeOn_append, ← Nat.add_mul, ← Nat.add_mul]
    refine ⟨congrArg (· * b) (by omega), congrArg (· * b) (by omega)⟩
  refine ⟨?_, ?_, ?_⟩
  · intro c hc
    rw [freeOn_append]
    have := h.cores c hc
    omega
  · intro c hc
    have h1 := h.cap c (hs c hc).1
    have h2 := (hmul c hc).2
    have h3 := load_small hb ha c
    rw [load_append hb]
    omega
  · intro c hc
    have h1 := h.sdram c (hs c hc).1
    have h2 := (hmul c hc).1
    have h3 := load_small hb ha c
    rw [load_append hb]
    omega

theorem taken_append (M : Machine) (k : Nat) (l as : List Placement) : taken M k (l ++ as) ≤ taken M k l + as.length := by
  have h1 := at_sum_le M.chips as (chips_nodup M)
  refine Nat.le_trans ?_ (Nat.add_le_add_left h1 _)
  unfold taken
  generalize M.chips = cs
  induction cs with
  | nil => simp
  | cons c cs ih =>
    simp only [List.map_cons, List.sum_cons]
    rw [freeOn_append]
    omega

theorem Leaves.ample {M : Machine} {k b : Nat} {l : List Placement} (hb : M.costs = Costs.bytes) (h : Leaves M k b l) {xs : List Nat}
    (hxs : ∀ x ∈ xs, x ≤ b) : Ample M l xs := by
  intro c hc
  refine ⟨?_, fun ys hys hlen => ?_⟩
  · have := h.cap c hc
    omega
  · have h1 : M.costs.total (needs M l c ++ ys) = load M l c + ys.sum := by
      unfold load
      rw [hb]
      exact List.sum_append
    have h2 : ys.sum ≤ ys.length * b := by
      clear hlen h1
      induction ys with
      | nil => simp
      | cons y ys ih =>
        have := ih (fun y hy => hys y (List.mem_cons_of_mem _ hy))
        have h3 := hxs y (hys y List.mem_cons_self)
        rw [List.sum_cons, List.length_cons, Nat.succ_mul]
        omega
    have h3 : ys.length * b ≤ freeOn M l c * b := Nat.mul_le_mul_right b hlen
    have h4 := h.sdram c hc
    omega

theorem Little.length {M : Machine} {b : Nat} {l : List Placement} {v : AppV} (h : Little M b l v) :
    (v.groups.flatMap (·.1)).length = v.groups.length := by
  unfold Little at h
  revert h
  generalize v.groups = gs
  induction gs with
  | nil => intro _; rfl
  | cons g gs ih =>
    intro h
    obtain ⟨m, h1, -⟩ := h g List.mem_cons_self
    rw [List.flatMap_cons, List.length_append, h1, ih (fun g hg => h g (List.mem_cons_of_mem _ hg)), List.length_cons,
      List.length_cons, List.length_nil]
    omega

/-- All vertices are placed, if they find their cores on the machine however those before them lie. -/
theorem settle_all {M : Machine} {fuel k b : Nat} (hb : M.costs = Costs.bytes) (hG : Grid M) (hf : M.chips.length < fuel)
    (hmc : 1 ≤ M.maxCores) (hms : (b : Int) ≤ M.maxSdram) (all : List AppV) (n : AppV → Nat) :
    ∀ (vs : List AppV) (l : List Placement) (st : State) (t : Nat), Book M st l → Sane M l → Leaves M k b l → taken M k l ≤ t →
    (∀ v ∈ vs, Idle M l v ∨ Little M b l v ∧ v.groups.length ≤ n v) → (allVerts vs).Nodup →
    AllFind M k t (vs.map n) → ∃ st', placeAll M fuel all vs st = .ok st' := by
  intro vs
  induction vs with
  | nil => intro l st t _ _ _ _ _ _ _; exact ⟨st, rfl⟩
  | cons v vs ih =>
    intro l st t hB hS hL ht hvs hn hfind
    obtain ⟨hf1, hf2⟩ := hfind
    rw [allVerts, List.flatMap_cons, List.nodup_append] at hn
    obtain ⟨hn1, hn2, hn3⟩ := hn
    rw [placeAll]
    have hV := placeVertex_spec (K := False) hG hf (v := v) (fun k => k.elim) hB
    rcases hvs v List.mem_cons_self with hv | ⟨hv, hlen⟩
    · obtain ⟨st', h1, h2⟩ := placeVertex_idle (fuel := fuel) (by omega) hB hv
      rw [h1] at hV ⊢
      obtain ⟨as, hM, hB'⟩ := hV
      have hnil : l ++ as = l := by
        have h3 := hB'.inv
        rw [h2] at h3
        exact (placements_eq h3).symm.trans (placements_eq hB.inv)
      rw [hnil] at hB'
      exact ih l st' (t + n v) hB' hS hL (Nat.le_add_right_of_le ht) (fun w hw => hvs w (List.mem_cons_of_mem _ hw)) hn2 hf2
    · cases hr : placeVertex M fuel v st with
      | ok st' =>
        rw [hr] at hV
        obtain ⟨as, hM, hB'⟩ := hV
        have hverts : ∀ a ∈ as, a.vertex ∈ v.groups.flatMap (·.1) := fun a ha => hM.verts.subset (List.mem_map.2 ⟨a, ha, rfl⟩)
        refine ih (l ++ as) st' (t + n v) hB' ⟨hS.links, hS.cores, ?_⟩ (hL.append hb ?_) ?_ ?_ hn2 hf2
        · intro a ha
          rcases List.mem_append.1 ha with ha | ha
          · exact hS.offered a ha
          · exact (hM.offered a ha).2
        · intro a ha
          obtain ⟨g, hg, hag⟩ := List.mem_flatMap.1 (hverts a ha)
          obtain ⟨m, h1, -, h2, h3, -⟩ := hv g hg
          rw [h1, List.mem_singleton] at hag
          rw [hag]; omega
        · have h1 := taken_append M k l as
          have h2 := hM.verts.length_le
          rw [hv.length, List.length_map] at h2
          omega
        · intro w hw
          rcases hvs w (List.mem_cons_of_mem _ hw) with h0 | h0
          · refine .inl fun g hg => ?_
            rcases h0 g hg with h1 | h1
            · exact .inl h1
            · refine .inr fun u hu => ?_
              rw [List.map_append]
              exact List.mem_append_left _ (h1 u hu)
          · refine .inr ⟨fun g hg => ?_, h0.2⟩
            obtain ⟨m, h1, h2, h3, h4, h5⟩ := h0.1 g hg
            refine ⟨m, h1, h2, h3, h4, ?_⟩
            rw [List.map_append, List.mem_append]
            rintro (h6 | h6)
            · exact h5 h6
            · obtain ⟨a, ha, rfl⟩ := List.mem_map.1 h6
              refine hn3 _ (hverts a ha) _ ?_ rfl
              exact List.mem_flatMap.2 ⟨w, hw, List.mem_flatMap.2 ⟨g, hg, by rw [h1]; simp⟩⟩
      | error e =>
        exfalso
        rw [hr] at hV
        have hone : ∀ g ∈ v.groups, g.1.length = 1 := fun g hg => by
          obtain ⟨m, h1, -⟩ := hv g hg
          rw [h1]; rfl
        rcases hV with rfl | rfl | hV
        · obtain ⟨g, hg, hh⟩ := placeVertex_tooBig hr
          obtain ⟨m, -, -, -, h4, -⟩ := hv g hg
          have h5 := hone g hg
          have h6 : M.costs.total [g.2] = g.2 := by rw [hb]; simp [Costs.bytes]
          unfold Huge at hh
          rw [h6] at hh
          omega
        · refine placeVertex_spread hG (hL.ample hb (xs := v.groups.map (·.2)) ?_) hf hB
            (fun g hg => ⟨hone g hg, List.mem_map.2 ⟨g, hg, rfl⟩⟩) ?_ hr
          · intro x hx
            obtain ⟨g, hg, rfl⟩ := List.mem_map.1 hx
            obtain ⟨m, -, -, -, h4, -⟩ := hv g hg
            exact h4
          · obtain ⟨s, cs, c1, c2, c3⟩ := hf1 (fun c => k - freeOn M l c) ht
            have hhas : ∀ c ∈ cs, M.has c = true := by
              intro c hc
              have := c2 c hc
              cases this with
              | here h => exact h.1
              | step _ _ h => exact h.1
            refine ⟨s, cs, c1, fun c hc => (c2 c hc).mono ?_, Nat.le_trans hlen (Nat.le_trans c3 (Nat.le_of_eq ?_))⟩
            · rintro d ⟨h1, h2⟩
              exact ⟨h1, by omega⟩
            · congr 1
              refine List.map_congr_left (fun c hc => ?_)
              have := hL.cores c (hhas c hc)
              omega
        · refine hV.2 ⟨hS, fun g hg => ?_, hn1⟩
          obtain ⟨m, h1, h2, -, -, h5⟩ := hv g hg
          rw [h1]
          exact ⟨.inr (by simpa using h2), .inr (by simpa using h5)⟩

/-- The first loop only looks at vertices with a fixed location. -/
theorem fixedAll_filter {M : Machine} {vs : List AppV} : ∀ {s : Store}, fixedAll M (vs.filter (·.isFixed)) s = fixedAll M vs s := by
  induction vs with
  | nil => intro s; rfl
  | cons v vs ih =>
    intro s
    by_cases hv : v.isFixed = true
    · rw [List.filter_cons_of_pos hv, fixedAll, fixedAll, if_pos hv, if_pos hv]
      cases placeFixed M v s with
      | error e => rfl
      | ok s' => exact ih
    · rw [List.filter_cons_of_neg hv, fixedAll, if_neg hv]
      exact ih

/-- Where nothing is left to be placed the second loop changes nothing. -/
theorem placeAll_idle {M : Machine} {fuel : Nat} (hG : Grid M) (hf : M.chips.length < fuel) {l : List Placement} (all : List AppV) :
    ∀ {vs : List AppV} {st : State}, Book M st l → (∀ v ∈ vs, Idle M l v) →
    ∃ st', placeAll M fuel all vs st = .ok st' ∧ st'.store = st.store := by
  intro vs
  induction vs with
  | nil => intro st _ _; exact ⟨st, rfl, rfl⟩
  | cons v vs ih =>
    intro st hB h
    have hV := placeVertex_spec (K := False) hG hf (v := v) (fun k => k.elim) hB
    obtain ⟨st', h1, h2⟩ := placeVertex_idle (fuel := fuel) (by omega) hB (h v List.mem_cons_self)
    rw [placeAll, h1]
    rw [h1] at hV
    obtain ⟨as, -, hB'⟩ := hV
    have hnil : l ++ as = l := by
      have h3 := hB'.inv
      rw [h2] at h3
      exact (placements_eq h3).symm.trans (placements_eq hB.inv)
    rw [hnil] at hB'
    obtain ⟨st2, h3, h4⟩ := ih hB' (fun w hw => h w (List.mem_cons_of_mem _ hw))
    exact ⟨st2, h3, h4.trans h2⟩

end Pacman.Placer
