import Verif.Props.PlacerSpread
/-
Small machine vertices are placed one by one: lemmas.
-/

namespace Pacman.Placer

open Plc (Placement Store Inv)

/-- What is needed of a vertex: groups of one machine vertex each, which needs at most the share of a core. -/
structure Modest (M : Machine) (k : Nat) (v : AppV) : Prop where
  free : v.isFixed = false
  some_ : v.groups ≠ []
  one : ∀ g ∈ v.groups, ∃ m, g.1 = [m] ∧ M.virtual m = false ∧ M.need m ≤ g.2
  share : ∀ g ∈ v.groups, (g.2 * k : Int) ≤ M.maxSdram

theorem Modest.length {M : Machine} {k : Nat} {v : AppV} (h : Modest M k v) :
    (v.groups.flatMap (·.1)).length = v.groups.length := by
  have := h.one
  revert this
  generalize v.groups = gs
  induction gs with
  | nil => intro _; rfl
  | cons g gs ih =>
    intro h
    obtain ⟨m, h1, -⟩ := h g List.mem_cons_self
    rw [List.flatMap_cons, List.length_append, h1, ih (fun g hg => h g (List.mem_cons_of_mem _ hg)), List.length_cons,
      List.length_cons, List.length_nil]
    omega

/-- On different chips there are at most all placements. -/
theorem at_sum_le : ∀ (cs : List XY) (l : List Placement), cs.Nodup → (cs.map (fun c => (at_ l c).length)).sum ≤ l.length := by
  intro cs
  induction cs with
  | nil => intro l _; simp
  | cons c cs ih =>
    intro l hn
    rw [List.nodup_cons] at hn
    have h2 := ih (l.filter (fun a => !decide ((a.x, a.y) = c))) hn.2
    have h1 : (cs.map (fun d => (at_ (l.filter (fun a => !decide ((a.x, a.y) = c))) d).length)) =
        cs.map (fun d => (at_ l d).length) := by
      refine List.map_congr_left (fun d hd => ?_)
      have hdc : d ≠ c := fun h0 => hn.1 (h0 ▸ hd)
      unfold at_
      rw [List.filter_filter]
      congr 1
      refine List.filter_congr ?_
      intro a _
      by_cases h0 : (a.x, a.y) = d
      · simp [h0, hdc]
      · simp [h0]
    have h3 : l.length = (at_ l c).length + (l.filter (fun a => !decide ((a.x, a.y) = c))).length := by
      have := List.length_eq_countP_add_countP (fun a : Placement => decide ((a.x, a.y) = c)) (l := l)
      rw [List.countP_eq_length_filter, List.countP_eq_length_filter] at this
      unfold at_
      simpa using this
    rw [h1] at h2
    rw [List.map_cons, List.sum_cons]
    omega

theorem sum_le_mul {xs : List Nat} {q : Int} (h : ∀ x ∈ xs, (x : Int) ≤ q) : ((xs.sum : Nat) : Int) ≤ xs.length * q := by
  induction xs with
  | nil => simp
  | cons x xs ih =>
    have h1 := ih (fun y hy => h y (List.mem_cons_of_mem _ hy))
    have h2 := h x List.mem_cons_self
    simp only [List.sum_cons, List.length_cons, Int.natCast_add, Int.add_mul]
    omega

/-- SDRAM is not the limit if nothing needs more than the share of a core. -/
theorem ample_of_share {M : Machine} {k : Nat} {l : List Placement} {xs : List Nat} (hb : M.costs = Costs.bytes)
    (hck : ∀ c, M.has c = true → (M.cores c).length = k) (hk : M.maxCores = (k : Int)) (hk0 : 0 < k)
    (hms : ∀ c, M.has c = true → M.maxSdram ≤ (M.sdram c : Int)) (h0 : 0 ≤ M.maxSdram)
    (hl : ∀ b ∈ l, (M.need b.vertex * k : Int) ≤ M.maxSdram) (hxs : ∀ x ∈ xs, (x * k : Int) ≤ M.maxSdram) : Ample M l xs := by
  have hkpos : (0 : Int) < (k : Int) := by omega
  have hq : ∀ x : Int, x * k ≤ M.maxSdram → x ≤ Int.fdiv M.maxSdram M.maxCores := by
    intro x hx
    rw [hk, Int.fdiv_eq_ediv_of_nonneg _ (Int.le_of_lt hkpos)]
    exact (Int.le_ediv_iff_mul_le hkpos).2 hx
  have hq0 : Int.fdiv M.maxSdram M.maxCores * k ≤ M.maxSdram := by
    rw [hk, Int.fdiv_eq_ediv_of_nonneg _ (Int.le_of_lt hkpos)]
    exact Int.ediv_mul_le _ (Int.ne_of_gt hkpos)
  have hqnn := hq 0 (by simpa using h0)
  unfold Ample
  generalize Int.fdiv M.maxSdram M.maxCores = qq at hq hq0 hqnn
  rw [Int.mul_comm qq (k : Int)] at hq0
  intro c hc
  have hcc := hck c hc.1
  have hsp := hc.2
  unfold freeOn at hsp ⊢
  rw [hcc] at hsp ⊢
  have hneed : ∀ x ∈ needs M l c, (x : Int) ≤ qq := by
    intro x hx
    obtain ⟨b, hb', rfl⟩ := List.mem_map.1 hx
    exact hq _ (hl b (mem_at.1 hb').1)
  have hload : (load M l c : Int) ≤ (at_ l c).length * qq := by
    unfold load
    rw [hb]
    have := sum_le_mul hneed
    unfold needs at this ⊢
    rw [List.length_map] at this
    exact this
  refine ⟨?_, fun ys hys hlen => ?_⟩
  · have : (((at_ l c).length : Int) + 1) * qq ≤ k * qq := Int.mul_le_mul_of_nonneg_right (by omega) hqnn
    rw [Int.add_mul, Int.one_mul] at this
    omega
  · have h1 : M.costs.total (needs M l c ++ ys) = load M l c + ys.sum := by
      unfold load
      rw [hb]
      exact List.sum_append
    have h2 := sum_le_mul (xs := ys) (q := qq) (fun y hy => hq _ (hxs y (hys y hy)))
    have h3 : (((at_ l c).length : Int) + ys.length) * qq ≤ k * qq := Int.mul_le_mul_of_nonneg_right (by omega) hqnn
    rw [Int.add_mul] at h3
    have h4 := hms c hc.1
    omega

/-- A vertex all of whose machine vertices are virtual: they are placed nowhere. -/
structure Remote (M : Machine) (v : AppV) : Prop where
  free : v.isFixed = false
  one : ∀ g ∈ v.groups, ∃ m, g.1 = [m] ∧ M.virtual m = true

/-- How many cores a vertex needs: its machine vertices that are not virtual. -/
def onCores (M : Machine) (v : AppV) : Nat := ((v.groups.flatMap (·.1)).filter (fun u => !M.virtual u)).length

theorem Modest.onCores {M : Machine} {k : Nat} {v : AppV} (h : Modest M k v) : onCores M v = v.groups.length := by
  rw [← h.length]
  unfold Placer.onCores
  rw [List.filter_eq_self.2]
  intro u hu
  obtain ⟨g, hg, hug⟩ := List.mem_flatMap.1 hu
  obtain ⟨m, h1, h2, -⟩ := h.one g hg
  rw [h1, List.mem_singleton] at hug
  rw [hug, h2]; rfl

theorem Remote.none {M : Machine} {v : AppV} (h : Remote M v) : (v.groups.flatMap (·.1)).filter (fun u => !M.virtual u) = [] := by
  rw [List.filter_eq_nil_iff]
  intro u hu
  obtain ⟨g, hg, hug⟩ := List.mem_flatMap.1 hu
  obtain ⟨m, h1, h2⟩ := h.one g hg
  rw [h1, List.mem_singleton] at hug
  rw [hug, h2]; simp

theorem filterVertices_virtual {M : Machine} {s : Store} {m : Nat} (h : M.virtual m = true) : filterVertices M s [m] = .ok [] := by
  unfold filterVertices
  cases hp : Plc.isPlaced s m <;> simp [hp, h]

theorem prepareLoop_virtual {M : Machine} {fuel : Nat} : ∀ {gs : List (List Nat × Nat)} {st : State} {acc : List Placement},
    (∀ g ∈ gs, ∃ m, g.1 = [m] ∧ M.virtual m = true) → prepareLoop M fuel gs st acc = .ok (some acc, st) := by
  intro gs
  induction gs with
  | nil => intro st acc _; rfl
  | cons g gs ih =>
    intro st acc h
    obtain ⟨m, h1, h2⟩ := h g List.mem_cons_self
    unfold prepareLoop
    rw [h1, filterVertices_virtual h2]
    exact ih (fun g hg => h g (List.mem_cons_of_mem _ hg))

/-- A vertex that is only virtual is always placed, and takes nothing. -/
theorem placeVertex_virtual {M : Machine} {fuel : Nat} (hf : 0 < fuel) {v : AppV} (hv : Remote M v) (st : State) :
    ∃ st', placeVertex M fuel v st = .ok st' ∧ st'.store = st.store := by
  unfold placeVertex
  by_cases hg : v.groups = []
  · rw [if_pos hg]; exact ⟨st, rfl, rfl⟩
  · rw [if_neg hg]
    obtain ⟨f, rfl⟩ : ∃ f, fuel = f + 1 := ⟨fuel - 1, by omega⟩
    rw [attempts]
    unfold prepare
    rw [prepareLoop_virtual hv.one]
    exact ⟨_, rfl, rfl⟩

theorem place_virtual {M : Machine} {fuel : Nat} (hf : 0 < fuel) {vs : List AppV} {v : AppV} (hv : Remote M v) {s s' : Store}
    (h : place M fuel vs s = .ok s') : place M fuel (vs ++ [v]) s = .ok s' := by
  obtain ⟨st, st', -, -, h3, h4⟩ := place_more hv.free h
  obtain ⟨st2, h5, h6⟩ := placeVertex_virtual hf hv st'
  rw [h4, placeAll, h5]
  simp only [placeAll]
  rw [h6, h3]

/-- One more vertex adds its own machine vertices only. -/
theorem place_adds {M : Machine} {fuel : Nat} (hO : Order M) (hG : Grid M) (hf : M.chips.length < fuel) {os : List Plc.Op}
    {vs : List AppV} {v : AppV} (hv : v.isFixed = false) {s' s'' : Store} (h : place M fuel vs (given os) = .ok s')
    (h' : place M fuel (vs ++ [v]) (given os) = .ok s'') :
    ∃ as, Plc.placements s'' = Plc.placements s' ++ as ∧ ∀ a ∈ as, a.vertex ∈ v.groups.flatMap (·.1) := by
  obtain ⟨st, st', h0, ⟨s1, h1, h2⟩, h3, h4⟩ := place_more hv h
  have hF := fixedAll_spec hO (vs := vs) (given_inv os)
  rw [h1] at hF
  obtain ⟨fs, hI1, hN⟩ := hF
  have hP := placeAll_spec (K := False) (all := vs) (vs := vs) (fuel := fuel) hG hf (fun k => k.elim)
    (book_initial h0 hI1)
  rw [h2] at hP
  obtain ⟨l', hC, hB⟩ := hP
  have hl' : Plc.placements s' = l' := by
    rw [← h3]
    exact placements_eq hB.inv
  have hV := placeVertex_spec (K := False) hG hf (v := v) (fun k => k.elim) hB
  rw [h4, placeAll] at h'
  cases hr : placeVertex M fuel v st' with
  | error e => rw [hr] at h'; cases h'
  | ok st2 =>
    rw [hr] at hV h'
    obtain ⟨as, hM, hB2⟩ := hV
    simp only [placeAll] at h'
    injection h' with h'
    refine ⟨as, ?_, fun a ha => hM.verts.subset (List.mem_map.2 ⟨a, ha, rfl⟩)⟩
    rw [hl', ← h']
    exact placements_eq hB2.inv

/-- Vertices whose machine vertices are all small, or all virtual, are placed one by one, if they find their cores on the machine however
those before them lie. -/
theorem modest_placed {M : Machine} {fuel k : Nat} (hb : M.costs = Costs.bytes) (hO : Order M) (hG : Grid M)
    (hf : M.chips.length < fuel) (hlinks : ∀ c, M.has c = true → ∀ d ∈ M.links c, M.has d = true)
    (hcn : ∀ c, (M.cores c).Nodup) (hck : ∀ c, M.has c = true → (M.cores c).length = k) (hk : M.maxCores = (k : Int))
    (hk0 : 0 < k) (hms : ∀ c, M.has c = true → M.maxSdram ≤ (M.sdram c : Int)) :
    ∀ (as pre : List AppV), (∀ v ∈ pre ++ as, Modest M k v ∨ Remote M v) → (allVerts (pre ++ as)).Nodup →
    AllFind M k ((allVerts pre).filter (fun u => !M.virtual u)).length (as.map (onCores M)) →
    (∃ s, place M fuel pre (given []) = .ok s ∧ ∀ b ∈ Plc.placements s, M.virtual b.vertex = false) →
    ∃ s, place M fuel (pre ++ as) (given []) = .ok s := by
  intro as
  induction as with
  | nil => intro pre _ _ _ ⟨s, h, _⟩; rw [List.append_nil]; exact ⟨s, h⟩
  | cons v as ih =>
    intro pre hm hn hl hpre
    obtain ⟨hl1, hl2⟩ := hl
    have hcount : ((allVerts (pre ++ [v])).filter (fun u => !M.virtual u)).length =
        ((allVerts pre).filter (fun u => !M.virtual u)).length + onCores M v := by
      unfold onCores
      rw [← List.length_append, ← List.filter_append]
      simp [allVerts, List.flatMap_append]
    suffices hstep : ∃ s, place M fuel (pre ++ [v]) (given []) = .ok s ∧ ∀ b ∈ Plc.placements s, M.virtual b.vertex = false by
      have := ih (pre ++ [v]) (by rw [List.append_assoc]; exact hm) (by rw [List.append_assoc]; exact hn)
        (by rw [hcount]; exact hl2) hstep
      rw [List.append_assoc] at this
      exact this
    obtain ⟨s', hs', hreal⟩ := hpre
    rcases hm v (by simp) with hv | hv
    case inr => exact ⟨s', place_virtual (by omega) hv hs', hreal⟩
    rw [hv.onCores] at hl1
    have hvirt : ∀ u ∈ v.groups.flatMap (·.1), M.virtual u = false := by
      intro u hu
      obtain ⟨g, hg, hug⟩ := List.mem_flatMap.1 hu
      obtain ⟨m, h1, h2, -⟩ := hv.one g hg
      rw [h1, List.mem_singleton] at hug
      rw [hug]; exact h2
    have hstep : ∃ s, place M fuel (pre ++ [v]) (given []) = .ok s := by
      obtain ⟨hu1, hu2, ⟨new, hu3, hu4⟩, -⟩ := C31_unique hO hG hf [] pre hs'
      have hnew : Plc.placements s' = new := hu3
      have hall : allVerts (pre ++ v :: as) = allVerts pre ++ (v.groups.flatMap (·.1) ++ allVerts as) := by
        simp [allVerts, List.flatMap_append, List.flatMap_cons]
      have hlen : (Plc.placements s').length ≤ ((allVerts pre).filter (fun u => !M.virtual u)).length := by
        rw [← List.length_map (f := fun a : Placement => a.vertex)]
        refine List.Nodup.length_le_of_subset hu2 ?_
        intro u hu
        obtain ⟨b, hb, rfl⟩ := List.mem_map.1 hu
        refine List.mem_filter.2 ⟨?_, by rw [hreal b hb]; rfl⟩
        rw [hnew] at hb
        exact (hu4 b hb).1
      have hshare : ∀ b ∈ Plc.placements s', (M.need b.vertex * k : Int) ≤ M.maxSdram := by
        intro b hb
        have hbr := hreal b hb
        rw [hnew] at hb
        obtain ⟨w, hw, hmw⟩ := List.mem_flatMap.1 (hu4 b hb).1
        obtain ⟨g, hg, hbg⟩ := List.mem_flatMap.1 hmw
        have hmod : Modest M k w := by
          refine (hm w (by simp [hw])).resolve_right fun hr => ?_
          obtain ⟨m, h1, h2⟩ := hr.one g hg
          rw [h1, List.mem_singleton] at hbg
          rw [hbg, h2] at hbr
          cases hbr
        obtain ⟨m, h1, -, h2⟩ := hmod.one g hg
        rw [h1, List.mem_singleton] at hbg
        rw [hbg]
        have : (M.need m : Int) * k ≤ (g.2 : Int) * k :=
          Int.mul_le_mul_of_nonneg_right (Int.ofNat_le.2 h2) (Int.natCast_nonneg k)
        exact Int.le_trans this (hmod.share g hg)
      have h0 : 0 ≤ M.maxSdram := by
        obtain ⟨g, hg⟩ := List.exists_mem_of_ne_nil _ hv.some_
        refine Int.le_trans (Int.mul_nonneg (Int.natCast_nonneg g.2) (Int.natCast_nonneg k)) (hv.share g hg)
      refine (C128_spread hO hG hf [] ⟨hlinks, hcn, by intro b hb; cases hb⟩ pre hv.free ?_ ?_ ?_ ?_ ?_ hs' ?_ ?_).2 ?_
      · intro g hg
        obtain ⟨m, h1, -⟩ := hv.one g hg
        rw [h1]; rfl
      · rw [hall] at hn
        exact (List.nodup_append.1 (List.nodup_append.1 hn).2.1).1
      · exact hvirt
      · intro g hg
        have h1 := hv.share g hg
        have h2 : (g.2 : Int) * 1 ≤ g.2 * k := Int.mul_le_mul_of_nonneg_left (by omega) (Int.natCast_nonneg _)
        have h3 : M.costs.total [g.2] = g.2 := by rw [hb]; simp [Costs.bytes]
        omega
      · rw [hk]; omega
      · intro u hu hmem
        obtain ⟨b, hb, hbv⟩ := List.mem_map.1 hmem
        rw [hnew] at hb
        have h1 := (hu4 b hb).1
        rw [hbv] at h1
        rw [hall] at hn
        exact (List.nodup_append.1 hn).2.2 u h1 u (List.mem_append_left _ hu) rfl
      · refine ample_of_share hb hck hk hk0 hms h0 hshare ?_
        intro x hx
        obtain ⟨g, hg, rfl⟩ := List.mem_map.1 hx
        exact hv.share g hg
      · obtain ⟨s, cs, c1, c2, c3⟩ := hl1 (fun c => (at_ (Plc.placements s') c).length)
          (Nat.le_trans (at_sum_le _ _ (chips_nodup M)) hlen)
        have c4 : ∀ c, M.has c = true → freeOn M (Plc.placements s') c = k - (at_ (Plc.placements s') c).length := by
          intro c hc
          unfold freeOn
          rw [hck c hc]
        have c5 : ∀ d, (M.has d = true ∧ (at_ (Plc.placements s') d).length < k) → Spare M (Plc.placements s') d := by
          rintro d ⟨h1, h2⟩
          exact ⟨h1, by rw [c4 d h1]; omega⟩
        refine ⟨s, cs, c1, fun c hc => (c2 c hc).mono c5, Nat.le_trans c3 (Nat.le_of_eq ?_)⟩
        congr 1
        refine List.map_congr_left (fun c hc => (c4 c ?_).symm)
        have := c2 c hc
        cases this with
        | here h => exact h.1
        | step _ _ h => exact h.1
    obtain ⟨s'', hs''⟩ := hstep
    obtain ⟨as', h1, h2⟩ := place_adds hO hG hf hv.free hs' hs''
    refine ⟨s'', hs'', fun b hb => ?_⟩
    rw [h1] at hb
    rcases List.mem_append.1 hb with hb | hb
    · exact hreal b hb
    · exact hvirt _ (h2 b hb)

/-! ### Where cores are found -/

theorem Way.other {M M' : Machine} (hl : M'.links = M.links) {U : XY → Prop} {s c : XY} (h : Way M U s c) : Way M' U s c := by
  induction h with
  | here h => exact .here h
  | step _ hd hu ih => exact .step ih (hl ▸ hd) hu

theorem AllFind.other {M M' : Machine} {k : Nat} (hw : M'.width = M.width) (hh : M'.height = M.height) (hc : M'.has = M.has)
    (hl : M'.links = M.links) : ∀ {ns : List Nat} {t : Nat}, AllFind M k t ns → AllFind M' k t ns := by
  intro ns
  induction ns with
  | nil => intro t _; exact trivial
  | cons n ns ih =>
    intro t h
    refine ⟨fun u hu => ?_, ih h.2⟩
    have he : M'.chips = M.chips := by unfold Machine.chips; rw [hw, hh, hc]
    rw [he] at hu
    obtain ⟨s, cs, h1, h2, h3⟩ := h.1 u hu
    exact ⟨s, cs, h1, fun c hc' => by rw [hc]; exact (h2 c hc').other hl, h3⟩

/-- A chip with few cores taken is left, if few are taken. -/
theorem light_chip {k : Nat} {u : XY → Nat} : ∀ {cs : List XY}, (cs.map u).sum < cs.length * k → ∃ c ∈ cs, u c < k := by
  intro cs
  induction cs with
  | nil => intro h; simp at h
  | cons c cs ih =>
    intro h
    by_cases hc : u c < k
    · exact ⟨c, List.mem_cons_self, hc⟩
    · rw [List.map_cons, List.sum_cons, List.length_cons, Nat.add_mul] at h
      obtain ⟨d, hd, h1⟩ := ih (by omega)
      exact ⟨d, List.mem_cons_of_mem _ hd, h1⟩

/-- A vertex finds its cores on one chip, if the cores of the machine are enough for fewer than it needs to be left of each chip. -/
theorem finds_chip {M : Machine} {k t n : Nat} (hn : n ≤ k) (h : t < M.chips.length * (k + 1 - n)) : Finds M k t n := by
  intro u hu
  by_cases h0 : n = 0
  · exact ⟨(0, 0), [], List.nodup_nil, (by simp), by omega⟩
  · obtain ⟨c, hc, h1⟩ := light_chip (k := k + 1 - n) (Nat.lt_of_le_of_lt hu h)
    refine ⟨c, [c], by simp, ?_, by simp; omega⟩
    intro d hd
    rw [List.mem_singleton] at hd
    subst hd
    exact .here ⟨(mem_chips.1 hc).2.2, by omega⟩

/-- Vertices with at most `a` machine vertices each find their cores as long as the cores of the machine are enough for `a - 1` cores
of each chip to be left. -/
theorem allFind_few {M : Machine} {k a : Nat} (ha : a ≤ k) : ∀ (ns : List Nat) (t : Nat), (∀ n ∈ ns, 0 < n ∧ n ≤ a) →
    t + ns.sum ≤ M.chips.length * (k + 1 - a) → AllFind M k t ns := by
  intro ns
  induction ns with
  | nil => intro t _ _; exact trivial
  | cons n ns ih =>
    intro t hn ht
    rw [List.sum_cons] at ht
    obtain ⟨h1, h2⟩ := hn n List.mem_cons_self
    have h3 : M.chips.length * (k + 1 - a) ≤ M.chips.length * (k + 1 - n) := Nat.mul_le_mul_left _ (by omega)
    exact ⟨finds_chip (by omega) (by omega), ih _ (fun m hm => hn m (List.mem_cons_of_mem _ hm)) (by omega)⟩

theorem rest_sum {k : Nat} {u : XY → Nat} : ∀ {cs : List XY}, cs.length * k ≤ (cs.map (fun c => k - u c)).sum + (cs.map u).sum := by
  intro cs
  induction cs with
  | nil => simp
  | cons d cs ih =>
    simp only [List.map_cons, List.sum_cons, List.length_cons, Nat.add_mul]
    omega

/-- A vertex finds its cores if, without any chips `F` that may be full, so many chips can be reached from one another that their
cores, but for those that are taken there at most, are enough. -/
theorem finds_tough {M : Machine} {k t n : Nat} (hG : Grid M)
    (h : ∀ F : List XY, F.Nodup → (∀ c ∈ F, c ∈ M.chips) → F.length * k ≤ t → ∃ (s : XY) (cs : List XY), cs.Nodup ∧
      (∀ c ∈ cs, Way M (fun d => M.has d = true ∧ d ∉ F) s c) ∧ n + t ≤ (cs.length + F.length) * k) : Finds M k t n := by
  intro u hu
  have hfull : ∀ {cs : List XY}, (cs.filter (fun c => decide (k ≤ u c))).length * k ≤
      ((cs.filter (fun c => decide (k ≤ u c))).map u).sum := by
    intro cs
    induction cs with
    | nil => simp
    | cons c cs ih =>
      rw [List.filter_cons]
      split
      · rename_i hc
        have hc : k ≤ u c := of_decide_eq_true hc
        simp only [List.map_cons, List.sum_cons, List.length_cons, Nat.add_mul]
        omega
      · exact ih
  have hn : (M.chips.filter (fun c => decide (k ≤ u c))).Nodup := (chips_nodup M).sublist List.filter_sublist
  have hsum := sum_sub u _ M.chips hn (fun c hc => (List.mem_filter.1 hc).1)
  have hF := hfull (cs := M.chips)
  have hin : ∀ d, M.has d = true → d ∈ M.chips := fun d hd => mem_chips.2 ⟨(hG d hd).1, (hG d hd).2, hd⟩
  obtain ⟨s, cs, h1, h2, h3⟩ := h _ hn (fun c hc => (List.mem_filter.1 hc).1) (by omega)
  have hend : ∀ c ∈ cs, M.has c = true ∧ c ∉ M.chips.filter (fun c => decide (k ≤ u c)) := by
    intro c hc
    cases h2 c hc with
    | here h => exact h
    | step _ _ h => exact h
  refine ⟨s, cs, h1, fun c hc => (h2 c hc).mono (fun d hd => ⟨hd.1, ?_⟩), ?_⟩
  · refine Nat.lt_of_not_le fun hle => hd.2 (List.mem_filter.2 ⟨hin d hd.1, decide_eq_true hle⟩)
  · have h4 := sum_sub u (cs ++ M.chips.filter (fun c => decide (k ≤ u c))) M.chips (by
      refine List.nodup_append.2 ⟨h1, hn, ?_⟩
      intro a ha b hb hab
      exact (hend a ha).2 (hab ▸ hb)) (by
      intro c hc
      rcases List.mem_append.1 hc with hc | hc
      · exact hin c (hend c hc).1
      · exact (List.mem_filter.1 hc).1)
    rw [List.map_append, List.sum_append] at h4
    have h5 := rest_sum (k := k) (u := u) (cs := cs)
    rw [Nat.add_mul] at h3
    omega

/-- On a machine all of whose chips can be reached from one of them, a vertex finds its cores if there are as many, and fewer
are taken than a chip has. -/
theorem finds_connected {M : Machine} {k t n : Nat} {s : XY} (hs : ∀ c ∈ M.chips, Way M (fun d => M.has d = true) s c)
    (hG : Grid M) (ht : t < k) (h : n + t ≤ M.chips.length * k) : Finds M k t n := by
  refine finds_tough hG fun F _ _ hF => ?_
  have : F = [] := by
    cases F with
    | nil => rfl
    | cons c F => rw [List.length_cons, Nat.add_mul] at hF; omega
  subst this
  exact ⟨s, M.chips, chips_nodup M, fun c hc => (hs c hc).mono (fun d hd => ⟨hd, List.not_mem_nil⟩), h⟩

/-- Each chip is linked to one before it. -/
def eachLinked (M : Machine) : List XY → List XY → Bool
  | _, [] => true
  | seen, c :: cs => M.has c && seen.any (fun d => decide (c ∈ M.links d)) && eachLinked M (c :: seen) cs

theorem ways_each {M : Machine} {s : XY} : ∀ {cs seen : List XY}, (∀ c ∈ seen, Way M (fun d => M.has d = true) s c) →
    eachLinked M seen cs = true → ∀ c ∈ cs, Way M (fun d => M.has d = true) s c := by
  intro cs
  induction cs with
  | nil => intro _ _ _ c hc; cases hc
  | cons c cs ih =>
    intro seen hs h
    unfold eachLinked at h
    rw [Bool.and_eq_true, Bool.and_eq_true, List.any_eq_true] at h
    obtain ⟨⟨h1, d, hd, h2⟩, h3⟩ := h
    have hc : Way M (fun d => M.has d = true) s c := .step (hs d hd) (of_decide_eq_true h2) h1
    have hall := ih (seen := c :: seen) (by
      intro e he
      rcases List.mem_cons.1 he with rfl | he
      · exact hc
      · exact hs e he) h3
    intro e he
    rcases List.mem_cons.1 he with rfl | he
    · exact hc
    · exact hall e he

end Pacman.Placer
