import Verif.Props.PlacerBeside

/-!
# C153: leaving out vertices never makes placement fail

False: the start chip of a vertex depends on what was placed before it. What holds are the cases in which it
does not matter where the vertices lie.
-/

namespace Pacman.Placer

open Plc (Placement Store Inv)

/-- C153 in full: if a graph is placed then it is placed with application vertices left out. -/
def C153_full : Prop :=
  ∀ (M : Machine) (fuel : Nat) (vs vs' : List AppV) (s : Store), M.costs = Costs.bytes → Order M → Grid M →
    M.chips.length < fuel → Sane M [] → (allVerts vs).Nodup → (∀ v ∈ vs, v.isFixed = false) → vs'.Sublist vs →
    place M fuel vs (given []) = .ok s → ∃ s', place M fuel vs' (given []) = .ok s'

/-- Seven chips in the shape of an L with the first chip in the corner, each with two cores. -/
def corner : Machine where
  width := 4
  height := 4
  has := fun c => decide (c.1 < 4 ∧ c.2 < 4 ∧ (c.1 = 0 ∨ c.2 = 0))
  cores := fun _ => [1, 2]
  sdram := fun _ => 100
  board := fun _ => (0, 0)
  links := fun c => [(c.1 + 1, c.2), (c.1, c.2 + 1), (c.1 - 1, c.2), (c.1, c.2 - 1)].filter
    (fun d => decide (d ≠ c ∧ d.1 < 4 ∧ d.2 < 4 ∧ (d.1 = 0 ∨ d.2 = 0)))
  maxSdram := 100
  maxCores := 2
  virtual := fun _ => false
  need := fun _ => 10
  fixed := fun _ => none
  iter := id

/-- Two machine vertices, then twice six. -/
def arms : List AppV :=
  [⟨[([1], 10), ([2], 10)], false⟩,
   ⟨[([3], 10), ([4], 10), ([5], 10), ([6], 10), ([7], 10), ([8], 10)], false⟩,
   ⟨[([9], 10), ([10], 10), ([11], 10), ([12], 10), ([13], 10), ([14], 10)], false⟩]

/-- C153 fails: the first vertex takes the corner, the others an arm each. Without the first, the second takes the corner and the
beginnings of both arms, and the third finds four linked cores in each. -/
theorem C153_false : ¬ C153_full := by
  intro h
  have hok : (place corner 8 arms (given [])).isOk = true := by decide +kernel
  have hno : (place corner 8 (arms.drop 1) (given [])).isOk = false := by decide +kernel
  cases hp : place corner 8 arms (given []) with
  | error e => rw [hp] at hok; cases hok
  | ok s =>
    obtain ⟨s', hs'⟩ := h corner 8 arms (arms.drop 1) s rfl (fun _ => List.Perm.refl _)
      (fun c hc => ⟨(of_decide_eq_true hc).1, (of_decide_eq_true hc).2.1⟩) (by decide +kernel)
      ⟨fun c _ d hd => by
          have := (List.mem_filter.1 hd).2
          exact decide_eq_true (of_decide_eq_true this).2, fun _ => (by decide : [1, 2].Nodup), by simp⟩
      (by decide) (by decide) (List.drop_sublist _ _) hp
    rw [hs'] at hno
    cases hno

/-! ### Where it does not matter how the others lie -/

theorem finds_less {M : Machine} {k t t' n : Nat} (ht : t' ≤ t) (h : Finds M k t n) : Finds M k t' n :=
  fun u hu => h u (Nat.le_trans hu ht)

theorem allFind_sublist {M : Machine} {k : Nat} {ns ns' : List Nat} (hs : ns'.Sublist ns) :
    ∀ {t t' : Nat}, t' ≤ t → AllFind M k t ns → AllFind M k t' ns' := by
  induction hs with
  | slnil => intro _ _ _ _; exact trivial
  | cons n _ ih => intro t t' ht h; exact ih (by omega) h.2
  | cons_cons n _ ih => intro t t' ht h; exact ⟨finds_less ht h.1, ih (by omega) h.2⟩

/-- What is asked of the vertices: no fixed locations, machine vertices of at most `b` bytes that may go anywhere. -/
def Free (M : Machine) (b : Nat) (os : List Plc.Op) (vs : List AppV) : Prop :=
  ∀ v ∈ vs, v.isFixed = false ∧ ∀ g ∈ v.groups, ∃ m, g.1 = [m] ∧ M.virtual m = false ∧ M.need m ≤ g.2 ∧ g.2 ≤ b ∧
    m ∉ (Plc.placements (given os)).map (·.vertex)

theorem place_none {M : Machine} {fuel : Nat} (hmc : 1 ≤ M.maxCores) (os : List Plc.Op) :
    place M fuel [] (given os) = .ok (given os) := by
  unfold place initial
  rw [if_neg (by omega)]
  rfl

theorem free_placed {M : Machine} {fuel k b : Nat} (hb : M.costs = Costs.bytes) (hO : Order M) (hG : Grid M)
    (hf : M.chips.length < fuel) (os : List Plc.Op) (hS : Sane M (Plc.placements (given os))) (vs : List AppV)
    (hn : (allVerts vs).Nodup) (hmc : 1 ≤ M.maxCores) (hms : (b : Int) ≤ M.maxSdram) (hfree : Free M b os vs)
    (hL : Leaves M k b (Plc.placements (given os)))
    (hroom : AllFind M k (taken M k (Plc.placements (given os))) (vs.map (onCores M))) :
    ∃ s, place M fuel vs (given os) = .ok s := by
  have h0 : vs.filter (·.isFixed) = [] := by
    rw [List.filter_eq_nil_iff]
    intro v hv
    rw [(hfree v hv).1]
    decide
  have h1 : vs.filter (fun v => !v.isFixed) = vs := by
    rw [List.filter_eq_self]
    intro v hv
    rw [(hfree v hv).1]
    rfl
  refine C131_beside_partial (k := k) (b := b) hb hO hG hf os hS vs hn hmc hms ?_ ?_ (s1 := given os) ?_ hL ?_
  · intro v hv hh
    rw [(hfree v hv).1] at hh
    cases hh
  · intro v hv _
    exact .inr (hfree v hv).2
  · rw [h0]
    exact place_none hmc os
  · rw [h1]
    exact hroom

theorem allVerts_sublist {vs vs' : List AppV} (h : vs'.Sublist vs) : (allVerts vs').Sublist (allVerts vs) := by
  unfold allVerts
  induction h with
  | slnil => exact List.Sublist.refl _
  | cons a _ ih =>
    rw [List.flatMap_cons]
    exact ih.trans (List.sublist_append_right _ _)
  | cons_cons a _ ih =>
    rw [List.flatMap_cons, List.flatMap_cons]
    exact (List.Sublist.refl _).append ih

/-- C153, what holds: if each vertex finds its cores however those before it lie, then each part of the graph is placed.
Missing: graphs for which it depends on where the vertices lie (`C153_false`). -/
theorem C153_ample_partial {M : Machine} {fuel k b : Nat} (hb : M.costs = Costs.bytes) (hO : Order M) (hG : Grid M)
    (hf : M.chips.length < fuel) (os : List Plc.Op) (hS : Sane M (Plc.placements (given os))) (vs vs' : List AppV)
    (hn : (allVerts vs).Nodup) (hmc : 1 ≤ M.maxCores) (hms : (b : Int) ≤ M.maxSdram) (hfree : Free M b os vs)
    (hL : Leaves M k b (Plc.placements (given os)))
    (hroom : AllFind M k (taken M k (Plc.placements (given os))) (vs.map (onCores M))) (hs : vs'.Sublist vs) :
    ∃ s, place M fuel vs' (given os) = .ok s :=
  free_placed hb hO hG hf os hS vs' (hn.sublist (allVerts_sublist hs)) hmc hms (fun v hv => hfree v (hs.subset hv)) hL
    (allFind_sublist (hs.map _) (Nat.le_refl _) hroom)

/-! ### Application vertices of one machine vertex -/

theorem freeOn_new {M : Machine} {l new : List Placement} (hS : Sane M l)
    (hn : ((l ++ new).map (fun a => (a.x, a.y, a.p))).Nodup) (hnew : ∀ a ∈ new, a.p ∈ M.cores (a.x, a.y)) (c : XY) :
    (at_ new c).length ≤ freeOn M l c := by
  have h1 : (at_ (l ++ new) c).length ≤ (M.cores c).length := by
    have hnd : ((at_ (l ++ new) c).map (·.p)).Nodup := by
      have h2 : ((at_ (l ++ new) c).map (fun a => (a.x, a.y, a.p))).Nodup :=
        hn.sublist (List.Sublist.map _ List.filter_sublist)
      rw [List.Nodup, List.pairwise_map] at h2 ⊢
      refine h2.imp_of_mem ?_
      intro a b ha hb hab he
      have ea := (mem_at.1 ha).2
      have eb := (mem_at.1 hb).2
      have := ea.trans eb.symm
      obtain ⟨e1, e2⟩ := Prod.mk.inj this
      exact hab (by rw [e1, e2, he])
    have := hnd.length_le_of_subset (l₂ := M.cores c) (by
      intro p hp
      obtain ⟨a, ha, rfl⟩ := List.mem_map.1 hp
      obtain ⟨h3, rfl⟩ := mem_at.1 ha
      rcases List.mem_append.1 h3 with h3 | h3
      · exact hS.offered a h3
      · exact hnew a h3)
    rw [List.length_map] at this
    exact this
  rw [at_append, List.length_append] at h1
  unfold freeOn
  omega

theorem at_sum_eq : ∀ (l : List Placement) (cs : List XY), cs.Nodup → (∀ a ∈ l, (a.x, a.y) ∈ cs) →
    l.length ≤ (cs.map (fun c => (at_ l c).length)).sum := by
  intro l
  induction l with
  | nil => intro cs _ _; exact Nat.zero_le _
  | cons a l ih =>
    intro cs hn hm
    have h1 := ih cs hn (fun b hb => hm b (List.mem_cons_of_mem _ hb))
    have h2 : ∀ (cs : List XY), (a.x, a.y) ∈ cs →
        (cs.map (fun c => (at_ l c).length)).sum + 1 ≤ (cs.map (fun c => (at_ (a :: l) c).length)).sum := by
      have hle : ∀ c, (at_ l c).length ≤ (at_ (a :: l) c).length := by
        intro c
        exact (List.Sublist.filter _ (List.sublist_cons_self a l)).length_le
      intro cs
      induction cs with
      | nil => intro h; cases h
      | cons c cs ihc =>
        intro h
        simp only [List.map_cons, List.sum_cons]
        rcases List.mem_cons.1 h with h | h
        · have h3 : (at_ (a :: l) c).length = (at_ l c).length + 1 := by
            unfold at_
            rw [List.filter_cons_of_pos (by rw [h]; simp)]
            rfl
          have h4 : ∀ (cs : List XY), (cs.map (fun c => (at_ l c).length)).sum ≤
              (cs.map (fun c => (at_ (a :: l) c).length)).sum := by
            intro cs
            induction cs with
            | nil => simp
            | cons d cs ihd =>
              simp only [List.map_cons, List.sum_cons]
              have := hle d
              omega
          have := h4 cs
          omega
        · have := ihc h
          have := hle c
          omega
    have := h2 cs (hm a List.mem_cons_self)
    rw [List.length_cons]
    omega

theorem sum_le {f g : XY → Nat} (h : ∀ c, f c ≤ g c) (cs : List XY) : (cs.map f).sum ≤ (cs.map g).sum := by
  induction cs with
  | nil => simp
  | cons c cs ih =>
    simp only [List.map_cons, List.sum_cons]
    have := h c
    omega

theorem taken_free {M : Machine} {k : Nat} {l : List Placement} (hcores : ∀ c, M.has c = true → freeOn M l c ≤ k) :
    taken M k l + (M.chips.map (freeOn M l)).sum = M.chips.length * k := by
  unfold taken
  have hhas : ∀ c ∈ M.chips, M.has c = true := fun c hc => (mem_chips.1 hc).2.2
  revert hhas
  generalize M.chips = cs
  intro hhas
  induction cs with
  | nil => simp
  | cons c cs ih =>
    simp only [List.map_cons, List.sum_cons, List.length_cons]
    have h1 := ih (fun d hd => hhas d (List.mem_cons_of_mem _ hd))
    have h2 := hcores c (hhas c List.mem_cons_self)
    rw [Nat.add_mul, Nat.one_mul]
    omega

theorem allFind_ones {M : Machine} {k : Nat} (hk : 1 ≤ k) : ∀ (ns : List Nat) (t : Nat), (∀ n ∈ ns, n = 1) →
    t + ns.length ≤ M.chips.length * k → AllFind M k t ns := by
  intro ns
  induction ns with
  | nil => intro _ _ _; exact trivial
  | cons n ns ih =>
    intro t h hl
    have hn := h n List.mem_cons_self
    subst hn
    rw [List.length_cons] at hl
    refine ⟨finds_chip hk ?_, ih (t + 1) (fun x hx => h x (List.mem_cons_of_mem _ hx)) (by omega)⟩
    rw [Nat.add_sub_cancel]
    omega

theorem Free.single {M : Machine} {b : Nat} {os : List Plc.Op} {vs : List AppV} (hfree : Free M b os vs)
    (hone : ∀ v ∈ vs, v.groups.length = 1) : ∀ v ∈ vs, ∃ m x, v.groups = [([m], x)] ∧ M.virtual m = false ∧
      m ∉ (Plc.placements (given os)).map (·.vertex) := by
  intro v hv
  obtain ⟨g, hg⟩ := List.length_eq_one_iff.1 (hone v hv)
  obtain ⟨m, hm, hvirt, -, -, hno⟩ := (hfree v hv).2 g (by rw [hg]; simp)
  exact ⟨m, g.2, by rw [hg, ← hm], hvirt, hno⟩

/-- Vertices of one machine vertex each that have been placed are no more than there were free cores. -/
theorem placed_count {M : Machine} {fuel b : Nat} (hO : Order M) (hG : Grid M)
    (hf : M.chips.length < fuel) (os : List Plc.Op) (hS : Sane M (Plc.placements (given os))) (vs : List AppV)
    (hn : (allVerts vs).Nodup) (hfree : Free M b os vs) (hone : ∀ v ∈ vs, v.groups.length = 1) {s : Store}
    (h : place M fuel vs (given os) = .ok s) :
    vs.length ≤ (M.chips.map (freeOn M (Plc.placements (given os)))).sum := by
  obtain ⟨hloc, -, ⟨new, hnew, hin⟩, -⟩ := C31_unique hO hG hf os vs h
  have hone' := hfree.single hone
  have hl : ∀ u ∈ allVerts vs, u ∉ (Plc.placements (given os)).map (·.vertex) := by
    intro u hu
    obtain ⟨v, hv, hu⟩ := List.mem_flatMap.1 hu
    obtain ⟨m, x, hg, -, hno⟩ := hone' v hv
    rw [hg] at hu
    have : u = m := by simpa using hu
    rw [this]
    exact hno
  have htog := C33_together hO hG hf os vs hn hl h
  rw [hnew] at hloc
  have hfit := freeOn_new hS hloc (fun a ha => (hin a ha).2.2)
  have hlen := at_sum_eq new M.chips (chips_nodup M) (fun a ha => by
    have := (hin a ha).2.1
    have hg := hG _ this
    exact mem_chips.2 ⟨hg.1, hg.2, this⟩)
  have hverts : (allVerts vs).length ≤ new.length := by
    have := hn.length_le_of_subset (l₂ := new.map (·.vertex)) (by
      intro u hu
      have hno := hl u hu
      obtain ⟨v, hv, hu⟩ := List.mem_flatMap.1 hu
      obtain ⟨m, x, hg, hvirt, -⟩ := hone' v hv
      have hum : u = m := by
        rw [hg] at hu
        simpa using hu
      subst hum
      obtain ⟨c, hc⟩ := htog v hv ([u], x) (by rw [hg]; simp)
      obtain ⟨a, ha, hau, -⟩ := hc u (by simp) hvirt
      rw [hnew] at ha
      rcases List.mem_append.1 ha with ha | ha
      · exact absurd (List.mem_map.2 ⟨a, ha, hau⟩) hno
      · exact List.mem_map.2 ⟨a, ha, hau⟩)
    rwa [List.length_map] at this
  have hcount : (allVerts vs).length = vs.length := by
    unfold allVerts
    rw [List.length_flatMap]
    have : vs.map (fun v => (v.groups.flatMap (·.1)).length) = vs.map (fun _ => 1) := by
      refine List.map_congr_left fun v hv => ?_
      obtain ⟨m, x, hg, -⟩ := hone' v hv
      rw [hg]
      rfl
    rw [this, List.map_const', List.sum_replicate_nat, Nat.mul_one]
  have := sum_le hfit M.chips
  omega

/-- As many vertices of one machine vertex each as there are free cores are placed. -/
theorem ones_placed {M : Machine} {fuel k b : Nat} (hb : M.costs = Costs.bytes) (hO : Order M) (hG : Grid M)
    (hf : M.chips.length < fuel) (os : List Plc.Op) (hS : Sane M (Plc.placements (given os))) (vs : List AppV)
    (hn : (allVerts vs).Nodup) (hmc : 1 ≤ M.maxCores) (hms : (b : Int) ≤ M.maxSdram) (hfree : Free M b os vs)
    (hone : ∀ v ∈ vs, v.groups.length = 1) (hL : Leaves M k b (Plc.placements (given os)))
    (hl : vs.length ≤ (M.chips.map (freeOn M (Plc.placements (given os)))).sum) :
    ∃ s, place M fuel vs (given os) = .ok s := by
  refine free_placed (k := k) hb hO hG hf os hS vs hn hmc hms hfree hL ?_
  have hroom := taken_free hL.cores
  by_cases h0 : vs = []
  · rw [h0]
    exact trivial
  · have hpos := List.length_pos_iff.2 h0
    have hk : 1 ≤ k := by
      rcases Nat.eq_zero_or_pos k with hk | hk
      · rw [hk, Nat.mul_zero] at hroom
        omega
      · exact hk
    refine allFind_ones hk _ _ ?_ (by rw [List.length_map]; omega)
    intro n hn'
    obtain ⟨v, hv, rfl⟩ := List.mem_map.1 hn'
    obtain ⟨m, x, hg, hvirt, -⟩ := hfree.single hone v hv
    unfold onCores
    rw [hg]
    simp [hvirt]

/-- C153, what holds: application vertices of one machine vertex each, where SDRAM is not the limit. -/
theorem C153_ones_partial {M : Machine} {fuel k b : Nat} (hb : M.costs = Costs.bytes) (hO : Order M) (hG : Grid M)
    (hf : M.chips.length < fuel) (os : List Plc.Op) (hS : Sane M (Plc.placements (given os))) (vs vs' : List AppV)
    (hn : (allVerts vs).Nodup) (hmc : 1 ≤ M.maxCores) (hms : (b : Int) ≤ M.maxSdram) (hfree : Free M b os vs)
    (hone : ∀ v ∈ vs, v.groups.length = 1) (hL : Leaves M k b (Plc.placements (given os))) {s : Store}
    (h : place M fuel vs (given os) = .ok s) (hs : vs'.Sublist vs) :
    ∃ s', place M fuel vs' (given os) = .ok s' :=
  ones_placed hb hO hG hf os hS vs' (hn.sublist (allVerts_sublist hs)) hmc hms (fun v hv => hfree v (hs.subset hv))
    (fun v hv => hone v (hs.subset hv)) hL (Nat.le_trans hs.length_le (placed_count hO hG hf os hS vs hn hfree hone h))

/-- The case: as many application vertices as the two chips have cores beside the monitor, the third left out. -/
def singles : List AppV := (List.range 7).map (fun i => ⟨[([20 + i], 10)], false⟩)

theorem demo_leaves : Leaves demo 4 10 (Plc.placements (given demoOs)) := by
  have hl : Plc.placements (given demoOs) = [⟨100, 0, 0, 1⟩] := by decide +kernel
  have hc : ∀ c, demo.has c = true → c = (0, 0) ∨ c = (1, 0) := fun c hc => of_decide_eq_true hc
  rw [hl]
  refine ⟨?_, ?_, ?_⟩
  · intro c h
    rcases hc c h with rfl | rfl <;> decide +kernel
  · intro c h
    rcases hc c h.1 with rfl | rfl <;> decide +kernel
  · intro c h
    rcases hc c h.1 with rfl | rfl <;> decide +kernel

example : ∃ s', place demo 3 (singles.eraseIdx 2) (given demoOs) = .ok s' := by
  have hok : (place demo 3 singles (given demoOs)).isOk = true := by decide +kernel
  have hS : Sane demo (Plc.placements (given demoOs)) := demo_sane _ (by decide +kernel)
  cases hp : place demo 3 singles (given demoOs) with
  | error e => rw [hp] at hok; cases hok
  | ok s =>
    refine C153_ones_partial (k := 4) (b := 10) rfl (fun _ => List.Perm.refl _) demo_grid (by decide +kernel) demoOs hS
      singles _ (by decide +kernel) (by decide) (by decide) ?_ (by decide +kernel) demo_leaves hp (List.eraseIdx_sublist _ _)
    intro v hv
    obtain ⟨i, hi, rfl⟩ := List.mem_map.1 hv
    have hi := List.mem_range.1 hi
    refine ⟨rfl, ?_⟩
    intro g hg
    rw [List.mem_singleton] at hg
    subst hg
    have : ∀ i < 7, demo.virtual (20 + i) = false ∧ demo.need (20 + i) ≤ 10 ∧
      20 + i ∉ (Plc.placements (given demoOs)).map (·.vertex) := by decide +kernel
    obtain ⟨h1, h2, h3⟩ := this i hi
    exact ⟨20 + i, rfl, h1, h2, Nat.le_refl _, h3⟩

/-- Vertices of two machine vertices each, on the same machine: five of the seven cores. -/
def pairs : List AppV := [⟨[([20], 10), ([21], 10)], false⟩, ⟨[([22], 10), ([23], 10)], false⟩, ⟨[([24], 10)], false⟩]

example : ∃ s', place demo 3 (pairs.drop 1) (given demoOs) = .ok s' := by
  refine C153_ample_partial (k := 4) (b := 10) rfl (fun _ => List.Perm.refl _) demo_grid (by decide +kernel) demoOs
    (demo_sane _ (by decide +kernel)) pairs _ (by decide +kernel) (by decide) (by decide) ?_ demo_leaves ?_
    (List.drop_sublist _ _)
  · have : ∀ v ∈ pairs, v.isFixed = false ∧ ∀ g ∈ v.groups, g.1 = [g.1.headD 0] ∧ demo.virtual (g.1.headD 0) = false ∧
        demo.need (g.1.headD 0) ≤ g.2 ∧ g.2 ≤ 10 ∧ g.1.headD 0 ∉ (Plc.placements (given demoOs)).map (·.vertex) := by
      decide +kernel
    intro v hv
    exact ⟨(this v hv).1, fun g hg => ⟨_, (this v hv).2 g hg⟩⟩
  · exact allFind_few (a := 2) (by decide) _ _ (by decide +kernel) (by decide +kernel)

/-! ### C154: machines with more chips and links -/

/-- A machine with the chips and links of another one and maybe more, the rest being the same. -/
structure Bigger (M M' : Machine) : Prop where
  has : ∀ c, M.has c = true → M'.has c = true
  links : ∀ c, M.has c = true → ∀ d ∈ M.links c, d ∈ M'.links c
  cores : M'.cores = M.cores
  sdram : M'.sdram = M.sdram
  maxSdram : M'.maxSdram = M.maxSdram
  maxCores : M'.maxCores = M.maxCores
  virtual : M'.virtual = M.virtual
  need : M'.need = M.need
  costs : M'.costs = M.costs

/-- C154 in full: a graph that is placed on a machine is placed on one with more chips and links. -/
def C154_full : Prop :=
  ∀ (M M' : Machine) (fuel : Nat) (vs : List AppV) (s : Store), M.costs = Costs.bytes → Order M → Order M' → Grid M → Grid M' →
    M.chips.length < fuel → M'.chips.length < fuel → Sane M [] → Sane M' [] → (allVerts vs).Nodup →
    (∀ v ∈ vs, v.isFixed = false) → Bigger M M' → place M fuel vs (given []) = .ok s → ∃ s', place M' fuel vs (given []) = .ok s'

/-- The machine of `C153_false` without its first chip: two arms that are not linked. -/
def noCorner : Machine := { corner with
  has := fun c => corner.has c && decide (c ≠ (0, 0))
  links := fun c => (corner.links c).filter (fun d => decide (d ≠ (0, 0))) }

/-- C154 fails: with the chip in the corner the first vertex takes it and the beginnings of both arms. -/
theorem C154_false : ¬ C154_full := by
  intro h
  have hok : (place noCorner 8 (arms.drop 1) (given [])).isOk = true := by decide +kernel
  have hno : (place corner 8 (arms.drop 1) (given [])).isOk = false := by decide +kernel
  have hG : Grid corner := fun c hc => ⟨(of_decide_eq_true hc).1, (of_decide_eq_true hc).2.1⟩
  have hlinks : ∀ c, ∀ d ∈ corner.links c, corner.has d = true := fun c d hd => by
    have := (List.mem_filter.1 hd).2
    exact decide_eq_true (of_decide_eq_true this).2
  have hhas : ∀ c, noCorner.has c = true → corner.has c = true := by
    intro c hc
    have : (corner.has c && decide (c ≠ (0, 0))) = true := hc
    rw [Bool.and_eq_true] at this
    exact this.1
  cases hp : place noCorner 8 (arms.drop 1) (given []) with
  | error e => rw [hp] at hok; cases hok
  | ok s =>
    obtain ⟨s', hs'⟩ := h noCorner corner 8 (arms.drop 1) s rfl (fun _ => List.Perm.refl _) (fun _ => List.Perm.refl _)
      (fun c hc => hG c (hhas c hc)) hG (by decide +kernel) (by decide +kernel)
      ⟨fun c _ d hd => by
          obtain ⟨h1, h2⟩ := List.mem_filter.1 hd
          have h3 := hlinks c d h1
          change (corner.has d && decide (d ≠ (0, 0))) = true
          rw [h3, h2]
          rfl, fun _ => (by decide : [1, 2].Nodup), by simp⟩
      ⟨fun c _ d hd => hlinks c d hd, fun _ => (by decide : [1, 2].Nodup), by simp⟩
      (by decide) (by decide)
      ⟨hhas, fun c _ d hd => (List.mem_filter.1 hd).1, rfl, rfl, rfl, rfl, rfl, rfl, rfl⟩ hp
    rw [hs'] at hno
    cases hno

theorem sum_subset {f : XY → Nat} : ∀ (l l' : List XY), l.Nodup → (∀ c ∈ l, c ∈ l') → (l.map f).sum ≤ (l'.map f).sum := by
  intro l
  induction l with
  | nil => intro _ _ _; exact Nat.zero_le _
  | cons a l ih =>
    intro l' hn hs
    rw [List.nodup_cons] at hn
    have hp := List.perm_cons_erase (hs a List.mem_cons_self)
    have h1 := ih (l'.erase a) hn.2 (fun c hc => by
      refine (List.mem_erase_of_ne (fun (he : c = a) => hn.1 (he ▸ hc))).2 ?_
      exact hs c (List.mem_cons_of_mem _ hc))
    have h2 := (hp.map f).sum_nat
    rw [h2]
    simp only [List.map_cons, List.sum_cons]
    omega

theorem Bigger.chips {M M' : Machine} (h : Bigger M M') (hG' : Grid M') : ∀ c ∈ M.chips, c ∈ M'.chips := by
  intro c hc
  have h1 := h.has c (mem_chips.1 hc).2.2
  exact mem_chips.2 ⟨(hG' c h1).1, (hG' c h1).2, h1⟩

theorem Bigger.finds {M M' : Machine} (h : Bigger M M') (hG' : Grid M') {k t n : Nat} (hf : Finds M k t n) :
    Finds M' k t n := by
  intro u hu
  obtain ⟨s, cs, h1, h2, h3⟩ := hf u (Nat.le_trans (sum_subset _ _ (chips_nodup M) (h.chips hG')) hu)
  refine ⟨s, cs, h1, fun c hc => ?_, h3⟩
  have hw := h2 c hc
  clear h2 hc h3
  induction hw with
  | here hc => exact .here ⟨h.has _ hc.1, hc.2⟩
  | step hw hl hd ih =>
    refine .step ih (h.links _ ?_ _ hl) ⟨h.has _ hd.1, hd.2⟩
    cases hw with
    | here hc => exact hc.1
    | step _ _ hc => exact hc.1

theorem Bigger.allFind {M M' : Machine} (h : Bigger M M') (hG' : Grid M') {k : Nat} : ∀ {ns : List Nat} {t t' : Nat},
    t' ≤ t → AllFind M k t ns → AllFind M' k t' ns := by
  intro ns
  induction ns with
  | nil => intro _ _ _ _; exact trivial
  | cons n ns ih =>
    intro t t' ht hf
    exact ⟨finds_less ht (h.finds hG' hf.1), ih (by omega) hf.2⟩

theorem Bigger.sameFree {M M' : Machine} (h : Bigger M M') (l : List Placement) (c : XY) : freeOn M' l c = freeOn M l c := by
  unfold Placer.freeOn
  rw [h.cores]

theorem Bigger.free {M M' : Machine} (h : Bigger M M') {b : Nat} {os : List Plc.Op} {vs : List AppV} (hf : Free M b os vs) :
    Free M' b os vs := by
  unfold Free at hf ⊢
  rw [h.virtual, h.need]
  exact hf

/-- Chips that are added with all cores free add nothing to the cores that are taken. -/
theorem Bigger.noMore {M M' : Machine} (h : Bigger M M') {k : Nat} {l : List Placement}
    (hnew : ∀ c, M'.has c = true → M.has c = false → k ≤ freeOn M' l c) (hG : Grid M) : taken M' k l ≤ taken M k l := by
  unfold Placer.taken
  have h1 : ∀ cs : List XY, (∀ c ∈ cs, M'.has c = true) → (cs.map (fun c => k - Placer.freeOn M' l c)).sum ≤
      ((cs.filter M.has).map (fun c => k - Placer.freeOn M l c)).sum := by
    intro cs
    induction cs with
    | nil => intro _; simp
    | cons c cs ih =>
      intro hc
      have h2 := ih (fun d hd => hc d (List.mem_cons_of_mem _ hd))
      cases hm : M.has c with
      | true =>
        rw [List.filter_cons_of_pos hm]
        simp only [List.map_cons, List.sum_cons]
        rw [h.sameFree l c]
        exact Nat.add_le_add_left h2 _
      | false =>
        rw [List.filter_cons_of_neg (by rw [hm]; decide)]
        simp only [List.map_cons, List.sum_cons]
        have := hnew c (hc c List.mem_cons_self) hm
        omega
  refine Nat.le_trans (h1 M'.chips (fun c hc => (mem_chips.1 hc).2.2)) ?_
  refine sum_subset _ _ ((chips_nodup M').filter _) ?_
  intro c hc
  have hm := (List.mem_filter.1 hc).2
  exact mem_chips.2 ⟨(hG c hm).1, (hG c hm).2, hm⟩

/-- C154, what holds: if each vertex finds its cores on the machine however those before it lie, then all are placed also where there
are more links, and more chips, with `k` free cores each.
Missing: graphs for which it depends on where the vertices lie (`C154_false`). -/
theorem C154_ample_partial {M M' : Machine} {fuel k b : Nat} (hb : M.costs = Costs.bytes) (hO : Order M') (hG : Grid M)
    (hG' : Grid M') (hf : M'.chips.length < fuel) (os : List Plc.Op) (hS : Sane M' (Plc.placements (given os)))
    (vs : List AppV) (hn : (allVerts vs).Nodup) (hmc : 1 ≤ M.maxCores) (hms : (b : Int) ≤ M.maxSdram)
    (hfree : Free M b os vs) (hL : Leaves M' k b (Plc.placements (given os)))
    (hroom : AllFind M k (taken M k (Plc.placements (given os))) (vs.map (onCores M))) (h : Bigger M M')
    (hnew : ∀ c, M'.has c = true → M.has c = false → k ≤ freeOn M' (Plc.placements (given os)) c) :
    ∃ s, place M' fuel vs (given os) = .ok s := by
  refine free_placed (k := k) (b := b) (h.costs.trans hb) hO hG' hf os hS vs hn (by rw [h.maxCores]; exact hmc)
    (by rw [h.maxSdram]; exact hms) (h.free hfree) hL ?_
  have : vs.map (onCores M') = vs.map (onCores M) := by
    refine List.map_congr_left fun v _ => ?_
    unfold onCores
    rw [h.virtual]
  rw [this]
  exact h.allFind hG' (h.noMore hnew hG) hroom

/-- C154, what holds: application vertices of one machine vertex each, where SDRAM is not the limit. -/
theorem C154_ones_partial {M M' : Machine} {fuel fuel' k b : Nat} (hb : M.costs = Costs.bytes) (hO : Order M) (hO' : Order M')
    (hG : Grid M) (hG' : Grid M') (hf : M.chips.length < fuel) (hf' : M'.chips.length < fuel') (os : List Plc.Op)
    (hS : Sane M (Plc.placements (given os))) (hS' : Sane M' (Plc.placements (given os))) (vs : List AppV)
    (hn : (allVerts vs).Nodup) (hmc : 1 ≤ M.maxCores) (hms : (b : Int) ≤ M.maxSdram) (hfree : Free M b os vs)
    (hone : ∀ v ∈ vs, v.groups.length = 1) (hL : Leaves M' k b (Plc.placements (given os))) (h : Bigger M M') {s : Store}
    (hp : place M fuel vs (given os) = .ok s) : ∃ s', place M' fuel' vs (given os) = .ok s' := by
  refine ones_placed (k := k) (b := b) (h.costs.trans hb) hO' hG' hf' os hS' vs hn (by rw [h.maxCores]; exact hmc)
    (by rw [h.maxSdram]; exact hms) (h.free hfree) hone hL ?_
  refine Nat.le_trans (placed_count hO hG hf os hS vs hn hfree hone hp) ?_
  have : freeOn M' (Plc.placements (given os)) = freeOn M (Plc.placements (given os)) := funext (h.sameFree _)
  rw [this]
  exact sum_subset _ _ (chips_nodup M) (h.chips hG')

theorem corner_sane : Sane corner [] :=
  ⟨fun c _ d hd => decide_eq_true (of_decide_eq_true (List.mem_filter.1 hd).2).2, fun _ => (by decide : [1, 2].Nodup), by simp⟩

theorem corner_grid : Grid corner := fun _ hc => ⟨(of_decide_eq_true hc).1, (of_decide_eq_true hc).2.1⟩

theorem noCorner_has {c : XY} (hc : noCorner.has c = true) : corner.has c = true := by
  have : (corner.has c && decide (c ≠ (0, 0))) = true := hc
  rw [Bool.and_eq_true] at this
  exact this.1

theorem noCorner_sane : Sane noCorner [] := by
  refine ⟨fun c hc d hd => ?_, corner_sane.cores, by simp⟩
  obtain ⟨h1, h2⟩ := List.mem_filter.1 hd
  have h3 := corner_sane.links c (noCorner_has hc) d h1
  change (corner.has d && decide (d ≠ (0, 0))) = true
  rw [h3, h2]
  rfl

theorem corner_bigger : Bigger noCorner corner :=
  ⟨fun _ => noCorner_has, fun _ _ _ hd => (List.mem_filter.1 hd).1, rfl, rfl, rfl, rfl, rfl, rfl, rfl⟩

theorem corner_leaves : Leaves corner 2 10 (Plc.placements (given [])) := by
  have hl : Plc.placements (given []) = [] := by decide +kernel
  rw [hl]
  refine ⟨fun c _ => (by change 2 - 0 ≤ 2; decide), fun c _ => ?_, fun c _ => ?_⟩
  · change (((0 + (2 - 0 - 1) * 10 : Nat)) : Int) ≤ 100 - Int.fdiv 100 2
    decide
  · change 0 + (2 - 0) * 10 ≤ 100
    decide

/-- The case: twelve single vertices fill the two arms; with the corner there is room too. -/
example : (place noCorner 8 ((List.range 12).map (fun i => ⟨[([i], 10)], false⟩)) (given [])).isOk = true ∧
    ∃ s', place corner 8 ((List.range 12).map (fun i => ⟨[([i], 10)], false⟩)) (given []) = .ok s' := by
  have hok : (place noCorner 8 ((List.range 12).map (fun i => ⟨[([i], 10)], false⟩)) (given [])).isOk = true := by decide +kernel
  have hl : Plc.placements (given []) = [] := by decide +kernel
  refine ⟨hok, ?_⟩
  cases hp : place noCorner 8 ((List.range 12).map (fun i => ⟨[([i], 10)], false⟩)) (given []) with
  | error e => rw [hp] at hok; cases hok
  | ok s =>
    refine C154_ones_partial (M := noCorner) (M' := corner) (fuel := 8) (k := 2) (b := 10) rfl (fun _ => List.Perm.refl _) (fun _ => List.Perm.refl _)
      (fun _ hc => corner_grid _ (noCorner_has hc)) corner_grid (by decide +kernel) (by decide +kernel) []
      (by rw [hl]; exact noCorner_sane) (by rw [hl]; exact corner_sane) _ (by decide +kernel) (by decide) (by decide) ?_
      (by decide +kernel) corner_leaves corner_bigger hp
    intro v hv
    obtain ⟨i, -, rfl⟩ := List.mem_map.1 hv
    refine ⟨rfl, ?_⟩
    intro g hg
    rw [List.mem_singleton] at hg
    subst hg
    exact ⟨i, rfl, rfl, Nat.le_refl _, Nat.le_refl _, by rw [hl]; simp⟩

/-- The case: three vertices of two machine vertices each, which find a free chip however those before them lie. -/
example : ∃ s', place corner 8 ((List.range 3).map (fun i => ⟨[([2 * i], 10), ([2 * i + 1], 10)], false⟩)) (given []) = .ok s' := by
  have hl : Plc.placements (given []) = [] := by decide +kernel
  refine C154_ample_partial (M := noCorner) (M' := corner) (k := 2) (b := 10) rfl (fun _ => List.Perm.refl _)
    (fun _ hc => corner_grid _ (noCorner_has hc)) corner_grid (by decide +kernel) [] (by rw [hl]; exact corner_sane) _
    (by decide +kernel) (by decide) (by decide) ?_ corner_leaves ?_ corner_bigger (fun c _ _ => by rw [hl]; exact Nat.le_refl 2)
  · intro v hv
    obtain ⟨i, -, rfl⟩ := List.mem_map.1 hv
    refine ⟨rfl, ?_⟩
    intro g hg
    rcases List.mem_cons.1 hg with rfl | hg
    · exact ⟨2 * i, rfl, rfl, Nat.le_refl _, Nat.le_refl _, by rw [hl]; simp⟩
    · rw [List.mem_singleton] at hg
      subst hg
      exact ⟨2 * i + 1, rfl, rfl, Nat.le_refl _, Nat.le_refl _, by rw [hl]; simp⟩
  · exact allFind_few (a := 2) (by decide) _ _ (by decide +kernel) (by decide +kernel)

end Pacman.Placer
