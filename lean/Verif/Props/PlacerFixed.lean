import Verif.Props.Placer
/-
C35 and C82: vertices with a fixed location.
-/

namespace Pacman.Placer

open Plc (Placement Store Inv)

/-! ### C82 -/

/-- C82 in full: after the placer, each vertex of an application vertex with a fixed location is where it is fixed. -/
def C82_full : Prop :=
  ∀ (M : Machine) (fuel : Nat) (os : List Plc.Op) (vs : List AppV) (s' : Store), Order M → Grid M →
    M.chips.length < fuel → place M fuel vs (given os) = .ok s' →
    ∀ v ∈ vs, v.isFixed = true → ∀ g ∈ v.groups, ∀ u ∈ g.1, M.virtual u = false →
    ∀ c q, M.fixed u = some (c, q) →
    ∃ a ∈ Plc.placements s', a.vertex = u ∧ (a.x, a.y) = c ∧ ∀ p, q = some p → a.p = p

/-- C82 fails: only the chip of the first vertex of the group is looked at. -/
theorem C82_false : ¬ C82_full := by
  intro h
  have hp : listed (place demo 3 [⟨[([8, 6], 20)], true⟩] (given [])) = some [⟨8, 1, 0, 2⟩, ⟨6, 1, 0, 3⟩] := by
    decide +kernel
  unfold listed at hp
  split at hp
  · rename_i s' hs
    obtain ⟨a, ha, h1, h2, _⟩ := h demo 3 [] [⟨[([8, 6], 20)], true⟩] s' demo_order demo_grid (by decide +kernel) hs
      _ (List.mem_singleton.2 rfl) rfl ([8, 6], 20) (by simp) 6 (by simp) (by decide) (0, 0) none (by decide)
    rw [Option.some.inj hp] at ha
    simp only [List.mem_cons, List.not_mem_nil, or_false] at ha
    rcases ha with rfl | rfl <;> cases h2
  · cases hp

/-- C82, what holds: each vertex of an application vertex with a fixed location is on the chip and core to which it is
fixed, if all vertices of its group that are fixed are fixed to the same chip. -/
theorem C82_honoured_partial {M : Machine} {fuel : Nat} (hO : Order M) (hG : Grid M) (hf : M.chips.length < fuel)
    (os : List Plc.Op) (vs : List AppV) {s' : Store} (h : place M fuel vs (given os) = .ok s')
    {v : AppV} (hv : v ∈ vs) (hvf : v.isFixed = true) {g : List Nat × Nat} (hg : g ∈ v.groups)
    {u : Nat} (hu : u ∈ g.1) (hvu : M.virtual u = false) {c : XY} {q : Option Nat} (hc : M.fixed u = some (c, q))
    (hsame : ∀ w ∈ g.1, ∀ d r, M.fixed w = some (d, r) → d = c) :
    ∃ a ∈ Plc.placements s', a.vertex = u ∧ (a.x, a.y) = c ∧ ∀ p, q = some p → a.p = p := by
  obtain ⟨fs, l', hN, hI, hC⟩ := place_ok False hO hG hf (fun k => k.elim) (given_inv os) h
  rw [placements_eq hI]
  obtain ⟨_, d, ⟨w, hw, _, r, hr⟩, h2⟩ := hN.group v hv hvf g hg
  obtain ⟨a, ha, hau, hac, hp⟩ := h2 u hu hvu
  obtain ⟨bs, h3, _⟩ := hC.prefix
  refine ⟨a, by rw [h3]; simp [ha], hau, hac.trans (hsame w hw d r hr), ?_⟩
  rintro p rfl
  exact hp p (by simp [Machine.core, hc])

example : (∃ s', place demo 3 demoVs (given demoOs) = .ok s') ∧ (⟨[([8], 10)], true⟩ : AppV) ∈ demoVs ∧
    demo.fixed 8 = some ((1, 0), some 2) ∧ (⟨8, 1, 0, 2⟩ : Placement) ∈ demoPlaced :=
  ⟨demo_ok, by decide, by decide, by decide⟩

/-! ### C35 -/

/-- The vertices are fixed to different cores of a chip, which are offered and free. -/
structure Requests (M : Machine) (l : List Placement) (c : XY) (vs ps : List Nat) : Prop where
  some_ : vs ≠ []
  once : vs.Nodup
  open_ : ∀ v ∈ vs, M.virtual v = false ∧ v ∉ l.map (·.vertex)
  asks : vs.map M.fixed = ps.map (fun p => some (c, some p))
  distinct : ps.Nodup
  free : ∀ p ∈ ps, p ∈ M.cores c ∧ ∀ a ∈ l, (a.x, a.y) = c → a.p ≠ p

/-- C35 in full: an application vertex with a group whose vertices are fixed to different free cores of a chip is
placed, each vertex on its core. -/
def C35_full : Prop :=
  ∀ (M : Machine) (fuel : Nat) (os : List Plc.Op) (c : XY) (vs ps : List Nat) (sdram : Nat), Order M → Grid M →
    M.chips.length < fuel → M.maxCores ≠ 0 → M.has c = true → (M.cores c).Nodup →
    Requests M (Plc.placements (given os)) c vs ps →
    ∃ s', place M fuel [⟨[(vs, sdram)], true⟩] (given os) = .ok s' ∧
      ∀ a ∈ (vs.zip ps).map (fun x => (⟨x.1, c.1, c.2, x.2⟩ : Placement)), a ∈ Plc.placements s'

/-- C35 fails: looking for a core in the iterator drops the cores before it, so that core 1 is not available after
core 2. -/
theorem C35_false : ¬ C35_full := by
  intro h
  obtain ⟨s', hs, _⟩ := h demo 3 [] (1, 0) [8, 9] [2, 1] 20 demo_order demo_grid (by decide +kernel) (by decide)
    (by decide) (show [1, 2, 3, 4].Nodup by decide)
    ⟨by decide, by decide, by decide +kernel, by decide, by decide, by decide +kernel⟩
  have : place demo 3 [⟨[([8, 9], 20)], true⟩] (given []) = .error .configuration := by decide +kernel
  rw [this] at hs
  cases hs

theorem consume_sublist {p : Nat} {ps it : List Nat} (h : (p :: ps).Sublist it) :
    ∃ it', consume p it = some it' ∧ ps.Sublist it' := by
  induction it with
  | nil => cases h
  | cons q it ih =>
    rw [consume]
    by_cases hq : q = p
    · rw [if_pos hq]
      refine ⟨it, rfl, ?_⟩
      subst hq
      cases h with
      | cons _ h => exact (List.sublist_cons_self ..).trans h
      | cons_cons _ h => exact h
    · rw [if_neg hq]
      cases h with
      | cons _ h => exact ih h
      | cons_cons _ h => exact absurd rfl hq

theorem fixedCores_total {M : Machine} {c : XY} {vs ps : List Nat} {s : Store} {l : List Placement} {it : List Nat}
    (hI : Inv s l) (hask : vs.map M.fixed = ps.map (fun p => some (c, some p))) (hsub : ps.Sublist it)
    (hO : Open l c vs it) :
    ∃ s' it', fixedCores M c vs s it = .ok (s', it') ∧
      Inv s' (l ++ (vs.zip ps).map (fun x => ⟨x.1, c.1, c.2, x.2⟩)) := by
  induction vs generalizing ps s l it with
  | nil => exact ⟨s, it, rfl, by simpa using hI⟩
  | cons v vs ih =>
    cases ps with
    | nil => cases hask
    | cons p ps =>
      simp only [List.map_cons, List.cons.injEq] at hask
      rw [fixedCores]
      have hc : M.core v = some p := by simp [Machine.core, hask.1]
      obtain ⟨it', hcons, hsub'⟩ := consume_sublist hsub
      rw [hc]
      simp only [hcons]
      have hA := add_spec hI ⟨v, c.1, c.2, p⟩
      obtain ⟨d, hd⟩ := consume_ok hcons
      cases ha : Plc.add s ⟨v, c.1, c.2, p⟩ with
      | mk s1 res =>
        rw [ha] at hA
        cases res with
        | error e =>
          simp only at hA
          refine absurd ⟨?_, hO.2.2.2 v (by simp)⟩ hA.2.2
          intro b hb hbc he
          exact hO.2.1 b hb hbc (by rw [hd, he]; simp)
        | ok u =>
          simp only at hA ⊢
          obtain ⟨s', it'', h1, h2⟩ := ih hA hask.2 hsub' (hO.add ⟨d, hd⟩)
          exact ⟨s', it'', h1, by simpa using h2⟩

theorem anyCores_none {M : Machine} {c : XY} {vs : List Nat} (h : ∀ v ∈ vs, (M.core v).isSome = true) (s : Store)
    (it : List Nat) : anyCores M c vs s it = .ok s := by
  induction vs with
  | nil => rfl
  | cons v vs ih =>
    unfold anyCores
    cases hc : M.core v with
    | none =>
      have := h v (by simp)
      rw [hc] at this
      cases this
    | some p => exact ih (fun w hw => h w (by simp [hw]))

/-- C35, what holds: the requests are met if they come in the order in which the set of free cores is gone through.
Missing: all other orders. -/
theorem C35_ordered_partial {M : Machine} {fuel : Nat} (hO : Order M) (hf : 0 < fuel)
    (hm : M.maxCores ≠ 0) (os : List Plc.Op) {c : XY} {vs ps : List Nat} (sdram : Nat) (hh : M.has c = true)
    (hcores : (M.cores c).Nodup) (hR : Requests M (Plc.placements (given os)) c vs ps)
    (hsub : ps.Sublist (M.iter ((M.cores c).filter
      (fun p => decide (p ∉ ((Plc.placementsOnChip (given os) c).2).map (·.p)))))) :
    ∃ s', place M fuel [⟨[(vs, sdram)], true⟩] (given os) = .ok s' ∧
      Plc.placements s' = Plc.placements (given os) ++ (vs.zip ps).map (fun x => (⟨x.1, c.1, c.2, x.2⟩ : Placement)) := by
  have hI := given_inv os
  have h0 : initial M (given os) = .ok ⟨given os, M.chips, [], [], [], [], none, [], [], none, [], []⟩ := by
    unfold initial
    rw [if_neg hm]
  have hlen : vs.length = ps.length := by simpa using congrArg List.length hR.asks
  have hcore : ∀ v ∈ vs, (M.core v).isSome = true := by
    intro v hv
    have : M.fixed v ∈ ps.map (fun p => some (c, some p)) := by
      rw [← hR.asks]
      exact List.mem_map.2 ⟨v, hv, rfl⟩
    obtain ⟨p, _, hp⟩ := List.mem_map.1 this
    simp [Machine.core, ← hp]
  have hfilter : ∀ s, Inv s (Plc.placements (given os)) → filterVertices M s vs = .ok vs := by
    intro s hs
    have hp : ∀ v ∈ vs, Plc.isPlaced s v = false := by
      intro v hv
      cases hq : Plc.isPlaced s v with
      | false => rfl
      | true =>
        obtain ⟨a, ha, hav⟩ := (hs.placed_iff v).1 hq
        exact absurd (List.mem_map.2 ⟨a, ha, hav⟩) (hR.open_ v hv).2
    have h1 : vs.filter (fun v => !Plc.isPlaced s v) = vs := by
      rw [List.filter_eq_self]
      intro v hv
      simp [hp v hv]
    have h2 : vs.filter (fun v => !M.virtual v) = vs := by
      rw [List.filter_eq_self]
      intro v hv
      simp [(hR.open_ v hv).1]
    unfold filterVertices
    simp only [h1, h2]
    rw [if_neg (by simp)]
  have hloc : firstLoc M vs = some c := by
    cases hv : vs with
    | nil => exact absurd hv hR.some_
    | cons v vs' =>
      cases hps : ps with
      | nil => rw [hv, hps] at hlen; cases hlen
      | cons p ps' =>
        have := hR.asks
        rw [hv, hps] at this
        simp only [List.map_cons, List.cons.injEq] at this
        rw [firstLoc, this.1]
  have hopen : Open (Plc.placements (given os)) c vs (freeCores M (given os) c) := by
    refine ⟨?_, ?_, hR.once, fun v hv => (hR.open_ v hv).2⟩
    · unfold freeCores
      rw [(hO _).nodup_iff]
      exact List.Pairwise.filter _ hcores
    · intro a ha hac hmem
      exact ((mem_freeCores hO hI).1 hmem).2 a ha hac rfl
  obtain ⟨s1, it1, h1, h2⟩ := fixedCores_total (it := freeCores M (given os) c) (onChip_inv hI c) hR.asks hsub hopen
  have hfix : fixedAll M [⟨[(vs, sdram)], true⟩] (given os) = .ok s1 := by
    have hd : doFixed M vs (given os) = .ok s1 := by
      unfold doFixed
      rw [hloc]
      simp only [hh, Bool.true_eq_false, if_false, h1]
      exact anyCores_none hcore s1 it1
    simp [fixedAll, placeFixed, fixedGroups, hfilter _ hI, hd]
  have hfilter' : filterVertices M s1 vs = .ok [] := by
    have hp : ∀ v ∈ vs, Plc.isPlaced s1 v = true := by
      intro v hv
      refine (h2.placed_iff v).2 ?_
      obtain ⟨i, hi, hiv⟩ := List.getElem_of_mem hv
      refine ⟨⟨v, c.1, c.2, ps[i]'(by omega)⟩, List.mem_append_right _ (List.mem_map.2 ⟨(v, ps[i]'(by omega)), ?_, rfl⟩), rfl⟩
      have hz : (vs.zip ps)[i]'(by simp; omega) = (v, ps[i]'(by omega)) := by simp [hiv]
      rw [← hz]
      exact List.getElem_mem _
    have h3 : vs.filter (fun v => !Plc.isPlaced s1 v) = [] := by
      rw [List.filter_eq_nil_iff]
      intro v hv
      simp [hp v hv]
    unfold filterVertices
    simp only [h3]
    simp
  have hvert : ∃ st', placeVertex M fuel ⟨[(vs, sdram)], true⟩
      ⟨s1, M.chips, [], [], [], [], none, [], [], none, [], []⟩ = .ok st' ∧ st'.store = s1 := by
    cases fuel with
    | zero => omega
    | succ fuel =>
      unfold placeVertex
      simp [attempts, prepare, prepareLoop, hfilter', Plc.addAll]
  obtain ⟨st', hst, hst'⟩ := hvert
  refine ⟨s1, ?_, placements_eq h2⟩
  unfold place
  rw [h0]
  simp [hfix, placeAll, hst, hst']

/-- Increasing lists of which one holds the other. -/
theorem sublist_of_sorted {xs ys : List Nat} (hx : xs.Pairwise (· < ·)) (hy : ys.Pairwise (· < ·))
    (h : ∀ x ∈ xs, x ∈ ys) : xs.Sublist ys := by
  induction ys generalizing xs with
  | nil =>
    cases xs with
    | nil => exact .slnil
    | cons x xs => exact absurd (h x (by simp)) (by simp)
  | cons y ys ih =>
    cases xs with
    | nil => exact List.nil_sublist _
    | cons x xs =>
      rw [List.pairwise_cons] at hx hy
      by_cases hxy : x = y
      · subst hxy
        refine List.Sublist.cons_cons _ (ih hx.2 hy.2 ?_)
        intro z hz
        have hlt := hx.1 z hz
        rcases List.mem_cons.1 (h z (by simp [hz])) with rfl | h'
        · omega
        · exact h'
      · refine List.Sublist.cons _ (ih (List.pairwise_cons.2 hx) hy.2 ?_)
        have hxm : x ∈ ys := by
          rcases List.mem_cons.1 (h x (by simp)) with h' | h'
          · exact absurd h' hxy
          · exact h'
        have hyx := hy.1 x hxm
        intro z hz
        rcases List.mem_cons.1 hz with rfl | hz
        · exact hxm
        · have hlt := hx.1 z hz
          rcases List.mem_cons.1 (h z (by simp [hz])) with rfl | h'
          · omega
          · exact h'

/-- C35 for increasing requests: where Python goes through a set of core numbers in increasing order, requests in
increasing order are always met. -/
theorem C35_increasing_partial {M : Machine} {fuel : Nat} (hO : Order M) (hf : 0 < fuel)
    (hinc : ∀ l : List Nat, l.Nodup → (M.iter l).Pairwise (· < ·))
    (hm : M.maxCores ≠ 0) (os : List Plc.Op) {c : XY} {vs ps : List Nat} (sdram : Nat) (hh : M.has c = true)
    (hcores : (M.cores c).Nodup) (hR : Requests M (Plc.placements (given os)) c vs ps) (hps : ps.Pairwise (· < ·)) :
    ∃ s', place M fuel [⟨[(vs, sdram)], true⟩] (given os) = .ok s' ∧
      Plc.placements s' = Plc.placements (given os) ++ (vs.zip ps).map (fun x => (⟨x.1, c.1, c.2, x.2⟩ : Placement)) := by
  refine C35_ordered_partial hO hf hm os sdram hh hcores hR ?_
  refine sublist_of_sorted hps (hinc _ (List.Pairwise.filter _ hcores)) ?_
  intro p hp
  exact (mem_freeCores hO (given_inv os)).2 (hR.free p hp)

example : Requests demo (Plc.placements (given demoOs)) (1, 0) [9, 8] [1, 2] ∧ [1, 2].Pairwise (· < ·) ∧
    [1, 2].Sublist (demo.iter ((demo.cores (1, 0)).filter
      (fun p => decide (p ∉ ((Plc.placementsOnChip (given demoOs) (1, 0)).2).map (·.p))))) :=
  ⟨⟨by decide, by decide, by decide +kernel, by decide, by decide, by decide +kernel⟩, by decide, by decide +kernel⟩

end Pacman.Placer
