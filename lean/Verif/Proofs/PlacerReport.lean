import Verif.Spec.PlacerReport
import Verif.Proofs.PlacerAll
import Verif.Props.Placer
/-
The report on a graph that is not placed: lemmas.
-/

namespace Pacman.Placer

open Plc (Placement Store Inv)

/-- Of the machine vertices of a vertex all that go on cores are placed, or none. -/
def AllOrNone (M : Machine) (l : List Placement) (v : AppV) : Prop :=
  (∀ u ∈ v.verts, M.virtual u = false → u ∈ l.map (·.vertex)) ∨ ∀ u ∈ v.verts, u ∉ l.map (·.vertex)

theorem placed_mem {s : Store} {l : List Placement} (hI : Inv s l) (u : Nat) : Plc.isPlaced s u = true ↔ u ∈ l.map (·.vertex) := by
  rw [hI.placed_iff, List.mem_map]

/-- The loop over the groups follows `placeError`. -/
theorem reportGroups_error {M : Machine} {s : Store} : ∀ (gs : List (List Nat × Nat)) (found : Bool),
    (∀ e, reportGroups M s found gs = .error e ↔ errorGroups M s gs = .error e) := by
  intro gs
  induction gs with
  | nil => intro found e; simp [reportGroups, errorGroups]
  | cons g gs ih =>
    intro found e
    rw [reportGroups, errorGroups]
    cases g.1 with
    | nil => simp
    | cons v ws =>
      simp only
      split
      · simp
      · split
        · exact ih true e
        · split <;> simp

theorem reportVertices_error {M : Machine} {s : Store} : ∀ (vs : List AppV) (r : List AppV × Nat × Nat),
    (∃ r', reportVertices M s vs r = .ok r' ∧ placeError M s vs = .place) ∨
      ∃ e, reportVertices M s vs r = .error e ∧ placeError M s vs = e ∧ e = .indexError := by
  intro vs
  induction vs with
  | nil => intro r; exact .inl ⟨r, rfl, rfl⟩
  | cons v vs ih =>
    rintro ⟨us, count, n⟩
    rw [reportVertices, placeError]
    have h0 := reportGroups_error (M := M) (s := s) v.groups false
    cases h : reportGroups M s false v.groups with
    | error e =>
      have h1 := (h0 e).1 h
      have h2 : e = .indexError := by
        clear h h0 ih
        generalize v.groups = gs at h1
        induction gs with
        | nil => cases h1
        | cons g gs ih =>
          rw [errorGroups] at h1
          split at h1
          · cases h1; rfl
          · split at h1
            · cases h1
            · split at h1
              · exact ih h1
              · cases h1
      rw [h1]
      exact .inr ⟨e, rfl, rfl, h2⟩
    | ok r =>
      cases h3 : errorGroups M s v.groups with
      | error e => rw [(h0 e).2 h3] at h; cases h
      | ok w =>
        obtain ⟨b, o⟩ := r
        cases b with
        | true => exact ih _
        | false => cases o <;> exact ih _

/-- A vertex that is wholly placed is passed by; one of which nothing is placed is listed where it goes on cores. Nothing is counted. -/
theorem reportGroups_whole {M : Machine} {s : Store} {l : List Placement} (hI : Inv s l) : ∀ (gs : List (List Nat × Nat))
    (found : Bool) (r : Bool × Option Nat), (∀ u ∈ gs.flatMap (·.1), M.virtual u = false → u ∈ l.map (·.vertex)) →
    reportGroups M s found gs = .ok r → r = (true, none) := by
  intro gs
  induction gs with
  | nil => intro found r _ h; cases h; rfl
  | cons g gs ih =>
    intro found r h1 h
    rw [reportGroups] at h
    split at h
    · cases h
    · rename_i v ws hg
      split at h
      · cases h; rfl
      · rename_i hv
        rw [if_pos] at h
        · exact ih _ _ (fun u hu => h1 u (by rw [List.flatMap_cons]; exact List.mem_append_right _ hu)) h
        · exact (placed_mem hI v).2 (h1 v (by rw [List.flatMap_cons, hg]; simp) (by simpa using hv))

theorem reportGroups_spec {M : Machine} {s : Store} {l : List Placement} (hI : Inv s l) {v : AppV} (hp : Unmixed M v)
    (hw : AllOrNone M l v) {r : Bool × Option Nat} (h : reportGroups M s false v.groups = .ok r) :
    r.2 = none ∧ (r.1 = false ↔ Lacks M l v) := by
  rcases hw with hw | hw
  · rw [reportGroups_whole hI _ _ _ hw h]
    refine ⟨rfl, by simp, ?_⟩
    rintro ⟨u, h1, h2, h3⟩
    exact absurd (hw u h1 h2) h3
  · cases hg : v.groups with
    | nil =>
      rw [hg] at h
      cases h
      refine ⟨rfl, by simp, ?_⟩
      rintro ⟨u, h1, -⟩
      rw [hg] at h1
      cases h1
    | cons g gs =>
      rw [hg, reportGroups] at h
      split at h
      · cases h
      · rename_i u us hu
        have hmem : u ∈ v.verts := by rw [AppV.verts, hg, List.flatMap_cons, hu]; simp
        split at h
        · rename_i hv
          cases h
          refine ⟨rfl, by simp, ?_⟩
          rintro ⟨w, h1, h2, -⟩
          rcases hp with hp | hp
          · rw [hp w h1] at h2; cases h2
          · rw [hp u hmem] at hv; cases hv
        · rename_i hv
          rw [if_neg (fun hpl => hw u hmem ((placed_mem hI u).1 hpl))] at h
          cases h
          exact ⟨rfl, fun _ => ⟨u, hmem, by simpa using hv, hw u hmem⟩, fun _ => rfl⟩

theorem reportVertices_spec {M : Machine} {s : Store} {l : List Placement} (hI : Inv s l) : ∀ (vs : List AppV)
    (us : List AppV) (r : List AppV × Nat × Nat), (∀ v ∈ vs, Unmixed M v ∧ AllOrNone M l v) →
    reportVertices M s vs (us, 0, 0) = .ok r →
    r.2 = (0, 0) ∧ ∀ v, v ∈ r.1 ↔ v ∈ us ∨ (v ∈ vs ∧ Lacks M l v) := by
  intro vs
  induction vs with
  | nil => intro us r _ h; cases h; exact ⟨rfl, fun v => by simp⟩
  | cons w vs ih =>
    intro us r hw h
    rw [reportVertices] at h
    cases h0 : reportGroups M s false w.groups with
    | error e => rw [h0] at h; cases h
    | ok q =>
      obtain ⟨h1, h2⟩ := reportGroups_spec hI (hw w List.mem_cons_self).1 (hw w List.mem_cons_self).2 h0
      rw [h0] at h
      obtain ⟨b, o⟩ := q
      simp only at h1 h2
      subst h1
      have hw' := fun v hv => hw v (List.mem_cons_of_mem w hv)
      cases b with
      | true =>
        obtain ⟨h3, h4⟩ := ih us r hw' h
        refine ⟨h3, fun v => ?_⟩
        rw [h4, List.mem_cons]
        constructor
        · rintro (h5 | ⟨h5, h6⟩)
          · exact .inl h5
          · exact .inr ⟨.inr h5, h6⟩
        · rintro (h5 | ⟨rfl | h5, h6⟩)
          · exact .inl h5
          · exact absurd (h2.2 h6) (by simp)
          · exact .inr ⟨h5, h6⟩
      | false =>
        obtain ⟨h3, h4⟩ := ih (us ++ [w]) r hw' h
        refine ⟨h3, fun v => ?_⟩
        rw [h4, List.mem_cons, List.mem_append, List.mem_singleton]
        constructor
        · rintro ((h5 | rfl) | ⟨h5, h6⟩)
          · exact .inl h5
          · exact .inr ⟨.inl rfl, h2.1 rfl⟩
          · exact .inr ⟨.inr h5, h6⟩
        · rintro (h5 | ⟨rfl | h5, h6⟩)
          · exact .inl (.inl h5)
          · exact .inl (.inr rfl)
          · exact .inr ⟨h5, h6⟩

/-- What is on the chips, where the same object is asked for the system's placements. -/
theorem reportChips_same {s : Store} {l : List Placement} (hI : Inv s l) : reportChips s s = [] := by
  unfold reportChips
  rw [List.filter_eq_nil_iff]
  intro e he
  obtain ⟨c, -, rfl⟩ := List.mem_map.1 he
  rw [onChip_eq hI, List.filter_eq_nil_iff.2]
  · simp
  · intro a ha
    rw [at_, List.mem_filter] at ha
    rw [(placed_mem hI a.vertex).2 (List.mem_map.2 ⟨a, ha.1, rfl⟩)]
    simp

theorem nOnChip_eq {s : Store} {l : List Placement} (hI : Inv s l) (c : XY) : Plc.nOnChip s c = (at_ l c).length := by
  have h := hI.chip c
  have h1 : Plc.nOnChip s c = ((s.byChip.get? c).getD []).length := by
    unfold Plc.nOnChip
    cases s.byChip.get? c <;> rfl
  rw [h1, h, List.length_map]
  rfl

theorem reportUnused_same {M : Machine} {s : Store} {l : List Placement} (hI : Inv s l) :
    reportUnused M s s = M.chips.map (fun c => (c, ((M.cores c).length : Int) - (at_ l c).length)) := by
  unfold reportUnused
  rw [List.filter_eq_self.2 (fun c _ => by simp)]
  exact List.map_congr_left fun c _ => by rw [nOnChip_eq hI]

theorem chip_known {s : Store} {l : List Placement} (hI : Inv s l) {a : Placement} (ha : a ∈ l) : (a.x, a.y) ∈ Plc.chips s := by
  have h := hI.chip (a.x, a.y)
  have hm : (a.p, a) ∈ (l.filter (fun b => decide (b.xy = (a.x, a.y)))).map (fun b => (b.p, b)) :=
    List.mem_map.2 ⟨a, List.mem_filter.2 ⟨ha, decide_eq_true rfl⟩, rfl⟩
  rw [← h] at hm
  cases h0 : s.byChip.get? (a.x, a.y) with
  | none => rw [h0] at hm; cases hm
  | some d =>
    unfold Plc.chips
    exact List.mem_map.2 ⟨_, Dict.mem_of_get? h0, rfl⟩

/-- The lines for the chips, where the system's placements are another object. -/
theorem reportChips_mem {s sys : Store} {l l0 : List Placement} (hI : Inv s l) (hS : Inv sys l0) (c : XY) (p u : Nat) :
    (∃ ps, (c, ps) ∈ reportChips s sys ∧ (p, u) ∈ ps) ↔ (⟨u, c.1, c.2, p⟩ : Placement) ∈ l ∧ u ∉ l0.map (·.vertex) := by
  unfold reportChips
  constructor
  · rintro ⟨ps, h1, h2⟩
    obtain ⟨h1, -⟩ := List.mem_filter.1 h1
    obtain ⟨c', -, h3⟩ := List.mem_map.1 h1
    cases h3
    obtain ⟨a, h4, h5⟩ := List.mem_map.1 h2
    obtain ⟨h4, h6⟩ := List.mem_filter.1 h4
    rw [onChip_eq hI, at_, List.mem_filter] at h4
    obtain ⟨h7, h8⟩ := h4
    cases h5
    have h8 := of_decide_eq_true h8
    subst h8
    refine ⟨h7, fun h9 => ?_⟩
    rw [(placed_mem hS _).2 h9] at h6
    cases h6
  · rintro ⟨h1, h2⟩
    have h3 : (p, u) ∈ ((Plc.placementsOnChip s c).2.filter (fun a => !Plc.isPlaced sys a.vertex)).map (fun a => (a.p, a.vertex)) := by
      refine List.mem_map.2 ⟨⟨u, c.1, c.2, p⟩, List.mem_filter.2 ⟨?_, ?_⟩, rfl⟩
      · rw [onChip_eq hI, at_, List.mem_filter]
        exact ⟨h1, decide_eq_true rfl⟩
      · cases h4 : Plc.isPlaced sys u with
        | false => simp
        | true => exact absurd ((placed_mem hS u).1 h4) h2
    refine ⟨_, List.mem_filter.2 ⟨List.mem_map.2 ⟨c, chip_known hI h1, rfl⟩, ?_⟩, h3⟩
    cases h4 : ((Plc.placementsOnChip s c).2.filter (fun a => !Plc.isPlaced sys a.vertex)).map (fun a => (a.p, a.vertex)) with
    | nil => rw [h4] at h3; cases h3
    | cons _ _ => simp

theorem reportUnused_mem {M : Machine} {s sys : Store} {l0 as : List Placement} (hI : Inv s (l0 ++ as)) (hS : Inv sys l0) (c : XY)
    (n : Int) : (c, n) ∈ reportUnused M s sys ↔ c ∈ M.chips ∧ (∀ a ∈ as, (a.x, a.y) ≠ c) ∧
      n = ((M.cores c).length : Int) - (at_ l0 c).length := by
  unfold reportUnused
  rw [List.mem_map]
  constructor
  · rintro ⟨c', h1, h2⟩
    cases h2
    obtain ⟨h1, h3⟩ := List.mem_filter.1 h1
    have h3 := of_decide_eq_true h3
    rw [nOnChip_eq hI, nOnChip_eq hS] at h3
    refine ⟨h1, fun a ha hac => ?_, by rw [nOnChip_eq hS]⟩
    have h4 : at_ (l0 ++ as) c = at_ l0 c ++ at_ as c := List.filter_append ..
    rw [h4, List.length_append] at h3
    have h5 : a ∈ at_ as c := List.mem_filter.2 ⟨ha, decide_eq_true hac⟩
    have := List.length_pos_of_mem h5
    omega
  · rintro ⟨h1, h2, rfl⟩
    refine ⟨c, List.mem_filter.2 ⟨h1, decide_eq_true ?_⟩, by rw [nOnChip_eq hS]⟩
    rw [nOnChip_eq hI, nOnChip_eq hS]
    have h4 : at_ (l0 ++ as) c = at_ l0 c ++ at_ as c := List.filter_append ..
    have h5 : at_ as c = [] := List.filter_eq_nil_iff.2 fun a ha hac => h2 a ha (of_decide_eq_true hac)
    rw [h4, h5]
    simp

theorem prepareLoop_nothing {M : Machine} {fuel : Nat} {l : List Placement} : ∀ {gs : List (List Nat × Nat)} {st : State}
    {acc : List Placement}, Inv st.store l → (∀ u ∈ gs.flatMap (·.1), M.virtual u = false → u ∈ l.map (·.vertex)) →
    prepareLoop M fuel gs st acc = .error .notImplemented ∨ prepareLoop M fuel gs st acc = .ok (some acc, st) := by
  intro gs
  induction gs with
  | nil => intro st acc _ _; exact .inr rfl
  | cons g gs ih =>
    intro st acc hI h
    rw [List.flatMap_cons] at h
    unfold prepareLoop
    cases h0 : filterVertices M st.store g.1 with
    | error e =>
      left
      unfold filterVertices at h0
      simp only at h0
      split at h0
      · cases h0; rfl
      · cases h0
    | ok ws =>
      cases ws with
      | nil => exact ih hI (fun u hu => h u (List.mem_append_right _ hu))
      | cons w ws =>
        obtain ⟨h1, h2, h3⟩ := ((filter_ok hI h0).1 w).1 List.mem_cons_self
        exact absurd (h w (List.mem_append_left _ h1) h3) h2

/-- What cannot be placed lacks something. -/
theorem placeVertex_lacks {M : Machine} {fuel : Nat} {v : AppV} {l : List Placement} {st : State} (hB : Book M st l)
    (h : placeVertex M fuel v st = .error .place) : Lacks M l v := by
  refine Classical.byContradiction fun hL => ?_
  have hL' : ∀ u ∈ v.groups.flatMap (·.1), M.virtual u = false → u ∈ l.map (·.vertex) := fun u hu huv =>
    Classical.byContradiction fun hm => hL ⟨u, hu, huv, hm⟩
  unfold placeVertex at h
  split at h
  · cases h
  · cases fuel with
    | zero => cases h
    | succ f =>
      rw [attempts] at h
      unfold prepare at h
      rcases prepareLoop_nothing (fuel := f + 1) (l := l) (acc := []) (gs := v.groups)
          (st := { st with restored := st.restored ++ st.tried, tried := [], prepared := [], cur := none }) hB.inv hL' with h1 | h1
      · rw [h1] at h; cases h
      · rw [h1] at h; cases h

/-- When a vertex is not placed the others are wholly placed or not at all. -/
theorem reportAll_spec {M : Machine} {fuel : Nat} (hG : Grid M) (hf : M.chips.length < fuel) (all : List AppV) :
    ∀ {vs : List AppV} {st : State} {l : List Placement} {s : Store} {q : Except PyErr Report}, Book M st l →
    (∀ v ∈ vs, AllOrNone M l v) → (vs.flatMap AppV.verts).Nodup → reportAll M fuel all vs st = some (s, q) →
    ∃ as, Inv s (l ++ as) ∧ q = report M s s all ∧ (∀ a ∈ as, ∃ v ∈ vs, a.vertex ∈ v.verts) ∧
      (∀ v ∈ vs, AllOrNone M (l ++ as) v) ∧ ∃ v ∈ vs, Lacks M (l ++ as) v := by
  intro vs
  induction vs with
  | nil => intro st l s q _ _ _ h; cases h
  | cons v vs ih =>
    intro st l s q hB hw hn h
    rw [reportAll] at h
    have hV := placeVertex_spec (K := False) hG hf (v := v) (fun k => k.elim) hB
    cases hr : placeVertex M fuel v st with
    | error e =>
      rw [hr] at h
      simp only at h
      split at h
      · rename_i he
        subst he
        cases h
        exact ⟨[], by simpa using hB.inv, rfl, by simp, by simpa using hw, v, List.mem_cons_self,
          by simpa using placeVertex_lacks hB hr⟩
      · cases h
    | ok st' =>
      rw [hr] at h hV
      obtain ⟨bs, hM, hB'⟩ := hV
      rw [List.flatMap_cons] at hn
      obtain ⟨-, hn2, hn3⟩ := List.nodup_append.1 hn
      have hbs : ∀ b ∈ bs, b.vertex ∈ v.verts := fun b hb => hM.verts.subset (List.mem_map_of_mem hb)
      have hv : ∀ u ∈ v.verts, M.virtual u = false → u ∈ (l ++ bs).map (·.vertex) := by
        intro u hu huv
        obtain ⟨g, hg, hug⟩ := List.mem_flatMap.1 hu
        rw [List.map_append, List.mem_append]
        rcases hM.settled g hg with h1 | ⟨c, h1⟩
        · rcases h1 u hug with h2 | h2
          · exact .inl h2
          · rw [huv] at h2; cases h2
        · obtain ⟨a, ha, hav, -⟩ := (h1 u hug).2
          exact .inr (List.mem_map.2 ⟨a, ha, hav⟩)
      have hrest : ∀ w ∈ vs, AllOrNone M (l ++ bs) w := by
        intro w hww
        rcases hw w (List.mem_cons_of_mem _ hww) with h1 | h1
        · exact .inl fun u hu huv => by rw [List.map_append]; exact List.mem_append_left _ (h1 u hu huv)
        · refine .inr fun u hu hm => ?_
          rw [List.map_append, List.mem_append] at hm
          rcases hm with hm | hm
          · exact h1 u hu hm
          · obtain ⟨b, hb, rfl⟩ := List.mem_map.1 hm
            exact hn3 _ (hbs b hb) _ (List.mem_flatMap.2 ⟨w, hww, hu⟩) rfl
      obtain ⟨cs, h1, h2, h3, h4, w0, h5, h6⟩ := ih hB' hrest hn2 h
      refine ⟨bs ++ cs, by rw [← List.append_assoc]; exact h1, h2, ?_, ?_, w0, List.mem_cons_of_mem _ h5,
        by rw [← List.append_assoc]; exact h6⟩
      · intro a ha
        rcases List.mem_append.1 ha with ha | ha
        · exact ⟨v, List.mem_cons_self, hbs a ha⟩
        · obtain ⟨w, hw', hw''⟩ := h3 a ha
          exact ⟨w, List.mem_cons_of_mem _ hw', hw''⟩
      · intro w hww
        rcases List.mem_cons.1 hww with rfl | hww
        · refine .inl fun u hu huv => ?_
          rw [← List.append_assoc, List.map_append]
          exact List.mem_append_left _ (hv u hu huv)
        · rw [← List.append_assoc]; exact h4 w hww

theorem placeReport_spec {M : Machine} {fuel : Nat} (hO : Order M) (hG : Grid M) (hf : M.chips.length < fuel) {vs : List AppV}
    {s0 s : Store} {l0 : List Placement} (hI : Inv s0 l0) (hn : (vs.flatMap AppV.verts).Nodup)
    (hfresh : ∀ u ∈ vs.flatMap AppV.verts, u ∉ l0.map (·.vertex)) {q : Except PyErr Report}
    (h : placeReport M fuel vs s0 = some (s, q)) :
    ∃ as, Inv s (l0 ++ as) ∧ q = report M s s vs ∧ (∀ a ∈ as, ∃ v ∈ vs, a.vertex ∈ v.verts) ∧
      (∀ v ∈ vs, AllOrNone M (l0 ++ as) v) ∧ ∃ v ∈ vs, Lacks M (l0 ++ as) v := by
  unfold placeReport at h
  cases h0 : initial M s0 with
  | error e => rw [h0] at h; cases h
  | ok st =>
    rw [h0] at h
    simp only at h
    rw [initial_store h0] at h
    have hF := fixedAll_spec hO (vs := vs) hI
    cases h1 : fixedAll M vs s0 with
    | error e => rw [h1] at h; cases h
    | ok s1 =>
      rw [h1] at h hF
      obtain ⟨fs, hI1, hN⟩ := hF
      obtain ⟨as, h2, h3, h4, h5, w0, h6, h7⟩ := reportAll_spec hG hf vs (book_initial h0 hI1) (by
        intro v hv
        cases hvf : v.isFixed with
        | true =>
          refine .inl fun u hu huv => ?_
          obtain ⟨g, hg, hug⟩ := List.mem_flatMap.1 hu
          obtain ⟨-, c, -, h2⟩ := hN.group v hv hvf g hg
          obtain ⟨a, ha, hav, -⟩ := h2 u hug huv
          rw [List.map_append]
          exact List.mem_append_right _ (List.mem_map.2 ⟨a, ha, hav⟩)
        | false =>
          refine .inr fun u hu hm => ?_
          rw [List.map_append, List.mem_append] at hm
          rcases hm with hm | hm
          · exact hfresh u (List.mem_flatMap.2 ⟨v, hv, hu⟩) hm
          · obtain ⟨a, ha, rfl⟩ := List.mem_map.1 hm
            obtain ⟨⟨w, hw, hwf, hwu⟩, -⟩ := hN.verts a ha
            have := app_unique hn hv hw hu hwu
            rw [← this, hvf] at hwf
            cases hwf) hn h
      refine ⟨fs ++ as, by rw [← List.append_assoc]; exact h2, h3, ?_, by rw [← List.append_assoc]; exact h5, w0, h6,
        by rw [← List.append_assoc]; exact h7⟩
      intro a ha
      rcases List.mem_append.1 ha with ha | ha
      · obtain ⟨⟨w, hw, -, hwu⟩, -⟩ := hN.verts a ha
        exact ⟨w, hw, hwu⟩
      · exact h4 a ha

end Pacman.Placer
