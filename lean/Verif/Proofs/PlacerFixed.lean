import Verif.Proofs.PlacerVertex
/-
The placement of vertices with a fixed location.
-/

namespace Pacman.Placer

open Plc (Placement Store Inv)

/-- The order in which Python goes through a set: any. -/
def Order (M : Machine) : Prop := ∀ l : List Nat, (M.iter l).Perm l

theorem consume_ok {p : Nat} {it it' : List Nat} (h : consume p it = some it') : ∃ d, it = d ++ p :: it' := by
  induction it with
  | nil => cases h
  | cons q qs ih =>
    rw [consume] at h
    split at h
    · rename_i hq
      cases h
      exact ⟨[], by rw [hq]; rfl⟩
    · obtain ⟨d, hd⟩ := ih h
      exact ⟨q :: d, by rw [hd]; rfl⟩

/-- The cores that are left are free, and the vertices are not placed. -/
def Open (l : List Placement) (c : XY) (vs it : List Nat) : Prop :=
  it.Nodup ∧ (∀ a ∈ l, (a.x, a.y) = c → a.p ∉ it) ∧ vs.Nodup ∧ ∀ v ∈ vs, v ∉ l.map (·.vertex)

/-- Placements on one chip. -/
structure Put (M : Machine) (c : XY) (it : List Nat) (as : List Placement) : Prop where
  chip : ∀ a ∈ as, (a.x, a.y) = c
  core : ∀ a ∈ as, a.p ∈ it
  asked : ∀ a ∈ as, ∀ p, M.core a.vertex = some p → a.p = p

/-- How the placement of a fixed vertex may fail; `P` are the conditions under which it fails in no other way. -/
def Bad (P : Prop) (e : PyErr) : Prop :=
  e = .configuration ∨ e = .notImplemented ∨ (e ≠ .outOfFuel ∧ e ≠ .place ∧ ¬ P)

theorem Bad.imp {P Q : Prop} {e : PyErr} (h : Bad P e) (hq : Q → P) : Bad Q e :=
  Or.imp id (Or.imp id (And.imp id (And.imp id (mt hq)))) h

theorem Open.add {l : List Placement} {c : XY} {v p : Nat} {vs it it' : List Nat} (h : Open l c (v :: vs) it)
    (hit : ∃ d, it = d ++ p :: it') : Open (l ++ [⟨v, c.1, c.2, p⟩]) c vs it' := by
  obtain ⟨d, rfl⟩ := hit
  obtain ⟨h1, h2, h3, h4⟩ := h
  have hn := (List.nodup_append.1 h1).2.1
  rw [List.nodup_cons] at hn h3
  refine ⟨hn.2, ?_, h3.2, ?_⟩
  · intro a ha hac hm
    rcases List.mem_append.1 ha with ha | ha
    · exact h2 a ha hac (by simp [hm])
    · rw [List.mem_singleton] at ha
      subst ha
      exact hn.1 hm
  · intro w hw hm
    rw [List.map_append, List.mem_append] at hm
    rcases hm with hm | hm
    · exact h4 w (by simp [hw]) hm
    · simp only [List.map_cons, List.map_nil, List.mem_singleton] at hm
      exact h3.1 (hm ▸ hw)

theorem Open.drop {l : List Placement} {c : XY} {v : Nat} {vs it : List Nat} (h : Open l c (v :: vs) it) :
    Open l c vs it :=
  ⟨h.1, h.2.1, (List.nodup_cons.1 h.2.2.1).2, fun w hw => h.2.2.2 w (by simp [hw])⟩

theorem add_spec {s : Store} {l : List Placement} (hI : Inv s l) (a : Placement) :
    match Plc.add s a with
    | (s', .ok ()) => Inv s' (l ++ [a])
    | (_, .error e) => e ≠ .outOfFuel ∧ e ≠ .place ∧
        ¬ ((∀ b ∈ l, (b.x, b.y) = (a.x, a.y) → b.p ≠ a.p) ∧ a.vertex ∉ l.map (·.vertex)) := by
  rcases Plc.add_inv hI a with ⟨⟨b, hb, hl⟩, he⟩ | ⟨_, ⟨b, hb, hv⟩, he⟩ | ⟨_, _, he, hi⟩
  · rw [he]
    refine ⟨(by decide), (by decide), fun h => ?_⟩
    simp only [Placement.loc, Prod.mk.injEq] at hl
    exact h.1 b hb (by rw [hl.1, hl.2.1]) hl.2.2
  · rw [he]
    exact ⟨(by decide), (by decide), fun h => h.2 (List.mem_map.2 ⟨b, hb, hv⟩)⟩
  · have hadd : Plc.add s a = ((Plc.add s a).1, .ok ()) := by rw [← he]
    rw [hadd]
    exact hi

theorem fixedCores_spec {M : Machine} {c : XY} {vs : List Nat} {s : Store} {l : List Placement} {it : List Nat}
    (hI : Inv s l) :
    match fixedCores M c vs s it with
    | .ok (s', it') => ∃ as, Inv s' (l ++ as) ∧ Put M c it as ∧ (∃ d, it = d ++ it') ∧
        as.map (·.vertex) = vs.filter (fun v => (M.core v).isSome) ∧
        (Open l c vs it → Open (l ++ as) c (vs.filter (fun v => (M.core v).isNone)) it')
    | .error e => Bad (Open l c vs it) e := by
  induction vs generalizing s l it with
  | nil =>
    exact ⟨[], by simpa using hI, ⟨by simp, by simp, by simp⟩, ⟨[], rfl⟩, rfl, fun h => by simpa using h⟩
  | cons v vs ih =>
    rw [fixedCores]
    cases hc : M.core v with
    | none =>
      simp only
      have := ih (s := s) (l := l) (it := it) hI
      cases hr : fixedCores M c vs s it with
      | error e =>
        rw [hr] at this
        exact this.imp Open.drop
      | ok r =>
        obtain ⟨s', it'⟩ := r
        rw [hr] at this
        obtain ⟨as, h1, h2, h3, h4, h5⟩ := this
        refine ⟨as, h1, h2, h3, by simp [hc, h4], ?_⟩
        intro hO
        have h6 := h5 hO.drop
        rw [List.filter_cons, hc]
        simp only [Option.isNone_none, if_true]
        refine ⟨h6.1, h6.2.1, ?_, ?_⟩
        · rw [List.nodup_cons]
          refine ⟨?_, h6.2.2.1⟩
          intro hm
          exact (List.nodup_cons.1 hO.2.2.1).1 (List.mem_filter.1 hm).1
        · intro w hw
          rcases List.mem_cons.1 hw with rfl | hw
          · rw [List.map_append, List.mem_append]
            rintro (hm | hm)
            · exact hO.2.2.2 w (by simp) hm
            · rw [h4] at hm
              rw [List.mem_filter, hc] at hm
              exact absurd hm.2 (by simp)
          · exact h6.2.2.2 w hw
    | some p =>
      simp only
      cases hq : consume p it with
      | none => exact .inl rfl
      | some it1 =>
        have hit := consume_ok hq
        simp only
        have hA := add_spec hI ⟨v, c.1, c.2, p⟩
        cases ha : Plc.add s ⟨v, c.1, c.2, p⟩ with
        | mk s1 res =>
          rw [ha] at hA
          cases res with
          | error e =>
            simp only at hA ⊢
            refine .inr (.inr ⟨hA.1, hA.2.1, fun hO => hA.2.2 ⟨?_, hO.2.2.2 v (by simp)⟩⟩)
            intro b hb hbc he
            obtain ⟨d, rfl⟩ := hit
            exact hO.2.1 b hb hbc (by simp [he])
          | ok u =>
            simp only at hA ⊢
            have := ih (s := s1) (it := it1) hA
            cases hr : fixedCores M c vs s1 it1 with
            | error e =>
              rw [hr] at this
              exact this.imp (fun hO => hO.add hit)
            | ok r =>
              obtain ⟨s', it'⟩ := r
              rw [hr] at this
              obtain ⟨as, h1, h2, ⟨d2, h3⟩, h4, h5⟩ := this
              obtain ⟨d, hd⟩ := hit
              refine ⟨⟨v, c.1, c.2, p⟩ :: as, by simpa using h1, ⟨?_, ?_, ?_⟩, ⟨d ++ p :: d2, ?_⟩, ?_, ?_⟩
              · intro a ha'
                rcases List.mem_cons.1 ha' with rfl | ha'
                · rfl
                · exact h2.chip a ha'
              · intro a ha'
                rcases List.mem_cons.1 ha' with rfl | ha'
                · rw [hd]; simp
                · rw [hd]
                  have := h2.core a ha'
                  simp [this]
              · intro a ha' q hq'
                rcases List.mem_cons.1 ha' with rfl | ha'
                · simp only at hq'
                  rw [hc] at hq'
                  exact Option.some.inj hq'
                · exact h2.asked a ha' q hq'
              · rw [hd, h3]
                simp
              · simp [hc, h4]
              · intro hO
                have h6 := h5 (hO.add ⟨d, hd⟩)
                rw [List.filter_cons, hc]
                simpa using h6

theorem anyCores_spec {M : Machine} {c : XY} {vs : List Nat} {s : Store} {l : List Placement} {it : List Nat}
    (hI : Inv s l) :
    match anyCores M c vs s it with
    | .ok s' => ∃ as, Inv s' (l ++ as) ∧ Put M c it as ∧
        as.map (·.vertex) = vs.filter (fun v => (M.core v).isNone)
    | .error e => Bad (Open l c (vs.filter (fun v => (M.core v).isNone)) it) e := by
  induction vs generalizing s l it with
  | nil =>
    exact ⟨[], by simpa using hI, ⟨by simp, by simp, by simp⟩, rfl⟩
  | cons v vs ih =>
    unfold anyCores
    cases hc : M.core v with
    | some p =>
      simp only
      have := ih (s := s) (l := l) (it := it) hI
      rw [List.filter_cons, hc]
      simpa using this
    | none =>
      simp only
      cases it with
      | nil => exact .inl rfl
      | cons p it =>
        simp only
        have hA := add_spec hI ⟨v, c.1, c.2, p⟩
        rw [List.filter_cons, hc]
        simp only [Option.isNone_none, if_true]
        cases ha : Plc.add s ⟨v, c.1, c.2, p⟩ with
        | mk s1 res =>
          rw [ha] at hA
          cases res with
          | error e =>
            simp only at hA ⊢
            refine .inr (.inr ⟨hA.1, hA.2.1, fun hO => hA.2.2 ⟨?_, hO.2.2.2 v (by simp)⟩⟩)
            intro b hb hbc he
            exact hO.2.1 b hb hbc (by simp [he])
          | ok u =>
            simp only at hA ⊢
            have := ih (s := s1) (it := it) hA
            cases hr : anyCores M c vs s1 it with
            | error e =>
              rw [hr] at this
              exact this.imp (fun hO => hO.add ⟨[], rfl⟩)
            | ok s' =>
              rw [hr] at this
              obtain ⟨as, h1, h2, h4⟩ := this
              refine ⟨⟨v, c.1, c.2, p⟩ :: as, by simpa using h1, ⟨?_, ?_, ?_⟩, by simp [h4]⟩
              · intro a ha'
                rcases List.mem_cons.1 ha' with rfl | ha'
                · rfl
                · exact h2.chip a ha'
              · intro a ha'
                rcases List.mem_cons.1 ha' with rfl | ha'
                · simp
                · have := h2.core a ha'
                  simp [this]
              · intro a ha' q hq'
                rcases List.mem_cons.1 ha' with rfl | ha'
                · simp only at hq'
                  rw [hc] at hq'
                  cases hq'
                · exact h2.asked a ha' q hq'

theorem firstLoc_some {M : Machine} {vs : List Nat} {c : XY} (h : firstLoc M vs = some c) :
    ∃ v ∈ vs, ∃ q, M.fixed v = some (c, q) := by
  induction vs with
  | nil => cases h
  | cons v vs ih =>
    rw [firstLoc] at h
    cases hf : M.fixed v with
    | some r =>
      rw [hf] at h
      cases h
      exact ⟨v, by simp, r.2, hf⟩
    | none =>
      rw [hf] at h
      obtain ⟨w, hw, hq⟩ := ih h
      exact ⟨w, by simp [hw], hq⟩

theorem mem_freeCores {M : Machine} (hO : Order M) {s : Store} {l : List Placement} (hI : Inv s l) {c : XY} {p : Nat} :
    p ∈ freeCores M s c ↔ p ∈ M.cores c ∧ ∀ a ∈ l, (a.x, a.y) = c → a.p ≠ p := by
  unfold freeCores
  rw [(hO _).mem_iff, List.mem_filter, decide_eq_true_eq, onChip_eq hI]
  refine and_congr Iff.rfl ?_
  rw [List.mem_map]
  constructor
  · intro h a ha hac he
    exact h ⟨a, mem_at.2 ⟨ha, hac⟩, he⟩
  · rintro h ⟨a, ha, he⟩
    exact h a (mem_at.1 ha).1 (mem_at.1 ha).2 he

/-- What is placed for a group at a fixed location. -/
structure Pinned (M : Machine) (l : List Placement) (vs : List Nat) (c : XY) (as : List Placement) : Prop where
  loc : ∃ v ∈ vs, ∃ q, M.fixed v = some (c, q)
  has : M.has c = true
  chip : ∀ a ∈ as, (a.x, a.y) = c
  core : ∀ a ∈ as, a.p ∈ M.cores c
  asked : ∀ a ∈ as, ∀ p, M.core a.vertex = some p → a.p = p
  verts : (as.map (·.vertex)).Perm vs

theorem doFixed_spec {M : Machine} (hO : Order M) {vs : List Nat} {s : Store} {l : List Placement} (hI : Inv s l) :
    match doFixed M vs s with
    | .ok s' => ∃ c as, Inv s' (l ++ as) ∧ Pinned M l vs c as
    | .error e => Bad ((∀ c, (M.cores c).Nodup) ∧ vs.Nodup ∧ ∀ v ∈ vs, v ∉ l.map (·.vertex)) e := by
  unfold doFixed
  cases hf : firstLoc M vs with
  | none => exact .inr (.inl rfl)
  | some c =>
    simp only
    by_cases hh : M.has c = false
    · rw [if_pos hh]
      exact .inl rfl
    · rw [if_neg hh]
      have hopen : (∀ c, (M.cores c).Nodup) ∧ vs.Nodup ∧ (∀ v ∈ vs, v ∉ l.map (·.vertex)) →
          Open l c vs (freeCores M s c) := by
        rintro ⟨h1, h2, h3⟩
        refine ⟨?_, ?_, h2, h3⟩
        · unfold freeCores
          rw [(hO _).nodup_iff]
          exact List.Pairwise.filter _ (h1 c)
        · intro a ha hac hm
          exact ((mem_freeCores hO hI).1 hm).2 a ha hac rfl
      have h1 := fixedCores_spec (M := M) (c := c) (vs := vs) (it := freeCores M s c) (onChip_inv hI c)
      cases hr : fixedCores M c vs (Plc.placementsOnChip s c).1 (freeCores M s c) with
      | error e =>
        rw [hr] at h1
        exact h1.imp hopen
      | ok r =>
        obtain ⟨s1, it⟩ := r
        rw [hr] at h1
        obtain ⟨as, h2, h3, ⟨d, h4⟩, h5, h6⟩ := h1
        simp only
        have h7 := anyCores_spec (M := M) (c := c) (vs := vs) (it := it) h2
        cases hr2 : anyCores M c vs s1 it with
        | error e =>
          rw [hr2] at h7
          exact h7.imp (fun h => h6 (hopen h))
        | ok s2 =>
          rw [hr2] at h7
          obtain ⟨bs, h8, h9, h10⟩ := h7
          refine ⟨c, as ++ bs, by simpa using h8, firstLoc_some hf, by simpa using hh, ?_, ?_, ?_, ?_⟩
          · intro a ha
            rcases List.mem_append.1 ha with ha | ha
            · exact h3.chip a ha
            · exact h9.chip a ha
          · intro a ha
            rcases List.mem_append.1 ha with ha | ha
            · exact ((mem_freeCores hO hI).1 (h3.core a ha)).1
            · exact ((mem_freeCores hO hI).1 (by rw [h4]; exact List.mem_append_right _ (h9.core a ha))).1
          · intro a ha
            rcases List.mem_append.1 ha with ha | ha
            · exact h3.asked a ha
            · exact h9.asked a ha
          · rw [List.map_append, h5, h10]
            have := List.filter_append_perm (fun v => (M.core v).isSome) vs
            have he : (fun v => !(M.core v).isSome) = (fun v => (M.core v).isNone) := by
              funext v
              cases M.core v <;> rfl
            rw [he] at this
            exact this

/-- What is placed for the groups of a vertex with a fixed location. -/
structure Nailed (M : Machine) (l : List Placement) (gs : List (List Nat × Nat)) (as : List Placement) : Prop where
  group : ∀ g ∈ gs, (∀ v ∈ g.1, v ∉ l.map (·.vertex)) ∧ ∃ c, (∃ v ∈ g.1, M.virtual v = false ∧ ∃ q, M.fixed v = some (c, q)) ∧
    ∀ v ∈ g.1, M.virtual v = false → ∃ a ∈ as, a.vertex = v ∧ (a.x, a.y) = c ∧ ∀ p, M.core v = some p → a.p = p
  offered : ∀ a ∈ as, M.has (a.x, a.y) = true ∧ a.p ∈ M.cores (a.x, a.y)
  verts : ∀ a ∈ as, a.vertex ∈ gs.flatMap (·.1) ∧ M.virtual a.vertex = false

theorem fixedGroups_spec {M : Machine} (hO : Order M) {gs : List (List Nat × Nat)} {s : Store} {l : List Placement}
    (hI : Inv s l) :
    match fixedGroups M gs s with
    | .ok s' => ∃ as, Inv s' (l ++ as) ∧ Nailed M l gs as
    | .error e => Bad ((∀ c, (M.cores c).Nodup) ∧ (gs.flatMap (·.1)).Nodup ∧
        ∀ v ∈ gs.flatMap (·.1), v ∉ l.map (·.vertex)) e := by
  induction gs generalizing s l with
  | nil => exact ⟨[], by simpa using hI, by simp, by simp, by simp⟩
  | cons g gs ih =>
    rw [fixedGroups]
    cases hv : filterVertices M s g.1 with
    | error e =>
      have := filter_error hv
      subst this
      exact .inr (.inl rfl)
    | ok ws =>
      obtain ⟨w1, w2⟩ := filter_ok hI hv
      simp only
      have hws : g.1.Nodup → ws.Nodup := by
        intro hn
        unfold filterVertices at hv
        simp only at hv
        split at hv
        · cases hv
        · cases hv
          exact List.Pairwise.filter _ (List.Pairwise.filter _ hn)
      have h1 := doFixed_spec hO (vs := ws) hI
      cases hd : doFixed M ws s with
      | error e =>
        rw [hd] at h1
        refine h1.imp ?_
        rintro ⟨h2, h3, h4⟩
        rw [List.flatMap_cons] at h3 h4
        exact ⟨h2, hws (List.nodup_append.1 h3).1, fun v hv' => ((w1 v).1 hv').2.1⟩
      | ok s1 =>
        rw [hd] at h1
        obtain ⟨c, as, h2, h3⟩ := h1
        simp only
        have hmem : ∀ a ∈ as, a.vertex ∈ ws := fun a ha => h3.verts.mem_iff.1 (List.mem_map.2 ⟨a, ha, rfl⟩)
        have := ih h2
        cases hr : fixedGroups M gs s1 with
        | error e =>
          rw [hr] at this
          refine this.imp ?_
          rintro ⟨h4, h5, h6⟩
          rw [List.flatMap_cons] at h5 h6
          have h5' := List.nodup_append.1 h5
          refine ⟨h4, h5'.2.1, ?_⟩
          intro v hv' hm
          rw [List.map_append, List.mem_append] at hm
          rcases hm with hm | hm
          · exact h6 v (List.mem_append_right _ hv') hm
          · obtain ⟨a, ha, rfl⟩ := List.mem_map.1 hm
            exact h5'.2.2 _ ((w1 _).1 (hmem a ha)).1 _ hv' rfl
        | ok s2 =>
          rw [hr] at this
          obtain ⟨bs, h4, h5⟩ := this
          refine ⟨as ++ bs, by simpa using h4, ?_, ?_, ?_⟩
          · intro g' hg'
            rcases List.mem_cons.1 hg' with rfl | hg'
            · obtain ⟨v, hvw, q, hq⟩ := h3.loc
              refine ⟨w2 (fun hc => by rw [hc] at hvw; cases hvw), c,
                ⟨v, ((w1 v).1 hvw).1, ((w1 v).1 hvw).2.2, q, hq⟩, ?_⟩
              intro u hu hvu
              have hne : ws ≠ [] := fun hc => by rw [hc] at hvw; cases hvw
              have huw : u ∈ ws := (w1 u).2 ⟨hu, w2 hne u hu, hvu⟩
              obtain ⟨a, ha, hau⟩ := List.mem_map.1 (h3.verts.mem_iff.2 huw)
              exact ⟨a, List.mem_append_left _ ha, hau, h3.chip a ha, fun p hp => h3.asked a ha p (by rw [hau]; exact hp)⟩
            · obtain ⟨h6, c', h7, h8⟩ := h5.group g' hg'
              refine ⟨?_, c', h7, ?_⟩
              · intro v hv' hm
                exact h6 v hv' (by rw [List.map_append]; exact List.mem_append_left _ hm)
              · intro u hu hvu
                obtain ⟨a, ha, h9⟩ := h8 u hu hvu
                exact ⟨a, List.mem_append_right _ ha, h9⟩
          · intro a ha
            rcases List.mem_append.1 ha with ha | ha
            · rw [h3.chip a ha]
              exact ⟨h3.has, h3.core a ha⟩
            · exact h5.offered a ha
          · intro a ha
            rw [List.flatMap_cons]
            rcases List.mem_append.1 ha with ha | ha
            · have := (w1 _).1 (hmem a ha)
              exact ⟨List.mem_append_left _ this.1, this.2.2⟩
            · exact ⟨List.mem_append_right _ (h5.verts a ha).1, (h5.verts a ha).2⟩

end Pacman.Placer
