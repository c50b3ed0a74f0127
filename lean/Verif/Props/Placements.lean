import Verif.Model.Placements
import Verif.Proofs.Dict
/-
C30 and C59: the placements store.
-/

namespace Pacman.Plc

/-- The placements that were added (the calls that did not raise), in order. -/
def added : Store → List Op → List Placement
  | _, [] => []
  | s, .add a :: os =>
    match (add s a).2 with
    | .ok _ => a :: added (add s a).1 os
    | .error _ => added (add s a).1 os
  | s, o :: os => added (step s o) os

/-- The store stands for a list of placements. -/
structure Inv (s : Store) (l : List Placement) : Prop where
  chip : ∀ xy, (s.byChip.get? xy).getD [] = (l.filter (fun a => decide (a.xy = xy))).map (fun a => (a.p, a))
  vertex : s.byVertex = l.map (fun a => (a.vertex, a))
  locs : (l.map Placement.loc).Nodup
  verts : (l.map Placement.vertex).Nodup

theorem inv_empty : Inv Store.empty [] := ⟨fun _ => rfl, rfl, by simp, by simp⟩

theorem Dict.get?_map {α : Type} (l : List α) (f : α → Nat) (k : Nat) :
    Dict.get? (l.map (fun a => (f a, a))) k = l.find? (fun a => decide (f a = k)) := by
  induction l with
  | nil => rfl
  | cons a l ih =>
    rw [List.map_cons, Dict.get?_cons, ih, List.find?_cons]
    by_cases h : f a = k <;> simp [h]

theorem Inv.occupied_iff {s : Store} {l : List Placement} (h : Inv s l) (x y p : Nat) :
    occupied s x y p = true ↔ ∃ a ∈ l, a.loc = (x, y, p) := by
  have hc := h.chip (x, y)
  have ho : occupied s x y p = (((s.byChip.get? (x, y)).getD []).get? p).isSome := by
    unfold occupied
    cases s.byChip.get? (x, y) <;> rfl
  rw [ho, hc, Dict.get?_map, List.find?_isSome]
  simp only [List.mem_filter, decide_eq_true_eq, Placement.loc, Placement.xy, Prod.mk.injEq]
  constructor
  · rintro ⟨a, ⟨h1, h2⟩, h3⟩
    exact ⟨a, h1, h2.1, h2.2, h3⟩
  · rintro ⟨a, h1, h2, h3, h4⟩
    exact ⟨a, ⟨h1, h2, h3⟩, h4⟩

theorem Inv.placed_iff {s : Store} {l : List Placement} (h : Inv s l) (v : Nat) :
    isPlaced s v = true ↔ ∃ a ∈ l, a.vertex = v := by
  unfold isPlaced
  rw [h.vertex, Dict.get?_map (f := Placement.vertex), List.find?_isSome]
  simp

theorem onChip_byChip (s : Store) (xy xy' : Nat × Nat) :
    ((onChip s xy).2.byChip.get? xy').getD [] = (s.byChip.get? xy').getD [] := by
  unfold onChip
  cases h : s.byChip.get? xy with
  | some d => rfl
  | none =>
    simp only
    rw [Dict.get?_set]
    by_cases hx : xy = xy'
    · subst hx
      rw [if_pos rfl, h]
      rfl
    · rw [if_neg hx]

theorem onChip_byVertex (s : Store) (xy : Nat × Nat) : (onChip s xy).2.byVertex = s.byVertex := by
  unfold onChip
  cases s.byChip.get? xy <;> rfl

theorem onChip_fst (s : Store) (xy : Nat × Nat) : (onChip s xy).1 = (s.byChip.get? xy).getD [] := by
  unfold onChip
  cases s.byChip.get? xy <;> rfl

theorem Inv.touch {s : Store} {l : List Placement} (h : Inv s l) (xy : Nat × Nat) : Inv (onChip s xy).2 l :=
  ⟨fun xy' => by rw [onChip_byChip]; exact h.chip xy', by rw [onChip_byVertex]; exact h.vertex, h.locs, h.verts⟩

theorem nodup_snoc {α : Type} {l : List α} {a : α} (h : l.Nodup) (ha : a ∉ l) : (l ++ [a]).Nodup := by
  rw [List.nodup_append]
  refine ⟨h, by simp, ?_⟩
  intro x hx y hy
  rw [List.mem_singleton] at hy
  subst hy
  exact fun he => ha (he ▸ hx)

/-- What an addition does. -/
theorem add_inv {s : Store} {l : List Placement} (h : Inv s l) (a : Placement) :
    ((∃ b ∈ l, b.loc = a.loc) ∧ add s a = (s, .error .processorOccupied)) ∨
    ((¬ ∃ b ∈ l, b.loc = a.loc) ∧ (∃ b ∈ l, b.vertex = a.vertex) ∧ add s a = (s, .error .alreadyPlaced)) ∨
    ((¬ ∃ b ∈ l, b.loc = a.loc) ∧ (¬ ∃ b ∈ l, b.vertex = a.vertex) ∧ (add s a).2 = .ok () ∧
      Inv (add s a).1 (l ++ [a])) := by
  have ho := h.occupied_iff a.x a.y a.p
  have hp := h.placed_iff a.vertex
  unfold add
  by_cases h1 : occupied s a.x a.y a.p = true
  · rw [if_pos h1]
    exact .inl ⟨ho.1 h1, rfl⟩
  · rw [if_neg h1]
    have h1' : ¬ ∃ b ∈ l, b.loc = a.loc := fun hh => h1 (ho.2 hh)
    by_cases h2 : isPlaced s a.vertex = true
    · rw [if_pos h2]
      exact .inr (.inl ⟨h1', hp.1 h2, rfl⟩)
    · rw [if_neg h2]
      have h2' : ¬ ∃ b ∈ l, b.vertex = a.vertex := fun hh => h2 (hp.2 hh)
      refine .inr (.inr ⟨h1', h2', rfl, ?_⟩)
      simp only
      refine ⟨?_, ?_, ?_, ?_⟩
      · intro xy
        simp only
        rw [Dict.get?_set, List.filter_append, List.map_append]
        by_cases hxy : a.xy = xy
        · subst hxy
          rw [if_pos rfl, onChip_fst, h.chip, Option.getD_some, Dict.set_absent]
          · simp
          · rw [Dict.get?_map, List.find?_eq_none]
            intro b hb
            simp only [List.mem_filter, decide_eq_true_eq] at hb
            intro hbp
            refine h1' ⟨b, hb.1, ?_⟩
            have hbp : b.p = a.p := by simpa using hbp
            have := hb.2
            simp only [Placement.xy, Prod.mk.injEq] at this
            simp only [Placement.loc, Prod.mk.injEq]
            exact ⟨this.1, this.2, hbp⟩
        · rw [if_neg hxy, onChip_byChip, h.chip]
          simp [hxy]
      · simp only
        rw [onChip_byVertex, h.vertex, Dict.set_absent]
        · simp
        · rw [Dict.get?_map (f := Placement.vertex), List.find?_eq_none]
          intro b hb hbv
          exact h2' ⟨b, hb, by simpa using hbv⟩
      · rw [List.map_append]
        refine nodup_snoc h.locs ?_
        intro hm
        obtain ⟨b, hb, hbl⟩ := List.mem_map.1 hm
        exact h1' ⟨b, hb, hbl⟩
      · rw [List.map_append]
        refine nodup_snoc h.verts ?_
        intro hm
        obtain ⟨b, hb, hbl⟩ := List.mem_map.1 hm
        exact h2' ⟨b, hb, hbl⟩

theorem run_inv {s : Store} {l : List Placement} (h : Inv s l) (os : List Op) :
    Inv (run s os) (l ++ added s os) := by
  induction os generalizing s l with
  | nil => simpa [run, added] using h
  | cons o os ih =>
    cases o with
    | add a =>
      rw [run, added]
      rcases add_inv h a with ⟨_, he⟩ | ⟨_, _, he⟩ | ⟨_, _, he, hi⟩
      · rw [he]
        simp only [step, he]
        exact ih h
      · rw [he]
        simp only [step, he]
        exact ih h
      · rw [he]
        simp only [step]
        have := ih hi
        simpa [List.append_assoc] using this
    | getOnProcessor x y p =>
      rw [run, added]
      · have : step s (.getOnProcessor x y p) = (onChip s (x, y)).2 := by
          simp only [step, getOnProcessor]
          cases ((onChip s (x, y)).1.get? p) <;> rfl
        rw [this]
        exact ih (h.touch _)
      · intro a hh
        cases hh
    | onChip xy =>
      rw [run, added]
      · exact ih (h.touch _)
      · intro a hh
        cases hh

/-! ### C30 -/

/-- C30, history: after any calls (failures caught, queries in between), no core holds two vertices and no
vertex is on two cores; the store holds exactly the placements added, in the order added, and all queries
agree with them. -/
theorem C30_bijection (os : List Op) :
    ((added Store.empty os).map Placement.loc).Nodup ∧
    ((added Store.empty os).map Placement.vertex).Nodup ∧
    placements (run Store.empty os) = added Store.empty os ∧
    nPlacements (run Store.empty os) = (added Store.empty os).length ∧
    (∀ xy, (placementsOnChip (run Store.empty os) xy).2 =
      (added Store.empty os).filter (fun a => decide (a.xy = xy))) ∧
    (∀ xy, nOnChip (run Store.empty os) xy =
      ((added Store.empty os).filter (fun a => decide (a.xy = xy))).length) ∧
    (∀ x y p a, (getOnProcessor (run Store.empty os) x y p).2 = .ok a ↔
      a ∈ added Store.empty os ∧ a.loc = (x, y, p)) ∧
    (∀ v a, getOfVertex (run Store.empty os) v = .ok a ↔ a ∈ added Store.empty os ∧ a.vertex = v) ∧
    (∀ v, (∀ a ∈ added Store.empty os, a.vertex ≠ v) → getOfVertex (run Store.empty os) v = .error .notPlaced) ∧
    (∀ x y p, (∀ a ∈ added Store.empty os, a.loc ≠ (x, y, p)) →
      (getOnProcessor (run Store.empty os) x y p).2 = .error .processorNotOccupied) ∧
    (∀ x y p, occupied (run Store.empty os) x y p = true ↔ ∃ a ∈ added Store.empty os, a.loc = (x, y, p)) ∧
    (∀ v, isPlaced (run Store.empty os) v = true ↔ ∃ a ∈ added Store.empty os, a.vertex = v) := by
  have h := run_inv inv_empty os
  rw [List.nil_append] at h
  have hinj : ∀ {f : Placement → Nat × Nat × Nat}, ((added Store.empty os).map f).Nodup →
      ∀ a ∈ added Store.empty os, ∀ b ∈ added Store.empty os, f a = f b → a = b := by
    intro f hn a ha b hb hab
    obtain ⟨i, hi, hia⟩ := List.getElem_of_mem ha
    obtain ⟨j, hj, hjb⟩ := List.getElem_of_mem hb
    have : i = j := by
      refine (List.getElem_inj (h₀ := by simpa using hi) (h₁ := by simpa using hj) hn).1 ?_
      rw [List.getElem_map, List.getElem_map, hia, hjb, hab]
    subst this
    exact hia.symm.trans hjb
  have hproc : ∀ x y p, (getOnProcessor (run Store.empty os) x y p).2 =
      match (((run Store.empty os).byChip.get? (x, y)).getD []).get? p with
      | some a => .ok a
      | none => .error .processorNotOccupied := by
    intro x y p
    simp only [getOnProcessor]
    rw [onChip_fst]
    cases (((run Store.empty os).byChip.get? (x, y)).getD []).get? p <;> rfl
  refine ⟨h.locs, h.verts, ?_, ?_, ?_, ?_, ?_, ?_, ?_, ?_, ?_, ?_⟩
  · unfold placements
    rw [h.vertex]
    simp [Function.comp_def]
  · unfold nPlacements
    rw [h.vertex]
    simp
  · intro xy
    simp only [placementsOnChip]
    rw [onChip_fst, h.chip]
    simp [Function.comp_def]
  · intro xy
    have : nOnChip (run Store.empty os) xy = (((run Store.empty os).byChip.get? xy).getD []).length := by
      unfold nOnChip
      cases (run Store.empty os).byChip.get? xy <;> rfl
    rw [this, h.chip]
    simp
  · intro x y p a
    rw [hproc, h.chip, Dict.get?_map]
    constructor
    · intro hh
      cases hf : List.find? (fun a => decide (a.p = p))
          ((added Store.empty os).filter (fun a => decide (a.xy = (x, y)))) with
      | none => rw [hf] at hh; cases hh
      | some b =>
        rw [hf] at hh
        cases hh
        have h1 := List.mem_of_find?_eq_some hf
        have h2 : a.p = p := by simpa using List.find?_some hf
        simp only [List.mem_filter, decide_eq_true_eq, Placement.xy, Prod.mk.injEq] at h1
        exact ⟨h1.1, by simp [Placement.loc, h1.2.1, h1.2.2, h2]⟩
    · rintro ⟨ha, hl⟩
      have hl' := hl
      simp only [Placement.loc, Prod.mk.injEq] at hl
      cases hf : List.find? (fun a => decide (a.p = p))
          ((added Store.empty os).filter (fun a => decide (a.xy = (x, y)))) with
      | none =>
        rw [List.find?_eq_none] at hf
        exact absurd (by simp [hl.2.2]) (hf a (List.mem_filter.2 ⟨ha, by simp [Placement.xy, hl.1, hl.2.1]⟩))
      | some b =>
        have h1 := List.mem_of_find?_eq_some hf
        have h2 : b.p = p := by simpa using List.find?_some hf
        simp only [List.mem_filter, decide_eq_true_eq, Placement.xy, Prod.mk.injEq] at h1
        have : b = a := hinj h.locs b h1.1 a ha (by rw [hl']; simp [Placement.loc, h1.2.1, h1.2.2, h2])
        rw [this]
  · intro v a
    unfold getOfVertex
    rw [h.vertex, Dict.get?_map (f := Placement.vertex)]
    have hinj' : ∀ a ∈ added Store.empty os, ∀ b ∈ added Store.empty os, a.vertex = b.vertex → a = b := by
      intro a ha b hb hab
      refine hinj (f := fun a => (a.vertex, 0, 0)) ?_ a ha b hb (by rw [hab])
      have hv := h.verts
      rw [List.nodup_iff_pairwise_ne, List.pairwise_map] at hv ⊢
      exact hv.imp (fun hne he => hne (by simpa using he))
    constructor
    · intro hh
      cases hf : List.find? (fun a => decide (a.vertex = v)) (added Store.empty os) with
      | none => rw [hf] at hh; cases hh
      | some b =>
        rw [hf] at hh
        cases hh
        exact ⟨List.mem_of_find?_eq_some hf, by simpa using List.find?_some hf⟩
    · rintro ⟨ha, hv⟩
      cases hf : List.find? (fun a => decide (a.vertex = v)) (added Store.empty os) with
      | none =>
        rw [List.find?_eq_none] at hf
        exact absurd (by simp [hv]) (hf a ha)
      | some b =>
        have h2 : b.vertex = v := by simpa using List.find?_some hf
        rw [hinj' b (List.mem_of_find?_eq_some hf) a ha (h2.trans hv.symm)]
  · intro v hv
    unfold getOfVertex
    rw [h.vertex, Dict.get?_map (f := Placement.vertex)]
    cases hf : List.find? (fun a => decide (a.vertex = v)) (added Store.empty os) with
    | none => rfl
    | some b => exact absurd (by simpa using List.find?_some hf) (hv b (List.mem_of_find?_eq_some hf))
  · intro x y p hl
    rw [hproc, h.chip, Dict.get?_map]
    cases hf : List.find? (fun a => decide (a.p = p))
        ((added Store.empty os).filter (fun a => decide (a.xy = (x, y)))) with
    | none => rfl
    | some b =>
      have h1 := List.mem_of_find?_eq_some hf
      have h2 : b.p = p := by simpa using List.find?_some hf
      simp only [List.mem_filter, decide_eq_true_eq, Placement.xy, Prod.mk.injEq] at h1
      exact absurd (by simp [Placement.loc, h1.2.1, h1.2.2, h2]) (hl b h1.1)
  · exact fun x y p => h.occupied_iff x y p
  · exact fun v => h.placed_iff v

/-- C30, queries by class: those of the placements added whose vertex is of the class, in the order added. -/
theorem C30_of_type (os : List Op) (isType : Nat → Bool) :
    ofType (run Store.empty os) isType = (added Store.empty os).filter (fun a => isType a.vertex) ∧
    ∀ xy, (onChipOfType (run Store.empty os) xy isType).2 =
      (added Store.empty os).filter (fun a => decide (a.xy = xy) && isType a.vertex) := by
  obtain ⟨-, -, h1, -, h2, -⟩ := C30_bijection os
  constructor
  · rw [← h1]
    rfl
  · intro xy
    have : (onChipOfType (run Store.empty os) xy isType).2 =
        (placementsOnChip (run Store.empty os) xy).2.filter (fun a => isType a.vertex) := rfl
    rw [this, h2 xy, List.filter_filter]
    congr 1
    funext a
    rw [Bool.and_comm]

/-- C30, exactness: a further placement is accepted if and only if its core is free and its vertex not placed;
the exception names the reason; a failed addition changes nothing. -/
theorem C30_accepts_exactly (os : List Op) (a : Placement) :
    ((add (run Store.empty os) a).2 = .ok () ↔
      ∀ b ∈ added Store.empty os, b.loc ≠ a.loc ∧ b.vertex ≠ a.vertex) ∧
    ((add (run Store.empty os) a).2 = .error .processorOccupied ↔ ∃ b ∈ added Store.empty os, b.loc = a.loc) ∧
    (∀ e, (add (run Store.empty os) a).2 = .error e → (add (run Store.empty os) a).1 = run Store.empty os ∧
      (e = .processorOccupied ∨ e = .alreadyPlaced)) := by
  have h := run_inv inv_empty os
  rw [List.nil_append] at h
  rcases add_inv h a with ⟨h1, he⟩ | ⟨h1, h2, he⟩ | ⟨h1, h2, he, _⟩
  · rw [he]
    obtain ⟨b, hb, hl⟩ := h1
    refine ⟨⟨fun hh => (by cases hh), fun hh => absurd hl (hh b hb).1⟩, ⟨fun _ => ⟨b, hb, hl⟩, fun _ => rfl⟩, ?_⟩
    intro e hh
    cases hh
    exact ⟨rfl, .inl rfl⟩
  · rw [he]
    obtain ⟨b, hb, hl⟩ := h2
    refine ⟨⟨fun hh => (by cases hh), fun hh => absurd hl (hh b hb).2⟩,
      ⟨fun hh => (by cases hh), fun hh => absurd hh h1⟩, ?_⟩
    intro e hh
    cases hh
    exact ⟨rfl, .inr rfl⟩
  · rw [he]
    refine ⟨⟨fun _ b hb => ⟨fun hl => h1 ⟨b, hb, hl⟩, fun hl => h2 ⟨b, hb, hl⟩⟩, fun _ => rfl⟩,
      ⟨fun hh => (by cases hh), fun hh => absurd hh h1⟩, ?_⟩
    intro e hh
    cases hh

/-- Two placements, a clash of cores, a vertex placed twice, and queries. -/
def exampleOps : List Op :=
  [.add ⟨1, 0, 0, 2⟩, .add ⟨2, 0, 0, 2⟩, .onChip (3, 3), .add ⟨1, 0, 1, 2⟩, .add ⟨2, 0, 0, 3⟩,
   .getOnProcessor 4 4 1]

example : added Store.empty exampleOps = [⟨1, 0, 0, 2⟩, ⟨2, 0, 0, 3⟩] ∧
    (add (run Store.empty exampleOps) ⟨3, 0, 0, 2⟩).2 = .error .processorOccupied ∧
    (add (run Store.empty exampleOps) ⟨2, 5, 0, 2⟩).2 = .error .alreadyPlaced ∧
    (add (run Store.empty exampleOps) ⟨3, 5, 0, 2⟩).2 = .ok () ∧
    ofType (run Store.empty exampleOps) (· == 2) = [⟨2, 0, 0, 3⟩] ∧
    (onChipOfType (run Store.empty exampleOps) (0, 0) (· == 1)).2 = [⟨1, 0, 0, 2⟩] := by decide +kernel

theorem addAll_inv {s : Store} {l : List Placement} (h : Inv s l) (as : List Placement) :
    ((addAll s as).2 = .ok () ↔ ((l ++ as).map Placement.loc).Nodup ∧ ((l ++ as).map Placement.vertex).Nodup) ∧
    ((addAll s as).2 = .ok () → Inv (addAll s as).1 (l ++ as)) := by
  induction as generalizing s l with
  | nil => simpa [addAll, h.locs, h.verts] using h
  | cons a as ih =>
    have happ : ∀ {β : Type} (f : Placement → β), (∃ b ∈ l, f b = f a) → ¬ ((l ++ a :: as).map f).Nodup := by
      rintro β f ⟨b, hb, hf⟩ hn
      rw [List.map_append, List.nodup_append] at hn
      exact hn.2.2 (f b) (List.mem_map.2 ⟨b, hb, rfl⟩) (f a) (by simp) hf
    rw [addAll]
    rcases add_inv h a with ⟨h1, he⟩ | ⟨_, h2, he⟩ | ⟨h1, h2, he, hi⟩
    · rw [he]
      exact ⟨⟨fun hh => (by cases hh), fun hh => absurd hh.1 (happ _ h1)⟩, fun hh => (by cases hh)⟩
    · rw [he]
      exact ⟨⟨fun hh => (by cases hh), fun hh => absurd hh.2 (happ _ h2)⟩, fun hh => (by cases hh)⟩
    · have hadd : add s a = ((add s a).1, .ok ()) := by rw [← he]
      rw [hadd]
      simpa [List.append_assoc] using ih hi

/-- C30, constructor: `Placements(l)` succeeds if and only if no two of the placements share a core or a vertex,
and then holds exactly these. -/
theorem C30_constructor (as : List Placement) :
    ((addAll Store.empty as).2 = .ok () ↔ (as.map Placement.loc).Nodup ∧ (as.map Placement.vertex).Nodup) ∧
    ((addAll Store.empty as).2 = .ok () → placements (addAll Store.empty as).1 = as) := by
  have h := addAll_inv inv_empty as
  rw [List.nil_append] at h
  refine ⟨h.1, fun hh => ?_⟩
  unfold placements
  rw [(h.2 hh).vertex]
  simp [Function.comp_def]

example : (addAll Store.empty [⟨1, 0, 0, 2⟩, ⟨2, 0, 1, 2⟩, ⟨3, 0, 0, 3⟩]).2 = .ok () ∧
    (addAll Store.empty [⟨1, 0, 0, 2⟩, ⟨2, 0, 1, 2⟩, ⟨3, 0, 0, 2⟩]).2 = .error .processorOccupied := by
  decide +kernel

/-! ### C59 -/

/-- C59 is violated: asking for the placements of an empty chip makes it a chip with placements. -/
theorem C59_query_adds_chip :
    chips (run Store.empty [.add ⟨1, 0, 0, 2⟩]) = [(0, 0)] ∧
    chips (run Store.empty [.add ⟨1, 0, 0, 2⟩, .onChip (3, 3)]) = [(0, 0), (3, 3)] ∧
    chips (run Store.empty [.add ⟨1, 0, 0, 2⟩, .getOnProcessor 3 3 1]) = [(0, 0), (3, 3)] := by decide +kernel

theorem chips_mem {s : Store} {l : List Placement} (h : Inv s l) {a : Placement} (ha : a ∈ l) :
    a.xy ∈ chips s := by
  refine Classical.byContradiction fun hn => ?_
  have := h.chip a.xy
  rw [Dict.get?_eq_none.2 hn] at this
  have hm : a ∈ l.filter (fun b => decide (b.xy = a.xy)) := List.mem_filter.2 ⟨ha, by simp⟩
  cases hf : l.filter (fun b => decide (b.xy = a.xy)) with
  | nil => rw [hf] at hm; simp at hm
  | cons b bs => rw [hf] at this; simp at this

theorem chips_step (s : Store) (a : Placement) : ∀ xy ∈ chips (add s a).1, xy ∈ chips s ∨ (add s a).2 = .ok () ∧
    xy = a.xy := by
  intro xy hxy
  unfold add at hxy ⊢
  by_cases h1 : occupied s a.x a.y a.p = true
  · rw [if_pos h1] at hxy
    exact .inl hxy
  · rw [if_neg h1] at hxy ⊢
    by_cases h2 : isPlaced s a.vertex = true
    · rw [if_pos h2] at hxy
      exact .inl hxy
    · rw [if_neg h2] at hxy ⊢
      have hxy : xy ∈ Dict.keys ((onChip s a.xy).2.byChip.set a.xy _) := hxy
      rw [Dict.mem_keys_set] at hxy
      rcases hxy with hxy | hxy
      · unfold onChip at hxy
        cases hg : s.byChip.get? a.xy with
        | some d => rw [hg] at hxy; exact .inl hxy
        | none =>
          rw [hg] at hxy
          simp only at hxy
          rw [Dict.mem_keys_set] at hxy
          rcases hxy with hxy | hxy
          · exact .inl hxy
          · exact .inr ⟨rfl, hxy⟩
      · exact .inr ⟨rfl, hxy⟩

/-- C59 without queries: after additions only, the chips listed are exactly those with a placement; with
queries too every chip with a placement is listed. What is missing: chips that were only asked for are listed
too, see `C59_query_adds_chip`. -/
theorem C59_chips_partial (os : List Op) :
    (∀ a ∈ added Store.empty os, a.xy ∈ chips (run Store.empty os)) ∧
    ((∀ o ∈ os, ∃ a, o = .add a) → ∀ xy ∈ chips (run Store.empty os), ∃ a ∈ added Store.empty os, a.xy = xy) := by
  have h := run_inv inv_empty os
  rw [List.nil_append] at h
  refine ⟨fun a ha => chips_mem h ha, ?_⟩
  have key : ∀ (os : List Op) (s : Store), (∀ o ∈ os, ∃ a, o = .add a) → ∀ xy ∈ chips (run s os),
      xy ∈ chips s ∨ ∃ a ∈ added s os, a.xy = xy := by
    intro os
    induction os with
    | nil => exact fun s _ xy hxy => .inl hxy
    | cons o os ih =>
      intro s hall xy hxy
      obtain ⟨a, rfl⟩ := hall o List.mem_cons_self
      rw [run] at hxy
      rw [added]
      rcases ih (add s a).1 (fun o ho => hall o (List.mem_cons_of_mem _ ho)) xy hxy with hh | ⟨b, hb, hbx⟩
      · rcases chips_step s a xy hh with h1 | ⟨h1, h2⟩
        · exact .inl h1
        · rw [h1]
          exact .inr ⟨a, List.mem_cons_self, h2.symm⟩
      · right
        cases hr : (add s a).2 with
        | ok u => exact ⟨b, List.mem_cons_of_mem _ hb, hbx⟩
        | error e => exact ⟨b, hb, hbx⟩
  intro hall xy hxy
  rcases key os Store.empty hall xy hxy with hh | hh
  · simp [chips, Store.empty] at hh
  · exact hh

example : chips (run Store.empty [.add ⟨1, 0, 0, 2⟩, .add ⟨2, 0, 0, 2⟩, .add ⟨2, 0, 1, 2⟩]) = [(0, 0), (0, 1)] := by
  decide +kernel

end Pacman.Plc
