import Verif.Model.RoutingInfo
import Verif.Proofs.RoutingTables
import Verif.Proofs.Sort
/-
The store of routing information: invariant.
-/

namespace Pacman.RInfo

/-- The infos accepted so far: the first for each vertex and partition. -/
def accept (A : List VInfo) : Op → List VInfo
  | .add i => if A.any (fun j => decide (j.vertex = i.vertex ∧ j.part = i.part)) then A else A ++ [i]
  | _ => A

/-- The infos accepted by a sequence of calls. -/
def accepted (ops : List Op) : List VInfo := ops.foldl accept []

/-- The part of the accepted infos for one vertex, as a dictionary. -/
def group (A : List VInfo) (v : Nat) : Dict Nat VInfo :=
  (A.filter (fun i => decide (i.vertex = v))).map (fun i => (i.part, i))

theorem group_get? (A : List VInfo) (v p : Nat) :
    (group A v).get? p = A.find? (fun i => decide (i.vertex = v ∧ i.part = p)) := by
  induction A with
  | nil => rfl
  | cons i A ih =>
    unfold group at ih ⊢
    rw [List.filter_cons, List.find?_cons]
    by_cases h1 : i.vertex = v
    · simp only [h1, decide_true, if_true, List.map_cons, true_and]
      rw [Dict.get?_cons]
      by_cases h2 : i.part = p
      · simp [h2]
      · simp only [h2, if_false, decide_false]
        rw [ih]
    · simp only [h1, decide_false, Bool.false_eq_true, if_false, false_and]
      exact ih

/-- The store holds exactly the accepted infos. -/
structure Inv (s : Store) (A : List VInfo) : Prop where
  keys : (Dict.keys s).Nodup
  group : ∀ v, (s.get? v).getD [] = group A v
  pairs : (A.map (fun i => (i.vertex, i.part))).Nodup

theorem inv_nil : Inv [] [] := ⟨by simp [Dict.keys], fun _ => rfl, by simp⟩

theorem touch_fst (s : Store) (v w : Nat) : ((touch s v).1.get? w).getD [] = (s.get? w).getD [] := by
  unfold touch
  cases h : s.get? v with
  | some d => rfl
  | none =>
    simp only
    rw [Dict.get?_set]
    split
    · rename_i hvw; subst hvw; rw [h]; rfl
    · rfl

theorem touch_snd (s : Store) (v : Nat) : (touch s v).2 = (s.get? v).getD [] := by
  unfold touch
  cases h : s.get? v with
  | some d => rfl
  | none => rfl

theorem touch_nodup {s : Store} (h : (Dict.keys s).Nodup) (v : Nat) : (Dict.keys (touch s v).1).Nodup := by
  unfold touch
  cases s.get? v with
  | some d => exact h
  | none => exact Dict.nodup_set h _ _

theorem inv_touch {s : Store} {A : List VInfo} (h : Inv s A) (v : Nat) : Inv (touch s v).1 A :=
  ⟨touch_nodup h.keys v, fun w => by rw [touch_fst]; exact h.group w, h.pairs⟩

theorem group_append (A : List VInfo) (i : VInfo) (v : Nat) :
    group (A ++ [i]) v = group A v ++ if i.vertex = v then [(i.part, i)] else [] := by
  unfold group
  rw [List.filter_append, List.map_append]
  congr 1
  by_cases h : i.vertex = v <;> simp [h]

theorem any_iff (A : List VInfo) (i : VInfo) :
    A.any (fun j => decide (j.vertex = i.vertex ∧ j.part = i.part)) =
      ((group A i.vertex).get? i.part).isSome := by
  rw [group_get?, Bool.eq_iff_iff, List.any_eq_true, List.find?_isSome]

theorem add_cases {s : Store} {A : List VInfo} (h : Inv s A) (i : VInfo) :
    (A.any (fun j => decide (j.vertex = i.vertex ∧ j.part = i.part)) = true ∧
      add s i = .error .alreadyExists) ∨
    (A.any (fun j => decide (j.vertex = i.vertex ∧ j.part = i.part)) = false ∧
      ∃ s', add s i = .ok s' ∧ Inv s' (A ++ [i])) := by
  have hput : A.any (fun j => decide (j.vertex = i.vertex ∧ j.part = i.part)) = false →
      Inv ((touch s i.vertex).1.set i.vertex ((touch s i.vertex).2.set i.part i)) (A ++ [i]) := by
    intro hno
    refine ⟨Dict.nodup_set (touch_nodup h.keys _) _ _, ?_, ?_⟩
    · intro v
      rw [group_append, Dict.get?_set]
      split
      · rename_i hv
        subst hv
        rw [touch_snd, h.group]
        rw [any_iff] at hno
        simp only [Option.getD_some]
        rw [Dict.set_new (by
          cases hg : (RInfo.group A i.vertex).get? i.part with
          | none => rfl
          | some j => rw [hg] at hno; simp at hno)]
      · rename_i hv
        rw [List.append_nil, touch_fst, h.group]
    · rw [List.map_append, List.nodup_append]
      refine ⟨h.pairs, by simp, ?_⟩
      intro a ha b hb heq
      subst heq
      simp only [List.map_cons, List.map_nil, List.mem_singleton] at hb
      subst hb
      rw [List.mem_map] at ha
      obtain ⟨j, hj, heq⟩ := ha
      simp only [Prod.mk.injEq] at heq
      have : A.any (fun j => decide (j.vertex = i.vertex ∧ j.part = i.part)) = true := by
        rw [List.any_eq_true]
        exact ⟨j, hj, by simp [heq]⟩
      rw [hno] at this
      simp at this
  have hg := h.group i.vertex
  unfold add
  simp only
  cases hs : s.get? i.vertex with
  | none =>
    rw [hs] at hg
    have hno : A.any (fun j => decide (j.vertex = i.vertex ∧ j.part = i.part)) = false := by
      rw [any_iff, ← hg]; rfl
    exact .inr ⟨hno, _, rfl, hput hno⟩
  | some d =>
    rw [hs] at hg
    simp only [Option.getD_some] at hg
    cases hd : (d.get? i.part).isSome with
    | true =>
      refine .inl ⟨by rw [any_iff, ← hg]; exact hd, ?_⟩
      simp [hd]
    | false =>
      have hno : A.any (fun j => decide (j.vertex = i.vertex ∧ j.part = i.part)) = false := by
        rw [any_iff, ← hg]; exact hd
      refine .inr ⟨hno, _, by simp only [hd]; rfl, hput hno⟩

theorem inv_step {s : Store} {A : List VInfo} (h : Inv s A) (op : Op) : Inv (step s op) (accept A op) := by
  cases op with
  | add i =>
    rcases add_cases h i with ⟨h1, h2⟩ | ⟨h1, s', h2, h3⟩
    · simp only [step, accept, h2, h1, if_true]; exact h
    · simp only [step, accept, h2, h1, Bool.false_eq_true, if_false]; exact h3
  | getPre v p => exact inv_touch h v
  | getInfo v p => exact inv_touch h v
  | getKey v p => exact inv_touch h v
  | partitions v => exact inv_touch h v
  | other => exact h

theorem inv_run (ops : List Op) : Inv (run ops) (accepted ops) := by
  have : ∀ (ops : List Op) (s : Store) (A : List VInfo), Inv s A →
      Inv (ops.foldl step s) (ops.foldl accept A) := by
    intro ops
    induction ops with
    | nil => intro s A h; exact h
    | cons op ops ih => intro s A h; exact ih _ _ (inv_step h op)
  exact this ops [] [] inv_nil

theorem mem_iter {s : Store} {A : List VInfo} (h : Inv s A) (i : VInfo) : i ∈ iter s ↔ i ∈ A := by
  unfold iter
  rw [List.mem_flatMap]
  constructor
  · rintro ⟨⟨v, d⟩, hm, hi⟩
    have hg := h.group v
    rw [Dict.get?_of_mem h.keys hm] at hg
    simp only [Option.getD_some] at hg
    rw [hg] at hi
    unfold RInfo.group at hi
    simp only [List.map_map, List.mem_map, List.mem_filter, Function.comp] at hi
    obtain ⟨j, ⟨hj, _⟩, rfl⟩ := hi
    exact hj
  · intro hi
    have hg := h.group i.vertex
    have hmem : (i.part, i) ∈ RInfo.group A i.vertex := by
      unfold RInfo.group
      exact List.mem_map.2 ⟨i, List.mem_filter.2 ⟨hi, by simp⟩, rfl⟩
    cases hs : s.get? i.vertex with
    | none => rw [hs] at hg; rw [← hg] at hmem; simp at hmem
    | some d =>
      rw [hs] at hg
      simp only [Option.getD_some] at hg
      refine ⟨(i.vertex, d), Dict.mem_of_get? hs, List.mem_map.2 ⟨(i.part, i), ?_, rfl⟩⟩
      rw [hg]; exact hmem

theorem iter_nodup {s : Store} {A : List VInfo} (h : Inv s A) :
    ((iter s).map (fun i => (i.vertex, i.part))).Nodup := by
  have hsub : ∀ (t : Store), (∀ x ∈ t, x ∈ s) → (Dict.keys t).Nodup →
      ((iter t).map (fun i => (i.vertex, i.part))).Nodup := by
    intro t
    induction t with
    | nil => intro _ _; simp [iter]
    | cons x t ih =>
      intro hm hn
      obtain ⟨v, d⟩ := x
      have hg := h.group v
      rw [Dict.get?_of_mem h.keys (hm (v, d) (by simp))] at hg
      simp only [Option.getD_some] at hg
      have hn' : v ∉ Dict.keys t ∧ (Dict.keys t).Nodup := by
        simpa [Dict.keys] using hn
      unfold iter
      rw [List.flatMap_cons, List.map_append, List.nodup_append]
      refine ⟨?_, ih (fun y hy => hm y (by simp [hy])) hn'.2, ?_⟩
      · simp only [hg]
        unfold RInfo.group
        simp only [List.map_map]
        have := h.pairs
        unfold List.Nodup at this ⊢
        rw [List.pairwise_map] at this ⊢
        exact this.filter _
      · intro a ha b hb heq
        subst heq
        simp only [hg] at ha
        unfold RInfo.group at ha
        simp only [List.map_map, List.mem_map, List.mem_filter, Function.comp, decide_eq_true_eq] at ha
        obtain ⟨i, ⟨_, hi⟩, rfl⟩ := ha
        rw [List.mem_map] at hb
        obtain ⟨j, hj, heq⟩ := hb
        simp only [Prod.mk.injEq] at heq
        rw [List.mem_flatMap] at hj
        obtain ⟨⟨w, e⟩, hwe, hje⟩ := hj
        have hg' := h.group w
        rw [Dict.get?_of_mem h.keys (hm (w, e) (by simp [hwe]))] at hg'
        simp only [Option.getD_some] at hg'
        simp only [hg'] at hje
        unfold RInfo.group at hje
        simp only [List.map_map, List.mem_map, List.mem_filter, Function.comp, decide_eq_true_eq] at hje
        obtain ⟨j', ⟨_, hj'⟩, rfl⟩ := hje
        apply hn'.1
        unfold Dict.keys
        refine List.mem_map.2 ⟨(w, e), hwe, ?_⟩
        simp only
        omega
  exact hsub s (fun _ h => h) h.keys

theorem unique {A : List VInfo} (h : (A.map (fun i => (i.vertex, i.part))).Nodup) {i j : VInfo}
    (hi : i ∈ A) (hj : j ∈ A) (h1 : i.vertex = j.vertex) (h2 : i.part = j.part) : i = j := by
  induction A with
  | nil => simp at hi
  | cons a A ih =>
    rw [List.map_cons, List.nodup_cons] at h
    rw [List.mem_cons] at hi hj
    rcases hi with rfl | hi <;> rcases hj with rfl | hj
    · rfl
    · exact absurd (List.mem_map.2 ⟨j, hj, by rw [h1, h2]⟩) h.1
    · exact absurd (List.mem_map.2 ⟨i, hi, by rw [h1, h2]⟩) h.1
    · exact ih h.2 hi hj

end Pacman.RInfo
