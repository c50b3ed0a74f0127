import Verif.Proofs.RoutingInfo
/-
C21: the store of routing information.
-/

namespace Pacman.RInfo

/-- A sequence used in the examples: two infos for vertex 7, a rejected third, a query for vertex 9. -/
def sample : List Op :=
  [.add ⟨7, 0, 0x10, 0xF0⟩, .getKey 9 0, .add ⟨7, 1, 0x20, 0xF0⟩, .add ⟨7, 0, 0x30, 0xF0⟩,
   .add ⟨8, 1, 0x40, 0xF0⟩]

/-- **C21.** After any calls, looking up a vertex and partition gives the info accepted for that pair, or
a `KeyError` if none was; the other lookups agree. -/
theorem C21_lookup (ops : List Op) (v p : Nat) :
    (∀ i, (getInfo (run ops) v p).2 = .ok i ↔ i ∈ accepted ops ∧ i.vertex = v ∧ i.part = p) ∧
    ((∀ i ∈ accepted ops, ¬ (i.vertex = v ∧ i.part = p)) → (getInfo (run ops) v p).2 = .error .keyError) ∧
    (getPre (run ops) v p).2 = (getInfo (run ops) v p).2.toOption ∧
    (getKey (run ops) v p).2 = (getInfo (run ops) v p).2.map (·.key) ∧
    firstKey (run ops) v p = ((getInfo (run ops) v p).2.map (·.key)).toOption ∧
    hasInfo (run ops) v p = (getInfo (run ops) v p).2.toOption.isSome := by
  have h := inv_run ops
  have hg := h.group v
  have hf := group_get? (accepted ops) v p
  rw [← hg] at hf
  have hget : (touch (run ops) v).2.get? p =
      (accepted ops).find? (fun i => decide (i.vertex = v ∧ i.part = p)) := by
    rw [touch_snd]; exact hf
  refine ⟨?_, ?_, ?_, ?_, ?_, ?_⟩
  · intro i
    unfold getInfo
    simp only [hget]
    constructor
    · intro hi
      split at hi
      · rename_i j hj
        simp only [Except.ok.injEq] at hi
        subst hi
        have := List.find?_some hj
        simp only [decide_eq_true_eq] at this
        exact ⟨List.mem_of_find?_eq_some hj, this⟩
      · simp at hi
    · rintro ⟨hm, hv, hp⟩
      cases hfind : (accepted ops).find? (fun i => decide (i.vertex = v ∧ i.part = p)) with
      | none =>
        rw [List.find?_eq_none] at hfind
        have := hfind i hm
        simp [hv, hp] at this
      | some j =>
        have hj := List.find?_some hfind
        simp only [decide_eq_true_eq] at hj
        have hjm := List.mem_of_find?_eq_some hfind
        have : j = i := unique h.pairs hjm hm (by rw [hj.1, hv]) (by rw [hj.2, hp])
        rw [this]
  · intro hno
    unfold getInfo
    simp only [hget]
    have : (accepted ops).find? (fun i => decide (i.vertex = v ∧ i.part = p)) = none := by
      rw [List.find?_eq_none]
      intro i hi
      simpa using hno i hi
    rw [this]
  · unfold getPre getInfo
    simp only [hget]
    cases (accepted ops).find? (fun i => decide (i.vertex = v ∧ i.part = p)) <;> rfl
  · unfold getKey getInfo
    simp only [hget]
    cases (accepted ops).find? (fun i => decide (i.vertex = v ∧ i.part = p)) <;> rfl
  · unfold getInfo firstKey
    simp only [touch_snd]
    cases hs : (run ops).get? v with
    | none => rfl
    | some d =>
      simp only [Option.getD_some]
      cases d.get? p <;> rfl
  · unfold getInfo hasInfo
    simp only [touch_snd]
    cases hs : (run ops).get? v with
    | none => rfl
    | some d =>
      simp only [Option.getD_some]
      cases d.get? p <;> rfl

example : (getInfo (run sample) 7 0).2 = .ok ⟨7, 0, 0x10, 0xF0⟩ ∧
    (getInfo (run sample) 9 0).2 = .error .keyError ∧ (accepted sample).length = 3 := by decide

/-- **C21.** Iteration gives each accepted info exactly once, and the partitions of a vertex are those of
its accepted infos. -/
theorem C21_iteration (ops : List Op) :
    (∀ i, i ∈ iter (run ops) ↔ i ∈ accepted ops) ∧
    ((iter (run ops)).map (fun i => (i.vertex, i.part))).Nodup ∧
    (∀ v, (partitions (run ops) v).2 =
      ((accepted ops).filter (fun i => decide (i.vertex = v))).map (·.part)) ∧
    (∀ v allowed, checkInfo (run ops) v allowed = .ok () ↔
      ∀ i ∈ accepted ops, i.vertex = v → i.part ∈ allowed) := by
  have h := inv_run ops
  refine ⟨mem_iter h, iter_nodup h, ?_, ?_⟩
  · intro v
    unfold partitions
    simp only [touch_snd, h.group]
    unfold group
    rw [List.map_map]
    rfl
  · intro v allowed
    have hg := h.group v
    have hall : (∀ i ∈ accepted ops, i.vertex = v → i.part ∈ allowed) ↔
        ∀ x ∈ group (accepted ops) v, x.1 ∈ allowed := by
      unfold group
      simp only [List.mem_map, List.mem_filter, decide_eq_true_eq]
      constructor
      · rintro hi x ⟨i, ⟨h1, h2⟩, rfl⟩
        exact hi i h1 h2
      · intro hx i h1 h2
        exact hx (i.part, i) ⟨i, ⟨h1, h2⟩, rfl⟩
    rw [hall, ← hg]
    unfold checkInfo
    cases hs : (run ops).get? v with
    | none => simp
    | some d =>
      simp only [Option.getD_some]
      rw [forE_ok]
      constructor
      · intro hx x hxd
        have := hx x hxd
        split at this
        · assumption
        · simp at this
      · intro hx x hxd
        rw [if_pos (hx x hxd)]

example : iter (run sample) = [⟨7, 0, 0x10, 0xF0⟩, ⟨7, 1, 0x20, 0xF0⟩, ⟨8, 1, 0x40, 0xF0⟩] ∧
    checkInfo (run sample) 7 [0] = .error .keyError ∧ checkInfo (run sample) 7 [1, 0] = .ok () := by
  decide

/-- **C21.** An info is accepted exactly if there is none yet for its vertex and partition; otherwise the
call raises `PacmanAlreadyExistsException` and the store is as before. -/
theorem C21_add (ops : List Op) (i : VInfo) :
    ((∃ s, add (run ops) i = .ok s) ↔ ∀ j ∈ accepted ops, ¬ (j.vertex = i.vertex ∧ j.part = i.part)) ∧
    (∀ e, add (run ops) i = .error e → e = .alreadyExists ∧ run (ops ++ [.add i]) = run ops) ∧
    ((∃ s, add (run ops) i = .ok s) → accepted (ops ++ [.add i]) = accepted ops ++ [i]) := by
  have hrun : run (ops ++ [.add i]) = step (run ops) (.add i) := by
    unfold run; rw [List.foldl_append]; rfl
  have hacc : accepted (ops ++ [.add i]) = accept (accepted ops) (.add i) := by
    unfold accepted; rw [List.foldl_append]; rfl
  rcases add_cases (inv_run ops) i with ⟨h1, h2⟩ | ⟨h1, s', h2, _⟩
  · refine ⟨⟨by rw [h2]; simp, ?_⟩, ?_, by rw [h2]; simp⟩
    · intro hno
      rw [List.any_eq_true] at h1
      obtain ⟨j, hj, hd⟩ := h1
      exact absurd (by simpa using hd) (hno j hj)
    · intro e he
      rw [h2] at he
      refine ⟨by simpa using he.symm, ?_⟩
      rw [hrun]
      simp only [step, h2]
  · refine ⟨⟨?_, fun _ => ⟨s', h2⟩⟩, by rw [h2]; simp, ?_⟩
    · intro _ j hj hji
      rw [Bool.eq_false_iff, ne_eq, List.any_eq_true] at h1
      exact h1 ⟨j, hj, by simpa using hji⟩
    · intro _
      rw [hacc]
      simp only [accept, h1, Bool.false_eq_true, if_false]

example : add (run sample) ⟨8, 1, 0, 0⟩ = .error .alreadyExists ∧
    ∃ s, add (run sample) ⟨9, 0, 0, 0⟩ = .ok s := ⟨by decide, _, rfl⟩

/-- **C21 (part).** The single info of a vertex with accepted infos: the only one, or a `KeyError` if there
are several. Missing: a vertex without infos, see `C21_queries_change_results`. -/
theorem C21_single_partial (ops : List Op) (v : Nat) :
    (∀ i, (accepted ops).filter (fun i => decide (i.vertex = v)) = [i] →
      single (run ops) v = .ok (some i) ∧ singleKey (run ops) v = .ok (some i.key)) ∧
    (1 < ((accepted ops).filter (fun i => decide (i.vertex = v))).length →
      single (run ops) v = .error .keyError ∧ singleKey (run ops) v = .error .keyError) := by
  have hg := (inv_run ops).group v
  unfold group at hg
  refine ⟨?_, ?_⟩
  · intro i hi
    rw [hi] at hg
    have : single (run ops) v = .ok (some i) := by
      unfold single
      cases hs : (run ops).get? v with
      | none => rw [hs] at hg; simp at hg
      | some d =>
        rw [hs] at hg
        simp only [Option.getD_some, List.map_cons, List.map_nil] at hg
        rw [hg]
    exact ⟨this, by unfold singleKey; rw [this]⟩
  · intro hlen
    have : single (run ops) v = .error .keyError := by
      unfold single
      cases hs : (run ops).get? v with
      | none =>
        rw [hs] at hg
        have := congrArg List.length hg
        simp at this
        omega
      | some d =>
        rw [hs] at hg
        simp only [Option.getD_some] at hg
        rw [← List.length_map (f := fun i => (i.part, i)), ← hg] at hlen
        simp only
        match d, hlen with
        | _ :: _ :: _, _ => rfl
    exact ⟨this, by unfold singleKey; rw [this]⟩

example : single (run sample) 8 = .ok (some ⟨8, 1, 0x40, 0xF0⟩) ∧
    single (run sample) 7 = .error .keyError := by decide

/-- **C21 is false for some queries.** Asking for the partitions of an unknown vertex puts it in the store:
`get_single_info_from` raises instead of returning `None`, and the length grows. -/
theorem C21_queries_change_results :
    single (run []) 9 = .ok none ∧ single (run [.partitions 9]) 9 = .error .keyError ∧
    len (run []) = 0 ∧ len (run [.partitions 9]) = 1 ∧
    (partitions (run []) 9).2 = [] ∧ (getInfo (run []) 9 0).2 = .error .keyError ∧
    single (run [.getInfo 9 0]) 9 = .error .keyError := by decide

end Pacman.RInfo
