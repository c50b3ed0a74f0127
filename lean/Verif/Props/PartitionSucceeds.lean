import Verif.Proofs.PartitionSucceeds
/-
C112: when the partitioner returns.
-/

namespace Pacman.Split

open Counter (Counter)

theorem fits_iff {E : Env} {W : World} {v s : Nat} (hs : (W.app v).splitter = some s) :
    Fits E v (W.app v) s (W.spl s) ↔ CanSplit E W v := by
  have h1 : CanSplit E W v ↔ match E.kind s with
      | .fixed => (E.app v).single = none ∧ Slices.Vertex.Valid ⟨(E.app v).shape, (W.app v).maxPer⟩
      | .oneToOne => ∃ l, outVerts E W s = .ok l
      | .oneApp => True
      | .external => ∀ m l, (E.app v).single = some m → outVerts E W s = .ok l ∨ inVerts E W s = .ok l →
          ∀ k ∈ l, k = m := by
    unfold CanSplit
    constructor
    · intro ⟨t, ht, h⟩
      rw [hs] at ht
      cases ht
      exact h
    · intro h
      exact ⟨s, hs, h⟩
  rw [h1]
  unfold Fits
  cases hk : E.kind s with
  | fixed => exact .rfl
  | oneApp => exact .rfl
  | oneToOne =>
    simp only
    unfold outVerts
    simp only [hk]
    cases (W.spl s).one with
    | none => exact ⟨fun h => absurd rfl h, fun ⟨_, h⟩ => by cases h⟩
    | some x => exact ⟨fun _ => ⟨_, rfl⟩, fun _ => by simp⟩
  | external =>
    simp only
    unfold outVerts inVerts
    simp only [hk]
    constructor
    · intro h m l hm hl k hkl
      refine h m hm k ?_
      rcases hl with hl | hl
      · split at hl
        · cases hl
        · cases hl
          exact List.mem_append_left _ hkl
      · split at hl
        · cases hl
        · rename_i x hx
          cases hl
          rw [hx]
          exact List.mem_append_right _ hkl
    · intro h m hm k hkl
      rcases List.mem_append.1 hkl with h2 | h2
      · refine h m _ hm (.inl ?_) k h2
        rw [if_neg (by intro h0; rw [h0] at h2; cases h2)]
      · cases ho : (W.spl s).outV with
        | none => rw [ho] at h2; cases h2
        | some x =>
          rw [ho] at h2
          exact h m [x] hm (.inr (by rw [ho])) k h2

/-- C112: after a reset of the graph, the partitioner returns if and only if each vertex has a splitter that can make its
machine vertices. Other calls may have been made before, and may have raised, as long as vertices and splitters agree
on each other. -/
theorem C112_returns_iff {E : Env} {mp : Nat → Option (List Nat)} {mv : Nat → MV} {next : Nat} (hb : Built E mv next)
    {os : List Op} {W : World} (h : run E (World.new E mp mv next) os = W) (hL : Linked W) {vs : List Nat}
    (hn : vs.Nodup) (cores sdram : Int) :
    (∃ W' n, partition E (resetGraph E W vs) cores sdram vs = (W', .ok n)) ↔ ∀ v ∈ vs, CanSplit E W v := by
  have hW0 : Sound E W := by rw [← h]; exact sound_run os (sound_new hb)
  have ha : Apt E W := by rw [← h]; exact apt_run os (apt_new E mp mv next)
  have hkr := keeps_resetGraph E W vs
  have hclean : ∀ v ∈ vs, ∀ s, ((resetGraph E W vs).app v).splitter = some s → E.kind s = .fixed →
      ((resetGraph E W vs).spl s).slices = none := by
    intro v hv s hs hk
    rw [hkr.1 v] at hs
    exact resetGraph_slices E hk vs W hv hs
  have hloop := partitionLoop_iff (c := Counter.new cores sdram) vs hn (sound_resetGraph hW0 vs) (hkr.linked hL)
    (hkr.apt ha) hclean
  have hp : (∃ W' n, partition E (resetGraph E W vs) cores sdram vs = (W', .ok n)) ↔
      ∃ W' c', partitionLoop E (resetGraph E W vs) (Counter.new cores sdram) vs = ((W', c'), .ok ()) := by
    unfold partition
    cases partitionLoop E (resetGraph E W vs) (Counter.new cores sdram) vs with
    | mk p r =>
      obtain ⟨W1, c1⟩ := p
      cases r with
      | error e =>
        refine ⟨fun ⟨_, _, h⟩ => ?_, fun ⟨_, _, h⟩ => ?_⟩
        · injection h with _ h; cases h
        · injection h with _ h; cases h
      | ok u => exact ⟨fun _ => ⟨_, _, rfl⟩, fun _ => ⟨_, _, rfl⟩⟩
  rw [hp, hloop]
  have hfit : ∀ v s, Fits E v ((resetGraph E W vs).app v) s ((resetGraph E W vs).spl s) ↔
      Fits E v (W.app v) s (W.spl s) := by
    intro v s
    obtain ⟨x, hx⟩ := resetGraph_spl E vs s W
    unfold Fits
    rw [hx, resetGraph_maxPer]
  constructor
  · intro h v hv
    obtain ⟨s, hs, hf⟩ := h v hv
    rw [hkr.1 v] at hs
    exact (fits_iff hs).1 ((hfit v s).1 hf)
  · intro h v hv
    obtain ⟨s, hs, -⟩ := h v hv
    exact ⟨s, (hkr.1 v).trans hs, (hfit v s).2 ((fits_iff hs).2 (h v hv))⟩

/-- C112: if no call raised, no device is an `AbstractOneAppOneMachineVertex`, and there is no `SplitterOneToOneLegacy`,
then only missing splitters, `SplitterFixedLegacy` for `AbstractOneAppOneMachineVertex`es, and vertices whose numbers of
atoms per core do not fit can make the partitioner raise. -/
theorem C112_returns_usual {E : Env} {mp : Nat → Option (List Nat)} {mv : Nat → MV} {next : Nat} (hb : Built E mv next)
    {os : List Op} {W : World} (h : runOk E (World.new E mp mv next) os = some W) {vs : List Nat}
    (hn : vs.Nodup) (hu : ∀ v ∈ vs, Usual E W v) (cores sdram : Int) :
    (∃ W' n, partition E (resetGraph E W vs) cores sdram vs = (W', .ok n)) ↔
      ∀ v ∈ vs, ∃ s, (W.app v).splitter = some s ∧
        (E.kind s = .fixed → Slices.Vertex.Valid ⟨(E.app v).shape, (W.app v).maxPer⟩) := by
  rw [C112_returns_iff hb (runOk_run os h) (fun v s => C88_linked_partial h v s) hn]
  constructor
  · intro hc v hv
    obtain ⟨s, hs, hf⟩ := hc v hv
    refine ⟨s, hs, fun hk => ?_⟩
    rw [hk] at hf
    exact hf.2
  · intro hc v hv
    obtain ⟨s, hs, hf⟩ := hc v hv
    obtain ⟨hu1, hu2⟩ := hu v hv s hs
    refine ⟨s, hs, ?_⟩
    have hnone : E.kind s ≠ .oneApp → (E.app v).single = none := by
      intro hk
      cases hx : (E.app v).single with
      | none => rfl
      | some m => exact absurd (hu2 (by rw [hx]; simp)) hk
    cases hk : E.kind s with
    | oneToOne => exact absurd hk hu1
    | oneApp => trivial
    | fixed => exact ⟨hnone (by rw [hk]; simp), hf hk⟩
    | external =>
      intro m l hm
      rw [hnone (by rw [hk]; simp)] at hm
      cases hm

example :
    let os := [Op.setSplitter 0 0, .setSplitter 1 2, .setSplitter 2 3, .setSplitter 3 4, .setMax 0 (some [3])]
    let W := run demo demoNew os
    (runOk demo demoNew os).isSome = true ∧ ([0, 1, 2, 3].map (fun v => (W.app v).splitter)) =
      [some 0, some 2, some 3, some 4] ∧ (partition demo (resetGraph demo W [0, 1, 2, 3]) 17 100 [0, 1, 2, 3]).2 = .ok 1 := by
  decide +kernel

/-- Each of the ways to raise: a vertex without a splitter, and numbers of atoms per core that do not divide the shape. -/
example :
    (let W := run demo demoNew [.setSplitter 0 0]
     (partition demo (resetGraph demo W [0, 3]) 17 100 [0, 3]).2 = .error .configuration) ∧
    (let W := run demo demoNew [.setSplitter 3 4, .setMax 3 (some [3, 2])]
     (W.app 3).splitter = some 4 ∧ (W.app 3).maxPer = some [3, 2] ∧
     (partition demo (resetGraph demo W [3]) 17 100 [3]).2 = .error .valueError) := by
  decide +kernel

end Pacman.Split
