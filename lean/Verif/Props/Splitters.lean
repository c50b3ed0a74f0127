import Verif.Proofs.SplitterKnown
import Verif.Props.Slices
import Verif.Props.ChipCounter
/-
C88 to C91 and C94: splitters and the partitioner.
-/

namespace Pacman.Split

open Slices (Slice mkSlice multiSlices checkAtoms rasterIds)
open Counter (Counter Packing)

/-! ### An application to try things on -/

/-- Vertex 0 has ten atoms, vertex 1 is an `AbstractOneAppOneMachineVertex`, vertex 2 a device on a SpiNNaker link with
two machine vertices, vertex 3 has atoms in two dimensions. Splitter 0 and 4 are `SplitterFixedLegacy`, 1
`SplitterOneToOneLegacy`, 2 `SplitterOneAppOneMachine` and 3 `SplitterExternalDevice`. -/
def demo : Env where
  app := fun v =>
    match v with
    | 0 => ⟨[10], true, fun s => s.n, none, none⟩
    | 1 => ⟨[3], false, fun _ => 0, some 0, none⟩
    | 2 => ⟨[4], false, fun _ => 0, none, some (.link 2 7 true true none)⟩
    | _ => ⟨[4, 4], true, fun s => 2 * s.n, none, none⟩
  kind := fun s =>
    match s with
    | 1 => .oneToOne
    | 2 => .oneApp
    | 3 => .external
    | _ => .fixed

/-- The machine vertex of vertex 1. -/
def demoMv : Nat → MV := fun _ => ⟨⟨0, 3, none⟩, 5, 1, 0, none⟩

/-- Before splitters are set. -/
def demoNew : World := World.new demo (fun v => if v = 0 then some [4] else if v = 3 then some [2, 2] else none) demoMv 1

theorem demo_built : Built demo demoMv 1 := by
  have hone : ∀ v m, (demo.app v).single = some m → v = 1 ∧ m = 0 := by
    intro v m h
    match v with
    | 0 => cases h
    | 1 => injection h with h; exact ⟨rfl, h.symm⟩
    | 2 => cases h
    | _ + 3 => cases h
  refine ⟨?_, ?_, ?_⟩
  · intro v m h; rw [(hone v m h).2]; omega
  · intro v m h; rfl
  · intro v m h; rw [(hone v m h).1]; rfl

/-! ### C88 -/

/-- C88, as far as it holds: after calls none of which raised, a splitter governs the vertex whose splitter it is, and no
other. Missing: calls that raise, for which it is false (see `C88_left_tied` and `C88_left_ruled`). -/
theorem C88_linked_partial {E : Env} {mp : Nat → Option (List Nat)} {mv : Nat → MV} {next : Nat} {os : List Op}
    {W : World} (h : runOk E (World.new E mp mv next) os = some W) (v s : Nat) :
    (W.app v).splitter = some s ↔ (W.spl s).governed = some v :=
  linked_runOk os (linked_new E mp mv next) h v s

/-- C88: a splitter that is the splitter of no vertex refuses to say which groups the placer is to place, and, if it is one that
answers for its vertex, which machine vertices send, which receive and which record. -/
theorem C88_nobody {E : Env} {mp : Nat → Option (List Nat)} {mv : Nat → MV} {next : Nat} {os : List Op}
    {W : World} (h : runOk E (World.new E mp mv next) os = some W) {s : Nat} (hs : ∀ v, (W.app v).splitter ≠ some s) :
    groups W s = .error .configuration ∧ (E.kind s = .fixed ∨ E.kind s = .oneApp →
      outVerts E W s = .error .configuration ∧ inVerts E W s = .error .configuration ∧
      recording E W s = .error .configuration) := by
  have hg : (W.spl s).governed = none := by
    cases hg : (W.spl s).governed with
    | none => rfl
    | some v => exact absurd ((C88_linked_partial h v s).2 hg) (hs v)
  have hgo : governedOf W s = .error .configuration := by unfold governedOf; rw [hg]
  refine ⟨by unfold groups; rw [hgo]; rfl, ?_⟩
  rintro (hk | hk)
  · have ho : outVerts E W s = .error .configuration := by unfold outVerts; rw [hk, hgo]; rfl
    refine ⟨ho, by unfold inVerts; rw [hk, hgo]; rfl, ?_⟩
    unfold recording
    rw [hk]
    exact ho
  · have hsi : singleOf E W s = .error .configuration := by unfold singleOf; rw [hgo]
    have ho : outVerts E W s = .error .configuration := by unfold outVerts; rw [hk, hsi]; rfl
    refine ⟨ho, by unfold inVerts; rw [hk, hsi]; rfl, ?_⟩
    unfold recording
    rw [hk]
    exact ho

/-- Once vertex 0 has splitter 0, splitter 4 is the splitter of nobody. -/
example : ∃ W, runOk demo demoNew [.setSplitter 0 0] = some W ∧ groups W 4 = .error .configuration ∧
    outVerts demo W 0 = .ok [] := by
  refine ⟨run demo demoNew [.setSplitter 0 0], rfl, ?_, by decide +kernel⟩
  have h : runOk demo demoNew [.setSplitter 0 0] = some (run demo demoNew [.setSplitter 0 0]) := rfl
  unfold demoNew at h
  refine (C88_nobody h ?_).1
  intro v
  match v with
  | 0 => decide +kernel
  | v + 1 => exact fun h => by cases h

/-- C88: a splitter that is set is never replaced, and a splitter governs the same vertex for ever, also when calls
raise. -/
theorem C88_forever (E : Env) (W : World) (os : List Op) :
    (∀ v s, (W.app v).splitter = some s → ((run E W os).app v).splitter = some s) ∧
    (∀ s v, (W.spl s).governed = some v → ((run E W os).spl s).governed = some v) :=
  grows_run E os W

/-- C88: setting another splitter raises and changes nothing; setting the same one again does nothing. -/
theorem C88_refused {E : Env} {W : World} {v s : Nat} (h : (W.app v).splitter = some s) (t : Nat) :
    setSplitter E W v t = if t = s then (W, .ok ()) else (W, .error .configuration) := by
  unfold setSplitter
  by_cases ht : t = s
  · subst ht
    rw [if_pos rfl]
    exact setSplitterN_same h 1
  · rw [if_neg ht]
    exact setSplitterN_other h (fun h0 => ht h0.symm) 1

/-- C88: the setters of splitters and of governed vertices, which call each other, do so to a depth of at most two. -/
theorem C88_depth (E : Env) (f : Nat) (W : World) (v s : Nat) :
    setSplitterN E (f + 2) W v s = setSplitterN E 2 W v s := by
  cases h : (W.app v).splitter with
  | some t =>
    by_cases ht : t = s
    · subst ht
      exact (setSplitterN_same h (f + 1)).trans (setSplitterN_same h 1).symm
    · exact (setSplitterN_other h ht (f + 1)).trans (setSplitterN_other h ht 1).symm
  | none => rw [setSplitterN_none h f, setSplitterN_none h 0]

/-- C88 does not hold if a call raised: a vertex keeps a splitter of a class that refused it, or that governs another
vertex. -/
theorem C88_left_tied :
    (let r := step demo demoNew (.setSplitter 1 0)
     r.2 = .error .configuration ∧ (r.1.app 1).splitter = some 0 ∧ (r.1.spl 0).governed = none ∧
      (step demo r.1 (.setSplitter 1 2)).2 = .error .configuration) ∧
    (let W := run demo demoNew [.setSplitter 0 0, .setSplitter 3 0]
     (W.app 3).splitter = some 0 ∧ (W.spl 0).governed = some 0 ∧
      (step demo W (.setSplitter 3 4)).2 = .error .configuration) := by decide +kernel

/-- C88 does not hold if a call raised: a splitter governs a vertex that has another splitter. -/
theorem C88_left_ruled :
    let r := step demo (run demo demoNew [.setSplitter 0 0]) (.setGoverned 4 0)
    r.2 = .error .configuration ∧ (r.1.app 0).splitter = some 0 ∧ (r.1.spl 4).governed = some 0 ∧
      (step demo r.1 (.setSplitter 3 4)).2 = .error .configuration := by decide +kernel

example : (runOk demo demoNew [.setSplitter 0 0, .setGoverned 4 3, .setSplitter 1 2, .setSplitter 2 3]).map
    (fun W => [(W.app 0).splitter, (W.app 1).splitter, (W.app 2).splitter, (W.app 3).splitter]) =
    some [some 0, some 2, some 3, some 4] := by decide +kernel

/-! ### C89 -/

/-- C89, as far as it holds: after the partitioner, the machine vertices that a splitter says send or receive are among
those of its application vertex, so they are in groups for the placer. Missing: vertices with a
`SplitterOneToOneLegacy` that have been reset, for which it is false (see `C89_forgotten`), and calls that raised. -/
theorem C89_known_partial {E : Env} {mp : Nat → Option (List Nat)} {mv : Nat → MV} {next : Nat} (hb : Built E mv next)
    {os : List Op} {W W' : World} (h : runOk E (World.new E mp mv next) os = some W) {vs : List Nat} (hn : vs.Nodup)
    {cores sdram : Int} {n : Nat} (hp : partition E W cores sdram vs = (W', .ok n)) {v s : Nat} (hv : v ∈ vs)
    (hs : (W.app v).splitter = some s) (hk : E.kind s = .oneToOne → .reset v ∉ os) {l : List Nat}
    (hl : outVerts E W' s = .ok l ∨ inVerts E W' s = .ok l) {m : Nat} (hm : m ∈ l) :
    m ∈ (W'.app v).machines ∧ ∃ gs, groups W' s = .ok gs ∧ ∃ g ∈ gs, m ∈ g.1 := by
  have hW := sound_runOk (sound_new (mp := mp) hb) h
  have hL := linked_runOk os (linked_new E mp mv next) h
  have hK : Known E (os.filterMap (fun o => match o with | .reset u => some u | _ => none)) W := by
    refine known_runOk os (sound_new (mp := mp) hb) ?_ ?_ h
    · intro s v x _ h2
      simp [World.new, SState.new] at h2
    · intro u hu
      rw [List.mem_filterMap]
      exact ⟨.reset u, hu, rfl⟩
  have hR : .reset v ∉ os → v ∉ os.filterMap (fun o => match o with | .reset u => some u | _ => none) := by
    intro h0 h1
    rw [List.mem_filterMap] at h1
    obtain ⟨o, ho, h2⟩ := h1
    cases o with
    | reset u =>
      simp only [Option.some.injEq] at h2
      subst h2
      exact h0 ho
    | _ => cases h2
  have hM := mono_partition E W cores sdram vs
  have hS := sound_partitionLoop (E := E) vs W (Counter.new cores sdram) hW
  have hkeep := keeps_partition E W cores sdram vs
  rw [← partition_world, hp] at hS
  rw [hp] at hM hkeep
  have hg : (W'.spl s).governed = some v := (hkeep.linked hL v s).1 ((hkeep.1 v).trans hs)
  have hgov : governedOf W' s = .ok v := by unfold governedOf; rw [hg]
  have main : m ∈ (W'.app v).machines := by
    cases hkind : E.kind s with
    | fixed =>
      unfold outVerts inVerts at hl
      simp only [hkind, hgov, Except.map, or_self] at hl
      injection hl with hl
      rw [← hl] at hm
      exact hm
    | oneToOne =>
      cases ho : (W'.spl s).one with
      | none =>
        unfold outVerts inVerts at hl
        simp only [hkind, ho, or_self] at hl
        cases hl
      | some x =>
        unfold outVerts inVerts at hl
        simp only [hkind, ho, or_self] at hl
        injection hl with hl
        rw [← hl, List.mem_singleton] at hm
        rw [hm]
        exact (hM.known hK) s v x hkind hg ho (hR (hk hkind))
    | oneApp =>
      cases ho : (E.app v).single with
      | none =>
        unfold outVerts inVerts singleOf at hl
        simp only [hkind, hgov, ho, Except.map, or_self] at hl
        cases hl
      | some m0 =>
        unfold outVerts inVerts singleOf at hl
        simp only [hkind, hgov, ho, Except.map, or_self] at hl
        injection hl with hl
        rw [← hl, List.mem_singleton] at hm
        rw [hm, hS.sing v m0 ho]
        simp
    | external =>
      have hmem : m ∈ (W'.spl s).inV ++ (W'.spl s).outV.toList := by
        rcases hl with hl | hl
        · unfold outVerts at hl
          simp only [hkind] at hl
          split at hl
          · cases hl
          · injection hl with hl
            rw [hl]
            exact List.mem_append_left _ hm
        · unfold inVerts at hl
          simp only [hkind] at hl
          split at hl
          · cases hl
          · rename_i m0 ho
            injection hl with hl
            rw [← hl] at hm
            rw [ho]
            exact List.mem_append_right _ hm
      unfold partition at hp
      split at hp
      · injection hp with _ hp; cases hp
      · rename_i W2 c2 hx
        injection hp with hp _
        subst hp
        obtain ⟨W0, c0, W1, c1, o1, s0, l0, hc, s1, l1, o2⟩ := partitionLoop_at vs hx hn hL hW hv hs
        rw [o2.app]
        have hg0 : (W0.spl s).governed = some v := by
          rw [o1.spl]; exact (hL v s).1 hs
        have hm1 := mono_create E W0 c0 s
        rw [hc] at hm1
        unfold create at hc
        simp only [hkind, hg0] at hc
        refine (deviceLoop_ok _ hc s0 ?_).1 m ?_
        · intro k hk
          obtain ⟨h1, h2, _⟩ := s0.dev s k hk
          exact ⟨h1, h2 v hg0⟩
        · rw [o2.spl, hm1.inV, hm1.outV] at hmem
          exact hmem
  refine ⟨main, (W'.app v).machines.map (fun m => ([m], (W'.mv m).sdram)), ?_, ([m], (W'.mv m).sdram), ?_, by simp⟩
  · unfold groups
    rw [hgov]
    rfl
  · exact List.mem_map_of_mem main

/-- C89: there are machine vertices to send and to receive, of every splitter that is not for a device. -/
theorem C89_answers {E : Env} {mp : Nat → Option (List Nat)} {mv : Nat → MV} {next : Nat}
    {os : List Op} {W W' : World} (h : runOk E (World.new E mp mv next) os = some W) {vs : List Nat} (hn : vs.Nodup)
    (hb : Built E mv next) {cores sdram : Int} {n : Nat} (hp : partition E W cores sdram vs = (W', .ok n)) {v s : Nat}
    (hv : v ∈ vs) (hs : (W.app v).splitter = some s) (hk : E.kind s ≠ .external) :
    ∃ l, outVerts E W' s = .ok l ∧ inVerts E W' s = .ok l := by
  have hW := sound_runOk (sound_new (mp := mp) hb) h
  have hL := linked_runOk os (linked_new E mp mv next) h
  have hkeep := keeps_partition E W cores sdram vs
  rw [hp] at hkeep
  have hg : (W'.spl s).governed = some v := (hkeep.linked hL v s).1 ((hkeep.1 v).trans hs)
  have hgov : governedOf W' s = .ok v := by unfold governedOf; rw [hg]
  unfold partition at hp
  split at hp
  · injection hp with _ hp; cases hp
  · rename_i W2 c2 hx
    injection hp with hp _
    subst hp
    obtain ⟨W0, c0, W1, c1, o1, s0, l0, hc, s1, l1, o2⟩ := partitionLoop_at vs hx hn hL hW hv hs
    have hg0 : (W0.spl s).governed = some v := by rw [o1.spl]; exact (hL v s).1 hs
    have hm1 := mono_create E W0 c0 s
    rw [hc] at hm1
    unfold outVerts inVerts singleOf
    cases hkind : E.kind s with
    | fixed => simp only [hgov, Except.map]; exact ⟨_, rfl, rfl⟩
    | oneToOne =>
      unfold create at hc
      simp only [hkind] at hc
      split at hc
      · injection hc with _ hc; cases hc
      · rename_i x hx1
        have h1 : (W2.spl s).one = some x := by
          rw [o2.spl]
          exact (hm1.one s).trans hx1
        simp only [h1]
        exact ⟨_, rfl, rfl⟩
    | oneApp =>
      unfold create at hc
      simp only [hkind, hg0] at hc
      split at hc
      · injection hc with _ hc; cases hc
      · rename_i m hm
        simp only [hgov, hm, Except.map]
        exact ⟨_, rfl, rfl⟩
    | external => exact absurd hkind hk

/-- C89 does not hold after a reset: a vertex with a `SplitterOneToOneLegacy` has no machine vertex any more, though its
splitter still gives one to send and receive. The partitioner raises nothing, and the placer gets no group. -/
theorem C89_forgotten :
    let W := run demo demoNew [.setSplitter 0 1, .reset 0]
    let W' := (partition demo W 17 100 [0]).1
    (partition demo W 17 100 [0]).2 = .ok 1 ∧ outVerts demo W' 1 = .ok [1] ∧ inVerts demo W' 1 = .ok [1] ∧
      (W'.app 0).machines = [] ∧ groups W' 1 = .ok [] := by decide +kernel

example :
    let W := run demo demoNew [.setSplitter 0 1, .setSplitter 1 2, .setSplitter 2 3, .setSplitter 3 0, .reset 2, .reset 3]
    let W' := (partition demo W 17 100 [0, 1, 2, 3]).1
    (runOk demo demoNew [.setSplitter 0 1, .setSplitter 1 2, .setSplitter 2 3, .setSplitter 3 0, .reset 2, .reset 3]).isSome ∧
    (partition demo W 17 100 [0, 1, 2, 3]).2 = .ok 1 ∧ outVerts demo W' 1 = .ok [1] ∧ (W'.app 0).machines = [1] ∧
    outVerts demo W' 2 = .ok [0] ∧ outVerts demo W' 3 = .ok [2, 3] ∧ inVerts demo W' 3 = .ok [4] ∧
    (W'.app 2).machines = [2, 3, 4] ∧ outVerts demo W' 0 = .ok [5, 6, 7, 8] := by decide +kernel

/-! ### C90 -/

theorem multi_tile {v : Slices.Vertex} {ss : List Slice} (h : multiSlices v = .ok ss) :
    (ss.flatMap rasterIds).Perm (List.range v.nAtoms) ∧ (∀ s ∈ ss, s.n ≤ Slices.prod v.per) ∧
      (ss.length - 1) * Slices.prod v.per < v.nAtoms ∧ v.nAtoms ≤ ss.length * Slices.prod v.per := by
  have hv := Slices.C44_only_valid h
  by_cases hl : v.shape.length = 1
  · obtain ⟨n, hn⟩ : ∃ n, v.shape = [n] := by
      cases hs : v.shape with
      | nil => rw [hs] at hl; simp at hl
      | cons n l =>
        rw [hs] at hl
        simp only [List.length_cons, Nat.add_eq_right, List.length_eq_zero_iff] at hl
        exact ⟨n, by rw [hl]⟩
    have hpos : 0 < n := hv.1 n (by rw [hn]; simp)
    have hna : v.nAtoms = n := by unfold Slices.Vertex.nAtoms; rw [hn]; exact Nat.mul_one n
    have hsingle : Slices.singleSlices v = .ok ss := by
      unfold multiSlices at h
      simp only [bind, Except.bind] at h
      split at h
      · cases h
      · split at h
        · cases h
        · exact h
    cases v with
    | mk shape mp =>
      simp only at hn
      subst hn
      cases mp with
      | none =>
        obtain ⟨h1, h2⟩ := Slices.C43_no_maximum n hpos
        rw [h1] at hsingle
        injection hsingle with hsingle
        subst hsingle
        rw [hna]
        refine ⟨by simp only [List.flatMap_cons, List.flatMap_nil, List.append_nil, h2]; exact .refl _, ?_, ?_, ?_⟩
        · intro s hs
          rw [List.mem_singleton] at hs
          subst hs
          exact Nat.le_of_eq (Nat.mul_one n).symm
        · rw [List.length_singleton, Nat.sub_self, Nat.zero_mul]
          exact hpos
        · rw [List.length_singleton, Nat.one_mul]
          exact Nat.le_of_eq (Nat.mul_one n).symm
      | some m =>
        obtain ⟨hml, hmp, -⟩ := hv.2 m rfl
        obtain ⟨k, hk⟩ : ∃ k, m = [k] := by
          cases m with
          | nil => simp at hml
          | cons k l =>
            simp only [List.length_cons, List.length_nil, Nat.zero_add, Nat.add_eq_right,
              List.length_eq_zero_iff] at hml
            exact ⟨k, by rw [hml]⟩
        subst hk
        obtain ⟨ss', h1, h2, -, h4, h5, h6⟩ := Slices.C43_slices_tile n k hpos (hmp k (by simp))
        rw [h1] at hsingle
        injection hsingle with hsingle
        subst hsingle
        rw [hna, h2]
        have : Slices.prod (Slices.Vertex.per ⟨[n], some [k]⟩) = k := Nat.mul_one k
        rw [this]
        exact ⟨.refl _, fun s hs => (h4 s hs).1, h5, h6⟩
  · obtain ⟨ss', h1, h2, -, h4, h5⟩ := Slices.C44_slices_tile hv hl
    rw [h] at h1
    injection h1 with h1
    subst h1
    refine ⟨h2, fun s hs => (h4 s hs).1.1, ?_, Nat.le_of_eq h5.symm⟩
    have hpos : 0 < v.nAtoms := Slices.prod_pos hv.1
    rw [← h5] at hpos ⊢
    rw [Nat.sub_mul, Nat.one_mul]
    have h6 : 0 < Slices.prod v.per := Nat.pos_of_mul_pos_left hpos
    omega

/-- The slices and the SDRAM of the machine vertices of a vertex with a `SplitterFixedLegacy` that is partitioned anew. -/
theorem machines_after {E : Env} {W W' : World} (hW : Sound E W) (hL2 : Linked W) {vs : List Nat}
    (hn : vs.Nodup) {cores sdram : Int} {n : Nat}
    (hp : partition E W cores sdram vs = (W', .ok n)) {v s : Nat} (hv : v ∈ vs)
    (hs2 : (W.app v).splitter = some s) (hk : E.kind s = .fixed) (hr : Anew E W v) :
    ∃ ss, multiSlices ⟨(E.app v).shape, (W.app v).maxPer⟩ = .ok ss ∧
      (W'.app v).machines.map (fun m => (W'.mv m).slice) = ss ∧
      (W'.app v).machines.map (fun m => (W'.mv m).sdram) = ss.map (E.app v).sdramOf := by
  have hr' := hr s hs2
  rw [hk] at hr'
  obtain ⟨h1, happ, hsl⟩ := hr'
  unfold partition at hp
  split at hp
  · injection hp with _ hp; cases hp
  · rename_i W2 c2 hx
    injection hp with hp _
    subst hp
    obtain ⟨W0, c0, W1, c1, o1, s0, l0, hc, s1, l1, o2⟩ := partitionLoop_at vs hx hn hL2 hW hv hs2
    have hg0 : (W0.spl s).governed = some v := by rw [o1.spl]; exact (hL2 v s).1 hs2
    unfold create at hc
    simp only [hk, hg0] at hc
    split at hc
    · injection hc with _ hc; cases hc
    · rename_i W3 ss hf
      have hS3 := sound_fixedSlices s0 s
      rw [hf] at hS3
      have hf2 : multiSlices ⟨(E.app v).shape, (W.app v).maxPer⟩ = .ok ss ∧ W3.app = W0.app := by
        unfold fixedSlices at hf
        rw [o1.spl, hsl] at hf
        simp only at hf
        rw [← o1.spl, hg0] at hf
        simp only at hf
        rw [o1.app] at hf
        split at hf
        · injection hf with _ hf; cases hf
        · rename_i ss2 hm
          injection hf with hf1 hf2
          injection hf2 with hf2
          subst hf2
          subst hf1
          exact ⟨hm, rfl⟩
      obtain ⟨W4, h2, ms, h3, -, h5, h6⟩ := fixedLoop_ok (E := E) h1 ss (c := c0) hS3
      rw [h2] at hc
      injection hc with hc _
      injection hc with hc _
      subst hc
      have hms : (W2.app v).machines = ms := by
        rw [o2.app, h3, hf2.2, o1.app, happ]
        rfl
      have hb4 : ∀ m ∈ ms, m < W4.next := by
        intro m hm
        refine s1.bound v m ?_
        rw [h3]
        exact List.mem_append_right _ hm
      have hslice : ms.map (fun m => (W2.mv m).slice) = ss := by
        rw [← h5]
        exact List.map_congr_left (fun m hm => o2.ext.slice (hb4 m hm))
      have hsdram : ms.map (fun m => (W2.mv m).sdram) = ss.map (E.app v).sdramOf := by
        rw [← h6]
        exact List.map_congr_left (fun m hm => o2.ext.sdram (hb4 m hm))
      exact ⟨ss, hf2.1, by rw [hms]; exact hslice, by rw [hms]; exact hsdram⟩

/-- C90, as far as it holds: when the splitter has just been set or the graph has been reset before (`Anew`), the
machine vertices of a vertex with a `SplitterFixedLegacy` have each of its atoms in one of them, none has more atoms than set,
and each has the SDRAM that the vertex wants for its slice. Missing: a second run of the partitioner without a reset, for
which it is false (see `C90_doubled` and `C90_stale`). Other calls may have raised, as long as vertices and splitters agree on each other. -/
theorem C90_atoms_partial {E : Env} {mp : Nat → Option (List Nat)} {mv : Nat → MV} {next : Nat} (hb : Built E mv next)
    {os : List Op} {W W' : World} (h : run E (World.new E mp mv next) os = W) (hL : Linked W) {vs : List Nat}
    (hn : vs.Nodup) {cores sdram : Int} {n : Nat}
    (hp : partition E W cores sdram vs = (W', .ok n)) {v s : Nat} (hv : v ∈ vs)
    (hs : (W.app v).splitter = some s) (hk : E.kind s = .fixed) (hr : Anew E W v) :
    ((W'.app v).machines.flatMap (fun m => rasterIds (W'.mv m).slice)).Perm (List.range (E.app v).nAtoms) ∧
    (∀ m ∈ (W'.app v).machines, (W'.mv m).slice.n ≤ Slices.prod ((W.app v).maxPer.getD (E.app v).shape)) ∧
    (∀ m ∈ (W'.app v).machines, (W'.mv m).sdram = (E.app v).sdramOf (W'.mv m).slice ∧ (W'.mv m).app = v) ∧
    (W'.app v).machines.Nodup := by
  have hW0 : Sound E W := by rw [← h]; exact sound_run os (sound_new hb)
  obtain ⟨ss, hss, hslice, hsdram⟩ := machines_after hW0 hL hn hp hv hs hk hr
  have hS := sound_partitionLoop (E := E) vs W (Counter.new cores sdram) hW0
  rw [← partition_world, hp] at hS
  obtain ⟨t1, t2, -⟩ := multi_tile hss
  refine ⟨?_, ?_, ?_, hS.nodup v⟩
  · have : (W'.app v).machines.flatMap (fun m => rasterIds (W'.mv m).slice) = ss.flatMap rasterIds := by
      rw [← hslice, List.flatMap_map]
    rw [this]
    exact t1
  · intro m hm
    refine t2 _ ?_
    rw [← hslice]
    exact List.mem_map_of_mem hm
  · intro m hm
    refine ⟨?_, hS.owner v m hm⟩
    rw [← hslice, List.map_map] at hsdram
    exact List.map_inj_left.1 hsdram m hm

/-- C90: there are as few machine vertices as the maximum allows. -/
theorem C90_count {E : Env} {mp : Nat → Option (List Nat)} {mv : Nat → MV} {next : Nat} (hb : Built E mv next)
    {os : List Op} {W W' : World} (h : run E (World.new E mp mv next) os = W) (hL : Linked W) {vs : List Nat}
    (hn : vs.Nodup) {cores sdram : Int} {n : Nat}
    (hp : partition E W cores sdram vs = (W', .ok n)) {v s : Nat} (hv : v ∈ vs)
    (hs : (W.app v).splitter = some s) (hk : E.kind s = .fixed) (hr : Anew E W v) :
    0 < (W'.app v).machines.length ∧
    ((W'.app v).machines.length - 1) * Slices.prod ((W.app v).maxPer.getD (E.app v).shape) < (E.app v).nAtoms ∧
    (E.app v).nAtoms ≤ (W'.app v).machines.length * Slices.prod ((W.app v).maxPer.getD (E.app v).shape) := by
  have hW0 : Sound E W := by rw [← h]; exact sound_run os (sound_new hb)
  obtain ⟨ss, hss, hslice, -⟩ := machines_after hW0 hL hn hp hv hs hk hr
  have hlen : (W'.app v).machines.length = ss.length := by rw [← hslice, List.length_map]
  rw [hlen]
  obtain ⟨-, -, h5, h6⟩ := multi_tile hss
  refine ⟨?_, h5, h6⟩
  have hpos : 0 < (E.app v).nAtoms := Slices.prod_pos (Slices.C44_only_valid hss).1
  refine Nat.pos_of_ne_zero fun h0 => ?_
  rw [h0, Nat.zero_mul] at h6
  exact absurd h6 (Nat.not_le.2 hpos)

example : let W' := (partition demo (resetGraph demo (run demo demoNew [.setSplitter 0 0]) [0]) 17 100 [0]).1
    (W'.app 0).machines.length = 3 ∧ (demo.app 0).nAtoms = 10 ∧ (W'.app 0).maxPer = some [4] := by decide +kernel

/-- C90: setting a `SplitterOneToOneLegacy` makes one machine vertex with all atoms and their SDRAM. -/
theorem C90_one_to_one {E : Env} {mp : Nat → Option (List Nat)} {mv : Nat → MV} {next : Nat} (hb : Built E mv next)
    {os : List Op} {W W' : World} (hrun : run E (World.new E mp mv next) os = W) (hl : Linked W) {v s : Nat}
    (hk : E.kind s = .oneToOne)
    (hv : (W.app v).splitter = none) (h : setSplitter E W v s = (W', .ok ())) :
    ∃ m, (W'.app v).machines = (W.app v).machines ++ [m] ∧ rasterIds (W'.mv m).slice = List.range (E.app v).nAtoms ∧
      (W'.mv m).sdram = (E.app v).sdramOf (W'.mv m).slice ∧ outVerts E W' s = .ok [m] ∧ inVerts E W' s = .ok [m] := by
  have hW : Sound E W := by rw [← hrun]; exact sound_run os (sound_new hb)
  unfold setSplitter at h
  rw [setSplitterN_none hv] at h
  split at h
  · cases hg : (W.spl s).governed with
    | some u =>
      rw [hg] at h
      simp only at h
      split at h
      · rename_i hu
        subst hu
        rw [(hl u s).2 hg] at hv
        cases hv
      · injection h with _ h; cases h
    | none =>
      rw [hg] at h
      simp only at h
      unfold finish at h
      simp only [hk] at h
      have hS := sound_rule (sound_tie hW v s) hg v
      have h1 := makeOne_machines hS h v
      rw [if_pos rfl] at h1
      have h2 : (((W.tie v s).rule s v).app v).machines = (W.app v).machines := by
        unfold World.rule World.tie
        simp
      rw [h2] at h1
      obtain ⟨sl, h3, hr⟩ := makeOne_ok h
      have hxt := ext_remember E ((((W.tie v s).rule s v).alloc ⟨sl, (E.app v).sdramOf sl, v, 0, none⟩).setSpl s
        { ((W.tie v s).rule s v).spl s with one := some (((W.tie v s).rule s v).next, sl, (E.app v).sdramOf sl) }) v
        ((W.tie v s).rule s v).next
      have hsp := remember_spl E ((((W.tie v s).rule s v).alloc ⟨sl, (E.app v).sdramOf sl, v, 0, none⟩).setSpl s
        { ((W.tie v s).rule s v).spl s with one := some (((W.tie v s).rule s v).next, sl, (E.app v).sdramOf sl) }) v
        ((W.tie v s).rule s v).next
      rw [hr] at hxt hsp
      have hlt : ((W.tie v s).rule s v).next < ((((W.tie v s).rule s v).alloc ⟨sl, (E.app v).sdramOf sl, v, 0, none⟩).setSpl s
        { ((W.tie v s).rule s v).spl s with one := some (((W.tie v s).rule s v).next, sl, (E.app v).sdramOf sl) }).next := by
        simp
      have e1 := hxt.slice hlt
      have e2 := hxt.sdram hlt
      simp only [setSpl_mv, alloc_mv, if_true] at e1 e2
      have e3 : ∃ x, (W'.spl s).one = some (((W.tie v s).rule s v).next, x) := by
        simp only at hsp
        rw [hsp]
        simp
      obtain ⟨x, e3⟩ := e3
      refine ⟨_, h1, ?_, ?_, ?_, ?_⟩
      · rw [e1]
        unfold mkSlice at h3
        split at h3
        · cases h3
        · injection h3 with h3
          subst h3
          simp [rasterIds, List.range_eq_range']
      · rw [e1, e2]
      · unfold outVerts
        simp only [hk, e3]
      · unfold inVerts
        simp only [hk, e3]
  · injection h with _ h; cases h

example :
    let W := run demo demoNew [.setSplitter 3 1]
    (demoNew.app 3).splitter = none ∧ (step demo demoNew (.setSplitter 3 1)).2 = .ok () ∧ (W.app 3).machines = [1] ∧
    rasterIds (W.mv 1).slice = List.range 16 ∧ (W.mv 1).sdram = 32 := by decide +kernel

/-- C90 does not hold for a partitioner that is run twice: every atom is in two machine vertices. -/
theorem C90_doubled :
    let W := run demo demoNew [.setSplitter 0 0, .partition [0], .partition [0]]
    (W.app 0).machines = [1, 2, 3, 4, 5, 6] ∧
    (W.app 0).machines.flatMap (fun m => rasterIds (W.mv m).slice) = List.range 10 ++ List.range 10 := by decide +kernel

/-- C90 does not hold if only the number of atoms per core is changed: the old slices are used, with more atoms than
set. After `splitter_reset` the new slices are used, but the old machine vertices stay. -/
theorem C90_stale :
    (let W := run demo demoNew [.setSplitter 0 0, .outSlices 0, .setMax 0 (some [2]), .partition [0]]
     (W.app 0).machines.map (fun m => (W.mv m).slice.n) = [4, 4, 2]) ∧
    (let W := run demo demoNew [.setSplitter 0 0, .partition [0], .setMax 0 (some [5]), .splitterReset [0], .partition [0]]
     (W.app 0).machines.map (fun m => (W.mv m).slice.n) = [4, 4, 2, 5, 5]) := by decide +kernel

/-- C90 does not hold for a `SplitterOneToOneLegacy` that is given the vertex: setting the governed vertex makes two
machine vertices with all atoms, of which only the second sends and receives. -/
theorem C90_governed_twice :
    let W := run demo demoNew [.setGoverned 1 0]
    (step demo demoNew (.setGoverned 1 0)).2 = .ok () ∧ (W.app 0).machines = [1, 2] ∧
    (W.app 0).machines.map (fun m => (W.mv m).slice) = [⟨0, 10, none⟩, ⟨0, 10, none⟩] ∧
    outVerts demo W 1 = .ok [2] := by decide +kernel

example :
    let W := run demo demoNew [.setSplitter 0 0, .setSplitter 3 4, .setSplitter 1 2, .partition [0, 1, 3],
      .setMax 0 (some [5])]
    let W' := (partition demo (resetGraph demo W [0, 1, 3]) 17 100 [0, 1, 3]).1
    (partition demo (resetGraph demo W [0, 1, 3]) 17 100 [0, 1, 3]).2 = .ok 1 ∧
    (W'.app 0).machines.map (fun m => (W'.mv m).slice) = [⟨0, 5, none⟩, ⟨5, 5, none⟩] ∧
    (W'.app 3).machines.flatMap (fun m => rasterIds (W'.mv m).slice) =
      [0, 1, 4, 5, 2, 3, 6, 7, 8, 9, 12, 13, 10, 11, 14, 15] := by decide +kernel

/-! ### C91 -/

/-- C91: no machine vertex belongs to two application vertices or is there twice, and it knows its application vertex,
whatever is called, also when calls raise. -/
theorem C91_distinct {E : Env} {mp : Nat → Option (List Nat)} {mv : Nat → MV} {next : Nat} (hb : Built E mv next)
    (os : List Op) (v : Nat) :
    let W := run E (World.new E mp mv next) os
    (W.app v).machines.Nodup ∧ (∀ m ∈ (W.app v).machines, (W.mv m).app = v ∧ m < W.next) ∧
    ∀ u m, m ∈ (W.app v).machines → m ∈ (W.app u).machines → u = v := by
  have h := sound_run os (sound_new (mp := mp) hb)
  refine ⟨h.nodup v, fun m hm => ⟨h.owner v m hm, h.bound v m hm⟩, ?_⟩
  intro u m h1 h2
  exact (h.owner u m h2).symm.trans (h.owner v m h1)

/-- C91, as far as it holds: the index of a machine vertex is its place among those of its application vertex. Missing:
devices that are partitioned again without a reset, for which it is false (see `C91_wrong`), and calls that raised. -/
theorem C91_index_partial {E : Env} {mp : Nat → Option (List Nat)} {mv : Nat → MV} {next : Nat} (hb : Built E mv next)
    {os : List Op} {W : World} (h : runOk E (World.new E mp mv next) os = some W)
    (hc : Careful E (World.new E mp mv next) os) : Indexed W := by
  have gen : ∀ (os : List Op) (W W' : World), Sound E W → Linked W → Indexed W → runOk E W os = some W' →
      Careful E W os → Indexed W' := by
    intro os
    induction os with
    | nil => intro W W' _ _ hi hr _; injection hr with hr; subst hr; exact hi
    | cons o os ih =>
      intro W W' hW hL hi hr hc
      obtain ⟨W1, h1, h2⟩ := runOk_cons hr
      obtain ⟨hc1, hc2⟩ := hc
      have hS := sound_step hW o
      have hI := indexed_step hW hL hi o hc1
      rw [h1] at hS hI hc2
      exact ih W1 W' hS (linked_step hL h1) hI h2 hc2
  exact gen os _ W (sound_new hb) (linked_new E mp mv next) (indexed_new hb) h hc

/-- C91 does not hold for a device that is partitioned twice: all of its machine vertices have index 3. -/
theorem C91_wrong :
    let W := run demo demoNew [.setSplitter 2 3, .partition [2], .partition [2]]
    (W.app 2).machines = [1, 2, 3] ∧ (W.app 2).machines.map (fun m => (W.mv m).index) = [3, 3, 3] := by decide +kernel

example : Careful demo demoNew [.setSplitter 2 3, .setSplitter 0 0, .partition [2, 0], .reset 2, .reset 0,
      .partition [0, 2]] ∧
    (let W := run demo demoNew [.setSplitter 2 3, .setSplitter 0 0, .partition [2, 0], .reset 2, .reset 0,
      .partition [0, 2]]
     (W.app 2).machines.map (fun m => (W.mv m).index) = [0, 1, 2] ∧
     (W.app 0).machines.map (fun m => (W.mv m).index) = [0, 1, 2]) := by
  refine ⟨?_, by decide +kernel⟩
  refine ⟨by simp, by simp, ?_, by simp, by simp, ?_, trivial⟩
  · intro vs hvs
    injection hvs with hvs
    subst hvs
    refine ⟨by decide, ?_⟩
    intro v hv s
    simp only [List.mem_cons, List.not_mem_nil, or_false] at hv
    rcases hv with rfl | rfl
    · intro _ _; decide +kernel
    · intro _ _; decide +kernel
  · intro vs hvs
    injection hvs with hvs
    subst hvs
    refine ⟨by decide, ?_⟩
    intro v hv s
    simp only [List.mem_cons, List.not_mem_nil, or_false] at hv
    rcases hv with rfl | rfl
    · intro _ _; decide +kernel
    · intro _ _; decide +kernel

end Pacman.Split
