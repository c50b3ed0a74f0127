import Verif.Props.Splitters
/-
C97: the slices that splitters give are those of the machine vertices they give.
-/

namespace Pacman.Split

open Slices (Slice mkSlice multiSlices)
open Counter (Counter)

/-- After the partitioner, the slices kept by a `SplitterFixedLegacy` are those of its machine vertices. -/
theorem fixed_slices_after {E : Env} {W W' : World} (hW : Sound E W) (hL2 : Linked W) {vs : List Nat}
    (hn : vs.Nodup) {cores sdram : Int} {n : Nat}
    (hp : partition E W cores sdram vs = (W', .ok n)) {v s : Nat} (hv : v ∈ vs)
    (hs2 : (W.app v).splitter = some s) (hk : E.kind s = .fixed) (hr : Anew E W v) :
    (W'.spl s).slices = some ((W'.app v).machines.map (fun m => (W'.mv m).slice)) := by
  have hr' := hr s hs2
  rw [hk] at hr'
  obtain ⟨h1, happ, hsl⟩ := hr'
  unfold partition at hp
  split at hp
  · injection hp with _ hp; cases hp
  · rename_i W2 c2 hx
    injection hp with hp _
    subst hp
    obtain ⟨W0, c0, W1, c1, o1, s0, l0, hc, s1, l1, o2⟩ := partitionLoop_at vs hx hn hL2 hW hv hs2
    have hg0 : (W0.spl s).governed = some v := by rw [o1.spl]; exact (hL2 v s).1 hs2
    unfold create at hc
    simp only [hk, hg0] at hc
    split at hc
    · injection hc with _ hc; cases hc
    · rename_i W3 ss hf
      have hS3 := sound_fixedSlices s0 s
      rw [hf] at hS3
      have hf2 : (W3.spl s).slices = some ss ∧ W3.app = W0.app := by
        unfold fixedSlices at hf
        rw [o1.spl, hsl] at hf
        simp only at hf
        rw [← o1.spl, hg0] at hf
        simp only at hf
        split at hf
        · injection hf with _ hf; cases hf
        · injection hf with hf1 hf2
          injection hf2 with hf2
          subst hf2
          subst hf1
          refine ⟨?_, rfl⟩
          rw [setSpl_spl, if_pos rfl]
      have ho := (off_fixedLoop (E := E) (u := v) (v := v + 1) (s := s) (by omega) ss W3 c0).spl
      obtain ⟨W4, h2, ms, h3, -, h5, -⟩ := fixedLoop_ok (E := E) h1 ss (c := c0) hS3
      rw [h2] at hc ho
      injection hc with hc _
      injection hc with hc _
      subst hc
      have hms : (W2.app v).machines = ms := by
        rw [o2.app, h3, hf2.2, o1.app, happ]
        rfl
      have hslice : ms.map (fun m => (W2.mv m).slice) = ss := by
        rw [← h5]
        refine List.map_congr_left (fun m hm => o2.ext.slice ?_)
        refine s1.bound v m ?_
        rw [h3]
        exact List.mem_append_right _ hm
      rw [o2.spl, ho, hf2.1, hms, hslice]

/-- C97, as far as it holds: when splitters have just been set or the graph has been reset (`Anew`) before the partitioner was run, `get_out_going_slices` and
`get_in_coming_slices` are the slices of `get_out_going_vertices` and `get_in_coming_vertices`, in the same order.
Missing: a second run of the partitioner without a reset (see `C97_doubled`); a maximum set after the partitioner does no harm, unless the
splitter is reset (see `C97_reset_only`). -/
theorem C97_slices_partial {E : Env} {mp : Nat → Option (List Nat)} {mv : Nat → MV} {next : Nat} (hb : Built E mv next)
    {os : List Op} {W W' : World} (h : run E (World.new E mp mv next) os = W) (hL : Linked W) {vs : List Nat}
    (hn : vs.Nodup) {cores sdram : Int} {n : Nat}
    (hp : partition E W cores sdram vs = (W', .ok n)) {v s : Nat} (hv : v ∈ vs)
    (hs : (W.app v).splitter = some s) (hr : E.kind s = .fixed → Anew E W v) (l : List Nat) :
    (outVerts E W' s = .ok l → (outSlices E W' s).2 = .ok (l.map (fun m => (W'.mv m).slice))) ∧
    (inVerts E W' s = .ok l → (inSlices E W' s).2 = .ok (l.map (fun m => (W'.mv m).slice))) := by
  have hW0 : Sound E W := by rw [← h]; exact sound_run os (sound_new hb)
  have hS := sound_partitionLoop (E := E) vs W (Counter.new cores sdram) hW0
  rw [← partition_world, hp] at hS
  simp only at hS
  have hg : (W'.spl s).governed = some v := by
    have := (mono_partition E W cores sdram vs).governed s
    rw [hp] at this
    simp only at this
    rw [this]
    exact (hL v s).1 hs
  have hgo : governedOf W' s = .ok v := by unfold governedOf; rw [hg]
  cases hk : E.kind s with
  | fixed =>
    have hsl := fixed_slices_after hW0 hL hn hp hv hs hk (hr hk)
    unfold outVerts inVerts inSlices outSlices fixedSlices
    simp only [hk, hgo, hsl, Except.map]
    constructor
    · intro hl; injection hl with hl; subst hl; rfl
    · intro hl; injection hl with hl; subst hl; rfl
  | oneToOne =>
    have hone := hS.one s
    unfold outVerts inVerts inSlices outSlices
    simp only [hk]
    cases hx : (W'.spl s).one with
    | none => exact ⟨(by intro hl; cases hl), (by intro hl; cases hl)⟩
    | some x =>
      obtain ⟨-, -, h3, -⟩ := hone x hx
      constructor
      · intro hl; injection hl with hl; subst hl
        simp [h3]
      · intro hl; injection hl with hl; subst hl
        simp [h3]
  | oneApp =>
    unfold outVerts inVerts inSlices outSlices
    simp only [hk]
    cases hx : singleOf E W' s with
    | error e => exact ⟨(by intro hl; cases hl), (by intro hl; cases hl)⟩
    | ok m =>
      constructor
      · intro hl; injection hl with hl; subst hl; rfl
      · intro hl; injection hl with hl; subst hl; rfl
  | external =>
    unfold outVerts inVerts inSlices outSlices
    simp only [hk]
    constructor
    · intro hl
      split at hl
      · cases hl
      · injection hl with hl
        subst hl
        rw [hS.inS s]
    · intro hl
      have ho := hS.outS s
      cases hx : (W'.spl s).outV with
      | none => rw [hx] at hl; cases hl
      | some m =>
        rw [hx] at hl ho
        injection hl with hl
        subst hl
        rw [← ho]
        rfl

/-- C97 does not hold if the partitioner is run twice: there are twice as many vertices as slices. -/
theorem C97_doubled :
    let W := run demo demoNew [.setSplitter 0 0, .partition [0], .partition [0]]
    outVerts demo W 0 = .ok [1, 2, 3, 4, 5, 6] ∧
    (outSlices demo W 0).2 = .ok [⟨0, 4, none⟩, ⟨4, 4, none⟩, ⟨8, 2, none⟩] := by decide +kernel

/-- C97 does not hold after `splitter_reset`, which forgets the slices but not the machine vertices made for them: with
another maximum set, the slices are not those of the vertices. -/
theorem C97_reset_only :
    let W := run demo demoNew [.setSplitter 0 0, .partition [0], .setMax 0 (some [5]), .splitterReset [0]]
    outVerts demo W 0 = .ok [1, 2, 3] ∧ (outSlices demo W 0).2 = .ok [⟨0, 5, none⟩, ⟨5, 5, none⟩] := by decide +kernel

example :
    let W := run demo demoNew [.setSplitter 0 0, .setSplitter 1 2, .setSplitter 2 3, .setSplitter 3 1, .partition [0, 1, 2, 3],
      .setMax 0 (some [5])]
    let W' := (partition demo (resetGraph demo W [0, 1, 2, 3]) 17 100 [0, 1, 2, 3]).1
    (partition demo (resetGraph demo W [0, 1, 2, 3]) 17 100 [0, 1, 2, 3]).2 = .ok 1 ∧
    (outSlices demo W' 0).2 = .ok [⟨0, 5, none⟩, ⟨5, 5, none⟩] ∧ (outSlices demo W' 1).2 = .ok [⟨0, 16, none⟩] ∧
    (outSlices demo W' 3).2 = .ok [⟨0, 2, none⟩, ⟨2, 2, none⟩] ∧ (inSlices demo W' 3).2 = .ok [⟨0, 4, none⟩] ∧
    (outVerts demo W' 3).map (fun l => l.map (fun m => (W'.mv m).slice)) = .ok [⟨0, 2, none⟩, ⟨2, 2, none⟩] := by
  decide +kernel

end Pacman.Split
