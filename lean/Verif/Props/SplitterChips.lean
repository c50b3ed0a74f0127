import Verif.Props.Splitters
/-
C94: the number of chips from the partitioner.
-/

namespace Pacman.Split

open Slices (Slice mkSlice multiSlices checkAtoms rasterIds)
open Counter (Counter Packing)

theorem anew_congr {E : Env} {W W' : World} {v : Nat} (h : Anew E W v)
    (hs : ∀ s, (W'.app v).splitter = some s → W'.app v = W.app v ∧ W'.spl s = W.spl s) : Anew E W' v := by
  intro s h1
  obtain ⟨h2, h3⟩ := hs s h1
  rw [h2] at h1
  have h4 := h s h1
  cases hk : E.kind s <;> rw [hk] at h4 <;> simp only at h4 ⊢
  · rw [h2, h3]; exact h4
  · obtain ⟨h5, m, h6, h7⟩ := h4
    refine ⟨h5, m, by rw [h2]; exact h6, ?_⟩
    unfold outVerts at h7 ⊢
    simp only [hk] at h7 ⊢
    rw [h3]
    exact h7
  · rw [h2]; exact h4

theorem create_load {E : Env} {W W1 : World} {c c1 : Counter} {v s : Nat} (hW : Sound E W) (hL : Linked W)
    (hs : (W.app v).splitter = some s) (hu : Anew E W v)
    (hc : create E W c s = ((W1, c1), .ok ())) :
    c1 = c.addAll ((W1.app v).machines.map (fun m => (W1.mv m).sdram)) := by
  have hg : (W.spl s).governed = some v := (hL v s).1 hs
  have hr := hu s hs
  have hS := sound_create hW c s
  rw [hc] at hS
  unfold create at hc
  split at hc
  · rename_i hk
    rw [hk] at hr
    obtain ⟨hsing, hm, -⟩ := hr
    rw [hg] at hc
    simp only at hc
    split at hc
    · injection hc with _ hc; cases hc
    · rename_i W3 ss hf
      have hS3 := sound_fixedSlices hW s
      rw [hf] at hS3
      have happ : W3.app = W.app := by
        unfold fixedSlices at hf
        split at hf
        · injection hf with hf _; rw [← hf]
        · split at hf
          · injection hf with hf _; rw [← hf]
          · split at hf
            · injection hf with hf _; rw [← hf]
            · injection hf with hf _; rw [← hf]; rfl
      obtain ⟨W4, h2, ms, h3, -, -, h6⟩ := fixedLoop_ok (E := E) hsing ss (c := c) hS3
      rw [h2] at hc
      injection hc with hc _
      injection hc with hc hc2
      subst hc
      rw [h3, happ, hm, List.nil_append, h6, hc2]
  · rename_i hk
    rw [hk] at hr
    obtain ⟨-, m, hm, ho⟩ := hr
    unfold outVerts at ho
    simp only [hk] at ho
    split at hc
    · injection hc with _ hc; cases hc
    · rename_i x hx
      rw [hx] at ho
      injection ho with ho
      injection ho with ho _
      obtain ⟨-, -, -, h4⟩ := hW.one s x hx
      injection hc with hc _
      injection hc with hc hc2
      subst hc
      rw [hm, ← hc2, ← ho, ← h4]
      rfl
  · rw [hg] at hc
    simp only at hc
    split at hc
    · injection hc with _ hc; cases hc
    · rename_i m hsm
      injection hc with hc _
      injection hc with hc hc2
      subst hc
      rw [hW.sing v m hsm, ← hc2]
      rfl
  · rename_i hk
    rw [hk] at hr
    obtain ⟨hsing, hm⟩ := hr
    rw [hg] at hc
    simp only at hc
    have hdev : ∀ m ∈ (W.spl s).inV ++ (W.spl s).outV.toList, m < W.next ∧ (W.mv m).app = v := by
      intro m h0
      obtain ⟨h1, h2, _⟩ := hW.dev s m h0
      exact ⟨h1, h2 v hg⟩
    have hx := (off_deviceLoop (E := E) (u := v) (v := v + 1) (s := 0) (by omega)
      ((W.spl s).inV ++ (W.spl s).outV.toList) W c).ext
    rw [hc] at hx
    obtain ⟨-, -, h3, h4⟩ := deviceLoop_ok _ hc hW hdev
    have h5 := h4 hsing (hW.fresh s) (fun m _ h0 => by rw [hm] at h0; cases h0)
    rw [h5, hm, List.nil_append, h3]
    congr 1
    exact List.map_congr_left (fun m h0 => (hx.sdram (hdev m h0).1).symm)

theorem partitionLoop_load {E : Env} (vs : List Nat) : ∀ {W W' : World} {c c' : Counter},
    partitionLoop E W c vs = ((W', c'), .ok ()) → vs.Nodup → Linked W → Sound E W → (∀ v ∈ vs, Anew E W v) →
    c' = c.addAll (vs.flatMap (fun v => (W'.app v).machines.map (fun m => (W'.mv m).sdram))) := by
  induction vs with
  | nil =>
    intro W W' c c' h _ _ _ _
    unfold partitionLoop at h
    injection h with h _
    injection h with _ h
    rw [← h]
    rfl
  | cons u us ih =>
    intro W W' c c' h hn hL hW hu
    unfold partitionLoop at h
    split at h
    · injection h with _ h; cases h
    · rename_i t ht
      split at h
      · injection h with _ h; cases h
      · rename_i W1 c1 hx
        have hk := keeps_create E W c t
        have hS := sound_create hW c t
        rw [hx] at hk hS
        have hl1 := hk.linked hL
        rw [List.nodup_cons] at hn
        have h1 := create_load hW hL ht (hu u List.mem_cons_self) hx
        have ho := off_partitionLoop (E := E) us W1 c1 hl1 ((hk.1 u).trans ht) hn.1
        rw [h] at ho
        have hrest := ih h hn.2 hl1 hS (fun v hv => by
            have hvu : v ≠ u := fun h0 => hn.1 (h0 ▸ hv)
            refine anew_congr (hu v (List.mem_cons_of_mem _ hv)) (fun s hs => ?_)
            have hst : s ≠ t := by
              intro h0
              have h2 := (hL u t).1 ht
              rw [← h0, (hL v s).1 ((hk.1 v).symm.trans hs)] at h2
              injection h2 with h2
              exact hvu h2
            have := off_create (E := E) (c := c) (v := v) (s := s) ((hL u t).1 ht) hvu hst
            rw [hx] at this
            exact ⟨this.app, this.spl⟩)
        rw [List.flatMap_cons, hrest]
        have h2 : (W'.app u).machines.map (fun m => (W'.mv m).sdram) =
            (W1.app u).machines.map (fun m => (W1.mv m).sdram) := by
          rw [ho.app]
          exact List.map_congr_left (fun m h0 => ho.ext.sdram (hS.bound u m h0))
        rw [h2, h1]
        unfold Counter.addAll
        rw [List.foldl_append]

/-- C94, as far as it holds: when splitters have just been set or the graph has been reset before (`Anew`), and each machine vertex fits on an empty chip, the
partitioner gives the number of chips of a packing of all machine vertices of the graph in their order. Missing:
vertices with a `SplitterOneToOneLegacy` after a reset, and a second run without one, for both of which it is false (see `C94_not_there`). -/
theorem C94_chips_partial {E : Env} {mp : Nat → Option (List Nat)} {mv : Nat → MV} {next : Nat} (hb : Built E mv next)
    {os : List Op} {W W' : World} (h : run E (World.new E mp mv next) os = W) (hL : Linked W) {vs : List Nat}
    (hn : vs.Nodup) {cores sdram : Int} {n : Nat}
    (hp : partition E W cores sdram vs = (W', .ok n)) (hu : ∀ v ∈ vs, Anew E W v)
    (hcores : 0 < cores) (hfit : ∀ v ∈ vs, ∀ m ∈ (W'.app v).machines, (W'.mv m).sdram ≤ sdram) :
    ∃ runs, Packing cores sdram (vs.flatMap (fun v => (W'.app v).machines.map (fun m => (W'.mv m).sdram))) runs ∧
      n = runs.length ∧
      ((∀ v ∈ vs, ∀ m ∈ (W'.app v).machines, 0 ≤ (W'.mv m).sdram) → ∀ runs', Packing cores sdram
        (vs.flatMap (fun v => (W'.app v).machines.map (fun m => (W'.mv m).sdram))) runs' → n ≤ runs'.length) := by
  have hW0 : Sound E W := by rw [← h]; exact sound_run os (sound_new hb)
  unfold partition at hp
  split at hp
  · injection hp with _ hp; cases hp
  · rename_i W2 c2 hx
    injection hp with hp hp2
    injection hp2 with hp2
    subst hp
    have hc := partitionLoop_load vs hx hn hL hW0 hu
    subst hc
    subst hp2
    obtain ⟨runs, h1, h2⟩ := Counter.C53_feasible hcores
      (vs.flatMap (fun v => (W2.app v).machines.map (fun m => (W2.mv m).sdram))) (by
        intro a ha
        obtain ⟨v, hv, ha⟩ := List.mem_flatMap.1 ha
        obtain ⟨m, hm, rfl⟩ := List.mem_map.1 ha
        exact hfit v hv m hm)
    refine ⟨runs, h1, h2, ?_⟩
    intro hpos runs' hr
    refine Counter.C53_least _ ?_ runs' hr
    intro a ha
    obtain ⟨v, hv, ha⟩ := List.mem_flatMap.1 ha
    obtain ⟨m, hm, rfl⟩ := List.mem_map.1 ha
    exact hpos v hv m hm

/-- C94 does not hold for a `SplitterOneToOneLegacy` after a reset, whose machine vertex is counted though it is not
there; nor if the partitioner is run again without a reset, when the machine vertices from before are not counted. -/
theorem C94_not_there :
    (let W := run demo demoNew [.setSplitter 0 1]
     let r := partition demo (resetGraph demo W [0]) 1 100 [0]
     r.2 = .ok 1 ∧ (r.1.app 0).machines = []) ∧
    (let W := run demo demoNew [.setSplitter 0 0, .partition [0]]
     let r := partition demo W 1 100 [0]
     r.2 = .ok 3 ∧ (r.1.app 0).machines.length = 6) := by decide +kernel

/-- C94: virtual machine vertices of devices are counted as cores, though they need no core of a chip. -/
theorem C94_devices_counted :
    let W := run demo demoNew [.setSplitter 2 3]
    let r := partition demo (resetGraph demo W [2]) 1 100 [2]
    r.2 = .ok 3 ∧ (r.1.app 2).machines.map (fun m => (r.1.mv m).dev) =
      [some (7, true), some (7, true), some (7, false)] := by decide +kernel

example :
    let W := run demo demoNew [.setSplitter 0 0, .setSplitter 1 2, .setSplitter 3 4, .partition [0]]
    let r := partition demo (resetGraph demo W [0, 1, 3]) 2 10 [0, 1, 3]
    r.2 = .ok 6 ∧ [0, 1, 3].flatMap (fun v => (r.1.app v).machines.map (fun m => (r.1.mv m).sdram)) =
      [4, 4, 2, 5, 8, 8, 8, 8] := by decide +kernel

end Pacman.Split
