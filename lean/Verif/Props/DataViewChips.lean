import Verif.Props.SplitterChips
import Verif.Props.DataView
/-
C108: the number of chips from the partitioner can be given to the view.
-/

namespace Pacman.View

open Counter (Counter)

theorem addAll_mono (l : List Int) : ∀ c : Counter, c.nChips ≤ (c.addAll l).nChips := by
  induction l with
  | nil => intro c; exact Nat.le_refl _
  | cons a l ih =>
    intro c
    exact Nat.le_trans (Counter.add_nChips c a).1 (ih (c.add a))

theorem addAll_pos (cores sdram : Int) (l : List Int) : 0 < ((Counter.new cores sdram).addAll l).nChips ↔ l ≠ [] := by
  cases l with
  | nil => exact ⟨fun h => absurd h (Nat.lt_irrefl 0), fun h => absurd rfl h⟩
  | cons a l =>
    refine ⟨fun _ => by simp, fun _ => ?_⟩
    refine Nat.lt_of_lt_of_le ?_ (addAll_mono l ((Counter.new cores sdram).add a))
    unfold Counter.add Counter.new
    simp [Counter.open]

/-- C108 does not hold for an empty graph: the partitioner gives 0, and `set_n_chips_in_graph` refuses it. -/
theorem C108_zero (w : World) :
    (Split.partition Split.demo Split.demoNew 17 100 []).2 = .ok 0 ∧
      step w (.setNInGraph (.int (0 : Nat))) = (w, .error .valueError) := ⟨by decide +kernel, rfl⟩

/-- C108, as far as it holds: when splitters have just been set or the graph has been reset (`Split.Anew`), and then split, the number of chips from the partitioner is
taken by `set_n_chips_in_graph` just if there is some machine vertex; and then it is what `get_n_chips_needed` gives if
the user has asked for no number of chips. Missing: vertices with a `SplitterOneToOneLegacy` after a reset, and a second split without one (see
`Split.C94_not_there`); and graphs without machine vertices, for which it is false (`C108_zero`). -/
theorem C108_partial {E : Split.Env} {mp : Nat → Option (List Nat)} {mv : Nat → Split.MV} {next : Nat}
    (hb : Split.Built E mv next) {os : List Split.Op} {W W' : Split.World}
    (h : Split.run E (Split.World.new E mp mv next) os = W) (hL : Split.Linked W) {vs : List Nat} (hn : vs.Nodup)
    {cores sdram : Int} {n : Nat} (hp : Split.partition E W cores sdram vs = (W', .ok n))
    (hu : ∀ v ∈ vs, Split.Anew E W v) (o : AppGraph.Objs) (ops : List Op) :
    let r := step (run (World.new o) ops) (.setNInGraph (.int n))
    (r.2 = .ok () ↔ ∃ v ∈ vs, (W'.app v).machines ≠ []) ∧
    (r.2 = .ok () → (∀ m, ¬ FirstSince ops Asks (· = .setup) (.chips m)) → getNChipsNeeded r.1.data = .ok (n : Int)) := by
  have hW : Split.Sound E W := by rw [← h]; exact Split.sound_run os (Split.sound_new hb)
  have hpos : 0 < n ↔ ∃ v ∈ vs, (W'.app v).machines ≠ [] := by
    unfold Split.partition at hp
    split at hp
    · injection hp with _ hp; cases hp
    · rename_i W2 c2 hx
      injection hp with hp hp2
      injection hp2 with hp2
      subst hp
      have hc := Split.partitionLoop_load vs hx hn hL hW hu
      rw [← hp2, hc, addAll_pos]
      constructor
      · intro h0
        obtain ⟨a, ha⟩ := List.exists_mem_of_ne_nil _ h0
        obtain ⟨v, hv, ha⟩ := List.mem_flatMap.1 ha
        exact ⟨v, hv, fun h1 => by rw [h1] at ha; cases ha⟩
      · rintro ⟨v, hv, h1⟩ h0
        obtain ⟨m, hm⟩ := List.exists_mem_of_ne_nil _ h1
        have : (W2.mv m).sdram ∈ vs.flatMap (fun v => (W2.app v).machines.map (fun m => (W2.mv m).sdram)) :=
          List.mem_flatMap.2 ⟨v, hv, List.mem_map_of_mem hm⟩
        rw [h0] at this
        cases this
  intro r
  have hr : r.2 = .ok () ↔ 0 < n := by
    show (setNInGraph _ (.int n)).2 = _ ↔ _
    unfold setNInGraph
    dsimp only
    by_cases h0 : (n : Int) ≤ 0
    · rw [if_pos h0]
      exact ⟨fun h1 => (by cases h1), fun h1 => by omega⟩
    · rw [if_neg h0]
      exact ⟨fun _ => by omega, fun _ => rfl⟩
  refine ⟨hr.trans hpos, ?_⟩
  intro h1 h2
  have h3 := (C104_needed o (ops ++ [.setNInGraph (.int n)])).1 (n : Int)
  rw [run_snoc] at h3
  refine h3.2 (Or.inr ⟨?_, ⟨ops, _, [], rfl, ⟨?_, rfl⟩, fun _ h => by cases h⟩⟩)
  · rintro m ⟨pre, mid, x, post, he, hf, hx, hmid, hpost⟩
    rcases List.eq_nil_or_concat post with rfl | ⟨post', y, rfl⟩
    · obtain ⟨-, h5⟩ := List.append_inj' he rfl
      injection h5 with h4
      rw [← h4] at hx
      cases hx.2
    · have he' : ops ++ [Op.setNInGraph (.int n)] = (pre ++ mid ++ x :: post') ++ [y] := by
        rw [he]; simp
      obtain ⟨he', -⟩ := List.append_inj' he' rfl
      exact h2 m ⟨pre, mid, x, post', he', hf, hx, hmid, fun o' ho => hpost o' (by simp [ho])⟩
  · have := hr.1 h1; omega

/-- The hypotheses of `C108_partial` hold with vertices that are split into three, one and one: two chips. -/
example :
    (let W := Split.run Split.demo Split.demoNew [.setSplitter 0 0, .setSplitter 1 2]
     let p := Split.partition Split.demo (Split.resetGraph Split.demo W [0, 1]) 3 100 [0, 1]
     p.2 = .ok 2 ∧ (p.1.app 0).machines ≠ [] ∧
      (∀ v ∈ [0, 1], ∀ s ∈ (W.app v).splitter, Split.demo.kind s ≠ .oneToOne)) ∧
    ∀ o, getNChipsNeeded (step (run (World.new o) [.setNRequired (.int 3) .none]) (.setNInGraph (.int (2 : Nat)))).1.data =
      .ok 2 := by
  refine ⟨by decide +kernel, fun o => ?_⟩
  simp [run, step, World.put, setNInGraph, setNRequired, checkRequired, getNChipsNeeded, truthy, avail, World.new, Data.new]

end Pacman.View
