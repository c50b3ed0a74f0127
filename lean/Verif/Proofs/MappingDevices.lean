import Verif.Spec.MappingDevices
import Verif.Props.SplitterDevice
import Verif.Props.MappingGraph
/-
Graphs with devices after the partitioner: lemmas.
-/

namespace Pacman.Split

open Slices (Slice)
open Counter (Counter)

theorem Match.mem {P : (Nat × Nat) → Nat → Prop} {js : List (Nat × Nat)} {ms : List Nat} (h : Match P js ms) :
    ∀ m ∈ ms, ∃ j ∈ js, P j m := by
  induction h with
  | nil => intro m hm; cases hm
  | @cons j k js ms hj _ ih =>
    intro m hm
    rcases List.mem_cons.1 hm with rfl | hm
    · exact ⟨j, List.mem_cons_self, hj⟩
    · obtain ⟨j', h1, h2⟩ := ih m hm
      exact ⟨j', List.mem_cons_of_mem _ h1, h2⟩

theorem senders_eq (d : DevKind) : d.jobs.length = d.senders := by
  cases d with
  | fpga k links out two => exact (jobs_length links (List.range k)).trans (by rw [List.length_range]; rfl)
  | link n id inc out two =>
    unfold DevKind.jobs DevKind.senders
    simp only
    split
    · rw [List.length_map, List.length_range]
    · rfl

theorem jobs_uses {d : DevKind} : ∀ j ∈ d.jobs, j.2 ∈ d.uses := by
  cases d with
  | fpga k links out two =>
    intro j hj
    obtain ⟨i, -, h2⟩ := List.mem_flatMap.1 hj
    obtain ⟨l, h3, rfl⟩ := List.mem_map.1 h2
    exact List.mem_append_left _ h3
  | link n id inc out two =>
    intro j hj
    unfold DevKind.jobs at hj
    simp only at hj
    split at hj
    · obtain ⟨i, -, rfl⟩ := List.mem_map.1 hj
      exact List.mem_singleton.2 rfl
    · cases hj

theorem out_uses {d : DevKind} {l : Nat} (h : d.out = some l) : l ∈ d.uses ∧ d.receives = true := by
  cases d with
  | fpga k links out two =>
    change out = some l at h
    subst h
    exact ⟨List.mem_append_right _ (List.mem_singleton.2 rfl), rfl⟩
  | link n id inc out two =>
    unfold DevKind.out at h
    simp only at h
    split at h
    · rename_i ho
      injection h with h
      exact ⟨List.mem_singleton.2 h.symm, ho⟩
    · cases h

theorem out_none {d : DevKind} (h : d.out = none) : d.receives = false := by
  cases d with
  | fpga k links out two => change out = none at h; subst h; rfl
  | link n id inc out two =>
    unfold DevKind.out at h
    simp only at h
    split at h
    · cases h
    · rename_i ho; exact Bool.eq_false_iff.2 ho

/-- The machine vertices that `SplitterFixedLegacy` makes are not of devices. -/
theorem fixedLoop_none {E : Env} {v : Nat} (ss : List Slice) : ∀ {W : World} {c : Counter},
    (∀ m ∈ (W.app v).machines, (W.mv m).dev = none) →
    ∀ m ∈ ((fixedLoop E v W c ss).1.1.app v).machines, ((fixedLoop E v W c ss).1.1.mv m).dev = none := by
  induction ss with
  | nil => intro W c h; exact h
  | cons sl ss ih =>
    intro W c h
    have h1 : ∀ m ∈ ((remember E (W.alloc ⟨sl, (E.app v).sdramOf sl, v, 0, none⟩) v W.next).1.app v).machines,
        ((remember E (W.alloc ⟨sl, (E.app v).sdramOf sl, v, 0, none⟩) v W.next).1.mv m).dev = none := by
      intro m hm
      rw [remember_dev]
      unfold World.alloc
      simp only [setMv_mv]
      split
      · rfl
      · rename_i hne
        refine h m ?_
        unfold remember at hm
        split at hm
        · split at hm <;> exact hm
        · simp only [setApp_app, if_pos] at hm
          split at hm
          · exact hm
          · rcases List.mem_append.1 hm with hm | hm
            · exact hm
            · exact absurd (List.mem_singleton.1 hm) hne
    unfold fixedLoop
    dsimp only
    split
    · rename_i hx; rw [hx] at h1; exact h1
    · rename_i hx; rw [hx] at h1; exact ih h1

theorem machines_none {E : Env} {W W' : World} (hW : Sound E W) (hL : Linked W) {vs : List Nat}
    (hn : vs.Nodup) {cores sdram : Int} {n : Nat}
    (hp : partition E W cores sdram vs = (W', .ok n)) {v s : Nat} (hv : v ∈ vs)
    (hs : (W.app v).splitter = some s) (hk : E.kind s = .fixed) (hr : Anew E W v) :
    ∀ m ∈ (W'.app v).machines, (W'.mv m).dev = none := by
  have hr' := hr s hs
  rw [hk] at hr'
  obtain ⟨h1, happ, hsl⟩ := hr'
  unfold partition at hp
  split at hp
  · injection hp with _ hp; cases hp
  · rename_i W2 c2 hx
    injection hp with hp _
    subst hp
    obtain ⟨W0, c0, W1, c1, o1, s0, l0, hc, s1, l1, o2⟩ := partitionLoop_at vs hx hn hL hW hv hs
    have hg0 : (W0.spl s).governed = some v := by rw [o1.spl]; exact (hL v s).1 hs
    unfold create at hc
    simp only [hk, hg0] at hc
    split at hc
    · injection hc with _ hc; cases hc
    · rename_i W3 ss hf
      have hm3 : (W3.app v).machines = [] := by
        have : W3.app = W0.app := by
          have h0 : (fixedSlices E W0 s).1.app = W0.app := by
            unfold fixedSlices
            split
            · rfl
            · split
              · rfl
              · split <;> rfl
          rw [hf] at h0
          exact h0
        rw [this, o1.app, happ]
      have h2 := fixedLoop_none (E := E) (v := v) ss (W := W3) (c := c0) (by intro m hm; rw [hm3] at hm; cases hm)
      rw [hc] at h2
      intro m hm
      rw [o2.app] at hm
      rw [o2.ext.dev (s1.bound v m hm)]
      exact h2 m hm

theorem has_resetGraph {E : Env} (vs : List Nat) : ∀ {W : World}, Sound E W → (∀ t, Has E W t) →
    ∀ t, Has E (resetGraph E W vs) t := by
  induction vs with
  | nil => intro W _ h; exact h
  | cons v vs ih =>
    intro W hW h
    exact ih (sound_step hW (.reset v)) (has_step (o := .reset v) hW h rfl)

end Pacman.Split
