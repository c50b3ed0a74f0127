import Verif.Props.DataView
import Verif.Props.Sdram
/-
C105: the SDRAM of monitors.
-/

namespace Pacman.View

open Sdram (Cost WF Agree own blocks total addAll sumE sumQ varTotal addE)

theorem sumSdram_eq (cost : Nat → Cost) (c : Cost) (l : List Nat) : sumSdram cost c l = addAll c (l.map cost) := by
  induction l generalizing c with
  | nil => rfl
  | cons m l ih =>
    rw [sumSdram, List.map_cons, addAll]
    cases Sdram.add c (cost m) with
    | error e => rfl
    | ok c => exact ih c

theorem monitors_since (w : World) (post : List Op) (h : ∀ o ∈ post, ¬ Wipes o) :
    (run w post).data.ethMonitors = w.data.ethMonitors ++ post.filterMap ethOf ∧
    (run w post).data.allMonitors = w.data.allMonitors ++ post.filterMap allOf := by
  induction post generalizing w with
  | nil => simp [run]
  | cons o post ih =>
    have ih' := ih (step w o).1 (fun x hx => h x (List.mem_cons_of_mem _ hx))
    have ho := h o List.mem_cons_self
    rw [run, ih'.1, ih'.2]
    by_cases hm : ∃ m a, o = .addMonitor m a
    · obtain ⟨m, a, rfl⟩ := hm
      cases a <;> simp [step, World.put, monitor_fields, List.filterMap_cons, ethOf, allOf]
    · have hf := (frame w o (fun h => ho (Or.inl h))).2.2 (fun h => ho (Or.inr h)) (fun m a h => hm ⟨m, a, h⟩)
      rw [hf.1, hf.2]
      have he : ethOf o = none := by
        cases o <;> first | rfl | exact absurd ⟨_, _, rfl⟩ hm
      have ha : allOf o = none := by
        cases o <;> first | rfl | exact absurd ⟨_, _, rfl⟩ hm
      simp [he, ha]

theorem monitors_run (o : AppGraph.Objs) (pre post : List Op) (hp : Fresh pre Wipes) (h : ∀ o ∈ post, ¬ Wipes o) :
    (run (World.new o) (pre ++ post)).data.ethMonitors = post.filterMap ethOf ∧
    (run (World.new o) (pre ++ post)).data.allMonitors = post.filterMap allOf := by
  rw [run_append]
  have h1 := monitors_since (run (World.new o) pre) post h
  have h2 : (run (World.new o) pre).data.ethMonitors = [] ∧ (run (World.new o) pre).data.allMonitors = [] := by
    rcases hp with h | ⟨p, c, h, hc⟩
    · subst h; exact ⟨rfl, rfl⟩
    · subst h
      rw [run_snoc]
      rcases hc with hc | hc <;> subst hc <;> exact ⟨rfl, rfl⟩
  rw [h2.1, h2.2] at h1
  simpa using h1

/-- C105: after any calls (exceptions caught), the SDRAM reported for the monitors is the sum of the SDRAM of those added
since the last set-up or reset: of all of them for an Ethernet chip, of those for all chips for any chip. -/
theorem C105_sum (o : AppGraph.Objs) (ops : List Op) (cost : Nat → Cost) :
    ∃ pre post, ops = pre ++ post ∧ Fresh pre (fun c => c = .setup ∨ c = .hardReset) ∧
      (∀ c ∈ post, ¬ (c = .setup ∨ c = .hardReset)) ∧
      getEthernetMonitorSdram (run (World.new o) ops).data cost = addAll (.const 0) ((post.filterMap ethOf).map cost) ∧
      getAllMonitorSdram (run (World.new o) ops).data cost = addAll (.const 0) ((post.filterMap allOf).map cost) := by
  obtain ⟨pre, post, h1, h2, h3⟩ := fresh_exists Wipes ops
  obtain ⟨h4, h5⟩ := monitors_run o pre post h2 h3
  refine ⟨pre, post, h1, h2, h3, ?_, ?_⟩
  · rw [getEthernetMonitorSdram, sumSdram_eq, h1, h4]
  · rw [getAllMonitorSdram, sumSdram_eq, h1, h5]

theorem all_sub_eth (l : List Op) : (l.filterMap allOf).Sublist (l.filterMap ethOf) := by
  induction l with
  | nil => simp
  | cons o l ih =>
    cases o with
    | addMonitor m a =>
      cases a
      · rw [List.filterMap_cons_none (by rfl), List.filterMap_cons_some (b := m) (by rfl)]
        exact ih.cons m
      · rw [List.filterMap_cons_some (b := m) (by rfl), List.filterMap_cons_some (b := m) (by rfl)]
        exact ih.cons_cons m
    | _ => rw [List.filterMap_cons_none (by rfl), List.filterMap_cons_none (by rfl)]; exact ih

theorem sum_sub {l l' : List Int} (h : l.Sublist l') (h0 : ∀ x ∈ l', 0 ≤ x) : l.sum ≤ l'.sum := by
  induction h with
  | slnil => simp
  | cons a _ ih =>
    have := ih (fun x hx => h0 x (List.mem_cons_of_mem _ hx))
    have := h0 a List.mem_cons_self
    simp only [List.sum_cons]; omega
  | cons_cons a _ ih =>
    have := ih (fun x hx => h0 x (List.mem_cons_of_mem _ hx))
    simp only [List.sum_cons]; omega

theorem sumQ_nonneg {l : List Rat} (h0 : ∀ x ∈ l, 0 ≤ x) : 0 ≤ sumQ l := by
  induction l with
  | nil => exact Rat.le_refl
  | cons a l ih =>
    rw [sumQ]
    exact Rat.add_nonneg (h0 a List.mem_cons_self) (ih (fun x hx => h0 x (List.mem_cons_of_mem _ hx)))

theorem sumQ_sub {l l' : List Rat} (h : l.Sublist l') (h0 : ∀ x ∈ l', 0 ≤ x) : sumQ l ≤ sumQ l' := by
  induction h with
  | slnil => exact Rat.le_refl
  | cons a _ ih =>
    have h1 := ih (fun x hx => h0 x (List.mem_cons_of_mem _ hx))
    have h2 := h0 a List.mem_cons_self
    rw [sumQ]
    refine Rat.le_trans h1 ?_
    have := (Rat.add_le_add_right (c := sumQ ‹List Rat›)).2 h2
    rwa [Rat.zero_add] at this
  | cons_cons a _ ih =>
    rw [sumQ, sumQ]
    exact Rat.add_le_add_left.2 (ih (fun x hx => h0 x (List.mem_cons_of_mem _ hx)))

theorem varTotal_mono {f f' : Int} {p p' : Rat} {t : Option Nat} {x' : Int} (hf : f ≤ f') (hp : 0 ≤ p) (hp' : p ≤ p')
    (h : varTotal f' p' t = .ok x') : ∃ x, varTotal f p t = .ok x ∧ x ≤ x' := by
  cases t with
  | none =>
    rw [varTotal] at h
    split at h
    · rename_i h0
      injection h with h
      subst h0
      have : p = 0 := Rat.le_antisymm hp' hp
      exact ⟨f, by rw [varTotal, if_pos this], by omega⟩
    · cases h
  | some n =>
    rw [varTotal] at h
    injection h with h
    refine ⟨_, rfl, ?_⟩
    rw [← h, Rat.ceil_le_iff]
    refine Rat.le_trans ?_ Rat.le_ceil
    refine Rat.le_trans (Rat.add_le_add_right.2 (Rat.intCast_le_intCast.2 hf)) (Rat.add_le_add_left.2 ?_)
    exact Rat.mul_le_mul_of_nonneg_right hp' (by exact_mod_cast Nat.zero_le n)

/-- The sums of two lists by key, one with fewer keys. -/
theorem sumE_keys {κ : Type} {A E : List (κ × Except PyErr Int)} (hA : (A.map (·.1)).Nodup) (hE : (E.map (·.1)).Nodup)
    (hsub : ∀ q ∈ A, q ∈ E) (h0 : ∀ q ∈ E, ∀ x, q.2 = .ok x → 0 ≤ x) {y : Int} (h : sumE (E.map (·.2)) = .ok y) :
    ∃ x, sumE (A.map (·.2)) = .ok x ∧ x ≤ y := by
  induction A generalizing E y with
  | nil =>
    refine ⟨0, rfl, ?_⟩
    clear hsub hA hE
    induction E generalizing y with
    | nil => injection h with h; omega
    | cons q E ih =>
      rw [List.map_cons, Sdram.sumE_cons] at h
      cases hq : q.2 with
      | error e => rw [hq] at h; cases h
      | ok a =>
        cases hr : sumE (E.map (·.2)) with
        | error e => rw [hq, hr] at h; cases h
        | ok b =>
          rw [hq, hr] at h
          injection h with h
          have := ih (fun q hq => h0 q (List.mem_cons_of_mem _ hq)) hr
          have := h0 q List.mem_cons_self a hq
          omega
  | cons q A ih =>
    obtain ⟨E1, E2, rfl⟩ := List.append_of_mem (hsub q List.mem_cons_self)
    have hperm : (E1 ++ q :: E2).Perm (q :: (E1 ++ E2)) := List.perm_middle
    rw [Sdram.sumE_perm (hperm.map (·.2)), List.map_cons, Sdram.sumE_cons] at h
    rw [List.map_cons, List.nodup_cons] at hA
    have hE' : ((E1 ++ E2).map (·.1)).Nodup := by
      have := (hperm.map (·.1)).nodup_iff.1 hE
      rw [List.map_cons, List.nodup_cons] at this
      exact this.2
    cases hq : q.2 with
    | error e => rw [hq] at h; cases h
    | ok a =>
      cases hr : sumE ((E1 ++ E2).map (·.2)) with
      | error e => rw [hq, hr] at h; cases h
      | ok b =>
        rw [hq, hr] at h
        injection h with h
        obtain ⟨x, hx, hle⟩ := ih (E := E1 ++ E2) hA.2 hE' (by
          intro r hr
          have hne : r ≠ q := fun he => hA.1 (List.mem_map.2 ⟨r, hr, by rw [he]⟩)
          have := hsub r (List.mem_cons_of_mem _ hr)
          rcases List.mem_append.1 this with h1 | h1
          · exact List.mem_append_left _ h1
          · rcases List.mem_cons.1 h1 with h1 | h1
            · exact absurd h1 hne
            · exact List.mem_append_right _ h1) (by
          intro r hr
          apply h0 r
          rcases List.mem_append.1 hr with h1 | h1
          · exact List.mem_append_left _ h1
          · exact List.mem_append_right _ (List.mem_cons_of_mem _ h1)) hr
        refine ⟨a + x, ?_, by omega⟩
        rw [List.map_cons, Sdram.sumE_cons, hq, hx]; rfl

/-- A cost is not negative in any of its parts. -/
def Nonneg (c : Cost) : Prop :=
  0 ≤ (own c).1 ∧ 0 ≤ (own c).2 ∧ ∀ q ∈ blocks c, ∀ t x, total t q.2 = .ok x → 0 ≤ x

/-- Fewer costs have a smaller total. -/
theorem addAll_sub (l l' : List Cost) (hl : l.Sublist l') (hw : ∀ c ∈ l', WF c) (hag : Agree l')
    (hn : ∀ c ∈ l', Nonneg c) :
    ∃ c c', addAll (.const 0) l = .ok c ∧ addAll (.const 0) l' = .ok c' ∧
      ∀ t x', total t c' = .ok x' → ∃ x, total t c = .ok x ∧ x ≤ x' := by
  have ex : ∀ l : List Cost, (∀ c ∈ l, WF c) → Agree l →
      ∃ c, addAll (.const 0) l = .ok c ∧ Sdram.SumAll (.const 0 :: l) c := by
    intro l hw hag
    have h0 : Sdram.SumAll [.const 0] (.const 0) := ⟨.const 0, by simp, by simp [sumQ, Rat.add_zero],
      fun q hq => ⟨_, by simp, hq⟩, by
        intro b hb q hq
        rw [List.mem_singleton] at hb
        subst hb
        cases hq⟩
    refine Sdram.addAll_ok _ [] l _ h0 hw ?_
    intro a ha b hb k v w hv hw'
    rw [List.nil_append] at ha hb
    rcases List.mem_cons.1 ha with rfl | ha
    · cases hv
    · rcases List.mem_cons.1 hb with rfl | hb
      · cases hw'
      · exact hag a ha b hb k v w hv hw'
  obtain ⟨c, h1, h2⟩ := ex l (fun c hc => hw c (hl.subset hc))
    (fun a ha b hb => hag a (hl.subset ha) b (hl.subset hb))
  obtain ⟨c', h1', h2'⟩ := ex l' hw hag
  refine ⟨c, c', h1, h1', ?_⟩
  intro t x' hx'
  rw [Sdram.total_blocks, Sdram.sumE_cons] at hx'
  rw [Sdram.total_blocks, Sdram.sumE_cons]
  cases hv : varTotal (own c').1 (own c').2 t with
  | error e => rw [hv] at hx'; cases hx'
  | ok a' =>
    cases hs : sumE ((blocks c').map (fun q => total t q.2)) with
    | error e => rw [hv, hs] at hx'; cases hx'
    | ok b' =>
      rw [hv, hs] at hx'
      injection hx' with hx'
      obtain ⟨a, ha, hle⟩ := varTotal_mono (f := (own c).1) (p := (own c).2) (by
          rw [h2.fixed, h2'.fixed, List.map_cons, List.map_cons, List.sum_cons, List.sum_cons]
          have := sum_sub (hl.map (fun a => (own a).1)) (by
            intro x hx
            obtain ⟨d, hd, rfl⟩ := List.mem_map.1 hx
            exact (hn d hd).1)
          omega) (by
          rw [h2.per]
          apply sumQ_nonneg
          intro x hx
          obtain ⟨d, hd, rfl⟩ := List.mem_map.1 hx
          rcases List.mem_cons.1 hd with rfl | hd
          · exact Rat.le_refl
          · exact (hn d (hl.subset hd)).2.1) (by
          rw [h2.per, h2'.per, List.map_cons, List.map_cons, sumQ, sumQ]
          refine Rat.add_le_add_left.2 (sumQ_sub (hl.map (fun a => (own a).2)) ?_)
          intro x hx
          obtain ⟨d, hd, rfl⟩ := List.mem_map.1 hx
          exact (hn d hd).2.1) hv
      have mem' : ∀ {l : List Cost} {c q}, Sdram.SumAll (.const 0 :: l) c → q ∈ blocks c → ∃ a ∈ l, q ∈ blocks a := by
        intro l c q h hq
        obtain ⟨d, hd, hqd⟩ := h.mem q hq
        rcases List.mem_cons.1 hd with rfl | hd
        · cases hqd
        · exact ⟨d, hd, hqd⟩
      obtain ⟨b, hb, hle'⟩ := sumE_keys (A := (blocks c).map (fun q => (q.1, total t q.2)))
        (E := (blocks c').map (fun q => (q.1, total t q.2))) (by
          rw [List.map_map]; exact (Sdram.wf_blocks h2.wf).1) (by
          rw [List.map_map]; exact (Sdram.wf_blocks h2'.wf).1) (by
          intro q hq
          obtain ⟨r, hr, rfl⟩ := List.mem_map.1 hq
          obtain ⟨d, hd, hrd⟩ := mem' h2 hr
          obtain ⟨s, hs, hk⟩ := List.mem_map.1 (h2'.all d (List.mem_cons_of_mem _ (hl.subset hd)) r hrd)
          obtain ⟨e, he, hse⟩ := mem' h2' hs
          refine List.mem_map.2 ⟨s, hs, ?_⟩
          rw [hk]
          congr 1
          exact Sdram.eq_total _ _ _ (Nat.le_refl _) ((Sdram.wf_blocks (hw e he)).2 s hse)
            ((Sdram.wf_blocks (hw d (hl.subset hd))).2 r hrd)
            (hag e he d (hl.subset hd) s.1 s.2 r.2 hse (by rw [hk]; exact hrd)) t) (by
          intro q hq x hx
          obtain ⟨r, hr, rfl⟩ := List.mem_map.1 hq
          obtain ⟨d, hd, hrd⟩ := mem' h2' hr
          exact (hn d hd).2.2 r hrd t x hx) (y := b') (by
          rw [List.map_map]; exact hs)
      rw [List.map_map] at hb
      refine ⟨a + b, ?_, by omega⟩
      rw [ha]
      show addE _ (sumE ((blocks c).map (fun q => total t q.2))) = _
      have : sumE ((blocks c).map (fun q => total t q.2)) = .ok b := hb
      rw [this]; rfl

/-- C105: if the costs of the monitors can be added (blocks shared under a name are equal) and are not negative, the SDRAM
of the monitors on an Ethernet chip is at least that of the monitors on any chip, for any number of timesteps; where the
first is known so is the second. -/
theorem C105_ethernet (o : AppGraph.Objs) (ops : List Op) (cost : Nat → Cost)
    (hc : ∀ m a, Op.addMonitor m a ∈ ops → WF (cost m) ∧ Nonneg (cost m))
    (hag : ∀ m a m' a', Op.addMonitor m a ∈ ops → Op.addMonitor m' a' ∈ ops → ∀ k v w, (k, v) ∈ blocks (cost m) →
      (k, w) ∈ blocks (cost m') → Sdram.eq v w = true) :
    let d := (run (World.new o) ops).data
    ∃ c e, getAllMonitorSdram d cost = .ok c ∧ getEthernetMonitorSdram d cost = .ok e ∧
      ∀ t y, total t e = .ok y → ∃ x, total t c = .ok x ∧ x ≤ y := by
  obtain ⟨pre, post, h1, h2, h3, h4, h5⟩ := C105_sum o ops cost
  have mem : ∀ c ∈ (post.filterMap ethOf).map cost, ∃ m a, c = cost m ∧ Op.addMonitor m a ∈ ops := by
    intro c hc
    obtain ⟨m, hm, rfl⟩ := List.mem_map.1 hc
    obtain ⟨q, hq, he⟩ := List.mem_filterMap.1 hm
    cases q with
    | addMonitor m' a =>
      injection he with he
      subst he
      exact ⟨m', a, rfl, by rw [h1]; exact List.mem_append_right _ hq⟩
    | _ => cases he
  obtain ⟨c, e, h6, h7, h8⟩ := addAll_sub ((post.filterMap allOf).map cost) ((post.filterMap ethOf).map cost)
    ((all_sub_eth post).map cost)
    (by intro c h; obtain ⟨m, a, rfl, hm⟩ := mem c h; exact (hc m a hm).1)
    (by
      intro c h c' h'
      obtain ⟨m, a, rfl, hm⟩ := mem c h
      obtain ⟨m', a', rfl, hm'⟩ := mem c' h'
      exact hag m a m' a' hm hm')
    (by intro c h; obtain ⟨m, a, rfl, hm⟩ := mem c h; exact (hc m a hm).2)
  exact ⟨c, e, h5.trans h6, h4.trans h7, h8⟩

/-- C105: the SDRAM that the chip counter and the placer take a chip to have left is what the monitors for all chips leave,
so that it is at least what is left on an Ethernet chip. -/
theorem C105_left (o : AppGraph.Objs) (ops : List Op) (cost : Nat → Cost) (max : Int)
    (hc : ∀ m a, Op.addMonitor m a ∈ ops → WF (cost m) ∧ Nonneg (cost m))
    (hag : ∀ m a m' a', Op.addMonitor m a ∈ ops → Op.addMonitor m' a' ∈ ops → ∀ k v w, (k, v) ∈ blocks (cost m) →
      (k, w) ∈ blocks (cost m') → Sdram.eq v w = true) :
    let d := (run (World.new o) ops).data
    ∃ c e, getAllMonitorSdram d cost = .ok c ∧ getEthernetMonitorSdram d cost = .ok e ∧
      (∀ x, total ((getPlan d).map Int.toNat) c = .ok x → chipSdram max d cost = .ok (max - x)) ∧
      ∀ y, total ((getPlan d).map Int.toNat) e = .ok y → ∃ z, chipSdram max d cost = .ok z ∧ max - y ≤ z := by
  obtain ⟨c, e, h1, h2, h3⟩ := C105_ethernet o ops cost hc hag
  refine ⟨c, e, h1, h2, fun x hx => by simp only [chipSdram, h1, hx], fun y hy => ?_⟩
  obtain ⟨x, hx, hle⟩ := h3 _ y hy
  exact ⟨max - x, by simp only [chipSdram, h1, hx], by omega⟩

/-- Monitors on all chips and on Ethernet chips, of constant and variable cost; those before a reset do not count. -/
def someMonitors : List Op := [.addMonitor 0 true, .hardReset, .setPlan (.int 10), .addMonitor 1 true, .addMonitor 2 false]

def someCosts : Nat → Cost
  | 0 => .const 1000
  | 1 => .var 30 (1 / 2)
  | _ => .shared [("k", .const 7)] (.const 40)

def noObjs : AppGraph.Objs := ⟨fun _ => none, fun _ => false, fun _ => []⟩

/-- The SDRAM left on an Ethernet chip may be less: the counter takes a chip to have 65 of 100, where an Ethernet chip has
18. -/
theorem C105_less : chipSdram 100 (run (World.new noObjs) someMonitors).data someCosts = .ok 65 ∧
    ∃ e, getEthernetMonitorSdram (run (World.new noObjs) someMonitors).data someCosts = .ok e ∧ total (some 10) e = .ok 82 := by
  have h1 : (run (World.new noObjs) someMonitors).data.allMonitors = [1] := by decide +kernel
  have h2 : (run (World.new noObjs) someMonitors).data.ethMonitors = [1, 2] := by decide +kernel
  have h3 : (run (World.new noObjs) someMonitors).data.plan = some 10 := by decide +kernel
  constructor
  · simp only [chipSdram, getAllMonitorSdram, h1, sumSdram, someCosts, getPlan, h3]
    rw [Sdram.add]
    simp only [Sdram.addPlain, total]
    decide +kernel
  · refine ⟨.shared [("k", .const 7)] (.var (30 + 0 + 40) (1 / 2)), ?_, ?_⟩
    · simp only [getEthernetMonitorSdram, h2, sumSdram, someCosts]
      rw [Sdram.add]
      dsimp only
      simp only [Sdram.addPlain]
      rw [Sdram.add]
      · simp only [Sdram.addPlain]
      · intro n h; cases h
      · intro f p h; cases h
    · simp only [total, Sdram.totalSh]
      decide +kernel

example : (∀ m a, Op.addMonitor m a ∈ someMonitors → WF (someCosts m) ∧ Nonneg (someCosts m)) ∧
    (∀ m a m' a', Op.addMonitor m a ∈ someMonitors → Op.addMonitor m' a' ∈ someMonitors → ∀ k v w,
      (k, v) ∈ blocks (someCosts m) → (k, w) ∈ blocks (someCosts m') → Sdram.eq v w = true) := by
  have hm : ∀ m a, Op.addMonitor m a ∈ someMonitors → m = 0 ∨ m = 1 ∨ m = 2 := by
    intro m a h
    simp [someMonitors] at h
    rcases h with h | h | h <;> simp [h.1]
  constructor
  · intro m a h
    rcases hm m a h with rfl | rfl | rfl
    · exact ⟨.const _, by decide +kernel, by decide +kernel, fun q hq => (by cases hq)⟩
    · exact ⟨.var _ _, by decide +kernel, by decide +kernel, fun q hq => (by cases hq)⟩
    · refine ⟨.shared _ _ (.const _) (by simp) ?_, by decide +kernel, by decide +kernel, ?_⟩
      · intro q hq; simp at hq; subst hq; exact .const _
      · intro q hq t x hx
        have : q = ((0, "k"), .const 7) := by simpa [blocks, someCosts] using hq
        subst this
        rw [total] at hx
        injection hx with hx
        omega
  · intro m a m' a' h h' k v w hv hw
    rcases hm m a h with rfl | rfl | rfl
    · cases hv
    · cases hv
    · rcases hm m' a' h' with rfl | rfl | rfl
      · cases hw
      · cases hw
      · simp [blocks, someCosts] at hv hw
        rw [hv.2, hw.2]
        simp [Sdram.eq, Sdram.eqPlain]

end Pacman.View
