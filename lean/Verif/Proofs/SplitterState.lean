import Verif.Proofs.Splitters
/-
Lemmas on splitters: what holds of all objects in every state.
-/

namespace Pacman.Split

open Slices (Slice mkSlice multiSlices checkAtoms)
open Counter (Counter)

/-- A machine vertex without its index. -/
def MV.core (x : MV) : Slice × Int × Nat × Option (Nat × Bool) := (x.slice, x.sdram, x.app, x.dev)

/-- What holds of all objects in every state. -/
structure Sound (E : Env) (W : World) : Prop where
  bound : ∀ v m, m ∈ (W.app v).machines → m < W.next
  owner : ∀ v m, m ∈ (W.app v).machines → (W.mv m).app = v
  nodup : ∀ v, (W.app v).machines.Nodup
  sing : ∀ v m, (E.app v).single = some m → (W.app v).machines = [m]
  idle : ∀ s, (W.spl s).governed = none → (W.spl s).one = none ∧ (W.spl s).inV = [] ∧ (W.spl s).outV = none
  one : ∀ s x, (W.spl s).one = some x → x.1 < W.next ∧
    (∀ v, (W.spl s).governed = some v → (W.mv x.1).app = v ∧ mkSlice 0 (E.app v).nAtoms none = .ok x.2.1 ∧
      x.2.2 = (E.app v).sdramOf x.2.1) ∧ (W.mv x.1).slice = x.2.1 ∧ (W.mv x.1).sdram = x.2.2
  dev : ∀ s, ∀ m ∈ (W.spl s).inV ++ (W.spl s).outV.toList, m < W.next ∧
    (∀ v, (W.spl s).governed = some v → (W.mv m).app = v) ∧ (W.mv m).sdram = 0
  fresh : ∀ s, ((W.spl s).inV ++ (W.spl s).outV.toList).Nodup
  inS : ∀ s, (W.spl s).inV.map (fun m => (W.mv m).slice) = (W.spl s).inS
  outS : ∀ s, (W.spl s).outV.map (fun m => (W.mv m).slice) = (W.spl s).outS

/-- New machine vertices may be there, but nothing of the old ones except the index has changed. -/
def Ext (W W' : World) : Prop := W.next ≤ W'.next ∧ ∀ m, m < W.next → (W'.mv m).core = (W.mv m).core

theorem Ext.refl (W : World) : Ext W W := ⟨Nat.le_refl _, fun _ _ => rfl⟩

theorem Ext.trans {A B C : World} (h : Ext A B) (k : Ext B C) : Ext A C :=
  ⟨Nat.le_trans h.1 k.1, fun m hm => (k.2 m (Nat.lt_of_lt_of_le hm h.1)).trans (h.2 m hm)⟩

theorem Ext.slice {W W' : World} (h : Ext W W') {m : Nat} (hm : m < W.next) : (W'.mv m).slice = (W.mv m).slice := by
  have := h.2 m hm
  simp only [MV.core, Prod.mk.injEq] at this
  exact this.1

theorem Ext.sdram {W W' : World} (h : Ext W W') {m : Nat} (hm : m < W.next) : (W'.mv m).sdram = (W.mv m).sdram := by
  have := h.2 m hm
  simp only [MV.core, Prod.mk.injEq] at this
  exact this.2.1

theorem Ext.app {W W' : World} (h : Ext W W') {m : Nat} (hm : m < W.next) : (W'.mv m).app = (W.mv m).app := by
  have := h.2 m hm
  simp only [MV.core, Prod.mk.injEq] at this
  exact this.2.2.1

theorem Ext.dev {W W' : World} (h : Ext W W') {m : Nat} (hm : m < W.next) : (W'.mv m).dev = (W.mv m).dev := by
  have := h.2 m hm
  simp only [MV.core, Prod.mk.injEq] at this
  exact this.2.2.2

theorem ext_alloc (W : World) (x : MV) : Ext W (W.alloc x) := by
  refine ⟨Nat.le_succ _, fun m hm => ?_⟩
  rw [alloc_mv, if_neg (Nat.ne_of_lt hm)]

theorem ext_remember (E : Env) (W : World) (v m : Nat) : Ext W (remember E W v m).1 := by
  unfold remember
  split
  · split <;> exact .refl _
  · refine ⟨Nat.le_refl _, fun k _ => ?_⟩
    simp only [setApp_mv, setMv_mv]
    split
    · rename_i h; rw [h]; rfl
    · rfl

/-- The splitters have not changed, nor the machine vertices that splitters know. -/
theorem Sound.same_spl {E : Env} {W W' : World} (h : Sound E W) (hx : Ext W W') (hs : W'.spl = W.spl)
    (bound : ∀ v m, m ∈ (W'.app v).machines → m < W'.next)
    (owner : ∀ v m, m ∈ (W'.app v).machines → (W'.mv m).app = v)
    (nodup : ∀ v, (W'.app v).machines.Nodup)
    (sing : ∀ v m, (E.app v).single = some m → (W'.app v).machines = [m]) : Sound E W' := by
  refine ⟨bound, owner, nodup, sing, ?_, ?_, ?_, ?_, ?_, ?_⟩
  · rw [hs]; exact h.idle
  · rw [hs]
    intro s x hx1
    obtain ⟨h1, h2, h3, h4⟩ := h.one s x hx1
    rw [hx.app h1, hx.slice h1, hx.sdram h1]
    exact ⟨Nat.lt_of_lt_of_le h1 hx.1, h2, h3, h4⟩
  · rw [hs]
    intro s m hm
    obtain ⟨h1, h2, h3⟩ := h.dev s m hm
    rw [hx.app h1, hx.sdram h1]
    exact ⟨Nat.lt_of_lt_of_le h1 hx.1, h2, h3⟩
  · rw [hs]; exact h.fresh
  · rw [hs]
    intro s
    rw [← h.inS s]
    apply List.map_congr_left
    intro m hm
    exact hx.slice (h.dev s m (List.mem_append_left _ hm)).1
  · rw [hs]
    intro s
    rw [← h.outS s]
    cases ho : (W.spl s).outV with
    | none => rfl
    | some m =>
      simp only [Option.map_some]
      rw [hx.slice (h.dev s m (by rw [ho]; simp)).1]

theorem sound_alloc {E : Env} {W : World} (h : Sound E W) (x : MV) : Sound E (W.alloc x) := by
  refine h.same_spl (ext_alloc W x) rfl ?_ ?_ h.nodup h.sing
  · intro v m hm
    exact Nat.lt_succ_of_lt (h.bound v m hm)
  · intro v m hm
    rw [(ext_alloc W x).app (h.bound v m hm)]
    exact h.owner v m hm

theorem sound_setApp {E : Env} {W : World} (h : Sound E W) {v : Nat} {a : AState}
    (ha : a.machines = (W.app v).machines) : Sound E (W.setApp v a) := by
  have hm : ∀ u, ((W.setApp v a).app u).machines = (W.app u).machines := by
    intro u
    simp only [setApp_app]
    split
    · rename_i hu; rw [hu]; exact ha
    · rfl
  refine h.same_spl (.refl W) rfl ?_ ?_ ?_ ?_
  · intro u m; rw [hm]; exact h.bound u m
  · intro u m; rw [hm]; exact h.owner u m
  · intro u; rw [hm]; exact h.nodup u
  · intro u m hs; rw [hm]; exact h.sing u m hs

theorem sound_clear {E : Env} {W : World} (h : Sound E W) {v : Nat} (hv : (E.app v).single = none) :
    Sound E (W.setApp v { W.app v with machines := [] }) := by
  have hm : ∀ u, ((W.setApp v { W.app v with machines := [] }).app u).machines =
      if u = v then [] else (W.app u).machines := by
    intro u
    simp only [setApp_app]
    split <;> rfl
  refine h.same_spl (.refl W) rfl ?_ ?_ ?_ ?_
  · intro u m
    rw [hm]
    split
    · intro h0; cases h0
    · exact h.bound u m
  · intro u m
    rw [hm]
    split
    · intro h0; cases h0
    · exact h.owner u m
  · intro u
    rw [hm]
    split
    · exact List.nodup_nil
    · exact h.nodup u
  · intro u m hs
    rw [hm, if_neg (fun hu => by rw [hu, hv] at hs; cases hs)]
    exact h.sing u m hs

/-- What `remember` does to the lists of machine vertices. -/
theorem remember_machines {E : Env} {W : World} {v m : Nat} (hv : (E.app v).single = none) (u : Nat) :
    ((remember E W v m).1.app u).machines = if u = v then
      (if m ∈ (W.app v).machines then (W.app v).machines else (W.app v).machines ++ [m])
      else (W.app u).machines := by
  unfold remember
  rw [hv]
  simp only [setApp_app]
  split <;> rfl

theorem remember_spl (E : Env) (W : World) (v m : Nat) : (remember E W v m).1.spl = W.spl := by
  unfold remember
  split
  · split <;> rfl
  · rfl

theorem remember_next (E : Env) (W : World) (v m : Nat) : (remember E W v m).1.next = W.next := by
  unfold remember
  split
  · split <;> rfl
  · rfl

theorem sound_remember {E : Env} {W : World} (h : Sound E W) {v m : Nat} (hm : m < W.next)
    (ha : (W.mv m).app = v) : Sound E (remember E W v m).1 := by
  cases hv : (E.app v).single with
  | some m0 =>
    have : (remember E W v m).1 = W := by
      unfold remember
      rw [hv]
      simp only
      split <;> rfl
    rw [this]
    exact h
  | none =>
    have hmem : ∀ u k, k ∈ ((remember E W v m).1.app u).machines → k ∈ (W.app u).machines ∨ (u = v ∧ k = m) := by
      intro u k
      rw [remember_machines hv]
      split
      · rename_i hu
        rw [hu]
        split
        · exact fun hk => Or.inl hk
        · intro hk
          rcases List.mem_append.1 hk with hk | hk
          · exact Or.inl hk
          · exact Or.inr ⟨rfl, List.mem_singleton.1 hk⟩
      · exact fun hk => Or.inl hk
    have hx := ext_remember E W v m
    refine h.same_spl hx (remember_spl E W v m) ?_ ?_ ?_ ?_
    · intro u k hk
      rw [remember_next]
      rcases hmem u k hk with hk | ⟨-, rfl⟩
      · exact h.bound u k hk
      · exact hm
    · intro u k hk
      rcases hmem u k hk with hk | ⟨rfl, rfl⟩
      · rw [hx.app (h.bound u k hk)]
        exact h.owner u k hk
      · rw [hx.app hm]
        exact ha
    · intro u
      rw [remember_machines hv]
      split
      · split
        · exact h.nodup v
        · rename_i hn
          rw [List.nodup_append]
          refine ⟨h.nodup v, by simp, ?_⟩
          intro a ha b hb hab
          rw [List.mem_singleton.1 hb] at hab
          rw [hab] at ha
          exact hn ha
      · exact h.nodup u
    · intro u k hs
      rw [remember_machines hv, if_neg (fun hu => by rw [hu, hv] at hs; cases hs)]
      exact h.sing u k hs

/-- A splitter changed. -/
theorem sound_setSpl {E : Env} {W : World} (h : Sound E W) {s : Nat} {x : SState}
    (idle : x.governed = none → x.one = none ∧ x.inV = [] ∧ x.outV = none)
    (one : ∀ y, x.one = some y → y.1 < W.next ∧
      (∀ v, x.governed = some v → (W.mv y.1).app = v ∧ mkSlice 0 (E.app v).nAtoms none = .ok y.2.1 ∧
        y.2.2 = (E.app v).sdramOf y.2.1) ∧ (W.mv y.1).slice = y.2.1 ∧ (W.mv y.1).sdram = y.2.2)
    (dev : ∀ m ∈ x.inV ++ x.outV.toList, m < W.next ∧
      (∀ v, x.governed = some v → (W.mv m).app = v) ∧ (W.mv m).sdram = 0)
    (fresh : (x.inV ++ x.outV.toList).Nodup)
    (inS : x.inV.map (fun m => (W.mv m).slice) = x.inS)
    (outS : x.outV.map (fun m => (W.mv m).slice) = x.outS) : Sound E (W.setSpl s x) := by
  refine ⟨h.bound, h.owner, h.nodup, h.sing, ?_, ?_, ?_, ?_, ?_, ?_⟩ <;> intro t <;>
    simp only [setSpl_spl, setSpl_mv, setSpl_next] <;> by_cases ht : t = s
  · rw [if_pos ht]; exact idle
  · rw [if_neg ht]; exact h.idle t
  · rw [if_pos ht]; exact one
  · rw [if_neg ht]; exact h.one t
  · rw [if_pos ht]; exact dev
  · rw [if_neg ht]; exact h.dev t
  · rw [if_pos ht]; exact fresh
  · rw [if_neg ht]; exact h.fresh t
  · rw [if_pos ht]; exact inS
  · rw [if_neg ht]; exact h.inS t
  · rw [if_pos ht]; exact outS
  · rw [if_neg ht]; exact h.outS t

theorem sound_slices {E : Env} {W : World} (h : Sound E W) (s : Nat) (ss : Option (List Slice)) :
    Sound E (W.setSpl s { W.spl s with slices := ss }) :=
  sound_setSpl h (h.idle s) (h.one s) (h.dev s) (h.fresh s) (h.inS s) (h.outS s)

theorem sound_tie {E : Env} {W : World} (h : Sound E W) (v s : Nat) : Sound E (W.tie v s) := sound_setApp h rfl

theorem sound_rule {E : Env} {W : World} (h : Sound E W) {s : Nat} (hs : (W.spl s).governed = none) (v : Nat) :
    Sound E (W.rule s v) := by
  obtain ⟨h1, h2, h3⟩ := h.idle s hs
  have h5 := h.inS s
  have h6 := h.outS s
  rw [h2] at h5
  rw [h3] at h6
  refine sound_setSpl h (fun h0 => by cases h0) ?_ ?_ ?_ ?_ ?_
  · intro y hy
    simp only at hy
    rw [h1] at hy
    cases hy
  · intro m hm
    simp only [h2, h3] at hm
    cases hm
  · simp [h2, h3]
  · simpa [h2] using h5
  · simpa [h3] using h6

theorem sound_makeOne {E : Env} {W : World} (h : Sound E W) {s v : Nat} (hg : (W.spl s).governed = some v) :
    Sound E (makeOne E W s v).1 := by
  unfold makeOne
  split
  · exact h
  · rename_i sl hsl
    dsimp only
    have ha := sound_alloc h ⟨sl, (E.app v).sdramOf sl, v, 0, none⟩
    refine sound_remember (sound_setSpl (s := s)
      (x := { W.spl s with one := some (W.next, sl, (E.app v).sdramOf sl) }) ha ?_ ?_
      (ha.dev s) (ha.fresh s) (ha.inS s) (ha.outS s)) ?_ ?_
    · intro h0
      simp only [hg] at h0
      cases h0
    · intro y hy
      simp only [Option.some.injEq] at hy
      subst hy
      simp only [alloc_mv, alloc_next, if_true, true_and, and_true]
      refine ⟨Nat.lt_succ_self _, ?_⟩
      intro u hu
      rw [hg] at hu
      injection hu with hu
      subst hu
      exact ⟨rfl, hsl, rfl⟩
    · simp only [setSpl_next, alloc_next]
      exact Nat.lt_succ_self _
    · simp only [setSpl_mv, alloc_mv, if_true]

theorem sound_addIn {E : Env} (d : DevKind) {s v : Nat} (js : List (Nat × Nat)) : ∀ {W : World}, Sound E W →
    (W.spl s).governed = some v → (W.spl s).outV = none → Sound E (addIn E d s v W js).1 ∧
      ((addIn E d s v W js).1.spl s).governed = some v ∧ ((addIn E d s v W js).1.spl s).outV = none := by
  induction js with
  | nil => intro W h hg ho; exact ⟨h, hg, ho⟩
  | cons j js ih =>
    intro W h hg ho
    unfold addIn
    split
    · exact ⟨h, hg, ho⟩
    · rename_i sl hsl
      dsimp only
      have ha := sound_alloc h ⟨sl, 0, v, 0, some (j.2, true)⟩
      refine ih (sound_setSpl ha ?_ (ha.one s) ?_ ?_ ?_ (ha.outS s)) ?_ ?_
      · intro h0
        simp only [hg] at h0
        cases h0
      · intro m hm
        simp only [ho, Option.toList_none, List.append_nil] at hm
        rcases List.mem_append.1 hm with hm | hm
        · exact ha.dev s m (List.mem_append_left _ hm)
        · rw [List.mem_singleton.1 hm]
          simp only [alloc_mv, alloc_next, if_true, and_true]
          refine ⟨Nat.lt_succ_self _, ?_⟩
          intro u hu
          rw [hg] at hu
          injection hu
      · simp only [ho, Option.toList_none, List.append_nil]
        have hf := h.fresh s
        rw [ho, Option.toList_none, List.append_nil] at hf
        rw [List.nodup_append]
        refine ⟨hf, by simp, ?_⟩
        intro a ha' b hb hab
        rw [List.mem_singleton.1 hb] at hab
        have := (h.dev s a (List.mem_append_left _ ha')).1
        rw [hab] at this
        exact Nat.lt_irrefl _ this
      · rw [List.map_append]
        have := ha.inS s
        rw [alloc_spl] at this
        rw [this]
        simp
      · simp only [setSpl_spl, if_true]
        exact hg
      · simp only [setSpl_spl, if_true]
        exact ho

theorem sound_addOut {E : Env} (d : DevKind) {s v : Nat} {W : World} (h : Sound E W)
    (hg : (W.spl s).governed = some v) (ho : (W.spl s).outV = none) : Sound E (addOut E d s v W).1 := by
  unfold addOut
  split
  · exact h
  · rename_i l hl
    split
    · exact h
    · rename_i sl hsl
      have ha := sound_alloc h ⟨sl, 0, v, 0, some (l, false)⟩
      refine sound_setSpl ha ?_ (ha.one s) ?_ ?_ (ha.inS s) ?_
      · intro h0
        simp only [hg] at h0
        cases h0
      · intro m hm
        rcases List.mem_append.1 hm with hm | hm
        · exact ha.dev s m (List.mem_append_left _ hm)
        · simp only [Option.toList_some, List.mem_singleton] at hm
          rw [hm]
          simp only [alloc_mv, alloc_next, if_true, and_true]
          refine ⟨Nat.lt_succ_self _, ?_⟩
          intro u hu
          rw [hg] at hu
          injection hu
      · have hf := h.fresh s
        rw [ho, Option.toList_none, List.append_nil] at hf
        rw [List.nodup_append]
        refine ⟨hf, by simp, ?_⟩
        intro a ha' b hb hab
        simp only [Option.toList_some, List.mem_singleton] at hb
        rw [hb] at hab
        have := (h.dev s a (List.mem_append_left _ ha')).1
        rw [hab] at this
        exact Nat.lt_irrefl _ this
      · simp

theorem sound_makeDevice {E : Env} {W : World} (h : Sound E W) {s v : Nat} (hg : (W.spl s).governed = some v) :
    Sound E (makeDevice E W s v).1 := by
  unfold makeDevice
  have h0 : Sound E (W.setSpl s { W.spl s with inV := [], inS := [], outV := none, outS := none }) := by
    refine sound_setSpl h ?_ (h.one s) ?_ ?_ rfl rfl
    · intro h0
      simp only [hg] at h0
      cases h0
    · intro m hm
      cases hm
    · exact List.nodup_nil
  dsimp only
  split
  · exact h0
  · rename_i d hd
    obtain ⟨h1, h2, h3⟩ := sound_addIn d d.jobs (s := s) (v := v) h0 (by simpa using hg) (by simp)
    split
    · rename_i hx
      rw [hx] at h1
      exact h1
    · rename_i hx
      rw [hx] at h1 h2 h3
      exact sound_addOut d h1 h2 h3

theorem sound_finish {E : Env} {W : World} (h : Sound E W) {s v : Nat} (hg : (W.spl s).governed = some v) :
    Sound E (finish E W s v).1 := by
  unfold finish
  split
  · exact sound_makeOne h hg
  · exact sound_makeDevice h hg
  · exact h

theorem sound_setSplitter {E : Env} {W : World} (h : Sound E W) (v s : Nat) : Sound E (setSplitter E W v s).1 := by
  unfold setSplitter
  cases hs : (W.app v).splitter with
  | some t =>
    by_cases ht : t = s
    · subst ht
      rw [setSplitterN_same hs]
      exact h
    · rw [setSplitterN_other hs ht]
      exact h
  | none =>
    rw [setSplitterN_none hs]
    split
    · cases hg : (W.spl s).governed with
      | some u =>
        simp only
        split
        · rename_i hu
          subst hu
          exact sound_finish (sound_tie h u s) hg
        · exact sound_tie h v s
      | none =>
        exact sound_finish (sound_rule (sound_tie h v s) hg v) (by simp)
    · exact sound_tie h v s

theorem sound_setGoverned {E : Env} {W : World} (h : Sound E W) (s v : Nat) : Sound E (setGoverned E W s v).1 := by
  rw [setGoverned_eq]
  split
  · cases hg : (W.spl s).governed with
    | some u =>
      simp only
      split
      · rename_i hu
        subst hu
        exact sound_finish h hg
      · exact h
    | none =>
      simp only
      have hr := sound_rule h hg v
      cases hs : (W.app v).splitter with
      | some t =>
        simp only
        split
        · exact sound_finish hr (by simp)
        · exact hr
      | none =>
        simp only
        have hb : (((W.rule s v).tie v s).spl s).governed = some v := by simp
        have hf := sound_finish (sound_tie hr v s) hb
        have hk := (keeps_finish E ((W.rule s v).tie v s) s v).2 s
        split
        · rename_i hx
          rw [hx] at hf
          exact hf
        · rename_i hx
          rw [hx] at hf hk
          exact sound_finish hf (by rw [hk]; exact hb)
  · exact h

theorem sound_resetSplitter {E : Env} {W : World} (h : Sound E W) (v : Nat) : Sound E (resetSplitter E W v) := by
  unfold resetSplitter resetCalled
  split
  · exact h
  · split
    · exact sound_slices h _ _
    · exact h

theorem sound_reset {E : Env} {W : World} (h : Sound E W) (v : Nat) : Sound E (reset E W v) := by
  unfold reset
  split
  · exact sound_resetSplitter h v
  · rename_i hv
    exact sound_resetSplitter (sound_clear h hv) v

theorem sound_foldl {E : Env} {f : World → Nat → World} (hf : ∀ W v, Sound E W → Sound E (f W v)) (vs : List Nat) :
    ∀ W, Sound E W → Sound E (vs.foldl f W) := by
  induction vs with
  | nil => intro W h; exact h
  | cons v vs ih => intro W h; exact ih _ (hf W v h)

theorem sound_fixedSlices {E : Env} {W : World} (h : Sound E W) (s : Nat) : Sound E (fixedSlices E W s).1 := by
  unfold fixedSlices
  split
  · exact h
  · split
    · exact h
    · split
      · exact h
      · exact sound_slices h _ _

theorem sound_fixedLoop {E : Env} (v : Nat) (ss : List Slice) :
    ∀ W c, Sound E W → Sound E (fixedLoop E v W c ss).1.1 := by
  induction ss with
  | nil => intro W c h; exact h
  | cons sl ss ih =>
    intro W c h
    unfold fixedLoop
    have hr := sound_remember (sound_alloc h ⟨sl, (E.app v).sdramOf sl, v, 0, none⟩) (v := v) (m := W.next)
      (by simp) (by simp)
    dsimp only
    split
    · rename_i hx
      rw [hx] at hr
      exact hr
    · rename_i hx
      rw [hx] at hr
      exact ih _ _ hr

theorem sound_deviceLoop {E : Env} (v : Nat) (ms : List Nat) :
    ∀ W c, Sound E W → (∀ m ∈ ms, m < W.next ∧ (W.mv m).app = v) → Sound E (deviceLoop E v W c ms).1.1 := by
  induction ms with
  | nil => intro W c h _; exact h
  | cons m ms ih =>
    intro W c h hm
    unfold deviceLoop
    have h1 := hm m List.mem_cons_self
    have hr := sound_remember h h1.1 h1.2
    have hx' := ext_remember E W v m
    have hn := remember_next E W v m
    split
    · rename_i hx
      rw [hx] at hr
      exact hr
    · rename_i hx
      rw [hx] at hr hx' hn
      refine ih _ _ hr ?_
      intro k hk
      have h2 := hm k (List.mem_cons_of_mem _ hk)
      refine ⟨?_, ?_⟩
      · rw [hn]; exact h2.1
      · rw [hx'.app h2.1]; exact h2.2

theorem sound_create {E : Env} {W : World} (h : Sound E W) (c : Counter) (s : Nat) :
    Sound E (create E W c s).1.1 := by
  unfold create
  split
  · split
    · exact h
    · have hf := sound_fixedSlices h s
      split
      · rename_i hx
        rw [hx] at hf
        exact hf
      · rename_i hx
        rw [hx] at hf
        exact sound_fixedLoop _ _ _ _ hf
  · split <;> exact h
  · split
    · exact h
    · split <;> exact h
  · split
    · exact h
    · rename_i v hg
      refine sound_deviceLoop v _ W c h ?_
      intro m hm
      obtain ⟨h1, h2, _⟩ := h.dev s m hm
      exact ⟨h1, h2 v hg⟩

theorem sound_partitionLoop {E : Env} (vs : List Nat) :
    ∀ W c, Sound E W → Sound E (partitionLoop E W c vs).1.1 := by
  induction vs with
  | nil => intro W c h; exact h
  | cons v vs ih =>
    intro W c h
    unfold partitionLoop
    split
    · exact h
    · rename_i s hs
      have hc := sound_create h c s
      split
      · rename_i hx
        rw [hx] at hc
        exact hc
      · rename_i hx
        rw [hx] at hc
        exact ih _ _ hc

theorem sound_outSlices {E : Env} {W : World} (h : Sound E W) (s : Nat) : Sound E (outSlices E W s).1 := by
  unfold outSlices
  split
  · exact sound_fixedSlices h s
  · split <;> exact h
  · exact h
  · exact h

theorem sound_inSlices {E : Env} {W : World} (h : Sound E W) (s : Nat) : Sound E (inSlices E W s).1 := by
  unfold inSlices
  split
  · exact h
  · exact sound_outSlices h s

theorem sound_step {E : Env} {W : World} (h : Sound E W) (o : Op) : Sound E (step E W o).1 := by
  cases o with
  | setSplitter v s => exact sound_setSplitter h v s
  | setGoverned s v => exact sound_setGoverned h s v
  | reset v => exact sound_reset h v
  | splitterReset vs => exact sound_foldl (fun W v => fun h => sound_resetSplitter h v) vs W h
  | setMax v m => exact sound_setApp h rfl
  | outSlices s => exact sound_outSlices h s
  | inSlices s => exact sound_inSlices h s
  | partition vs =>
    change Sound E (partition E W 1 1 vs).1
    rw [partition_world]
    exact sound_partitionLoop vs W _ h

theorem sound_run {E : Env} (os : List Op) : ∀ {W : World}, Sound E W → Sound E (run E W os) := by
  induction os with
  | nil => intro W h; exact h
  | cons o os ih => intro W h; exact ih (sound_step h o)

theorem sound_new {E : Env} {mp : Nat → Option (List Nat)} {mv : Nat → MV} {next : Nat} (h : Built E mv next) :
    Sound E (World.new E mp mv next) := by
  refine ⟨?_, ?_, ?_, ?_, fun _ _ => ⟨rfl, rfl, rfl⟩, ?_, ?_, ?_, fun _ => rfl, fun _ => rfl⟩
  · intro v m hm
    simp only [World.new, Option.mem_toList] at hm
    exact h.old v m hm
  · intro v m hm
    simp only [World.new, Option.mem_toList] at hm
    exact h.app v m hm
  · intro v
    simp only [World.new]
    cases (E.app v).single <;> simp
  · intro v m hm
    simp only [World.new, hm, Option.toList_some]
  · intro s x hx
    simp [World.new, SState.new] at hx
  · intro s m hm
    simp [World.new, SState.new] at hm
  · intro s
    simp [World.new, SState.new]

theorem linked_new (E : Env) (mp : Nat → Option (List Nat)) (mv : Nat → MV) (next : Nat) :
    Linked (World.new E mp mv next) := by
  intro v s
  simp [World.new, SState.new]

end Pacman.Split
