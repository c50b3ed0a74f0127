import Verif.Proofs.SplitterState
/-
Lemmas on splitters: links between vertices and splitters, and what the partitioner does for each vertex.
-/

namespace Pacman.Split

open Slices (Slice mkSlice multiSlices checkAtoms)
open Counter (Counter)

/-! ### Links -/

theorem linked_both {W : World} (h : Linked W) {v s : Nat} (hv : (W.app v).splitter = none)
    (hs : (W.spl s).governed = none) : Linked ((W.tie v s).rule s v) := by
  intro u t
  have h1 : (((W.tie v s).rule s v).app u).splitter = if u = v then some s else (W.app u).splitter := by
    rw [← tie_splitter]; rfl
  rw [h1, rule_governed, tie_spl]
  by_cases hu : u = v
  · rw [if_pos hu]
    by_cases ht : t = s
    · rw [if_pos ht, hu, ht]; simp
    · rw [if_neg ht]
      constructor
      · intro h0; injection h0 with h0; exact absurd h0.symm ht
      · intro h0
        rw [hu] at h0
        rw [(h v t).2 h0] at hv
        cases hv
  · rw [if_neg hu]
    by_cases ht : t = s
    · rw [if_pos ht, ht]
      constructor
      · intro h0
        rw [(h u s).1 h0] at hs
        cases hs
      · intro h0; injection h0 with h0; exact absurd h0.symm hu
    · rw [if_neg ht]; exact h u t

theorem tie_rule (W : World) (v s : Nat) : (W.rule s v).tie v s = (W.tie v s).rule s v := rfl

theorem linked_setSplitter {E : Env} {W W' : World} {v s : Nat} (h : Linked W)
    (hs : setSplitter E W v s = (W', .ok ())) : Linked W' := by
  unfold setSplitter at hs
  cases hv : (W.app v).splitter with
  | some t =>
    by_cases ht : t = s
    · subst ht
      rw [setSplitterN_same hv] at hs
      injection hs with hs; subst hs; exact h
    · rw [setSplitterN_other hv ht] at hs
      injection hs with _ hs; cases hs
  | none =>
    rw [setSplitterN_none hv] at hs
    split at hs
    · cases hg : (W.spl s).governed with
      | some u =>
        rw [hg] at hs
        simp only at hs
        split at hs
        · rename_i hu
          subst hu
          rw [(h u s).2 hg] at hv
          cases hv
        · injection hs with _ hs; cases hs
      | none =>
        rw [hg] at hs
        simp only at hs
        have hk := keeps_finish E ((W.tie v s).rule s v) s v
        rw [hs] at hk
        exact hk.linked (linked_both h hv hg)
    · injection hs with _ hs; cases hs

theorem linked_setGoverned {E : Env} {W W' : World} {v s : Nat} (h : Linked W)
    (hs : setGoverned E W s v = (W', .ok ())) : Linked W' := by
  rw [setGoverned_eq] at hs
  split at hs
  · cases hg : (W.spl s).governed with
    | some u =>
      rw [hg] at hs
      simp only at hs
      split at hs
      · have hk := keeps_finish E W s v
        rw [hs] at hk
        exact hk.linked h
      · injection hs with _ hs; cases hs
    | none =>
      rw [hg] at hs
      simp only at hs
      cases hv : (W.app v).splitter with
      | some t =>
        rw [hv] at hs
        simp only at hs
        split at hs
        · rename_i ht
          subst ht
          rw [(h v t).1 hv] at hg
          cases hg
        · injection hs with _ hs; cases hs
      | none =>
        rw [hv] at hs
        simp only at hs
        have hk := keeps_finish E ((W.rule s v).tie v s) s v
        split at hs
        · injection hs with _ hs; cases hs
        · rename_i W1 hx
          rw [hx] at hk
          have hk2 := keeps_finish E W1 s v
          rw [hs] at hk2
          exact (hk.trans hk2).linked (linked_both h hv hg)
  · injection hs with _ hs; cases hs

theorem keeps_step (E : Env) (W : World) (o : Op)
    (h1 : ∀ v s, o ≠ .setSplitter v s) (h2 : ∀ s v, o ≠ .setGoverned s v) : Keeps W (step E W o).1 := by
  cases o with
  | setSplitter v s => exact absurd rfl (h1 v s)
  | setGoverned s v => exact absurd rfl (h2 s v)
  | reset v => exact keeps_reset E W v
  | splitterReset vs => exact keeps_foldl (keeps_resetSplitter E) vs W
  | setMax v m => exact keeps_setMax E W v m
  | outSlices s => exact keeps_outSlices E W s
  | inSlices s => exact keeps_inSlices E W s
  | partition vs => exact keeps_partition E W 1 1 vs

theorem linked_step {E : Env} {W W' : World} {o : Op} (h : Linked W) (hs : step E W o = (W', .ok ())) :
    Linked W' := by
  cases o with
  | setSplitter v s => exact linked_setSplitter h hs
  | setGoverned s v => exact linked_setGoverned h hs
  | reset v => have := keeps_step E W (.reset v) (by simp) (by simp); rw [hs] at this; exact this.linked h
  | splitterReset vs =>
    have := keeps_step E W (.splitterReset vs) (by simp) (by simp); rw [hs] at this; exact this.linked h
  | setMax v m => have := keeps_step E W (.setMax v m) (by simp) (by simp); rw [hs] at this; exact this.linked h
  | outSlices s => have := keeps_step E W (.outSlices s) (by simp) (by simp); rw [hs] at this; exact this.linked h
  | inSlices s => have := keeps_step E W (.inSlices s) (by simp) (by simp); rw [hs] at this; exact this.linked h
  | partition vs =>
    have := keeps_step E W (.partition vs) (by simp) (by simp); rw [hs] at this; exact this.linked h

theorem runOk_cons {E : Env} {W W' : World} {o : Op} {os : List Op} (h : runOk E W (o :: os) = some W') :
    ∃ W1, step E W o = (W1, .ok ()) ∧ runOk E W1 os = some W' := by
  unfold runOk at h
  split at h
  · rename_i W1 hx; exact ⟨W1, hx, h⟩
  · cases h

theorem runOk_run {E : Env} (os : List Op) : ∀ {W W' : World}, runOk E W os = some W' → run E W os = W' := by
  induction os with
  | nil => intro W W' h; injection h
  | cons o os ih =>
    intro W W' h
    obtain ⟨W1, h1, h2⟩ := runOk_cons h
    unfold run
    rw [h1]
    exact ih h2

theorem linked_runOk {E : Env} (os : List Op) :
    ∀ {W W' : World}, Linked W → runOk E W os = some W' → Linked W' := by
  induction os with
  | nil => intro W W' h hr; injection hr with hr; subst hr; exact h
  | cons o os ih =>
    intro W W' h hr
    obtain ⟨W1, h1, h2⟩ := runOk_cons hr
    exact ih (linked_step h h1) h2

theorem sound_runOk {E : Env} {os : List Op} {W W' : World} (h : Sound E W) (hr : runOk E W os = some W') :
    Sound E W' := by
  rw [← runOk_run os hr]
  exact sound_run os h

/-- Splitters and governed vertices, once set, stay. -/
def Grows (W W' : World) : Prop :=
  (∀ v s, (W.app v).splitter = some s → (W'.app v).splitter = some s) ∧
  (∀ s v, (W.spl s).governed = some v → (W'.spl s).governed = some v)

theorem Grows.refl (W : World) : Grows W W := ⟨fun _ _ h => h, fun _ _ h => h⟩

theorem Grows.trans {A B C : World} (h : Grows A B) (k : Grows B C) : Grows A C :=
  ⟨fun v s hv => k.1 v s (h.1 v s hv), fun s v hs => k.2 s v (h.2 s v hs)⟩

theorem Keeps.grows {W W' : World} (h : Keeps W W') : Grows W W' :=
  ⟨fun v _ hv => (h.1 v).trans hv, fun s _ hs => (h.2 s).trans hs⟩

theorem grows_tie {W : World} {v : Nat} (h : (W.app v).splitter = none) (s : Nat) : Grows W (W.tie v s) := by
  refine ⟨fun u t hu => ?_, fun _ _ h => h⟩
  rw [tie_splitter]
  split
  · rename_i huv; rw [huv, h] at hu; cases hu
  · exact hu

theorem grows_rule {W : World} {s : Nat} (h : (W.spl s).governed = none) (v : Nat) : Grows W (W.rule s v) := by
  refine ⟨fun _ _ h => h, fun t u ht => ?_⟩
  rw [rule_governed]
  split
  · rename_i hts; rw [hts, h] at ht; cases ht
  · exact ht

theorem grows_setSplitter (E : Env) (W : World) (v s : Nat) : Grows W (setSplitter E W v s).1 := by
  unfold setSplitter
  cases hv : (W.app v).splitter with
  | some t =>
    by_cases ht : t = s
    · subst ht
      rw [setSplitterN_same hv]
      exact .refl W
    · rw [setSplitterN_other hv ht]
      exact .refl W
  | none =>
    rw [setSplitterN_none hv]
    split
    · cases hg : (W.spl s).governed with
      | some u =>
        simp only
        split
        · exact (grows_tie hv s).trans (keeps_finish E _ s v).grows
        · exact grows_tie hv s
      | none =>
        exact ((grows_tie hv s).trans (grows_rule (W := W.tie v s) hg v)).trans (keeps_finish E _ s v).grows
    · exact grows_tie hv s

theorem grows_setGoverned (E : Env) (W : World) (s v : Nat) : Grows W (setGoverned E W s v).1 := by
  rw [setGoverned_eq]
  split
  · cases hg : (W.spl s).governed with
    | some u =>
      simp only
      split
      · exact (keeps_finish E _ s v).grows
      · exact .refl W
    | none =>
      simp only
      cases hv : (W.app v).splitter with
      | some t =>
        simp only
        split
        · exact (grows_rule hg v).trans (keeps_finish E _ s v).grows
        · exact grows_rule hg v
      | none =>
        simp only
        have h1 : Grows W ((W.rule s v).tie v s) := (grows_rule hg v).trans (grows_tie (W := W.rule s v) hv s)
        have h2 := (keeps_finish E ((W.rule s v).tie v s) s v).grows
        split
        · rename_i hx
          rw [hx] at h2
          exact h1.trans h2
        · rename_i hx
          rw [hx] at h2
          exact (h1.trans h2).trans (keeps_finish E _ s v).grows
  · exact .refl W

theorem grows_step (E : Env) (W : World) (o : Op) : Grows W (step E W o).1 := by
  cases o with
  | setSplitter v s => exact grows_setSplitter E W v s
  | setGoverned s v => exact grows_setGoverned E W s v
  | reset v => exact (keeps_step E W (.reset v) (by simp) (by simp)).grows
  | splitterReset vs => exact (keeps_step E W (.splitterReset vs) (by simp) (by simp)).grows
  | setMax v m => exact (keeps_step E W (.setMax v m) (by simp) (by simp)).grows
  | outSlices s => exact (keeps_step E W (.outSlices s) (by simp) (by simp)).grows
  | inSlices s => exact (keeps_step E W (.inSlices s) (by simp) (by simp)).grows
  | partition vs => exact (keeps_step E W (.partition vs) (by simp) (by simp)).grows

theorem grows_run (E : Env) (os : List Op) : ∀ W, Grows W (run E W os) := by
  induction os with
  | nil => intro W; exact .refl W
  | cons o os ih => intro W; exact (grows_step E W o).trans (ih _)

/-! ### One vertex at a time -/

/-- Nothing of a vertex and of a splitter is changed, nor of machine vertices that exist. -/
structure Off (W W' : World) (v s : Nat) : Prop where
  app : W'.app v = W.app v
  spl : W'.spl s = W.spl s
  ext : Ext W W'

theorem Off.refl (W : World) (v s : Nat) : Off W W v s := ⟨rfl, rfl, .refl W⟩

theorem Off.trans {A B C : World} {v s : Nat} (h : Off A B v s) (k : Off B C v s) : Off A C v s :=
  ⟨k.app.trans h.app, k.spl.trans h.spl, h.ext.trans k.ext⟩

theorem remember_app {E : Env} {W : World} {u v m : Nat} (h : v ≠ u) : (remember E W u m).1.app v = W.app v := by
  unfold remember
  split
  · split <;> rfl
  · simp only [setApp_app, setMv_app, if_neg h]

theorem off_remember {E : Env} {W : World} {u v m s : Nat} (h : v ≠ u) : Off W (remember E W u m).1 v s :=
  ⟨remember_app h, by rw [remember_spl], ext_remember E W u m⟩

theorem off_alloc (W : World) (x : MV) (v s : Nat) : Off W (W.alloc x) v s := ⟨rfl, rfl, ext_alloc W x⟩

theorem off_fixedLoop {E : Env} {u v s : Nat} (h : v ≠ u) (ss : List Slice) :
    ∀ W c, Off W (fixedLoop E u W c ss).1.1 v s := by
  induction ss with
  | nil => intro W c; exact .refl W v s
  | cons sl ss ih =>
    intro W c
    unfold fixedLoop
    dsimp only
    have h1 := (off_alloc W ⟨sl, (E.app u).sdramOf sl, u, 0, none⟩ v s).trans
      (off_remember (E := E) (u := u) (m := W.next) (s := s) h)
    split
    · rename_i hx; rw [hx] at h1; exact h1
    · rename_i hx; rw [hx] at h1; exact h1.trans (ih _ _)

theorem off_deviceLoop {E : Env} {u v s : Nat} (h : v ≠ u) (ms : List Nat) :
    ∀ W c, Off W (deviceLoop E u W c ms).1.1 v s := by
  induction ms with
  | nil => intro W c; exact .refl W v s
  | cons m ms ih =>
    intro W c
    unfold deviceLoop
    have h1 := off_remember (E := E) (W := W) (m := m) (s := s) h
    split
    · rename_i hx; rw [hx] at h1; exact h1
    · rename_i hx; rw [hx] at h1; exact h1.trans (ih _ _)

theorem off_fixedSlices {E : Env} {W : World} {t v s : Nat} (h : s ≠ t) : Off W (fixedSlices E W t).1 v s := by
  unfold fixedSlices
  split
  · exact .refl W v s
  · split
    · exact .refl W v s
    · split
      · exact .refl W v s
      · exact ⟨rfl, by simp only [setSpl_spl, if_neg h], .refl W⟩

theorem off_create {E : Env} {W : World} {c : Counter} {t u v s : Nat} (hg : (W.spl t).governed = some u)
    (hv : v ≠ u) (hs : s ≠ t) : Off W (create E W c t).1.1 v s := by
  unfold create
  split
  · rw [hg]
    simp only
    have h1 := off_fixedSlices (E := E) (W := W) (v := v) hs
    split
    · rename_i hx; rw [hx] at h1; exact h1
    · rename_i hx; rw [hx] at h1; exact h1.trans (off_fixedLoop hv _ _ _)
  · split <;> exact .refl W v s
  · rw [hg]
    simp only
    split <;> exact .refl W v s
  · rw [hg]
    exact off_deviceLoop hv _ _ _

theorem off_partitionLoop {E : Env} {v s : Nat} (vs : List Nat) : ∀ W c, Linked W → (W.app v).splitter = some s →
    v ∉ vs → Off W (partitionLoop E W c vs).1.1 v s := by
  induction vs with
  | nil => intro W c _ _ _; exact .refl W v s
  | cons u us ih =>
    intro W c hl hs hv
    unfold partitionLoop
    split
    · exact .refl W v s
    · rename_i t ht
      have hvu : v ≠ u := fun h0 => hv (by rw [h0]; exact List.mem_cons_self)
      have hst : s ≠ t := by
        intro h0
        rw [← h0] at ht
        have h1 := (hl u s).1 ht
        rw [(hl v s).1 hs] at h1
        injection h1 with h1
        exact hvu h1
      have h1 := off_create (E := E) (c := c) ((hl u t).1 ht) hvu hst
      have h2 := keeps_create E W c t
      split
      · rename_i hx; rw [hx] at h1; exact h1
      · rename_i hx
        rw [hx] at h1 h2
        exact h1.trans (ih _ _ (h2.linked hl) ((h2.1 v).trans hs) (fun h0 => hv (List.mem_cons_of_mem _ h0)))

/-- The call of `create_machine_vertices` for one vertex. -/
theorem partitionLoop_at {E : Env} {v s : Nat} (vs : List Nat) : ∀ {W W' : World} {c c' : Counter},
    partitionLoop E W c vs = ((W', c'), .ok ()) → vs.Nodup → Linked W → Sound E W → v ∈ vs →
    (W.app v).splitter = some s →
    ∃ W0 c0 W1 c1, Off W W0 v s ∧ Sound E W0 ∧ Linked W0 ∧ create E W0 c0 s = ((W1, c1), .ok ()) ∧ Sound E W1 ∧
      Linked W1 ∧ Off W1 W' v s := by
  induction vs with
  | nil => intro W W' c c' _ _ _ _ hv; cases hv
  | cons u us ih =>
    intro W W' c c' h hn hl hW hv hs
    unfold partitionLoop at h
    split at h
    · injection h with _ h; cases h
    · rename_i t ht
      split at h
      · injection h with _ h; cases h
      · rename_i W1 c1 hx
        have hk := keeps_create E W c t
        have hS := sound_create hW c t
        rw [hx] at hk hS
        have hl1 := hk.linked hl
        rw [List.nodup_cons] at hn
        by_cases hvu : v = u
        · subst hvu
          rw [hs] at ht
          injection ht with ht
          subst ht
          refine ⟨W, c, W1, c1, .refl W v s, hW, hl, hx, hS, hl1, ?_⟩
          have := off_partitionLoop (E := E) us W1 c1 hl1 ((hk.1 v).trans hs) hn.1
          rw [h] at this
          exact this
        · have hst : s ≠ t := by
            intro h0
            rw [← h0] at ht
            have h1 := (hl u s).1 ht
            rw [(hl v s).1 hs] at h1
            injection h1 with h1
            exact hvu h1
          have h1 := off_create (E := E) (c := c) ((hl u t).1 ht) hvu hst
          rw [hx] at h1
          have hvs : v ∈ us := by
            rcases List.mem_cons.1 hv with h0 | h0
            · exact absurd h0 hvu
            · exact h0
          obtain ⟨W0, c0, W2, c2, ho, r⟩ := ih h hn.2 hl1 hS hvs ((hk.1 v).trans hs)
          exact ⟨W0, c0, W2, c2, h1.trans ho, r⟩

/-! ### The loops -/

theorem remember_ok {E : Env} {W W' : World} {v m : Nat} (h : remember E W v m = (W', .ok ())) :
    (∃ m0, (E.app v).single = some m0 ∧ m = m0 ∧ W' = W) ∨
    ((E.app v).single = none ∧ (W'.app v).machines =
      if m ∈ (W.app v).machines then (W.app v).machines else (W.app v).machines ++ [m]) := by
  cases hv : (E.app v).single with
  | some m0 =>
    unfold remember at h
    rw [hv] at h
    simp only at h
    split at h
    · rename_i hm
      injection h with h
      exact Or.inl ⟨m0, rfl, hm, h.symm⟩
    · injection h with _ h; cases h
  | none =>
    refine Or.inr ⟨rfl, ?_⟩
    have := remember_machines (E := E) (W := W) (v := v) (m := m) hv v
    rw [h, if_pos rfl] at this
    exact this

/-- A vertex that is not an `AbstractOneAppOneMachineVertex` gets a new machine vertex for each slice. -/
theorem fixedLoop_ok {E : Env} {v : Nat} (hv : (E.app v).single = none) (ss : List Slice) :
    ∀ {W : World} {c : Counter}, Sound E W → ∃ W', fixedLoop E v W c ss =
        ((W', c.addAll (ss.map (E.app v).sdramOf)), .ok ()) ∧
      ∃ ms, (W'.app v).machines = (W.app v).machines ++ ms ∧ (∀ m ∈ ms, W.next ≤ m) ∧
        ms.map (fun m => (W'.mv m).slice) = ss ∧ ms.map (fun m => (W'.mv m).sdram) = ss.map (E.app v).sdramOf := by
  induction ss with
  | nil => intro W c _; exact ⟨W, rfl, [], by simp, by simp, rfl, rfl⟩
  | cons sl ss ih =>
    intro W c h
    unfold fixedLoop
    dsimp only
    have ha := sound_alloc h ⟨sl, (E.app v).sdramOf sl, v, 0, none⟩
    have hr := sound_remember ha (v := v) (m := W.next) (by simp) (by simp)
    have hmach := remember_machines (E := E) (W := W.alloc ⟨sl, (E.app v).sdramOf sl, v, 0, none⟩) (m := W.next) hv v
    have hxt := ext_remember E (W.alloc ⟨sl, (E.app v).sdramOf sl, v, 0, none⟩) v W.next
    have hnx := remember_next E (W.alloc ⟨sl, (E.app v).sdramOf sl, v, 0, none⟩) v W.next
    rw [if_pos rfl, alloc_app,
      if_neg (fun h0 => Nat.lt_irrefl _ (h.bound v _ h0))] at hmach
    cases hx : remember E (W.alloc ⟨sl, (E.app v).sdramOf sl, v, 0, none⟩) v W.next with
    | mk W1 r =>
      rw [hx] at hr hmach hxt hnx
      cases r with
      | error e =>
        unfold remember at hx
        rw [hv] at hx
        injection hx with _ hx
        cases hx
      | ok u =>
        simp only at hr hmach hxt hnx ⊢
        obtain ⟨W', h1, ms, h2, h3, h4, h5⟩ := ih (c := c.add ((E.app v).sdramOf sl)) hr
        have hx2 : Ext W1 W' := by
          have hk : ∀ (ss : List Slice) (W : World) (c : Counter), Ext W (fixedLoop E v W c ss).1.1 :=
            fun ss W c => (off_fixedLoop (E := E) (u := v) (v := v + 1) (s := 0) (by omega) ss W c).ext
          have := hk ss W1 (c.add ((E.app v).sdramOf sl))
          rw [h1] at this
          exact this
        have hn1 : W.next < W1.next := by rw [hnx]; simp
        have hn0 : W.next < (W.alloc ⟨sl, (E.app v).sdramOf sl, v, 0, none⟩).next := by simp
        refine ⟨W', h1, W.next :: ms, ?_, ?_, ?_, ?_⟩
        · rw [h2, hmach, List.append_assoc]; rfl
        · intro m hm
          rcases List.mem_cons.1 hm with hm | hm
          · rw [hm]; exact Nat.le_refl _
          · exact Nat.le_trans (Nat.le_of_lt hn1) (h3 m hm)
        · rw [List.map_cons, h4, hx2.slice hn1, hxt.slice hn0]
          simp
        · rw [List.map_cons, h5, hx2.sdram hn1, hxt.sdram hn0]
          simp

/-- The machine vertices of a device are remembered. -/
theorem deviceLoop_ok {E : Env} {v : Nat} (ms : List Nat) : ∀ {W W' : World} {c c' : Counter},
    deviceLoop E v W c ms = ((W', c'), .ok ()) → Sound E W → (∀ m ∈ ms, m < W.next ∧ (W.mv m).app = v) →
    (∀ m ∈ ms, m ∈ (W'.app v).machines) ∧ (∀ m ∈ (W.app v).machines, m ∈ (W'.app v).machines) ∧
    c' = c.addAll (ms.map (fun m => (W.mv m).sdram)) ∧
    ((E.app v).single = none → ms.Nodup → (∀ m ∈ ms, m ∉ (W.app v).machines) →
      (W'.app v).machines = (W.app v).machines ++ ms) := by
  induction ms with
  | nil =>
    intro W W' c c' h hW _
    unfold deviceLoop at h
    injection h with h _
    injection h with h1 h2
    subst h1; subst h2
    exact ⟨by simp, fun m hm => hm, rfl, fun _ _ _ => by simp⟩
  | cons m ms ih =>
    intro W W' c c' h hW hms
    unfold deviceLoop at h
    split at h
    · injection h with _ h; cases h
    · rename_i W1 hx
      have h1 := hms m List.mem_cons_self
      have hr := sound_remember hW h1.1 h1.2
      have hxt := ext_remember E W v m
      have hnx := remember_next E W v m
      have hok := remember_ok hx
      rw [hx] at hr hxt hnx
      simp only at hr hxt hnx
      have hin : m ∈ (W1.app v).machines ∧ ∀ k ∈ (W.app v).machines, k ∈ (W1.app v).machines := by
        rcases hok with ⟨m0, ha, hb, hc⟩ | ⟨ha, hb⟩
        · subst hc
          rw [hW.sing v m0 ha, hb]
          exact ⟨by simp, fun k hk => hk⟩
        · rw [hb]
          split
          · rename_i hmem; exact ⟨hmem, fun k hk => hk⟩
          · exact ⟨by simp, fun k hk => List.mem_append_left _ hk⟩
      obtain ⟨q1, q2, q3, q4⟩ := ih h hr (fun k hk => by
        have h2 := hms k (List.mem_cons_of_mem _ hk)
        exact ⟨by rw [hnx]; exact h2.1, by rw [hxt.app h2.1]; exact h2.2⟩)
      refine ⟨?_, fun k hk => q2 k (hin.2 k hk), ?_, ?_⟩
      · intro k hk
        rcases List.mem_cons.1 hk with hk | hk
        · rw [hk]; exact q2 m hin.1
        · exact q1 k hk
      · rw [q3]
        have : ms.map (fun m => (W1.mv m).sdram) = ms.map (fun m => (W.mv m).sdram) :=
          List.map_congr_left (fun k hk => hxt.sdram (hms k (List.mem_cons_of_mem _ hk)).1)
        rw [this]
        rfl
      · intro hs hn hd
        rw [List.nodup_cons] at hn
        have hm1 : (W1.app v).machines = (W.app v).machines ++ [m] := by
          rcases hok with ⟨m0, ha, _, _⟩ | ⟨_, hb⟩
          · rw [hs] at ha; cases ha
          · rw [hb, if_neg (hd m List.mem_cons_self)]
        rw [q4 hs hn.2 ?_, hm1, List.append_assoc]
        · rfl
        · intro k hk
          rw [hm1, List.mem_append, List.mem_singleton]
          rintro (h0 | h0)
          · exact hd k (List.mem_cons_of_mem _ hk) h0
          · rw [h0] at hk; exact hn.1 hk

/-! ### Resets -/

theorem resetSplitter_app (E : Env) (W : World) (v : Nat) : (resetSplitter E W v).app = W.app := by
  unfold resetSplitter resetCalled
  split
  · rfl
  · split <;> rfl

theorem resetSplitter_mv (E : Env) (W : World) (v : Nat) :
    (resetSplitter E W v).mv = W.mv ∧ (resetSplitter E W v).next = W.next := by
  unfold resetSplitter resetCalled
  split
  · exact ⟨rfl, rfl⟩
  · split <;> exact ⟨rfl, rfl⟩

theorem reset_app (E : Env) (W : World) (v u : Nat) : (reset E W v).app u =
    if u = v ∧ (E.app v).single = none then { W.app v with machines := [] } else W.app u := by
  unfold reset
  cases hv : (E.app v).single with
  | some m => simp [resetSplitter_app]
  | none =>
    simp only [resetSplitter_app, setApp_app, and_true]

theorem reset_mv (E : Env) (W : World) (v : Nat) : (reset E W v).mv = W.mv ∧ (reset E W v).next = W.next := by
  unfold reset
  split
  · exact resetSplitter_mv E W v
  · have := resetSplitter_mv E (W.setApp v { W.app v with machines := [] }) v
    exact this

/-- A splitter keeps everything but the slices. -/
theorem reset_spl (E : Env) (W : World) (v t : Nat) : (reset E W v).spl t =
    if (W.app v).splitter = some t ∧ E.kind t = .fixed then { W.spl t with slices := none } else W.spl t := by
  have main : ∀ W1 : World, (W1.app v).splitter = (W.app v).splitter → W1.spl = W.spl →
      (resetSplitter E W1 v).spl t =
        if (W.app v).splitter = some t ∧ E.kind t = .fixed then { W.spl t with slices := none } else W.spl t := by
    intro W1 h1 h2
    unfold resetSplitter resetCalled
    rw [h1]
    cases hs : (W.app v).splitter with
    | none => simp [h2]
    | some s =>
      simp only [Option.some.injEq]
      by_cases hst : s = t
      · subst hst
        cases hk : E.kind s <;> simp [h2]
      · rw [if_neg (fun h => hst h.1)]
        split
        · simp only [setSpl_spl, h2]
          rw [if_neg (fun h => hst h.symm)]
        · rw [h2]
  unfold reset
  split
  · exact main W rfl rfl
  · exact main _ (by simp) rfl

theorem resetGraph_app (E : Env) (vs : List Nat) (u : Nat) : ∀ W, (resetGraph E W vs).app u =
    if u ∈ vs ∧ (E.app u).single = none then { W.app u with machines := [] } else W.app u := by
  induction vs with
  | nil => intro W; simp [resetGraph]
  | cons v vs ih =>
    intro W
    change (resetGraph E (reset E W v) vs).app u = _
    rw [ih, reset_app]
    by_cases hu : (E.app u).single = none
    · by_cases huv : u = v
      · subst huv; simp [hu]
      · simp [huv, hu]
    · have : ¬ (u = v ∧ (E.app v).single = none) := by
        rintro ⟨h1, h2⟩; rw [h1] at hu; exact hu h2
      rw [if_neg this]
      simp [hu]

theorem resetGraph_mv (E : Env) (vs : List Nat) : ∀ W, (resetGraph E W vs).mv = W.mv ∧
    (resetGraph E W vs).next = W.next := by
  induction vs with
  | nil => intro W; exact ⟨rfl, rfl⟩
  | cons v vs ih =>
    intro W
    have h1 := ih (reset E W v)
    have h2 := reset_mv E W v
    exact ⟨h1.1.trans h2.1, h1.2.trans h2.2⟩

theorem resetGraph_spl (E : Env) (vs : List Nat) (t : Nat) : ∀ W,
    ∃ x, (resetGraph E W vs).spl t = { W.spl t with slices := x } := by
  induction vs with
  | nil => intro W; exact ⟨(W.spl t).slices, rfl⟩
  | cons v vs ih =>
    intro W
    obtain ⟨x, hx⟩ := ih (reset E W v)
    refine ⟨x, ?_⟩
    change (resetGraph E (reset E W v) vs).spl t = _
    rw [hx, reset_spl]
    split <;> rfl

theorem resetGraph_slices (E : Env) {v s : Nat} (hk : E.kind s = .fixed) (vs : List Nat) : ∀ W, v ∈ vs →
    (W.app v).splitter = some s → ((resetGraph E W vs).spl s).slices = none := by
  have keep : ∀ (vs : List Nat) (W : World), (W.spl s).slices = none →
      ((resetGraph E W vs).spl s).slices = none := by
    intro vs
    induction vs with
    | nil => intro W h; exact h
    | cons u us ih =>
      intro W h
      refine ih (reset E W u) ?_
      rw [reset_spl]
      split
      · rfl
      · exact h
  induction vs with
  | nil => intro W hv; cases hv
  | cons u us ih =>
    intro W hv hs
    by_cases huv : v = u
    · refine keep us (reset E W u) ?_
      rw [reset_spl, ← huv, if_pos ⟨hs, hk⟩]
    · rcases List.mem_cons.1 hv with h0 | h0
      · exact absurd h0 huv
      · exact ih (reset E W u) h0 (((keeps_reset E W u).1 v).trans hs)

theorem keeps_resetGraph (E : Env) (W : World) (vs : List Nat) : Keeps W (resetGraph E W vs) :=
  keeps_foldl (keeps_reset E) vs W

theorem sound_resetGraph {E : Env} {W : World} (h : Sound E W) (vs : List Nat) : Sound E (resetGraph E W vs) :=
  sound_foldl (fun _ v h => sound_reset h v) vs W h

end Pacman.Split
