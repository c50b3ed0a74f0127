import Verif.Proofs.SplitterPartition
/-
Lemmas on splitters: which machine vertices application vertices know, and their indices.
-/

namespace Pacman.Split

open Slices (Slice mkSlice multiSlices checkAtoms)
open Counter (Counter)

/-- No machine vertex is forgotten; splitters keep everything but their slices. -/
structure Mono (W W' : World) : Prop where
  app : ∀ v m, m ∈ (W.app v).machines → m ∈ (W'.app v).machines
  spl : ∀ s, ∃ x, W'.spl s = { W.spl s with slices := x }

theorem Mono.refl (W : World) : Mono W W := ⟨fun _ _ h => h, fun s => ⟨(W.spl s).slices, rfl⟩⟩

theorem Mono.trans {A B C : World} (h : Mono A B) (k : Mono B C) : Mono A C := by
  refine ⟨fun v m hm => k.app v m (h.app v m hm), fun s => ?_⟩
  obtain ⟨x, hx⟩ := h.spl s
  obtain ⟨y, hy⟩ := k.spl s
  exact ⟨y, by rw [hy, hx]⟩

theorem Mono.governed {W W' : World} (h : Mono W W') (s : Nat) : (W'.spl s).governed = (W.spl s).governed := by
  obtain ⟨x, hx⟩ := h.spl s; rw [hx]

theorem Mono.one {W W' : World} (h : Mono W W') (s : Nat) : (W'.spl s).one = (W.spl s).one := by
  obtain ⟨x, hx⟩ := h.spl s; rw [hx]

theorem Mono.inV {W W' : World} (h : Mono W W') (s : Nat) : (W'.spl s).inV = (W.spl s).inV := by
  obtain ⟨x, hx⟩ := h.spl s; rw [hx]

theorem Mono.outV {W W' : World} (h : Mono W W') (s : Nat) : (W'.spl s).outV = (W.spl s).outV := by
  obtain ⟨x, hx⟩ := h.spl s; rw [hx]

theorem mono_alloc (W : World) (x : MV) : Mono W (W.alloc x) :=
  ⟨fun _ _ h => h, fun s => ⟨(W.spl s).slices, rfl⟩⟩

theorem mono_slices (W : World) (s : Nat) (ss : Option (List Slice)) :
    Mono W (W.setSpl s { W.spl s with slices := ss }) := by
  refine ⟨fun _ _ h => h, fun t => ?_⟩
  simp only [setSpl_spl]
  split
  · rename_i ht; rw [ht]; exact ⟨ss, rfl⟩
  · exact ⟨(W.spl t).slices, rfl⟩

theorem mono_remember (E : Env) (W : World) (v m : Nat) : Mono W (remember E W v m).1 := by
  refine ⟨fun u k hk => ?_, fun s => ⟨(W.spl s).slices, by rw [remember_spl]⟩⟩
  cases hv : (E.app v).single with
  | some m0 =>
    unfold remember
    rw [hv]
    simp only
    split <;> exact hk
  | none =>
    rw [remember_machines hv]
    split
    · rename_i hu
      rw [hu] at hk
      split
      · exact hk
      · exact List.mem_append_left _ hk
    · exact hk

theorem mono_fixedSlices (E : Env) (W : World) (s : Nat) : Mono W (fixedSlices E W s).1 := by
  unfold fixedSlices
  split
  · exact .refl W
  · split
    · exact .refl W
    · split
      · exact .refl W
      · exact mono_slices W s _

theorem mono_fixedLoop (E : Env) (v : Nat) (ss : List Slice) : ∀ W c, Mono W (fixedLoop E v W c ss).1.1 := by
  induction ss with
  | nil => intro W c; exact .refl W
  | cons sl ss ih =>
    intro W c
    unfold fixedLoop
    dsimp only
    have h1 := (mono_alloc W ⟨sl, (E.app v).sdramOf sl, v, 0, none⟩).trans (mono_remember E _ v W.next)
    split
    · rename_i hx; rw [hx] at h1; exact h1
    · rename_i hx; rw [hx] at h1; exact h1.trans (ih _ _)

theorem mono_deviceLoop (E : Env) (v : Nat) (ms : List Nat) : ∀ W c, Mono W (deviceLoop E v W c ms).1.1 := by
  induction ms with
  | nil => intro W c; exact .refl W
  | cons m ms ih =>
    intro W c
    unfold deviceLoop
    have h1 := mono_remember E W v m
    split
    · rename_i hx; rw [hx] at h1; exact h1
    · rename_i hx; rw [hx] at h1; exact h1.trans (ih _ _)

theorem mono_create (E : Env) (W : World) (c : Counter) (s : Nat) : Mono W (create E W c s).1.1 := by
  unfold create
  split
  · split
    · exact .refl W
    · have h1 := mono_fixedSlices E W s
      split
      · rename_i hx; rw [hx] at h1; exact h1
      · rename_i hx; rw [hx] at h1; exact h1.trans (mono_fixedLoop E _ _ _ _)
  · split <;> exact .refl W
  · split
    · exact .refl W
    · split <;> exact .refl W
  · split
    · exact .refl W
    · exact mono_deviceLoop E _ _ _ _

theorem mono_partitionLoop (E : Env) (vs : List Nat) : ∀ W c, Mono W (partitionLoop E W c vs).1.1 := by
  induction vs with
  | nil => intro W c; exact .refl W
  | cons v vs ih =>
    intro W c
    unfold partitionLoop
    split
    · exact .refl W
    · rename_i s hs
      have h1 := mono_create E W c s
      split
      · rename_i hx; rw [hx] at h1; exact h1
      · rename_i hx; rw [hx] at h1; exact h1.trans (ih _ _)

theorem mono_partition (E : Env) (W : World) (a b : Int) (vs : List Nat) : Mono W (partition E W a b vs).1 := by
  rw [partition_world]
  exact mono_partitionLoop E vs W _

theorem mono_outSlices (E : Env) (W : World) (s : Nat) : Mono W (outSlices E W s).1 := by
  unfold outSlices
  split
  · exact mono_fixedSlices E W s
  · split <;> exact .refl W
  · exact .refl W
  · exact .refl W

theorem mono_inSlices (E : Env) (W : World) (s : Nat) : Mono W (inSlices E W s).1 := by
  unfold inSlices
  split
  · exact .refl W
  · exact mono_outSlices E W s

theorem mono_resetSplitter (E : Env) (W : World) (v : Nat) : Mono W (resetSplitter E W v) := by
  unfold resetSplitter resetCalled
  split
  · exact .refl W
  · split
    · exact mono_slices W _ _
    · exact .refl W

theorem mono_foldl {f : World → Nat → World} (hf : ∀ W v, Mono W (f W v)) (vs : List Nat) :
    ∀ W, Mono W (vs.foldl f W) := by
  induction vs with
  | nil => intro W; exact .refl W
  | cons v vs ih => intro W; exact (hf W v).trans (ih _)

theorem mono_setMax (E : Env) (W : World) (v : Nat) (m : Option (List Nat)) : Mono W (setMax E W v m).1 := by
  refine ⟨fun u k hk => ?_, fun s => ⟨(W.spl s).slices, rfl⟩⟩
  unfold setMax
  simp only [setApp_app]
  split
  · rename_i hu; rw [hu] at hk; exact hk
  · exact hk

/-! ### What `SplitterOneToOneLegacy` made is known -/

/-- Vertices that have not been reset know the machine vertex of their `SplitterOneToOneLegacy`. -/
def Known (E : Env) (R : List Nat) (W : World) : Prop :=
  ∀ s v x, E.kind s = .oneToOne → (W.spl s).governed = some v → (W.spl s).one = some x → v ∉ R →
    x.1 ∈ (W.app v).machines

theorem Mono.known {E : Env} {R : List Nat} {W W' : World} (h : Mono W W') (hk : Known E R W) : Known E R W' := by
  intro s v x h1 h2 h3 h4
  rw [h.governed] at h2
  rw [h.one] at h3
  exact h.app v _ (hk s v x h1 h2 h3 h4)

theorem addIn_other (E : Env) (d : DevKind) (s v : Nat) (js : List (Nat × Nat)) : ∀ W,
    (addIn E d s v W js).1.app = W.app ∧ (∀ t, ((addIn E d s v W js).1.spl t).one = (W.spl t).one) ∧
    (∀ t, ((addIn E d s v W js).1.spl t).outV = (W.spl t).outV) ∧ Ext W (addIn E d s v W js).1 ∧
    (∀ m, m < W.next → (addIn E d s v W js).1.mv m = W.mv m) := by
  induction js with
  | nil => intro W; exact ⟨rfl, fun _ => rfl, fun _ => rfl, .refl W, fun _ _ => rfl⟩
  | cons j js ih =>
    intro W
    unfold addIn
    split
    · exact ⟨rfl, fun _ => rfl, fun _ => rfl, .refl W, fun _ _ => rfl⟩
    · rename_i sl hsl
      dsimp only
      obtain ⟨h1, h2, h3, h4, h5⟩ := ih ((W.alloc ⟨sl, 0, v, 0, some (j.2, true)⟩).setSpl s
        { W.spl s with inV := (W.spl s).inV ++ [W.next], inS := (W.spl s).inS ++ [sl] })
      refine ⟨h1, fun t => ?_, fun t => ?_, (ext_alloc W _).trans h4, fun m hm => ?_⟩
      · rw [h2]
        simp only [setSpl_spl]
        split
        · rename_i ht; rw [ht]
        · rfl
      · rw [h3]
        simp only [setSpl_spl]
        split
        · rename_i ht; rw [ht]
        · rfl
      · rw [h5 m (Nat.lt_succ_of_lt hm)]
        simp only [setSpl_mv, alloc_mv]
        rw [if_neg (Nat.ne_of_lt hm)]

theorem makeDevice_other (E : Env) (W : World) (s v : Nat) :
    (makeDevice E W s v).1.app = W.app ∧ (∀ t, ((makeDevice E W s v).1.spl t).one = (W.spl t).one) ∧
    Ext W (makeDevice E W s v).1 ∧ (∀ m, m < W.next → (makeDevice E W s v).1.mv m = W.mv m) := by
  unfold makeDevice
  dsimp only
  have h0 : ∀ t, ((W.setSpl s { W.spl s with inV := [], inS := [], outV := none, outS := none }).spl t).one =
      (W.spl t).one := by
    intro t
    simp only [setSpl_spl]
    split
    · rename_i ht; rw [ht]
    · rfl
  split
  · exact ⟨rfl, h0, .refl W, fun _ _ => rfl⟩
  · rename_i d hd
    obtain ⟨h1, h2, -, h4, h5⟩ := addIn_other E d s v d.jobs
      (W.setSpl s { W.spl s with inV := [], inS := [], outV := none, outS := none })
    split
    · rename_i hx
      rw [hx] at h1 h2 h4 h5
      exact ⟨h1, fun t => (h2 t).trans (h0 t), h4, h5⟩
    · rename_i W1 hx
      rw [hx] at h1 h2 h4 h5
      unfold addOut
      split
      · exact ⟨h1, fun t => (h2 t).trans (h0 t), h4, h5⟩
      · split
        · exact ⟨h1, fun t => (h2 t).trans (h0 t), h4, h5⟩
        · refine ⟨h1, fun t => ?_, h4.trans (ext_alloc W1 _), fun m hm => ?_⟩
          · rw [← h0 t, ← h2 t]
            simp only [setSpl_spl]
            split
            · rename_i ht; rw [ht]
            · rfl
          · have h6 : W1.mv m = W.mv m := h5 m hm
            simp only [setSpl_mv, alloc_mv]
            rw [if_neg (Nat.ne_of_lt (Nat.lt_of_lt_of_le hm h4.1)), h6]

theorem makeOne_ok {E : Env} {W W' : World} {s v : Nat} (h : makeOne E W s v = (W', .ok ())) :
    ∃ sl, mkSlice 0 (E.app v).nAtoms none = .ok sl ∧
      remember E ((W.alloc ⟨sl, (E.app v).sdramOf sl, v, 0, none⟩).setSpl s
        { W.spl s with one := some (W.next, sl, (E.app v).sdramOf sl) }) v W.next = (W', .ok ()) := by
  unfold makeOne at h
  split at h
  · injection h with _ h; cases h
  · rename_i sl hsl
    exact ⟨sl, hsl, h⟩

/-- `SplitterOneToOneLegacy` does not take an `AbstractOneAppOneMachineVertex`. -/
theorem makeOne_single {E : Env} {W W' : World} (hW : Sound E W) {s v : Nat} (h : makeOne E W s v = (W', .ok ())) :
    (E.app v).single = none := by
  obtain ⟨sl, -, hr⟩ := makeOne_ok h
  cases hv : (E.app v).single with
  | none => rfl
  | some m0 =>
    exfalso
    unfold remember at hr
    rw [hv] at hr
    simp only at hr
    split at hr
    · rename_i hm
      have := hW.bound v m0 (by rw [hW.sing v m0 hv]; simp)
      rw [hm] at this
      exact Nat.lt_irrefl _ this
    · injection hr with _ hr; cases hr

theorem makeOne_machines {E : Env} {W W' : World} (hW : Sound E W) {s v : Nat}
    (h : makeOne E W s v = (W', .ok ())) (u : Nat) : (W'.app u).machines =
      if u = v then (W.app v).machines ++ [W.next] else (W.app u).machines := by
  have hv := makeOne_single hW h
  obtain ⟨sl, -, hr⟩ := makeOne_ok h
  have := remember_machines (E := E) (W := (W.alloc ⟨sl, (E.app v).sdramOf sl, v, 0, none⟩).setSpl s
    { W.spl s with one := some (W.next, sl, (E.app v).sdramOf sl) }) (m := W.next) hv u
  rw [hr] at this
  change (W'.app u).machines = if u = v then
    (if W.next ∈ (W.app v).machines then (W.app v).machines else (W.app v).machines ++ [W.next])
    else (W.app u).machines at this
  rw [if_neg (fun h0 => Nat.lt_irrefl _ (hW.bound v _ h0))] at this
  exact this

theorem makeOne_one {E : Env} {W W' : World} {s v : Nat}
    (h : makeOne E W s v = (W', .ok ())) (t : Nat) : ((W'.spl t).one = (W.spl t).one ∧ t ≠ s) ∨
      (t = s ∧ ∃ x, (W'.spl t).one = some x ∧ x.1 = W.next) := by
  obtain ⟨sl, -, hr⟩ := makeOne_ok h
  have := remember_spl E ((W.alloc ⟨sl, (E.app v).sdramOf sl, v, 0, none⟩).setSpl s
    { W.spl s with one := some (W.next, sl, (E.app v).sdramOf sl) }) v W.next
  rw [hr] at this
  rw [this]
  simp only [setSpl_spl]
  by_cases ht : t = s
  · rw [if_pos ht]; exact Or.inr ⟨ht, _, rfl, rfl⟩
  · rw [if_neg ht]; exact Or.inl ⟨rfl, ht⟩

theorem known_finish {E : Env} {R : List Nat} {W W' : World} (hW : Sound E W) {s v : Nat} (hk : Known E R W)
    (hg : (W.spl s).governed = some v) (h : finish E W s v = (W', .ok ())) : Known E R W' := by
  have hkeep := keeps_finish E W s v
  rw [h] at hkeep
  unfold finish at h
  split at h
  · intro t u x h1 h2 h3 h4
    rw [makeOne_machines hW h]
    rw [hkeep.2] at h2
    rcases makeOne_one h t with ⟨h5, h6⟩ | ⟨h5, y, h6, h7⟩
    · rw [h5] at h3
      have := hk t u x h1 h2 h3 h4
      split
      · rename_i hu; rw [hu] at this; exact List.mem_append_left _ this
      · exact this
    · rw [h6] at h3
      injection h3 with h3
      subst h3
      rw [h5, hg] at h2
      injection h2 with h2
      rw [if_pos h2.symm, h7]
      simp
  · have ho := makeDevice_other E W s v
    rw [h] at ho
    intro t u x h1 h2 h3 h4
    rw [hkeep.2] at h2
    rw [ho.2.1] at h3
    rw [ho.1]
    exact hk t u x h1 h2 h3 h4
  · injection h with h; subst h; exact hk

theorem known_tie {E : Env} {R : List Nat} {W : World} (hk : Known E R W) (v s : Nat) : Known E R (W.tie v s) := by
  intro t u x h1 h2 h3 h4
  have := hk t u x h1 h2 h3 h4
  unfold World.tie
  simp only [setApp_app]
  split
  · rename_i hu; rw [hu] at this; exact this
  · exact this

theorem known_rule {E : Env} {R : List Nat} {W : World} (hW : Sound E W) (hk : Known E R W) {s : Nat}
    (hg : (W.spl s).governed = none) (v : Nat) : Known E R (W.rule s v) := by
  intro t u x h1 h2 h3 h4
  unfold World.rule at h2 h3
  simp only [setSpl_spl] at h2 h3
  by_cases ht : t = s
  · rw [if_pos ht] at h3
    simp only [(hW.idle s hg).1] at h3
    cases h3
  · rw [if_neg ht] at h2 h3
    exact hk t u x h1 h2 h3 h4

theorem known_step {E : Env} {R : List Nat} {W W' : World} {o : Op} (hW : Sound E W) (hk : Known E R W)
    (hr : ∀ v, o = .reset v → v ∈ R) (hs : step E W o = (W', .ok ())) : Known E R W' := by
  cases o with
  | setSplitter v s =>
    change setSplitter E W v s = _ at hs
    unfold setSplitter at hs
    cases hv : (W.app v).splitter with
    | some t =>
      by_cases ht : t = s
      · subst ht
        rw [setSplitterN_same hv] at hs
        injection hs with hs; subst hs; exact hk
      · rw [setSplitterN_other hv ht] at hs
        injection hs with _ hs; cases hs
    | none =>
      rw [setSplitterN_none hv] at hs
      split at hs
      · cases hg : (W.spl s).governed with
        | some u =>
          rw [hg] at hs
          simp only at hs
          split at hs
          · rename_i hu
            subst hu
            exact known_finish (sound_tie hW u s) (known_tie hk u s) hg hs
          · injection hs with _ hs; cases hs
        | none =>
          rw [hg] at hs
          simp only at hs
          exact known_finish (sound_rule (sound_tie hW v s) hg v)
            (known_rule (sound_tie hW v s) (known_tie hk v s) hg v) (by simp) hs
      · injection hs with _ hs; cases hs
  | setGoverned s v =>
    change setGoverned E W s v = _ at hs
    rw [setGoverned_eq] at hs
    split at hs
    · cases hg : (W.spl s).governed with
      | some u =>
        rw [hg] at hs
        simp only at hs
        split at hs
        · rename_i hu
          subst hu
          exact known_finish hW hk hg hs
        · injection hs with _ hs; cases hs
      | none =>
        rw [hg] at hs
        simp only at hs
        have hr := sound_rule hW hg v
        have hkr := known_rule hW hk hg v
        cases hv : (W.app v).splitter with
        | some t =>
          rw [hv] at hs
          simp only at hs
          split at hs
          · exact known_finish hr hkr (by simp) hs
          · injection hs with _ hs; cases hs
        | none =>
          rw [hv] at hs
          simp only at hs
          have hb : (((W.rule s v).tie v s).spl s).governed = some v := by simp
          have hf := sound_finish (sound_tie hr v s) hb
          have hk2 := (keeps_finish E ((W.rule s v).tie v s) s v).2 s
          split at hs
          · injection hs with _ hs; cases hs
          · rename_i W1 hx
            have h3 := known_finish (sound_tie hr v s) (known_tie hkr v s) hb hx
            rw [hx] at hf hk2
            exact known_finish hf h3 (by rw [hk2]; exact hb) hs
    · injection hs with _ hs; cases hs
  | reset v =>
    injection hs with hs _
    subst hs
    intro t u x h1 h2 h3 h4
    have h5 : ((reset E W v).spl t).governed = (W.spl t).governed := (keeps_reset E W v).2 t
    have h6 : ((reset E W v).spl t).one = (W.spl t).one := by
      rw [reset_spl]; split <;> rfl
    rw [h5] at h2
    rw [h6] at h3
    rw [reset_app]
    split
    · rename_i hu; exact absurd (hr v rfl) (hu.1 ▸ h4)
    · exact hk t u x h1 h2 h3 h4
  | splitterReset vs =>
    have := mono_foldl (mono_resetSplitter E) vs W
    change (splitterReset E W vs, _) = _ at hs
    injection hs with hs _
    subst hs
    exact this.known hk
  | setMax v m => have := mono_setMax E W v m; change setMax E W v m = _ at hs; rw [hs] at this; exact this.known hk
  | outSlices s =>
    have := mono_outSlices E W s
    injection hs with hs _
    subst hs
    exact this.known hk
  | inSlices s =>
    have := mono_inSlices E W s
    injection hs with hs _
    subst hs
    exact this.known hk
  | partition vs =>
    have := mono_partition E W 1 1 vs
    injection hs with hs _
    subst hs
    exact this.known hk

theorem known_runOk {E : Env} {R : List Nat} (os : List Op) : ∀ {W W' : World}, Sound E W → Known E R W →
    (∀ v, .reset v ∈ os → v ∈ R) → runOk E W os = some W' → Known E R W' := by
  induction os with
  | nil => intro W W' _ hk _ hr; injection hr with hr; subst hr; exact hk
  | cons o os ih =>
    intro W W' hW hk hR hr
    obtain ⟨W1, h1, h2⟩ := runOk_cons hr
    have hS := sound_step hW o
    rw [h1] at hS
    exact ih hS (known_step hW hk (fun v hv => hR v (by rw [hv]; exact List.mem_cons_self)) h1)
      (fun v hv => hR v (List.mem_cons_of_mem _ hv)) h2

/-! ### Indices -/

theorem indexed_of {W W' : World} (hi : Indexed W) (h : ∀ v, (W'.app v).machines = (W.app v).machines)
    (hx : ∀ v, ∀ m ∈ (W.app v).machines, (W'.mv m).index = (W.mv m).index) : Indexed W' := by
  intro v i m hm
  rw [h] at hm
  rw [hx v m (List.mem_of_getElem? hm)]
  exact hi v i m hm

theorem indexed_remember {E : Env} {W : World} (hW : Sound E W) (hi : Indexed W) {v m : Nat}
    (ha : (W.mv m).app = v) (hm : m ∉ (W.app v).machines) : Indexed (remember E W v m).1 := by
  cases hv : (E.app v).single with
  | some m0 =>
    unfold remember
    rw [hv]
    simp only
    split <;> exact hi
  | none =>
    have hmv : ∀ k, ((remember E W v m).1.mv k).index =
        if k = m then (W.app v).machines.length else (W.mv k).index := by
      intro k
      unfold remember
      rw [hv]
      simp only [setApp_mv, setMv_mv]
      split <;> rfl
    intro u i k hk
    rw [hmv]
    rw [remember_machines hv] at hk
    by_cases hu : u = v
    · rw [if_pos hu, if_neg hm] at hk
      by_cases hil : i < (W.app v).machines.length
      · rw [List.getElem?_append_left hil] at hk
        rw [if_neg (fun (h0 : k = m) => hm (h0 ▸ List.mem_of_getElem? hk))]
        exact hi v i k hk
      · rw [List.getElem?_append_right (by omega)] at hk
        have h0 : i - (W.app v).machines.length = 0 := by
          cases hd : i - (W.app v).machines.length with
          | zero => rfl
          | succ j => rw [hd] at hk; simp at hk
        rw [h0] at hk
        simp only [List.getElem?_cons_zero, Option.some.injEq] at hk
        rw [if_pos hk.symm]
        omega
    · rw [if_neg hu] at hk
      have hmem := List.mem_of_getElem? hk
      rw [if_neg ?_]
      · exact hi u i k hk
      · intro h0
        have := hW.owner u k hmem
        rw [h0, ha] at this
        exact hu this.symm

theorem indexed_alloc {E : Env} {W : World} (hW : Sound E W) (hi : Indexed W) (x : MV) : Indexed (W.alloc x) := by
  refine indexed_of hi (fun _ => rfl) (fun v m hm => ?_)
  rw [alloc_mv, if_neg (Nat.ne_of_lt (hW.bound v m hm))]

theorem indexed_setSpl {W : World} (hi : Indexed W) (s : Nat) (x : SState) : Indexed (W.setSpl s x) := hi

theorem indexed_setApp {W : World} (hi : Indexed W) {v : Nat} {a : AState}
    (ha : a.machines = (W.app v).machines) : Indexed (W.setApp v a) := by
  refine indexed_of hi (fun u => ?_) (fun _ _ _ => rfl)
  simp only [setApp_app]
  split
  · rename_i hu; rw [hu]; exact ha
  · rfl

theorem indexed_finish {E : Env} {W : World} (hW : Sound E W) (hi : Indexed W) (s v : Nat) :
    Indexed (finish E W s v).1 := by
  unfold finish
  split
  · unfold makeOne
    split
    · exact hi
    · rename_i sl hsl
      dsimp only
      have ha := sound_alloc hW ⟨sl, (E.app v).sdramOf sl, v, 0, none⟩
      have hia := indexed_alloc hW hi ⟨sl, (E.app v).sdramOf sl, v, 0, none⟩
      -- what is remembered does not depend on the splitters
      have hrem : ∀ (x : SState), Indexed (remember E ((W.alloc ⟨sl, (E.app v).sdramOf sl, v, 0, none⟩).setSpl s x)
          v W.next).1 := by
        intro x
        have h1 := indexed_remember ha hia (v := v) (m := W.next) (by simp)
          (fun h0 => Nat.lt_irrefl _ (hW.bound v _ h0))
        unfold remember at h1 ⊢
        split
        · rename_i hv
          rw [hv] at h1
          simp only at h1
          split <;> exact hia
        · rename_i hv
          rw [hv] at h1
          exact h1
      exact hrem _
  · have ho := makeDevice_other E W s v
    refine indexed_of hi (fun u => by rw [ho.1]) (fun u m hm => ?_)
    rw [ho.2.2.2 m (hW.bound u m hm)]
  · exact hi

theorem indexed_tie {W : World} (hi : Indexed W) (v s : Nat) : Indexed (W.tie v s) := indexed_setApp hi rfl

theorem indexed_rule {W : World} (hi : Indexed W) (s v : Nat) : Indexed (W.rule s v) := hi

theorem indexed_setSplitter {E : Env} {W : World} (hW : Sound E W) (hi : Indexed W) (v s : Nat) :
    Indexed (setSplitter E W v s).1 := by
  unfold setSplitter
  cases hs : (W.app v).splitter with
  | some t =>
    by_cases ht : t = s
    · subst ht
      rw [setSplitterN_same hs]
      exact hi
    · rw [setSplitterN_other hs ht]
      exact hi
  | none =>
    rw [setSplitterN_none hs]
    split
    · cases hg : (W.spl s).governed with
      | some u =>
        simp only
        split
        · exact indexed_finish (sound_tie hW v s) (indexed_tie hi v s) s v
        · exact indexed_tie hi v s
      | none =>
        exact indexed_finish (sound_rule (sound_tie hW v s) hg v) (indexed_rule (indexed_tie hi v s) s v) s v
    · exact indexed_tie hi v s

theorem indexed_setGoverned {E : Env} {W : World} (hW : Sound E W) (hi : Indexed W) (s v : Nat) :
    Indexed (setGoverned E W s v).1 := by
  rw [setGoverned_eq]
  split
  · cases hg : (W.spl s).governed with
    | some u =>
      simp only
      split
      · exact indexed_finish hW hi s v
      · exact hi
    | none =>
      simp only
      have hr := sound_rule hW hg v
      cases hs : (W.app v).splitter with
      | some t =>
        simp only
        split
        · exact indexed_finish hr (indexed_rule hi s v) s v
        · exact indexed_rule hi s v
      | none =>
        simp only
        have hb : (((W.rule s v).tie v s).spl s).governed = some v := by simp
        have hf := sound_finish (sound_tie hr v s) hb
        have h1 := indexed_finish (sound_tie hr v s) (indexed_tie (indexed_rule hi s v) v s) s v
        split
        · rename_i hx
          rw [hx] at h1
          exact h1
        · rename_i hx
          rw [hx] at h1 hf
          exact indexed_finish hf h1 s v
  · exact hi

theorem indexed_resetSplitter {E : Env} {W : World} (hi : Indexed W) (v : Nat) : Indexed (resetSplitter E W v) := by
  have h1 := resetSplitter_app E W v
  have h2 := (resetSplitter_mv E W v).1
  refine indexed_of hi (fun u => by rw [h1]) (fun _ _ _ => by rw [h2])

theorem indexed_reset {E : Env} {W : World} (hi : Indexed W) (v : Nat) : Indexed (reset E W v) := by
  intro u i m hm
  rw [(reset_mv E W v).1]
  rw [reset_app] at hm
  split at hm
  · simp at hm
  · exact hi u i m hm

theorem indexed_fixedLoop {E : Env} (v : Nat) (ss : List Slice) :
    ∀ W c, Sound E W → Indexed W → Indexed (fixedLoop E v W c ss).1.1 := by
  induction ss with
  | nil => intro W c _ hi; exact hi
  | cons sl ss ih =>
    intro W c hW hi
    unfold fixedLoop
    dsimp only
    have ha := sound_alloc hW ⟨sl, (E.app v).sdramOf sl, v, 0, none⟩
    have hr := sound_remember ha (v := v) (m := W.next) (by simp) (by simp)
    have h1 := indexed_remember ha (indexed_alloc hW hi ⟨sl, (E.app v).sdramOf sl, v, 0, none⟩) (v := v)
      (m := W.next) (by simp) (fun h0 => Nat.lt_irrefl _ (hW.bound v _ h0))
    split
    · rename_i hx; rw [hx] at h1; exact h1
    · rename_i hx; rw [hx] at h1 hr; exact ih _ _ hr h1

theorem indexed_deviceLoop {E : Env} (v : Nat) (ms : List Nat) : ∀ W c, Sound E W → Indexed W →
    (∀ m ∈ ms, m < W.next ∧ (W.mv m).app = v) → ms.Nodup → (∀ m ∈ ms, m ∉ (W.app v).machines) →
    Indexed (deviceLoop E v W c ms).1.1 := by
  induction ms with
  | nil => intro W c _ hi _ _ _; exact hi
  | cons m ms ih =>
    intro W c hW hi hm hn hd
    unfold deviceLoop
    have h1 := hm m List.mem_cons_self
    have hr := sound_remember hW h1.1 h1.2
    have hxt := ext_remember E W v m
    have hnx := remember_next E W v m
    have h2 := indexed_remember (E := E) hW hi h1.2 (hd m List.mem_cons_self)
    split
    · rename_i hx; rw [hx] at h2; exact h2
    · rename_i W1 hx
      have hok := remember_ok hx
      rw [hx] at hr hxt hnx h2
      rw [List.nodup_cons] at hn
      refine ih _ _ hr h2 ?_ hn.2 ?_
      · intro k hk
        have h3 := hm k (List.mem_cons_of_mem _ hk)
        exact ⟨by rw [hnx]; exact h3.1, by rw [hxt.app h3.1]; exact h3.2⟩
      · intro k hk h0
        rcases hok with ⟨m0, _, _, hc⟩ | ⟨_, hb⟩
        · rw [hc] at h0
          exact hd k (List.mem_cons_of_mem _ hk) h0
        · rw [hb, if_neg (hd m List.mem_cons_self), List.mem_append, List.mem_singleton] at h0
          rcases h0 with h0 | h0
          · exact hd k (List.mem_cons_of_mem _ hk) h0
          · rw [h0] at hk; exact hn.1 hk

/-- A device whose machine vertices are still to be remembered. -/
def Ready (E : Env) (W : World) (v : Nat) : Prop :=
  ∀ s, (W.app v).splitter = some s → E.kind s = .external → (W.app v).machines = []

theorem indexed_fixedSlices {E : Env} {W : World} (hi : Indexed W) (s : Nat) : Indexed (fixedSlices E W s).1 := by
  unfold fixedSlices
  split
  · exact hi
  · split
    · exact hi
    · split
      · exact hi
      · exact hi

theorem indexed_create {E : Env} {W : World} (hW : Sound E W) (hl : Linked W) (hi : Indexed W) (c : Counter)
    {v s : Nat} (hv : (W.app v).splitter = some s) (hr : Ready E W v) : Indexed (create E W c s).1.1 := by
  unfold create
  split
  · split
    · exact hi
    · have h1 := indexed_fixedSlices (E := E) hi s
      have h2 := sound_fixedSlices hW s
      split
      · rename_i hx; rw [hx] at h1; exact h1
      · rename_i hx; rw [hx] at h1 h2; exact indexed_fixedLoop _ _ _ _ h2 h1
  · split <;> exact hi
  · split
    · exact hi
    · split <;> exact hi
  · rename_i hk
    split
    · exact hi
    · rename_i u hg
      have huv : u = v := by
        have := (hl u s).2 hg
        have h2 := (hl v s).1 hv
        rw [hg] at h2
        injection h2
      subst huv
      refine indexed_deviceLoop u _ W c hW hi ?_ (hW.fresh s) ?_
      · intro m hm
        obtain ⟨h1, h2, _⟩ := hW.dev s m hm
        exact ⟨h1, h2 u hg⟩
      · intro m _ h0
        rw [hr s hv hk] at h0
        cases h0

theorem indexed_partitionLoop {E : Env} (vs : List Nat) : ∀ W c, Sound E W → Linked W → Indexed W → vs.Nodup →
    (∀ v ∈ vs, Ready E W v) → Indexed (partitionLoop E W c vs).1.1 := by
  induction vs with
  | nil => intro W c _ _ hi _ _; exact hi
  | cons v vs ih =>
    intro W c hW hl hi hn hr
    unfold partitionLoop
    split
    · exact hi
    · rename_i s hs
      have h1 := indexed_create hW hl hi c hs (hr v List.mem_cons_self)
      have h2 := sound_create hW c s
      have h3 := keeps_create E W c s
      rw [List.nodup_cons] at hn
      have h4 : ∀ u ∈ vs, ((create E W c s).1.1.app u).machines = (W.app u).machines := by
        intro u hu
        have huv : u ≠ v := fun h0 => hn.1 (h0 ▸ hu)
        have := off_create (E := E) (c := c) (v := u) (s := s + 1) ((hl v s).1 hs) huv (by omega)
        rw [this.app]
      split
      · rename_i hx; rw [hx] at h1; exact h1
      · rename_i hx
        rw [hx] at h1 h2 h3 h4
        refine ih _ _ h2 (h3.linked hl) h1 hn.2 ?_
        intro u hu t ht hkt
        rw [h3.1] at ht
        rw [h4 u hu]
        exact hr u (List.mem_cons_of_mem _ hu) t ht hkt

theorem indexed_outSlices {E : Env} {W : World} (hi : Indexed W) (s : Nat) : Indexed (outSlices E W s).1 := by
  unfold outSlices
  split
  · exact indexed_fixedSlices hi s
  · split <;> exact hi
  · exact hi
  · exact hi

theorem indexed_step {E : Env} {W : World} (hW : Sound E W) (hl : Linked W) (hi : Indexed W) (o : Op)
    (hr : ∀ vs, o = .partition vs → vs.Nodup ∧ ∀ v ∈ vs, Ready E W v) : Indexed (step E W o).1 := by
  cases o with
  | setSplitter v s => exact indexed_setSplitter hW hi v s
  | setGoverned s v => exact indexed_setGoverned hW hi s v
  | reset v => exact indexed_reset hi v
  | splitterReset vs =>
    change Indexed (splitterReset E W vs)
    unfold splitterReset
    clear hr hW hl
    induction vs generalizing W with
    | nil => exact hi
    | cons v vs ih => exact ih (indexed_resetSplitter hi v)
  | setMax v m => exact indexed_setApp hi rfl
  | outSlices s => exact indexed_outSlices hi s
  | inSlices s =>
    change Indexed (inSlices E W s).1
    unfold inSlices
    split
    · exact hi
    · exact indexed_outSlices hi s
  | partition vs =>
    change Indexed (partition E W 1 1 vs).1
    rw [partition_world]
    obtain ⟨h1, h2⟩ := hr vs rfl
    exact indexed_partitionLoop vs W _ hW hl hi h1 h2

theorem indexed_new {E : Env} {mp : Nat → Option (List Nat)} {mv : Nat → MV} {next : Nat} (h : Built E mv next) :
    Indexed (World.new E mp mv next) := by
  intro v i m hm
  simp only [World.new] at hm
  cases hs : (E.app v).single with
  | none => rw [hs] at hm; simp at hm
  | some m0 =>
    rw [hs] at hm
    cases i with
    | zero =>
      simp only [Option.toList_some, List.getElem?_cons_zero, Option.some.injEq] at hm
      subst hm
      exact h.index v m0 hs
    | succ i => simp at hm

end Pacman.Split
