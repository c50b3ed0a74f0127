import Verif.Proofs.SplitterKnown
/-
Lemmas on splitters: the machine vertices of devices.
-/

namespace Pacman.Split

open Slices (Slice mkSlice multiSlices checkAtoms)
open Counter (Counter)

/-- The machine vertex is for this round of the loop over links. -/
def OfJob (E : Env) (W : World) (d : DevKind) (v : Nat) (j : Nat × Nat) (m : Nat) : Prop :=
  d.slice (E.app v).nAtoms j.1 = .ok (W.mv m).slice ∧ (W.mv m).dev = some (j.2, true)

/-- Machine vertices one by one for rounds of the loop. -/
inductive Match (P : (Nat × Nat) → Nat → Prop) : List (Nat × Nat) → List Nat → Prop
  | nil : Match P [] []
  | cons {j : Nat × Nat} {m : Nat} {js : List (Nat × Nat)} {ms : List Nat} (h : P j m) (t : Match P js ms) :
    Match P (j :: js) (m :: ms)

theorem Match.append {P : (Nat × Nat) → Nat → Prop} {js js' : List (Nat × Nat)} {ms ms' : List Nat}
    (h : Match P js ms) (h' : Match P js' ms') : Match P (js ++ js') (ms ++ ms') := by
  induction h with
  | nil => exact h'
  | cons h _ ih => exact .cons h ih

theorem Match.imp {P Q : (Nat × Nat) → Nat → Prop} {js : List (Nat × Nat)} {ms : List Nat} (h : Match P js ms)
    (hi : ∀ j, ∀ m ∈ ms, P j m → Q j m) : Match Q js ms := by
  induction h with
  | nil => exact .nil
  | cons h _ ih => exact .cons (hi _ _ List.mem_cons_self h) (ih (fun j m hm => hi j m (List.mem_cons_of_mem _ hm)))

theorem Match.length {P : (Nat × Nat) → Nat → Prop} {js : List (Nat × Nat)} {ms : List Nat} (h : Match P js ms) :
    ms.length = js.length := by
  induction h with
  | nil => rfl
  | cons _ _ ih => rw [List.length_cons, List.length_cons, ih]

/-- The splitter has the machine vertices of its device. -/
def Has (E : Env) (W : World) (s : Nat) : Prop :=
  ∀ v, E.kind s = .external → (W.spl s).governed = some v → ∃ d, (E.app v).device = some d ∧
    Match (OfJob E W d v) d.jobs (W.spl s).inV ∧
    match d.out with
    | none => (W.spl s).outV = none
    | some l => ∃ m, (W.spl s).outV = some m ∧ mkSlice 0 (E.app v).nAtoms none = .ok (W.mv m).slice ∧
      (W.mv m).dev = some (l, false)

theorem ofJob_ext {E : Env} {W W' : World} (hx : Ext W W') {d : DevKind} {v : Nat} {j : Nat × Nat} {m : Nat}
    (hm : m < W.next) (h : OfJob E W d v j m) : OfJob E W' d v j m := by
  unfold OfJob at *
  rw [hx.slice hm, hx.dev hm]
  exact h

theorem has_ext {E : Env} {W W' : World} (hW : Sound E W) (hx : Ext W W') {s : Nat}
    (hg : (W'.spl s).governed = (W.spl s).governed) (hi : (W'.spl s).inV = (W.spl s).inV)
    (ho : (W'.spl s).outV = (W.spl s).outV) (h : Has E W s) : Has E W' s := by
  intro v hk hv
  rw [hg] at hv
  obtain ⟨d, h1, h2, h3⟩ := h v hk hv
  refine ⟨d, h1, ?_, ?_⟩
  · rw [hi]
    exact h2.imp (fun j m hm => ofJob_ext hx (hW.dev s m (List.mem_append_left _ hm)).1)
  · split at h3
    · rw [ho]; exact h3
    · obtain ⟨m, h4, h5, h6⟩ := h3
      have hm : m < W.next := (hW.dev s m (by rw [h4]; simp)).1
      exact ⟨m, ho.trans h4, by rw [hx.slice hm]; exact h5, by rw [hx.dev hm]; exact h6⟩

theorem Mono.has {E : Env} {W W' : World} (hW : Sound E W) (h : Mono W W') (hx : Ext W W')
    (hh : ∀ s, Has E W s) (s : Nat) : Has E W' s :=
  has_ext hW hx (h.governed s) (h.inV s) (h.outV s) (hh s)

theorem addIn_spl (E : Env) (d : DevKind) (s v : Nat) {t : Nat} (ht : t ≠ s) (js : List (Nat × Nat)) : ∀ W,
    (addIn E d s v W js).1.spl t = W.spl t := by
  induction js with
  | nil => intro W; rfl
  | cons j js ih =>
    intro W
    unfold addIn
    split
    · rfl
    · dsimp only
      rw [ih]
      simp only [setSpl_spl, if_neg ht, alloc_spl]

theorem addIn_ok {E : Env} (d : DevKind) (s v : Nat) (js : List (Nat × Nat)) : ∀ {W W' : World},
    addIn E d s v W js = (W', .ok ()) → ∃ ms, (W'.spl s).inV = (W.spl s).inV ++ ms ∧ (∀ m ∈ ms, m < W'.next) ∧
      Match (OfJob E W' d v) js ms := by
  induction js with
  | nil =>
    intro W W' h
    unfold addIn at h
    injection h with h _
    subst h
    exact ⟨[], by simp, by simp, .nil⟩
  | cons j js ih =>
    intro W W' h
    unfold addIn at h
    split at h
    · injection h with _ h; cases h
    · rename_i sl hsl
      dsimp only at h
      have hx := (addIn_other E d s v js ((W.alloc ⟨sl, 0, v, 0, some (j.2, true)⟩).setSpl s
        { W.spl s with inV := (W.spl s).inV ++ [W.next], inS := (W.spl s).inS ++ [sl] })).2.2.2.1
      obtain ⟨ms, h1, h2, h3⟩ := ih h
      rw [h] at hx
      have hlt : W.next < ((W.alloc ⟨sl, 0, v, 0, some (j.2, true)⟩).setSpl s
        { W.spl s with inV := (W.spl s).inV ++ [W.next], inS := (W.spl s).inS ++ [sl] }).next := Nat.lt_succ_self _
      refine ⟨W.next :: ms, ?_, ?_, .cons (ofJob_ext hx hlt ?_) h3⟩
      · rw [h1]
        simp only [setSpl_spl, if_true, List.append_assoc]
        rfl
      · intro m hm
        rcases List.mem_cons.1 hm with hm | hm
        · rw [hm]; exact Nat.lt_of_lt_of_le hlt hx.1
        · exact h2 m hm
      · unfold OfJob
        simp only [setSpl_mv, alloc_mv, if_true, and_true]
        exact hsl

theorem makeDevice_ok {E : Env} {W W' : World} {s v : Nat} (h : makeDevice E W s v = (W', .ok ())) :
    ∃ d, (E.app v).device = some d ∧ Match (OfJob E W' d v) d.jobs (W'.spl s).inV ∧
    match d.out with
    | none => (W'.spl s).outV = none
    | some l => ∃ m, (W'.spl s).outV = some m ∧ mkSlice 0 (E.app v).nAtoms none = .ok (W'.mv m).slice ∧
      (W'.mv m).dev = some (l, false) := by
  unfold makeDevice at h
  dsimp only at h
  split at h
  · injection h with _ h; cases h
  · rename_i d hd
    refine ⟨d, hd, ?_⟩
    split at h
    · injection h with _ h; cases h
    · rename_i W1 hx
      obtain ⟨ms, h1, h2, h3⟩ := addIn_ok d s v d.jobs hx
      have ho := (addIn_other E d s v d.jobs
        (W.setSpl s { W.spl s with inV := [], inS := [], outV := none, outS := none })).2.2.1 s
      rw [hx] at ho
      simp only [setSpl_spl, if_true, List.nil_append] at h1 ho
      unfold addOut at h
      split at h
      · rename_i hout
        injection h with h _
        subst h
        rw [hout]
        exact ⟨h1 ▸ h3, ho⟩
      · rename_i l hout
        split at h
        · injection h with _ h; cases h
        · rename_i sl hsl
          injection h with h _
          subst h
          rw [hout]
          have hxt := ext_alloc W1 ⟨sl, 0, v, 0, some (l, false)⟩
          refine ⟨?_, W1.next, ?_, ?_, ?_⟩
          · simp only [setSpl_spl, if_true]
            rw [h1]
            exact h3.imp (fun j m hm hj => ofJob_ext hxt (h2 m hm) hj)
          · simp only [setSpl_spl, if_true]
          · simp only [setSpl_mv, alloc_mv, if_true]
            exact hsl
          · simp only [setSpl_mv, alloc_mv, if_true]

theorem finish_spl {E : Env} {W : World} {s v t : Nat} (ht : t ≠ s) : (finish E W s v).1.spl t = W.spl t := by
  unfold finish
  split
  · unfold makeOne
    split
    · rfl
    · dsimp only
      rw [remember_spl]
      simp only [setSpl_spl, if_neg ht, alloc_spl]
  · unfold makeDevice
    dsimp only
    have h0 : (W.setSpl s { W.spl s with inV := [], inS := [], outV := none, outS := none }).spl t = W.spl t := by
      simp only [setSpl_spl, if_neg ht]
    split
    · exact h0
    · rename_i d hd
      have h1 := addIn_spl E d s v ht d.jobs
        (W.setSpl s { W.spl s with inV := [], inS := [], outV := none, outS := none })
      split
      · rename_i hx
        rw [hx] at h1
        exact h1.trans h0
      · rename_i W1 hx
        rw [hx] at h1
        rw [← h0, ← h1]
        unfold addOut
        split
        · rfl
        · split
          · rfl
          · simp only [setSpl_spl, if_neg ht, alloc_spl]
  · rfl

theorem ext_finish (E : Env) (W : World) (s v : Nat) : Ext W (finish E W s v).1 := by
  unfold finish
  split
  · unfold makeOne
    split
    · exact .refl W
    · rename_i sl _
      dsimp only
      exact Ext.trans (B := (W.alloc ⟨sl, (E.app v).sdramOf sl, v, 0, none⟩).setSpl s
        { W.spl s with one := some (W.next, sl, (E.app v).sdramOf sl) }) (ext_alloc W _) (ext_remember E _ v W.next)
  · exact (makeDevice_other E W s v).2.2.1
  · exact .refl W

theorem has_finish {E : Env} {W W' : World} (hW : Sound E W) {s v : Nat} (hh : ∀ t, t ≠ s → Has E W t)
    (hg : (W.spl s).governed = some v) (h : finish E W s v = (W', .ok ())) (t : Nat) : Has E W' t := by
  have hkeep := keeps_finish E W s v
  have hx := ext_finish E W s v
  rw [h] at hkeep hx
  by_cases ht : t = s
  · subst ht
    intro u hk hu
    rw [hkeep.2, hg] at hu
    injection hu with hu
    subst hu
    unfold finish at h
    rw [hk] at h
    exact makeDevice_ok h
  · have hs := finish_spl (E := E) (W := W) (v := v) ht
    rw [h] at hs
    simp only at hs
    exact has_ext hW hx (by rw [hs]) (by rw [hs]) (by rw [hs]) (hh t ht)

theorem has_tie {E : Env} {W : World} (v s : Nat) {t : Nat} (h : Has E W t) : Has E (W.tie v s) t := h

theorem ext_of_mv {W W' : World} (h : W'.mv = W.mv ∧ W'.next = W.next) : Ext W W' :=
  ⟨Nat.le_of_eq h.2.symm, fun m _ => by rw [h.1]⟩

theorem has_rule {E : Env} {W : World} {s t : Nat} (v : Nat) (ht : t ≠ s) (hW : Sound E W) (h : Has E W t) :
    Has E (W.rule s v) t := by
  have : (W.rule s v).spl t = W.spl t := by
    unfold World.rule
    simp only [setSpl_spl, if_neg ht]
  exact has_ext (W' := W.rule s v) hW (ext_of_mv ⟨rfl, rfl⟩) (by rw [this]) (by rw [this]) (by rw [this]) h

theorem ext_partitionLoop (E : Env) (vs : List Nat) : ∀ W c, Ext W (partitionLoop E W c vs).1.1 := by
  have hc : ∀ W c s, Ext W (create E W c s).1.1 := by
    intro W c s
    unfold create
    split
    · split
      · exact .refl W
      · rename_i v _
        have h1 := (off_fixedSlices (E := E) (W := W) (t := s) (v := 0) (s := s + 1) (by omega)).ext
        split
        · rename_i hx; rw [hx] at h1; exact h1
        · rename_i W1 ss hx
          rw [hx] at h1
          exact h1.trans (off_fixedLoop (E := E) (u := v) (v := v + 1) (s := 0) (by omega) _ _ _).ext
    · split <;> exact .refl W
    · split
      · exact .refl W
      · split <;> exact .refl W
    · split
      · exact .refl W
      · rename_i v hg
        exact (off_deviceLoop (E := E) (u := v) (v := v + 1) (s := 0) (by omega) _ _ _).ext
  induction vs with
  | nil => intro W c; exact .refl W
  | cons v vs ih =>
    intro W c
    unfold partitionLoop
    split
    · exact .refl W
    · rename_i s hs
      have h1 := hc W c s
      split
      · rename_i hx; rw [hx] at h1; exact h1
      · rename_i hx; rw [hx] at h1; exact h1.trans (ih _ _)

theorem ext_partition (E : Env) (W : World) (a b : Int) (vs : List Nat) : Ext W (partition E W a b vs).1 := by
  rw [partition_world]
  exact ext_partitionLoop E vs W _

theorem ext_outSlices (E : Env) (W : World) (s : Nat) : Ext W (outSlices E W s).1 := by
  unfold outSlices
  split
  · exact (off_fixedSlices (E := E) (W := W) (t := s) (v := 0) (s := s + 1) (by omega)).ext
  · split <;> exact .refl W
  · exact .refl W
  · exact .refl W

theorem ext_inSlices (E : Env) (W : World) (s : Nat) : Ext W (inSlices E W s).1 := by
  unfold inSlices
  split
  · exact .refl W
  · exact ext_outSlices E W s

theorem has_step {E : Env} {W W' : World} {o : Op} (hW : Sound E W) (hh : ∀ t, Has E W t)
    (hs : step E W o = (W', .ok ())) (t : Nat) : Has E W' t := by
  cases o with
  | setSplitter v s =>
    change setSplitter E W v s = _ at hs
    unfold setSplitter at hs
    cases hv : (W.app v).splitter with
    | some t =>
      by_cases ht : t = s
      · subst ht
        rw [setSplitterN_same hv] at hs
        injection hs with hs; subst hs; exact hh _
      · rw [setSplitterN_other hv ht] at hs
        injection hs with _ hs; cases hs
    | none =>
      rw [setSplitterN_none hv] at hs
      split at hs
      · cases hg : (W.spl s).governed with
        | some u =>
          rw [hg] at hs
          simp only at hs
          split at hs
          · rename_i hu
            subst hu
            exact has_finish (sound_tie hW u s) (fun t _ => has_tie u s (hh t)) hg hs t
          · injection hs with _ hs; cases hs
        | none =>
          rw [hg] at hs
          simp only at hs
          exact has_finish (sound_rule (sound_tie hW v s) hg v)
            (fun t ht => has_rule v ht (sound_tie hW v s) (has_tie v s (hh t))) (by simp) hs t
      · injection hs with _ hs; cases hs
  | setGoverned s v =>
    change setGoverned E W s v = _ at hs
    rw [setGoverned_eq] at hs
    split at hs
    · cases hg : (W.spl s).governed with
      | some u =>
        rw [hg] at hs
        simp only at hs
        split at hs
        · rename_i hu
          subst hu
          exact has_finish hW (fun t _ => hh t) hg hs t
        · injection hs with _ hs; cases hs
      | none =>
        rw [hg] at hs
        simp only at hs
        have hr := sound_rule hW hg v
        have hkr : ∀ t, t ≠ s → Has E (W.rule s v) t := fun t ht => has_rule v ht hW (hh t)
        cases hv : (W.app v).splitter with
        | some t' =>
          rw [hv] at hs
          simp only at hs
          split at hs
          · exact has_finish hr hkr (by simp) hs t
          · injection hs with _ hs; cases hs
        | none =>
          rw [hv] at hs
          simp only at hs
          have hb : (((W.rule s v).tie v s).spl s).governed = some v := by simp
          have hf := sound_finish (sound_tie hr v s) hb
          have hk2 := (keeps_finish E ((W.rule s v).tie v s) s v).2 s
          split at hs
          · injection hs with _ hs; cases hs
          · rename_i W1 hx
            have h3 := has_finish (sound_tie hr v s) (fun t ht => has_tie v s (hkr t ht)) hb hx
            rw [hx] at hf hk2
            exact has_finish hf (fun t _ => h3 t) (by rw [hk2]; exact hb) hs t
    · injection hs with _ hs; cases hs
  | reset v =>
    injection hs with hs _
    subst hs
    refine has_ext hW (ext_of_mv (reset_mv E W v)) ((keeps_reset E W v).2 t) ?_ ?_ (hh t)
    · rw [reset_spl]; split <;> rfl
    · rw [reset_spl]; split <;> rfl
  | splitterReset vs =>
    have h1 := mono_foldl (mono_resetSplitter E) vs W
    have h2 : ∀ (vs : List Nat) (W : World), Ext W (vs.foldl (resetSplitter E) W) := by
      intro vs
      induction vs with
      | nil => intro W; exact .refl W
      | cons v vs ih => intro W; exact (ext_of_mv (resetSplitter_mv E W v)).trans (ih _)
    change (splitterReset E W vs, _) = _ at hs
    injection hs with hs _
    subst hs
    exact h1.has hW (h2 vs W) hh t
  | setMax v m =>
    have := mono_setMax E W v m
    injection hs with hs _
    subst hs
    exact this.has hW (ext_of_mv ⟨rfl, rfl⟩) hh t
  | outSlices s =>
    have := mono_outSlices E W s
    have h2 := ext_outSlices E W s
    injection hs with hs _
    subst hs
    exact this.has hW h2 hh t
  | inSlices s =>
    have := mono_inSlices E W s
    have h2 := ext_inSlices E W s
    injection hs with hs _
    subst hs
    exact this.has hW h2 hh t
  | partition vs =>
    have := mono_partition E W 1 1 vs
    have h2 := ext_partition E W 1 1 vs
    injection hs with hs _
    subst hs
    exact this.has hW h2 hh t

theorem has_runOk {E : Env} (os : List Op) : ∀ {W W' : World}, Sound E W → (∀ t, Has E W t) →
    runOk E W os = some W' → ∀ t, Has E W' t := by
  induction os with
  | nil => intro W W' _ hk hr; injection hr with hr; subst hr; exact hk
  | cons o os ih =>
    intro W W' hW hk hr
    obtain ⟨W1, h1, h2⟩ := runOk_cons hr
    have hS := sound_step hW o
    rw [h1] at hS
    exact ih hS (has_step hW hk h1) h2

theorem has_new (E : Env) (mp : Nat → Option (List Nat)) (mv : Nat → MV) (next t : Nat) :
    Has E (World.new E mp mv next) t := by
  intro v _ hg
  simp [World.new, SState.new] at hg

end Pacman.Split
