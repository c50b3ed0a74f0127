import Verif.Proofs.SplitterNet
/-
Vertices whose splitters have just been set are partitioned anew.
-/

namespace Pacman.Split

open Slices (Slice mkSlice)

theorem addIn_far (E : Env) (d : DevKind) (s v : Nat) (js : List (Nat × Nat)) : ∀ W, ∀ t, t ≠ s →
    (addIn E d s v W js).1.spl t = W.spl t := by
  induction js with
  | nil => intro W t _; rfl
  | cons j js ih =>
    intro W t ht
    unfold addIn
    split
    · rfl
    · dsimp only
      rw [ih _ t ht]
      simp only [setSpl_spl, if_neg ht]
      rfl

theorem makeDevice_far (E : Env) (W : World) (s v : Nat) {t : Nat} (ht : t ≠ s) :
    (makeDevice E W s v).1.spl t = W.spl t := by
  unfold makeDevice
  dsimp only
  have h0 : (W.setSpl s { W.spl s with inV := [], inS := [], outV := none, outS := none }).spl t = W.spl t := by
    simp only [setSpl_spl, if_neg ht]
  split
  · exact h0
  · rename_i d hd
    have h1 := addIn_far E d s v d.jobs
      (W.setSpl s { W.spl s with inV := [], inS := [], outV := none, outS := none }) t ht
    rw [h0] at h1
    split
    · rename_i hx
      rw [hx] at h1
      exact h1
    · rename_i W1 hx
      rw [hx] at h1
      unfold addOut
      split
      · exact h1
      · split
        · exact h1
        · simp only [setSpl_spl, if_neg ht]
          exact h1

/-- What holds while splitters are set and nothing else is done. -/
structure Unused (E : Env) (W : World) : Prop where
  machines : ∀ v, (W.app v).splitter = none → (E.app v).single = none → (W.app v).machines = []
  slices : ∀ s, (W.spl s).governed = none → (W.spl s).slices = none
  anew : ∀ v, ((E.app v).single ≠ none → ∀ s, (W.app v).splitter = some s → E.kind s = .oneApp) → Anew E W v

theorem unused_new (E : Env) (mp : Nat → Option (List Nat)) (mv : Nat → MV) (next : Nat) :
    Unused E (World.new E mp mv next) where
  machines := by
    intro v _ h
    change (E.app v).single.toList = []
    rw [h]
    rfl
  slices := fun _ _ => rfl
  anew := by
    intro v _ s h
    cases h

theorem unused_set {E : Env} {W W' : World} {v s : Nat} (hW : Sound E W) (hL : Linked W) (hU : Unused E W)
    (h : setSplitter E W v s = (W', .ok ())) : Unused E W' := by
  cases hv : (W.app v).splitter with
  | some t =>
    unfold setSplitter setSplitterN at h
    rw [hv] at h
    simp only at h
    split at h
    · injection h with h _; rw [← h]; exact hU
    · injection h with _ h; cases h
  | none =>
    unfold setSplitter at h
    rw [setSplitterN_none hv] at h
    split at h
    case isFalse => injection h with _ h; cases h
    cases hg : (W.spl s).governed with
    | some u =>
      rw [hg] at h
      simp only at h
      split at h
      · rename_i hu
        subst hu
        rw [(hL u s).2 hg] at hv
        cases hv
      · injection h with _ h; cases h
    | none =>
      rw [hg] at h
      simp only at h
      have hS := sound_rule (sound_tie hW v s) hg v
      -- vertices and splitters other than `v` and `s`
      have key : (∀ u, u ≠ v → W'.app u = W.app u) ∧ (∀ t, t ≠ s → W'.spl t = W.spl t) ∧
          (W'.app v).splitter = some s ∧ (W'.spl s).governed = some v ∧
          (match E.kind s with
            | .fixed => (W'.app v).machines = (W.app v).machines ∧ (W'.spl s).slices = (W.spl s).slices
            | .oneToOne => (E.app v).single = none ∧ ∃ m, (W'.app v).machines = (W.app v).machines ++ [m] ∧
                outVerts E W' s = .ok [m]
            | .oneApp => True
            | .external => (W'.app v).machines = (W.app v).machines) := by
        have a1 : ∀ u, u ≠ v → ((W.tie v s).rule s v).app u = W.app u := by
          intro u hu
          unfold World.rule World.tie
          simp [hu]
        have a2 : ∀ t, t ≠ s → ((W.tie v s).rule s v).spl t = W.spl t := by
          intro t ht
          unfold World.rule
          simp [ht]
        have a3 : (((W.tie v s).rule s v).app v).splitter = some s := by
          unfold World.rule World.tie
          simp
        have a4 : (((W.tie v s).rule s v).spl s).governed = some v := by
          unfold World.rule
          simp
        have a5 : (((W.tie v s).rule s v).app v).machines = (W.app v).machines := by
          unfold World.rule World.tie
          simp
        have a6 : (((W.tie v s).rule s v).spl s).slices = (W.spl s).slices := by
          unfold World.rule
          simp
        unfold finish at h
        cases hk : E.kind s with
        | fixed =>
          simp only [hk] at h
          injection h with h _
          subst h
          exact ⟨a1, a2, a3, a4, a5, a6⟩
        | oneApp =>
          simp only [hk] at h
          injection h with h _
          subst h
          exact ⟨a1, a2, a3, a4, trivial⟩
        | external =>
          simp only [hk] at h
          have b1 := (makeDevice_other E ((W.tie v s).rule s v) s v).1
          have b2 := fun t => makeDevice_far E ((W.tie v s).rule s v) s v (t := t)
          have b3 := keeps_makeDevice E ((W.tie v s).rule s v) s v
          rw [h] at b1 b2 b3
          simp only at b1 b2 b3
          refine ⟨fun u hu => by rw [b1, a1 u hu], fun t ht => by rw [b2 t ht, a2 t ht], by rw [b1, a3],
            by rw [b3.2, a4], by rw [b1, a5]⟩
        | oneToOne =>
          simp only [hk] at h
          have b0 := makeOne_single hS h
          have b1 := makeOne_machines hS h v
          rw [if_pos rfl, a5] at b1
          have b3 := keeps_makeOne E ((W.tie v s).rule s v) s v
          rw [h] at b3
          obtain ⟨sl, -, hr⟩ := makeOne_ok h
          have b4 := remember_spl E ((((W.tie v s).rule s v).alloc ⟨sl, (E.app v).sdramOf sl, v, 0, none⟩).setSpl s
            { ((W.tie v s).rule s v).spl s with one := some (((W.tie v s).rule s v).next, sl, (E.app v).sdramOf sl) }) v
            ((W.tie v s).rule s v).next
          rw [hr] at b4
          simp only at b4
          refine ⟨?_, ?_, ?_, ?_, b0, _, b1, ?_⟩
          · intro u hu
            have := remember_app (E := E) (W := (((W.tie v s).rule s v).alloc ⟨sl, (E.app v).sdramOf sl, v, 0, none⟩).setSpl s
              { ((W.tie v s).rule s v).spl s with one := some (((W.tie v s).rule s v).next, sl, (E.app v).sdramOf sl) })
              (m := ((W.tie v s).rule s v).next) hu
            rw [hr] at this
            exact this.trans (a1 u hu)
          · intro t ht
            rw [b4]
            simp only [setSpl_spl, if_neg ht]
            exact a2 t ht
          · rw [b3.1, a3]
          · rw [b3.2, a4]
          · unfold outVerts
            simp only [hk, b4, setSpl_spl, if_true]
      obtain ⟨k1, k2, k3, k4, k5⟩ := key
      refine ⟨?_, ?_, ?_⟩
      · intro u hu h1
        by_cases huv : u = v
        · rw [huv, k3] at hu; cases hu
        · rw [k1 u huv] at hu ⊢
          exact hU.machines u hu h1
      · intro t ht
        by_cases hts : t = s
        · rw [hts, k4] at ht; cases ht
        · rw [k2 t hts] at ht ⊢
          exact hU.slices t ht
      · intro u hu t ht
        by_cases huv : u = v
        · subst huv
          rw [k3] at ht
          injection ht with ht
          subst ht
          have hs1 : E.kind s ≠ .oneApp → (E.app u).single = none := by
            intro h0
            cases h1 : (E.app u).single with
            | none => rfl
            | some m => exact absurd (hu (by rw [h1]; simp) s k3) h0
          cases hk : E.kind s with
          | fixed =>
            rw [hk] at k5
            have h1 := hs1 (by rw [hk]; simp)
            exact ⟨h1, by rw [k5.1]; exact hU.machines u hv h1, by rw [k5.2]; exact hU.slices s hg⟩
          | oneToOne =>
            rw [hk] at k5
            obtain ⟨h1, m, h2, h3⟩ := k5
            refine ⟨h1, m, ?_, h3⟩
            rw [h2, hU.machines u hv h1]
            rfl
          | oneApp => trivial
          | external =>
            rw [hk] at k5
            have h1 := hs1 (by rw [hk]; simp)
            exact ⟨h1, by rw [k5]; exact hU.machines u hv h1⟩
        · have hts : t ≠ s := by
            intro h0
            rw [k1 u huv] at ht
            rw [h0] at ht
            rw [(hL u s).1 ht] at hg
            cases hg
          have hu' : Anew E W u := hU.anew u (by rw [k1 u huv] at hu; exact hu)
          have hts2 : (W.app u).splitter = some t := by rw [← k1 u huv]; exact ht
          have h1 := hu' t hts2
          cases hk : E.kind t with
          | fixed => rw [hk] at h1; simp only at h1 ⊢; rw [k1 u huv, k2 t hts]; exact h1
          | oneToOne =>
            rw [hk] at h1
            obtain ⟨h2, m, h3, h4⟩ := h1
            refine ⟨h2, m, by rw [k1 u huv]; exact h3, ?_⟩
            unfold outVerts at h4 ⊢
            simp only [hk] at h4 ⊢
            rw [k2 t hts]
            exact h4
          | oneApp => trivial
          | external => rw [hk] at h1; simp only at h1 ⊢; rw [k1 u huv]; exact h1

theorem unused_run {E : Env} (l : List (Nat × Nat)) : ∀ {W W' : World}, Sound E W → Linked W → Unused E W →
    runOk E W (l.map (fun p => .setSplitter p.1 p.2)) = some W' → Unused E W' := by
  induction l with
  | nil => intro W W' _ _ hU h; injection h with h; rw [← h]; exact hU
  | cons p l ih =>
    intro W W' hW hL hU h
    rw [List.map_cons] at h
    unfold runOk at h
    split at h
    · rename_i W1 hx
      have hs : setSplitter E W p.1 p.2 = (W1, .ok ()) := hx
      refine ih ?_ ?_ (unused_set hW hL hU hs) h
      · have := sound_step hW (.setSplitter p.1 p.2); rw [hx] at this; exact this
      · exact linked_runOk [.setSplitter p.1 p.2] hL (by unfold runOk; rw [hx]; rfl)
    · cases h

/-- Vertices that have just got their splitters, when nothing else has been done, are partitioned anew. -/
theorem anew_set {E : Env} {mp : Nat → Option (List Nat)} {mv : Nat → MV} {next : Nat} (hb : Built E mv next)
    {l : List (Nat × Nat)} {W : World}
    (h : runOk E (World.new E mp mv next) (l.map (fun p => .setSplitter p.1 p.2)) = some W) {v : Nat}
    (hv : (E.app v).single ≠ none → ∀ s, (W.app v).splitter = some s → E.kind s = .oneApp) : Anew E W v :=
  (unused_run l (sound_new hb) (linked_new _ _ _ _) (unused_new E mp mv next) h).anew v hv

end Pacman.Split
