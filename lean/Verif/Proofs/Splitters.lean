import Verif.Spec.Splitters
/-
Lemmas on splitters: who governs whom.
-/

namespace Pacman.Split

open Slices (Slice mkSlice multiSlices checkAtoms)
open Counter (Counter)

@[simp] theorem setApp_app (W : World) (v : Nat) (a : AState) (u : Nat) :
    (W.setApp v a).app u = if u = v then a else W.app u := rfl
@[simp] theorem setApp_spl (W : World) (v : Nat) (a : AState) : (W.setApp v a).spl = W.spl := rfl
@[simp] theorem setApp_mv (W : World) (v : Nat) (a : AState) : (W.setApp v a).mv = W.mv := rfl
@[simp] theorem setApp_next (W : World) (v : Nat) (a : AState) : (W.setApp v a).next = W.next := rfl
@[simp] theorem setSpl_app (W : World) (s : Nat) (x : SState) : (W.setSpl s x).app = W.app := rfl
@[simp] theorem setSpl_spl (W : World) (s : Nat) (x : SState) (t : Nat) :
    (W.setSpl s x).spl t = if t = s then x else W.spl t := rfl
@[simp] theorem setSpl_mv (W : World) (s : Nat) (x : SState) : (W.setSpl s x).mv = W.mv := rfl
@[simp] theorem setSpl_next (W : World) (s : Nat) (x : SState) : (W.setSpl s x).next = W.next := rfl
@[simp] theorem setMv_app (W : World) (m : Nat) (x : MV) : (W.setMv m x).app = W.app := rfl
@[simp] theorem setMv_spl (W : World) (m : Nat) (x : MV) : (W.setMv m x).spl = W.spl := rfl
@[simp] theorem setMv_mv (W : World) (m : Nat) (x : MV) (k : Nat) :
    (W.setMv m x).mv k = if k = m then x else W.mv k := rfl
@[simp] theorem setMv_next (W : World) (m : Nat) (x : MV) : (W.setMv m x).next = W.next := rfl
@[simp] theorem alloc_app (W : World) (x : MV) : (W.alloc x).app = W.app := rfl
@[simp] theorem alloc_spl (W : World) (x : MV) : (W.alloc x).spl = W.spl := rfl
@[simp] theorem alloc_mv (W : World) (x : MV) (k : Nat) :
    (W.alloc x).mv k = if k = W.next then x else W.mv k := rfl
@[simp] theorem alloc_next (W : World) (x : MV) : (W.alloc x).next = W.next + 1 := rfl

/-- No splitter and no governed vertex is changed. -/
def Keeps (W W' : World) : Prop :=
  (∀ v, (W'.app v).splitter = (W.app v).splitter) ∧ (∀ s, (W'.spl s).governed = (W.spl s).governed)

theorem Keeps.refl (W : World) : Keeps W W := ⟨fun _ => rfl, fun _ => rfl⟩

theorem Keeps.trans {A B C : World} (h : Keeps A B) (k : Keeps B C) : Keeps A C :=
  ⟨fun v => (k.1 v).trans (h.1 v), fun s => (k.2 s).trans (h.2 s)⟩

theorem Keeps.linked {W W' : World} (h : Keeps W W') (hl : Linked W) : Linked W' := by
  intro v s
  rw [h.1, h.2]
  exact hl v s

theorem keeps_setApp {W : World} {v : Nat} {a : AState} (h : a.splitter = (W.app v).splitter) :
    Keeps W (W.setApp v a) := by
  refine ⟨fun u => ?_, fun _ => rfl⟩
  simp only [setApp_app]
  split
  · rename_i hu; rw [hu]; exact h
  · rfl

theorem keeps_setSpl {W : World} {s : Nat} {x : SState} (h : x.governed = (W.spl s).governed) :
    Keeps W (W.setSpl s x) := by
  refine ⟨fun _ => rfl, fun u => ?_⟩
  simp only [setSpl_spl]
  split
  · rename_i hu; rw [hu]; exact h
  · rfl

theorem keeps_alloc (W : World) (x : MV) : Keeps W (W.alloc x) := ⟨fun _ => rfl, fun _ => rfl⟩
theorem keeps_setMv (W : World) (m : Nat) (x : MV) : Keeps W (W.setMv m x) := ⟨fun _ => rfl, fun _ => rfl⟩

theorem keeps_remember (E : Env) (W : World) (v m : Nat) : Keeps W (remember E W v m).1 := by
  unfold remember
  split
  · split <;> exact .refl _
  · exact (keeps_setMv W m _).trans (keeps_setApp rfl)

theorem keeps_makeOne (E : Env) (W : World) (s v : Nat) : Keeps W (makeOne E W s v).1 := by
  unfold makeOne
  split
  · exact .refl _
  · dsimp only
    refine Keeps.trans ?_ (keeps_remember E _ v _)
    exact Keeps.trans (B := W.alloc _) (keeps_alloc W _) (keeps_setSpl rfl)

theorem keeps_addIn (E : Env) (d : DevKind) (s v : Nat) (js : List (Nat × Nat)) :
    ∀ W, Keeps W (addIn E d s v W js).1 := by
  induction js with
  | nil => intro W; exact .refl _
  | cons j js ih =>
    intro W
    unfold addIn
    split
    · exact .refl _
    · dsimp only
      refine Keeps.trans ?_ (ih _)
      exact Keeps.trans (B := W.alloc _) (keeps_alloc W _) (keeps_setSpl rfl)

theorem keeps_addOut (E : Env) (d : DevKind) (s v : Nat) (W : World) : Keeps W (addOut E d s v W).1 := by
  unfold addOut
  split
  · exact .refl _
  · split
    · exact .refl _
    · exact (keeps_alloc W _).trans (keeps_setSpl rfl)

theorem keeps_makeDevice (E : Env) (W : World) (s v : Nat) : Keeps W (makeDevice E W s v).1 := by
  unfold makeDevice
  split
  · exact keeps_setSpl rfl
  · rename_i d hd
    dsimp only
    have h1 := keeps_addIn E d s v d.jobs (W.setSpl s { W.spl s with inV := [], inS := [], outV := none, outS := none })
    split
    · rename_i hx
      rw [hx] at h1
      refine Keeps.trans ?_ h1
      exact keeps_setSpl rfl
    · rename_i hx
      rw [hx] at h1
      refine Keeps.trans (Keeps.trans ?_ h1) (keeps_addOut E d s v _)
      exact keeps_setSpl rfl

theorem keeps_resetCalled (E : Env) (W : World) (s : Nat) : Keeps W (resetCalled E W s) := by
  unfold resetCalled
  split
  · exact keeps_setSpl rfl
  · exact .refl _

theorem keeps_resetSplitter (E : Env) (W : World) (v : Nat) : Keeps W (resetSplitter E W v) := by
  unfold resetSplitter
  split
  · exact .refl _
  · exact keeps_resetCalled E W _

theorem keeps_reset (E : Env) (W : World) (v : Nat) : Keeps W (reset E W v) := by
  unfold reset
  split
  · exact keeps_resetSplitter E W v
  · refine Keeps.trans ?_ (keeps_resetSplitter E _ v)
    exact keeps_setApp rfl

theorem keeps_foldl {f : World → Nat → World} (h : ∀ W v, Keeps W (f W v)) (vs : List Nat) :
    ∀ W, Keeps W (vs.foldl f W) := by
  induction vs with
  | nil => intro W; exact .refl _
  | cons v vs ih => intro W; exact (h W v).trans (ih _)

theorem keeps_setMax (E : Env) (W : World) (v : Nat) (m : Option (List Nat)) : Keeps W (setMax E W v m).1 :=
  keeps_setApp rfl

theorem keeps_fixedSlices (E : Env) (W : World) (s : Nat) : Keeps W (fixedSlices E W s).1 := by
  unfold fixedSlices
  split
  · exact .refl _
  · split
    · exact .refl _
    · split
      · exact .refl _
      · rename_i hg _ _ _
        exact keeps_setSpl rfl

theorem keeps_fixedLoop (E : Env) (v : Nat) (ss : List Slice) :
    ∀ W c, Keeps W (fixedLoop E v W c ss).1.1 := by
  induction ss with
  | nil => intro W c; exact .refl _
  | cons sl ss ih =>
    intro W c
    unfold fixedLoop
    have h := keeps_remember E (W.alloc ⟨sl, (E.app v).sdramOf sl, v, 0, none⟩) v W.next
    simp only
    split
    · rename_i hx
      rw [hx] at h
      exact (keeps_alloc W _).trans h
    · rename_i hx
      rw [hx] at h
      exact ((keeps_alloc W _).trans h).trans (ih _ _)

theorem keeps_deviceLoop (E : Env) (v : Nat) (ms : List Nat) :
    ∀ W c, Keeps W (deviceLoop E v W c ms).1.1 := by
  induction ms with
  | nil => intro W c; exact .refl _
  | cons m ms ih =>
    intro W c
    unfold deviceLoop
    have h := keeps_remember E W v m
    split
    · rename_i hx
      rw [hx] at h
      exact h
    · rename_i hx
      rw [hx] at h
      exact h.trans (ih _ _)

theorem keeps_create (E : Env) (W : World) (c : Counter) (s : Nat) : Keeps W (create E W c s).1.1 := by
  unfold create
  split
  · split
    · exact .refl _
    · have h := keeps_fixedSlices E W s
      split
      · rename_i hx
        rw [hx] at h
        exact h
      · rename_i hx
        rw [hx] at h
        exact h.trans (keeps_fixedLoop E _ _ _ _)
  · split <;> exact .refl _
  · split
    · exact .refl _
    · split <;> exact .refl _
  · split
    · exact .refl _
    · exact keeps_deviceLoop E _ _ _ _

theorem keeps_partitionLoop (E : Env) (vs : List Nat) : ∀ W c, Keeps W (partitionLoop E W c vs).1.1 := by
  induction vs with
  | nil => intro W c; exact .refl _
  | cons v vs ih =>
    intro W c
    unfold partitionLoop
    split
    · exact .refl _
    · rename_i s hs
      have h := keeps_create E W c s
      split
      · rename_i hx
        rw [hx] at h
        exact h
      · rename_i hx
        rw [hx] at h
        exact h.trans (ih _ _)

theorem partition_world (E : Env) (W : World) (a b : Int) (vs : List Nat) :
    (partition E W a b vs).1 = (partitionLoop E W (Counter.new a b) vs).1.1 := by
  unfold partition
  split <;> rename_i hx <;> rw [hx]

theorem keeps_partition (E : Env) (W : World) (a b : Int) (vs : List Nat) : Keeps W (partition E W a b vs).1 := by
  rw [partition_world]
  exact keeps_partitionLoop E vs W _

theorem keeps_outSlices (E : Env) (W : World) (s : Nat) : Keeps W (outSlices E W s).1 := by
  unfold outSlices
  split
  · exact keeps_fixedSlices E W s
  · split <;> exact .refl _
  · exact .refl _
  · exact .refl _

theorem keeps_inSlices (E : Env) (W : World) (s : Nat) : Keeps W (inSlices E W s).1 := by
  unfold inSlices
  split
  · exact .refl _
  · exact keeps_outSlices E W s

/-! ### Setting splitters -/

/-- What is added to the state once the vertex and the splitter know each other. -/
def finish (E : Env) (W : World) (s v : Nat) : World × Except PyErr Unit :=
  match E.kind s with
  | .oneToOne => makeOne E W s v
  | .external => makeDevice E W s v
  | _ => (W, .ok ())

/-- The splitter takes vertices of this class. -/
def takes (E : Env) (s v : Nat) : Bool :=
  match E.kind s with
  | .fixed | .oneToOne => (E.app v).legacy
  | .oneApp => (E.app v).single.isSome
  | .external => true

theorem keeps_finish (E : Env) (W : World) (s v : Nat) : Keeps W (finish E W s v).1 := by
  unfold finish
  split
  · exact keeps_makeOne E W s v
  · exact keeps_makeDevice E W s v
  · exact .refl _

theorem setGovernedWith_eq (E : Env) (again : World → World × Except PyErr Unit) (W : World) (s v : Nat) :
    setGovernedWith E again W s v =
      if takes E s v then
        match govern again W s v with
        | (W1, .error e) => (W1, .error e)
        | (W1, .ok ()) => finish E W1 s v
      else (W, .error .configuration) := by
  unfold setGovernedWith takes finish
  cases hk : E.kind s with
  | fixed =>
    simp only
    split
    · split <;> rename_i hx <;> rw [hx]
    · rfl
  | oneToOne => rfl
  | oneApp =>
    simp only
    split
    · split <;> rename_i hx <;> rw [hx]
    · rfl
  | external => rfl

/-- The vertex has the splitter. -/
def World.tie (W : World) (v s : Nat) : World := W.setApp v { W.app v with splitter := some s }

/-- The splitter governs the vertex. -/
def World.rule (W : World) (s v : Nat) : World := W.setSpl s { W.spl s with governed := some v }

@[simp] theorem tie_splitter (W : World) (v s u : Nat) :
    ((W.tie v s).app u).splitter = if u = v then some s else (W.app u).splitter := by
  unfold World.tie
  simp only [setApp_app]
  split <;> rfl

@[simp] theorem tie_spl (W : World) (v s : Nat) : (W.tie v s).spl = W.spl := rfl

@[simp] theorem rule_governed (W : World) (s v t : Nat) :
    ((W.rule s v).spl t).governed = if t = s then some v else (W.spl t).governed := by
  unfold World.rule
  simp only [setSpl_spl]
  split <;> rfl

@[simp] theorem rule_app (W : World) (s v : Nat) : (W.rule s v).app = W.app := rfl

/-- A vertex that has the splitter already. -/
theorem setSplitterN_same {E : Env} {W : World} {v s : Nat} (h : (W.app v).splitter = some s) (f : Nat) :
    setSplitterN E (f + 1) W v s = (W, .ok ()) := by
  unfold setSplitterN
  rw [h]
  exact if_pos rfl

theorem setSplitterN_other {E : Env} {W : World} {v s t : Nat} (h : (W.app v).splitter = some t) (hne : t ≠ s)
    (f : Nat) : setSplitterN E (f + 1) W v s = (W, .error .configuration) := by
  unfold setSplitterN
  rw [h]
  exact if_neg hne

/-- A vertex without a splitter. -/
theorem setSplitterN_none {E : Env} {W : World} {v s : Nat} (h : (W.app v).splitter = none) (f : Nat) :
    setSplitterN E (f + 2) W v s =
      if takes E s v then
        match (W.spl s).governed with
        | some u => if u = v then finish E (W.tie v s) s v else (W.tie v s, .error .configuration)
        | none => finish E ((W.tie v s).rule s v) s v
      else (W.tie v s, .error .configuration) := by
  rw [setSplitterN, h]
  simp only
  rw [setGovernedWith_eq]
  change (if takes E s v = true then
      match govern (fun W1 => setSplitterN E (f + 1) W1 v s) (W.tie v s) s v with
        | (W1, .error e) => (W1, .error e)
        | (W1, .ok ()) => finish E W1 s v
      else (W.tie v s, (.error .configuration : Except PyErr Unit))) = _
  split
  · unfold govern
    rw [tie_spl]
    cases hg : (W.spl s).governed with
    | some u =>
      simp only
      by_cases hu : u = v
      · rw [if_pos hu, if_pos hu]
      · rw [if_neg hu, if_neg hu]
    | none =>
      simp only
      change (match setSplitterN E (f + 1) ((W.tie v s).rule s v) v s with
        | (W1, .error e) => (W1, (.error e : Except PyErr Unit))
        | (W1, .ok ()) => finish E W1 s v) = _
      rw [setSplitterN_same (by simp)]
  · rfl

theorem setGoverned_eq (E : Env) (W : World) (s v : Nat) :
    setGoverned E W s v =
      if takes E s v then
        match (W.spl s).governed with
        | some u => if u = v then finish E W s v else (W, .error .configuration)
        | none =>
          match (W.app v).splitter with
          | some t => if t = s then finish E (W.rule s v) s v else (W.rule s v, .error .configuration)
          | none =>
            match finish E ((W.rule s v).tie v s) s v with
            | (W1, .error e) => (W1, .error e)
            | (W1, .ok ()) => finish E W1 s v
      else (W, .error .configuration) := by
  unfold setGoverned
  rw [setGovernedWith_eq]
  split
  · rename_i ht
    unfold govern
    cases hg : (W.spl s).governed with
    | some u =>
      simp only
      by_cases hu : u = v
      · rw [if_pos hu, if_pos hu]
      · rw [if_neg hu, if_neg hu]
    | none =>
      simp only
      change (match setSplitterN E 2 (W.rule s v) v s with
        | (W1, .error e) => (W1, (.error e : Except PyErr Unit))
        | (W1, .ok ()) => finish E W1 s v) = _
      cases hs : (W.app v).splitter with
      | some t =>
        simp only
        by_cases h : t = s
        · subst h
          rw [setSplitterN_same (W := W.rule t v) hs, if_pos rfl]
        · rw [setSplitterN_other (W := W.rule s v) hs h, if_neg h]
      | none =>
        rw [setSplitterN_none (W := W.rule s v) hs, if_pos ht]
        simp only [rule_governed, if_true]
  · rfl

end Pacman.Split
