import Verif.Props.SplitterSlices
import Verif.Props.SplitterMax
import Verif.Spec.PartitionSucceeds
/-
When the partitioner returns: lemmas.
-/

namespace Pacman.Split

open Slices (Slice mkSlice multiSlices singleSlices maxAtoms maxPerDim checkAtoms)
open Counter (Counter)

/-! ### Slices -/

theorem checkAtoms_valid {shape m : List Nat} (hv : Slices.Vertex.Valid ⟨shape, some m⟩) (hl : shape.length = 1) :
    checkAtoms shape m = .ok () := by
  have := (hv.2 m rfl).1
  simp only at this
  unfold checkAtoms
  rw [if_neg (by omega), if_neg (by omega)]

theorem multi_ok {v : Slices.Vertex} (hv : v.Valid) : ∃ ss, multiSlices v = .ok ss := by
  obtain ⟨shape, maxPer⟩ := v
  by_cases hl : shape.length = 1
  · obtain ⟨n, rfl⟩ : ∃ n, shape = [n] := by
      cases shape with
      | nil => cases hl
      | cons n r =>
        simp only [List.length_cons, Nat.add_eq_right, List.length_eq_zero_iff] at hl
        exact ⟨n, by rw [hl]⟩
    have hn : 0 < n := hv.1 n List.mem_cons_self
    cases maxPer with
    | none =>
      obtain ⟨ss, h, -⟩ := Slices.C43_slices_tile n n hn hn
      refine ⟨ss, ?_⟩
      rw [← h]
      unfold multiSlices singleSlices
      simp [maxPerDim, maxAtoms, checkAtoms, Except.map, bind, Except.bind, Slices.Vertex.nAtoms]
    | some m =>
      obtain ⟨h1, h2, -⟩ := hv.2 m rfl
      obtain ⟨k, rfl⟩ : ∃ k, m = [k] := by
        cases m with
        | nil => cases h1
        | cons k r =>
          simp only [List.length_cons, List.length_nil, Nat.zero_add, Nat.add_eq_right, List.length_eq_zero_iff] at h1
          exact ⟨k, by rw [h1]⟩
      obtain ⟨ss, h, -⟩ := Slices.C43_slices_tile n k hn (h2 k List.mem_cons_self)
      refine ⟨ss, ?_⟩
      rw [← h]
      unfold multiSlices
      simp [maxPerDim, checkAtoms, Except.map, bind, Except.bind]
  · obtain ⟨ss, h, -⟩ := Slices.C44_slices_tile hv hl
    exact ⟨ss, h⟩

/-! ### The classes that splitters take -/

/-- A `SplitterOneAppOneMachine` governs only vertices with one machine vertex. -/
def Apt (E : Env) (W : World) : Prop :=
  ∀ s v, E.kind s = .oneApp → (W.spl s).governed = some v → (E.app v).single ≠ none

theorem Keeps.apt {E : Env} {W W' : World} (h : Keeps W W') (ha : Apt E W) : Apt E W' := by
  intro s v hk hg
  rw [h.2 s] at hg
  exact ha s v hk hg

theorem apt_tie {E : Env} {W : World} (ha : Apt E W) (v s : Nat) : Apt E (W.tie v s) := ha

theorem apt_rule {E : Env} {W : World} (ha : Apt E W) {s v : Nat} (ht : takes E s v = true) : Apt E (W.rule s v) := by
  intro t u hk hg
  rw [rule_governed] at hg
  split at hg
  · rename_i hts
    subst hts
    cases hg
    unfold takes at ht
    rw [hk] at ht
    simp only at ht
    intro h0
    rw [h0] at ht
    cases ht
  · exact ha t u hk hg

theorem apt_setSplitter {E : Env} {W : World} (ha : Apt E W) (v s : Nat) : Apt E (setSplitter E W v s).1 := by
  unfold setSplitter
  cases hv : (W.app v).splitter with
  | some t =>
    by_cases ht : t = s
    · subst ht
      rw [setSplitterN_same hv]
      exact ha
    · rw [setSplitterN_other hv ht]
      exact ha
  | none =>
    rw [setSplitterN_none hv]
    split
    · rename_i ht
      cases hg : (W.spl s).governed with
      | some u =>
        simp only
        split
        · exact (keeps_finish E _ s v).apt (apt_tie ha v s)
        · exact apt_tie ha v s
      | none => exact (keeps_finish E _ s v).apt (apt_rule (apt_tie ha v s) ht)
    · exact apt_tie ha v s

theorem apt_setGoverned {E : Env} {W : World} (ha : Apt E W) (s v : Nat) : Apt E (setGoverned E W s v).1 := by
  rw [setGoverned_eq]
  split
  · rename_i ht
    cases hg : (W.spl s).governed with
    | some u =>
      simp only
      split
      · exact (keeps_finish E _ s v).apt ha
      · exact ha
    | none =>
      simp only
      cases hv : (W.app v).splitter with
      | some t =>
        simp only
        split
        · exact (keeps_finish E _ s v).apt (apt_rule ha ht)
        · exact apt_rule ha ht
      | none =>
        simp only
        have h2 := (keeps_finish E ((W.rule s v).tie v s) s v).apt (apt_tie (apt_rule ha ht) v s)
        split
        · rename_i hx
          rw [hx] at h2
          exact h2
        · rename_i hx
          rw [hx] at h2
          exact (keeps_finish E _ s v).apt h2
  · exact ha

theorem apt_step {E : Env} {W : World} (ha : Apt E W) (o : Op) : Apt E (step E W o).1 := by
  cases o with
  | setSplitter v s => exact apt_setSplitter ha v s
  | setGoverned s v => exact apt_setGoverned ha s v
  | reset v => exact (keeps_step E W (.reset v) (by simp) (by simp)).apt ha
  | splitterReset vs => exact (keeps_step E W (.splitterReset vs) (by simp) (by simp)).apt ha
  | setMax v m => exact (keeps_step E W (.setMax v m) (by simp) (by simp)).apt ha
  | outSlices s => exact (keeps_step E W (.outSlices s) (by simp) (by simp)).apt ha
  | inSlices s => exact (keeps_step E W (.inSlices s) (by simp) (by simp)).apt ha
  | partition vs => exact (keeps_step E W (.partition vs) (by simp) (by simp)).apt ha

theorem apt_run {E : Env} (os : List Op) : ∀ {W : World}, Apt E W → Apt E (run E W os) := by
  induction os with
  | nil => intro W h; exact h
  | cons o os ih => intro W h; exact ih (apt_step h o)

theorem apt_new (E : Env) (mp : Nat → Option (List Nat)) (mv : Nat → MV) (next : Nat) : Apt E (World.new E mp mv next) := by
  intro s v _ hg
  cases hg

/-! ### The loop -/

theorem deviceLoop_returns {E : Env} {v : Nat} (hv : (E.app v).single = none) (ms : List Nat) : ∀ (W : World) (c : Counter),
    ∃ W' c', deviceLoop E v W c ms = ((W', c'), .ok ()) := by
  induction ms with
  | nil => intro W c; exact ⟨W, c, rfl⟩
  | cons m ms ih =>
    intro W c
    have h : (remember E W v m).2 = .ok () := by
      unfold remember
      rw [hv]
    unfold deviceLoop
    cases hr : remember E W v m with
    | mk W1 r =>
      rw [hr] at h
      simp only at h
      subst h
      exact ih _ _

/-- What `create_machine_vertices` needs of a vertex and its splitter. -/
def Fits (E : Env) (v : Nat) (a : AState) (s : Nat) (x : SState) : Prop :=
  match E.kind s with
  | .fixed => (E.app v).single = none ∧ Slices.Vertex.Valid ⟨(E.app v).shape, a.maxPer⟩
  | .oneToOne => x.one ≠ none
  | .oneApp => True
  | .external => ∀ m, (E.app v).single = some m → ∀ k ∈ x.inV ++ x.outV.toList, k = m

theorem deviceLoop_iff {E : Env} {v : Nat} (ms : List Nat) : ∀ (W : World) (c : Counter),
    (∃ W' c', deviceLoop E v W c ms = ((W', c'), .ok ())) ↔ ∀ m, (E.app v).single = some m → ∀ k ∈ ms, k = m := by
  cases hs : (E.app v).single with
  | none =>
    intro W c
    exact ⟨fun _ m h => (by cases h), fun _ => deviceLoop_returns hs ms W c⟩
  | some m =>
    induction ms with
    | nil => intro W c; exact ⟨fun _ _ _ k hk => (by cases hk), fun _ => ⟨W, c, rfl⟩⟩
    | cons k ms ih =>
      intro W c
      unfold deviceLoop
      unfold remember
      rw [hs]
      by_cases hk : k = m
      · simp only [if_pos hk]
        rw [ih]
        refine ⟨fun h m' hm' k' hk' => ?_, fun h m' hm' k' hk' => h m' hm' k' (List.mem_cons_of_mem _ hk')⟩
        rcases List.mem_cons.1 hk' with rfl | hk'
        · cases hm'; exact hk
        · exact h m' hm' k' hk'
      · simp only [if_neg hk]
        refine ⟨fun ⟨_, _, h⟩ => ?_, fun h => absurd (h m rfl k List.mem_cons_self) hk⟩
        injection h with _ h
        cases h

theorem create_iff {E : Env} {W : World} {c : Counter} {v s : Nat} (hW : Sound E W) (hg : (W.spl s).governed = some v)
    (ha : Apt E W) (hc : E.kind s = .fixed → (W.spl s).slices = none) :
    (∃ W' c', create E W c s = ((W', c'), .ok ())) ↔ Fits E v (W.app v) s (W.spl s) := by
  unfold create Fits
  cases hk : E.kind s with
  | oneToOne =>
    simp only
    cases ho : (W.spl s).one with
    | none => exact ⟨fun ⟨_, _, h⟩ => (by injection h with _ h; cases h), fun h => absurd rfl h⟩
    | some x => exact ⟨fun _ => (by simp), fun _ => ⟨_, _, rfl⟩⟩
  | oneApp =>
    simp only [hg]
    cases hs : (E.app v).single with
    | none => exact absurd hs (ha s v hk hg)
    | some m => exact ⟨fun _ => trivial, fun _ => ⟨_, _, rfl⟩⟩
  | external =>
    simp only [hg]
    exact deviceLoop_iff _ W c
  | fixed =>
    simp only [hg]
    have hf : fixedSlices E W s = match multiSlices ⟨(E.app v).shape, (W.app v).maxPer⟩ with
        | .error e => (W, .error e)
        | .ok ss => (W.setSpl s { W.spl s with slices := some ss }, .ok ss) := by
      unfold fixedSlices
      rw [hc hk, hg]
      rfl
    have hS := sound_fixedSlices hW s
    rw [hf] at hS ⊢
    cases hm : multiSlices ⟨(E.app v).shape, (W.app v).maxPer⟩ with
    | error e =>
      simp only
      refine ⟨fun ⟨_, _, h⟩ => (by injection h with _ h; cases h), fun h => ?_⟩
      obtain ⟨ss, hss⟩ := multi_ok h.2
      rw [hm] at hss
      cases hss
    | ok ss =>
      rw [hm] at hS
      simp only at hS ⊢
      have hval := Slices.C44_only_valid hm
      cases hs : (E.app v).single with
      | none =>
        obtain ⟨W', h1, -⟩ := fixedLoop_ok (E := E) hs ss (c := c) hS
        exact ⟨fun _ => ⟨rfl, hval⟩, fun _ => ⟨_, _, h1⟩⟩
      | some m =>
        refine ⟨fun ⟨_, _, h⟩ => ?_, fun h => by cases h.1⟩
        have hss : ss ≠ [] := by
          intro h0
          subst h0
          have h1 := (multi_tile hm).1.length_eq
          simp only [List.flatMap_nil, List.length_nil, List.length_range] at h1
          exact Nat.lt_irrefl 0 (h1 ▸ Slices.prod_pos hval.1 : 0 < 0)
        cases ss with
        | nil => exact absurd rfl hss
        | cons sl ss =>
          have hne : W.next ≠ m := by
            have h1 := hW.bound v m (by rw [hW.sing v m hs]; exact List.mem_cons_self)
            omega
          have hr : ∀ X : World, remember E X v W.next = (X, .error .assertion) := by
            intro X
            unfold remember
            rw [hs]
            simp only [if_neg hne]
          unfold fixedLoop at h
          dsimp only at h
          rw [setSpl_next, hr] at h
          injection h with _ h
          cases h

theorem partitionLoop_iff {E : Env} (vs : List Nat) : ∀ {W : World} {c : Counter}, vs.Nodup → Sound E W → Linked W →
    Apt E W → (∀ v ∈ vs, ∀ s, (W.app v).splitter = some s → E.kind s = .fixed → (W.spl s).slices = none) →
    ((∃ W' c', partitionLoop E W c vs = ((W', c'), .ok ())) ↔
      ∀ v ∈ vs, ∃ s, (W.app v).splitter = some s ∧ Fits E v (W.app v) s (W.spl s)) := by
  induction vs with
  | nil => intro W c _ _ _ _ _; exact ⟨fun _ v hv => (by cases hv), fun _ => ⟨W, c, rfl⟩⟩
  | cons v vs ih =>
    intro W c hn hW hL ha hc
    rw [List.nodup_cons] at hn
    unfold partitionLoop
    cases hs : (W.app v).splitter with
    | none =>
      simp only
      refine ⟨fun ⟨_, _, h⟩ => (by injection h with _ h; cases h), fun h => ?_⟩
      obtain ⟨s, h1, -⟩ := h v List.mem_cons_self
      rw [hs] at h1
      cases h1
    | some s =>
      have hg := (hL v s).1 hs
      have hi := create_iff (c := c) hW hg ha (hc v List.mem_cons_self s hs)
      have hS1 := sound_create hW c s
      have hK1 := keeps_create E W c s
      simp only
      cases h1 : create E W c s with
      | mk p r =>
        obtain ⟨W1, c1⟩ := p
        rw [h1] at hi hS1 hK1
        cases r with
        | error e =>
          simp only
          refine ⟨fun ⟨_, _, h⟩ => (by injection h with _ h; cases h), fun h => ?_⟩
          obtain ⟨s', h2, h3⟩ := h v List.mem_cons_self
          rw [hs] at h2
          cases h2
          obtain ⟨_, _, h4⟩ := hi.2 h3
          injection h4 with _ h4
          cases h4
        | ok u =>
          simp only at hS1 hK1 ⊢
          have hoff : ∀ u ∈ vs, ∀ t, (W.app u).splitter = some t → Off W W1 u t := by
            intro u hu t ht
            have huv : u ≠ v := fun h0 => hn.1 (h0 ▸ hu)
            have hts : t ≠ s := by
              intro h0
              rw [h0] at ht
              have h2 := (hL u s).1 ht
              rw [hg] at h2
              exact huv (Option.some.inj h2).symm
            have ho := off_create (E := E) (c := c) hg huv hts
            rw [h1] at ho
            exact ho
          rw [ih hn.2 hS1 (hK1.linked hL) (hK1.apt ha) ?_]
          · constructor
            · intro h u hu
              rcases List.mem_cons.1 hu with rfl | hu
              · exact ⟨s, hs, hi.1 ⟨_, _, rfl⟩⟩
              · obtain ⟨t, ht, hf⟩ := h u hu
                rw [hK1.1 u] at ht
                have ho := hoff u hu t ht
                rw [ho.app, ho.spl] at hf
                exact ⟨t, ht, hf⟩
            · intro h u hu
              obtain ⟨t, ht, hf⟩ := h u (List.mem_cons_of_mem _ hu)
              have ho := hoff u hu t ht
              exact ⟨t, (hK1.1 u).trans ht, by rw [ho.app, ho.spl]; exact hf⟩
          · intro u hu t ht
            rw [hK1.1 u] at ht
            rw [(hoff u hu t ht).spl]
            exact hc u (List.mem_cons_of_mem _ hu) t ht

theorem resetGraph_maxPer (E : Env) (W : World) (vs : List Nat) (v : Nat) :
    ((resetGraph E W vs).app v).maxPer = (W.app v).maxPer := by
  rw [resetGraph_app]
  split <;> rfl

theorem partitionLoop_splitters {E : Env} (vs : List Nat) : ∀ {W W' : World} {c c' : Counter},
    partitionLoop E W c vs = ((W', c'), .ok ()) → ∀ v ∈ vs, ∃ s, (W.app v).splitter = some s := by
  induction vs with
  | nil => intro W W' c c' _ v hv; cases hv
  | cons u vs ih =>
    intro W W' c c' h v hv
    unfold partitionLoop at h
    split at h
    · injection h with _ h; cases h
    · rename_i t ht
      split at h
      · injection h with _ h; cases h
      · rename_i W1 c1 hx
        rcases List.mem_cons.1 hv with rfl | hv
        · exact ⟨t, ht⟩
        · obtain ⟨s, hs⟩ := ih h v hv
          have := (keeps_create E W c t).1 v
          rw [hx] at this
          exact ⟨s, this.symm.trans hs⟩

/-! ### The links of machine vertices: new ones have none -/

theorem remember_dev {E : Env} {W : World} (v m k : Nat) : ((remember E W v m).1.mv k).dev = (W.mv k).dev := by
  unfold remember
  split
  · split <;> rfl
  · simp only [setApp_mv, setMv_mv]
    split
    · rename_i h; rw [h]
    · rfl

theorem fixedLoop_dev {P : Option (Nat × Bool) → Prop} (h0 : P none) {E : Env} {v : Nat} (ss : List Slice) : ∀ {W : World} {c : Counter}, (∀ m, P (W.mv m).dev) →
    ∀ m, P ((fixedLoop E v W c ss).1.1.mv m).dev := by
  induction ss with
  | nil => intro W c h; exact h
  | cons sl ss ih =>
    intro W c h
    have h1 : ∀ m, P ((remember E (W.alloc ⟨sl, (E.app v).sdramOf sl, v, 0, none⟩) v W.next).1.mv m).dev := by
      intro m
      rw [remember_dev]
      unfold World.alloc
      simp only [setMv_mv]
      split
      · exact h0
      · exact h m
    unfold fixedLoop
    dsimp only
    split
    · rename_i hx; rw [hx] at h1; exact h1
    · rename_i hx; rw [hx] at h1; exact ih h1

theorem deviceLoop_dev {P : Option (Nat × Bool) → Prop} {E : Env} {v : Nat} (ms : List Nat) : ∀ {W : World} {c : Counter}, (∀ m, P (W.mv m).dev) →
    ∀ m, P ((deviceLoop E v W c ms).1.1.mv m).dev := by
  induction ms with
  | nil => intro W c h; exact h
  | cons k ms ih =>
    intro W c h
    have h1 : ∀ m, P ((remember E W v k).1.mv m).dev := fun m => by rw [remember_dev]; exact h m
    unfold deviceLoop
    split
    · rename_i hx; rw [hx] at h1; exact h1
    · rename_i hx; rw [hx] at h1; exact ih h1

theorem create_dev {P : Option (Nat × Bool) → Prop} (h0 : P none) {E : Env} {W : World} {c : Counter} {s : Nat} (h : ∀ m, P (W.mv m).dev) :
    ∀ m, P ((create E W c s).1.1.mv m).dev := by
  have hf : ∀ m, P ((fixedSlices E W s).1.mv m).dev := by
    unfold fixedSlices
    split
    · exact h
    · split
      · exact h
      · split <;> exact h
  unfold create
  split
  · split
    · exact h
    · split
      · rename_i hx; rw [hx] at hf; exact hf
      · rename_i hx; rw [hx] at hf; exact fixedLoop_dev h0 _ hf
  · split <;> exact h
  · split
    · exact h
    · split <;> exact h
  · split
    · exact h
    · exact deviceLoop_dev _ h

theorem partitionLoop_dev {P : Option (Nat × Bool) → Prop} (h0 : P none) {E : Env} (vs : List Nat) : ∀ {W : World} {c : Counter}, (∀ m, P (W.mv m).dev) →
    ∀ m, P ((partitionLoop E W c vs).1.1.mv m).dev := by
  induction vs with
  | nil => intro W c h; exact h
  | cons v vs ih =>
    intro W c h
    unfold partitionLoop
    split
    · exact h
    · rename_i s hs
      have h1 := create_dev h0 (E := E) (c := c) (s := s) h
      split
      · rename_i hx; rw [hx] at h1; exact h1
      · rename_i hx; rw [hx] at h1; exact ih h1

end Pacman.Split
