import Verif.Proofs.Validation
/-
Lemmas about the trace of the route checker.
-/

namespace Pacman.Valid

open Alloc (VId)
open RPath (XY)

/-! ### What the trace follows -/

/-- The entry found on a chip. -/
def Found (V : Scene) (key : Word) (n : Nat) (c : XY) (e : Entry) : Prop :=
  ∃ t, V.tables.get? c = some t ∧ locate t key n = .ok e

theorem Found.unique {V : Scene} {key : Word} {n : Nat} {c : XY} {e e' : Entry}
    (h : Found V key n c e) (h' : Found V key n c e') : e = e' := by
  obtain ⟨t, h1, h2⟩ := h
  obtain ⟨t', h3, h4⟩ := h'
  rw [h1] at h3
  cases h3
  rw [h2] at h4
  cases h4
  rfl

/-- A step of the trace. -/
def HopBy (V : Scene) (key : Word) (n : Nat) (c : XY) (l : Nat) (d : XY) : Prop :=
  (∃ e, Found V key n c e ∧ l ∈ linksOf e) ∧ V.link c l = some d ∧ (V.tables.get? d).isSome = true

/-- Some steps of the trace. -/
inductive Steps (V : Scene) (key : Word) (n : Nat) (c : XY) : List Nat → XY → Prop
  | start : Steps V key n c [] c
  | hop {w : List Nat} {x d : XY} {l : Nat} : Steps V key n c w x → HopBy V key n x l d →
      Steps V key n c (l :: w) d

theorem Steps.trans {V : Scene} {key : Word} {n : Nat} {c d x : XY} {w w' : List Nat}
    (h : Steps V key n c w d) (h' : Steps V key n d w' x) : Steps V key n c (w' ++ w) x := by
  induction h' with
  | start => exact h
  | hop _ hh ih => exact .hop ih hh

/-- A step: from, over, to. -/
abbrev Hop := XY × Nat × XY

/-- What has happened between two states: the steps `new` were made, from `c` over `ls` and on. -/
structure Grown (V : Scene) (key : Word) (n : Nat) (c : XY) (ls : List Nat) (st st' : Trace)
    (new : List Hop) : Prop where
  visited : st'.visited = st.visited ++ new.map (·.2.2)
  nodup : st.visited.Nodup → st'.visited.Nodup
  hops : ∀ t ∈ new, HopBy V key n t.1 t.2.1 t.2.2
  closed : ∀ t ∈ new, ∀ l d, HopBy V key n t.2.2 l d → (t.2.2, l, d) ∈ new
  first : ∀ l ∈ ls, ∀ d, V.link c l = some d → (V.tables.get? d).isSome = true → (c, l, d) ∈ new
  ways : ∀ t ∈ new, ∃ w, Steps V key n c w t.2.2
  found : ∀ t ∈ new, ∃ e, Found V key n t.2.2 e
  reached : ∀ x p, (x, p) ∈ st'.reached ↔ (x, p) ∈ st.reached ∨
    ∃ t ∈ new, t.2.2 = x ∧ ∃ e, Found V key n x e ∧ p ∈ procsOf e
  failed : st'.failed = [] ↔ st.failed = [] ∧
    ∀ t ∈ new, ∀ e, Found V key n t.2.2 e → badKeys e n key = []

theorem Grown.nil {V : Scene} {key : Word} {n : Nat} {c : XY} {st : Trace} :
    Grown V key n c [] st st [] where
  visited := by simp
  nodup := id
  hops := by intro t ht; cases ht
  closed := by intro t ht; cases ht
  first := by intro l hl; cases hl
  ways := by intro t ht; cases ht
  found := by intro t ht; cases ht
  reached := by simp
  failed := by simp

theorem Grown.skip {V : Scene} {key : Word} {n : Nat} {c : XY} {ls : List Nat} {st st' : Trace}
    {new : List Hop} (h : Grown V key n c ls st st' new) {l : Nat}
    (hl : ∀ d, V.link c l = some d → ¬ (V.tables.get? d).isSome = true) :
    Grown V key n c (l :: ls) st st' new :=
  { h with
    first := by
      intro k hk d h1 h2
      rcases List.mem_cons.mp hk with rfl | hk
      · exact absurd h2 (hl d h1)
      · exact h.first k hk d h1 h2 }

/-- What a call from `d` has done, after `d` was entered from `c` over `l`, and then over `ls`. -/
theorem Grown.join {V : Scene} {key : Word} {n : Nat} {c d : XY} {ls : List Nat} {l : Nat}
    {e e' : Entry} {st s1 s2 : Trace} {n1 n2 : List Hop} (hl : V.link c l = some d)
    (he : Found V key n c e) (hle : l ∈ linksOf e) (hd : Found V key n d e')
    (hv : d ∉ st.visited)
    (h1 : Grown V key n d (linksOf e') ((st.enter d e' n key).dest d e') s1 n1)
    (h2 : Grown V key n c ls s1 s2 n2) : Grown V key n c (l :: ls) st s2 ((c, l, d) :: (n1 ++ n2)) := by
  have hsome : (V.tables.get? d).isSome = true := by
    obtain ⟨t, h, _⟩ := hd; rw [h]; rfl
  have hhop : HopBy V key n c l d := ⟨⟨e, he, hle⟩, hl, hsome⟩
  have hone : Steps V key n c [l] d := .hop .start hhop
  constructor
  · rw [h2.visited, h1.visited]
    simp [Trace.dest, Trace.enter]
  · intro hn
    refine h2.nodup (h1.nodup ?_)
    show (st.visited ++ [d]).Nodup
    refine List.nodup_append.mpr ⟨hn, by simp, ?_⟩
    intro a ha b hb hab
    rw [List.mem_singleton] at hb
    subst hab; subst hb
    exact hv ha
  · intro t ht
    rcases List.mem_cons.mp ht with rfl | ht
    · exact hhop
    · rcases List.mem_append.mp ht with ht | ht
      · exact h1.hops t ht
      · exact h2.hops t ht
  · intro t ht k x hk
    rcases List.mem_cons.mp ht with rfl | ht
    · obtain ⟨⟨e'', h3, h4⟩, h5, h6⟩ := hk
      rw [← hd.unique h3] at h4
      exact List.mem_cons_of_mem _ (List.mem_append.mpr (Or.inl (h1.first k h4 x h5 h6)))
    · rcases List.mem_append.mp ht with ht | ht
      · exact List.mem_cons_of_mem _ (List.mem_append.mpr (Or.inl (h1.closed t ht k x hk)))
      · exact List.mem_cons_of_mem _ (List.mem_append.mpr (Or.inr (h2.closed t ht k x hk)))
  · intro k hk x h3 h4
    rcases List.mem_cons.mp hk with rfl | hk
    · rw [hl] at h3
      cases h3
      exact List.mem_cons_self
    · exact List.mem_cons_of_mem _ (List.mem_append.mpr (Or.inr (h2.first k hk x h3 h4)))
  · intro t ht
    rcases List.mem_cons.mp ht with rfl | ht
    · exact ⟨_, hone⟩
    · rcases List.mem_append.mp ht with ht | ht
      · obtain ⟨w, hw⟩ := h1.ways t ht
        exact ⟨_, hone.trans hw⟩
      · exact h2.ways t ht
  · intro t ht
    rcases List.mem_cons.mp ht with rfl | ht
    · exact ⟨e', hd⟩
    · rcases List.mem_append.mp ht with ht | ht
      · exact h1.found t ht
      · exact h2.found t ht
  · intro x p
    rw [h2.reached, h1.reached]
    have hdd : (x, p) ∈ ((st.enter d e' n key).dest d e').reached ↔
        (x, p) ∈ st.reached ∨ (d = x ∧ p ∈ procsOf e') := by
      simp only [Trace.dest, Trace.enter, List.mem_append, List.mem_map, Prod.mk.injEq]
      constructor
      · rintro (h | ⟨q, hq, rfl, rfl⟩)
        · exact Or.inl h
        · exact Or.inr ⟨rfl, hq⟩
      · rintro (h | ⟨rfl, h⟩)
        · exact Or.inl h
        · exact Or.inr ⟨p, h, rfl, rfl⟩
    rw [hdd]
    constructor
    · rintro (((h | ⟨rfl, h⟩) | ⟨t, ht, h⟩) | ⟨t, ht, h⟩)
      · exact Or.inl h
      · exact Or.inr ⟨_, List.mem_cons_self, rfl, e', hd, h⟩
      · exact Or.inr ⟨t, List.mem_cons_of_mem _ (List.mem_append.mpr (Or.inl ht)), h⟩
      · exact Or.inr ⟨t, List.mem_cons_of_mem _ (List.mem_append.mpr (Or.inr ht)), h⟩
    · rintro (h | ⟨t, ht, h3, e'', h4, h5⟩)
      · exact Or.inl (Or.inl (Or.inl h))
      · rcases List.mem_cons.mp ht with rfl | ht
        · subst h3
          rw [← hd.unique h4] at h5
          exact Or.inl (Or.inl (Or.inr ⟨rfl, h5⟩))
        · rcases List.mem_append.mp ht with ht | ht
          · exact Or.inl (Or.inr ⟨t, ht, h3, e'', h4, h5⟩)
          · exact Or.inr ⟨t, ht, h3, e'', h4, h5⟩
  · rw [h2.failed, h1.failed]
    have hdd : ((st.enter d e' n key).dest d e').failed = [] ↔ st.failed = [] ∧ badKeys e' n key = [] := by
      simp only [Trace.dest, Trace.enter]
      by_cases hb : badKeys e' n key = []
      · rw [if_pos hb]; simp [hb]
      · rw [if_neg hb]; simp [hb]
    rw [hdd]
    constructor
    · rintro ⟨⟨⟨h3, h4⟩, h5⟩, h6⟩
      refine ⟨h3, fun t ht e'' he'' => ?_⟩
      rcases List.mem_cons.mp ht with rfl | ht
      · rw [← hd.unique he'']; exact h4
      · rcases List.mem_append.mp ht with ht | ht
        · exact h5 t ht e'' he''
        · exact h6 t ht e'' he''
    · rintro ⟨h3, h4⟩
      refine ⟨⟨⟨h3, h4 _ List.mem_cons_self e' hd⟩, ?_⟩, ?_⟩
      · intro t ht
        exact h4 t (List.mem_cons_of_mem _ (List.mem_append.mpr (Or.inl ht)))
      · intro t ht
        exact h4 t (List.mem_cons_of_mem _ (List.mem_append.mpr (Or.inr ht)))

theorem overLinks_ok {V : Scene} {key : Word} {n : Nat}
    {rec_ : XY → Entry → Trace → Except PyErr Trace}
    (hrec : ∀ d e st st', Found V key n d e → rec_ d e st = .ok st' →
      ∃ new, Grown V key n d (linksOf e) (st.dest d e) st' new)
    {c : XY} {e : Entry} (he : Found V key n c e) (ls : List Nat) :
    ∀ {st st' : Trace}, (∀ l ∈ ls, l ∈ linksOf e) → overLinks V key n rec_ c ls st = .ok st' →
      ∃ new, Grown V key n c ls st st' new := by
  induction ls with
  | nil =>
    intro st st' _ h
    cases h
    exact ⟨[], .nil⟩
  | cons l ls ih =>
    intro st st' hls h
    have hls' : ∀ k ∈ ls, k ∈ linksOf e := fun k hk => hls k (List.mem_cons_of_mem _ hk)
    simp only [overLinks] at h
    cases hl : V.link c l with
    | none =>
      simp only [hl] at h
      obtain ⟨new, hg⟩ := ih hls' h
      exact ⟨new, hg.skip (by intro d hd; rw [hl] at hd; cases hd)⟩
    | some d =>
      simp only [hl] at h
      cases ht : V.tables.get? d with
      | none =>
        simp only [ht] at h
        obtain ⟨new, hg⟩ := ih hls' h
        refine ⟨new, hg.skip (by intro x hx; rw [hl] at hx; cases hx; rw [ht]; intro hh; cases hh)⟩
      | some t =>
        simp only [ht] at h
        split at h
        · cases h
        · rename_i hv
          cases hloc : locate t key n with
          | error err => simp only [hloc] at h; cases h
          | ok e' =>
            simp only [hloc] at h
            cases hr : rec_ d e' (st.enter d e' n key) with
            | error err => simp only [hr] at h; cases h
            | ok s1 =>
              simp only [hr] at h
              have hd : Found V key n d e' := ⟨t, ht, hloc⟩
              obtain ⟨n1, h1⟩ := hrec _ _ _ _ hd hr
              obtain ⟨n2, h2⟩ := ih hls' h
              exact ⟨_, Grown.join hl he (hls l List.mem_cons_self) hd hv h1 h2⟩

theorem traceFrom_ok {V : Scene} {key : Word} {n : Nat} (fuel : Nat) :
    ∀ {c : XY} {e : Entry} {st st' : Trace}, Found V key n c e →
      traceFrom V key n fuel c e st = .ok st' →
      ∃ new, Grown V key n c (linksOf e) (st.dest c e) st' new := by
  induction fuel with
  | zero => intro c e st st' _ h; cases h
  | succ fuel ih =>
    intro c e st st' hf h
    exact overLinks_ok (fun d e st st' h1 h2 => ih h1 h2) hf _ (fun _ h => h) h

/-! ### The whole trace -/

/-- What a trace from `src` has found. -/
structure Traced (V : Scene) (key : Word) (n : Nat) (src : XY) (st : Trace) : Prop where
  found : ∀ {w c}, Steps V key n src w c → ∃ e, Found V key n c e
  once : ∀ {w w' c}, Steps V key n src w c → Steps V key n src w' c → w = w'
  reached : ∀ c p, (c, p) ∈ st.reached ↔
    ∃ w e, Steps V key n src w c ∧ Found V key n c e ∧ p ∈ procsOf e
  failed : st.failed = [] ↔
    ∀ l w c e, Steps V key n src (l :: w) c → Found V key n c e → badKeys e n key = []

theorem unique_of_nodup {new : List Hop} (h : (new.map (·.2.2)).Nodup) {a b : Hop} (ha : a ∈ new)
    (hb : b ∈ new) (hab : a.2.2 = b.2.2) : a = b := by
  induction new with
  | nil => cases ha
  | cons x new ih =>
    rw [List.map_cons, List.nodup_cons] at h
    rcases List.mem_cons.mp ha with h1 | h1 <;> rcases List.mem_cons.mp hb with h2 | h2
    · rw [h1, h2]
    · rw [← h1] at h; exact absurd (List.mem_map.mpr ⟨b, h2, hab.symm⟩) h.1
    · rw [← h2] at h; exact absurd (List.mem_map.mpr ⟨a, h1, hab⟩) h.1
    · exact ih h.2 h1 h2

theorem traced_of_grown {V : Scene} {key : Word} {n : Nat} {src : XY} {e : Entry} {st : Trace}
    {new : List Hop} (he : Found V key n src e)
    (h : Grown V key n src (linksOf e) ((⟨[src], [], []⟩ : Trace).dest src e) st new) :
    Traced V key n src st := by
  have hnd : st.visited.Nodup := h.nodup (by simp [Trace.dest])
  rw [h.visited] at hnd
  have hnd' : (src :: new.map (·.2.2)).Nodup := hnd
  rw [List.nodup_cons] at hnd'
  -- the chips got to
  have hall : ∀ {w c}, Steps V key n src w c → c = src ∧ w = [] ∨
      ∃ l w' x, w = l :: w' ∧ (x, l, c) ∈ new ∧ Steps V key n src w' x := by
    intro w c hs
    induction hs with
    | start => exact Or.inl ⟨rfl, rfl⟩
    | @hop w x d l hs hh ih =>
      refine Or.inr ⟨l, w, x, rfl, ?_, hs⟩
      rcases ih with ⟨rfl, rfl⟩ | ⟨k, w', y, rfl, hm, _⟩
      · obtain ⟨⟨e', h1, h2⟩, h3, h4⟩ := hh
        rw [← he.unique h1] at h2
        exact h.first l h2 d h3 h4
      · exact h.closed _ hm l d hh
  have hfound : ∀ {w c}, Steps V key n src w c → ∃ e, Found V key n c e := by
    intro w c hs
    rcases hall hs with ⟨rfl, rfl⟩ | ⟨l, w', x, rfl, hm, _⟩
    · exact ⟨e, he⟩
    · exact h.found _ hm
  constructor
  · exact hfound
  · intro w w' c hs hs'
    induction w generalizing w' c with
    | nil =>
      rcases hall hs with ⟨rfl, _⟩ | ⟨_, _, _, h1, _⟩
      · rcases hall hs' with ⟨_, rfl⟩ | ⟨l, w', x, rfl, hm, _⟩
        · rfl
        · exact absurd (List.mem_map.mpr ⟨_, hm, rfl⟩) hnd'.1
      · cases h1
    | cons k w ih =>
      rcases hall hs with ⟨_, h1⟩ | ⟨_, _, x, h1, hm, hx⟩
      · cases h1
      · cases h1
        rcases hall hs' with ⟨rfl, rfl⟩ | ⟨l', w'', x', rfl, hm', hx'⟩
        · exact absurd (List.mem_map.mpr ⟨_, hm, rfl⟩) hnd'.1
        · have := unique_of_nodup hnd'.2 hm hm' rfl
          cases this
          rw [ih hx hx']
  · intro c p
    rw [h.reached]
    constructor
    · rintro (h1 | ⟨t, ht, rfl, e', h1, h2⟩)
      · simp only [Trace.dest, List.nil_append, List.mem_map, Prod.mk.injEq] at h1
        obtain ⟨q, hq, rfl, rfl⟩ := h1
        exact ⟨[], e, .start, he, hq⟩
      · obtain ⟨w, hw⟩ := h.ways t ht
        exact ⟨w, e', hw, h1, h2⟩
    · rintro ⟨w, e', hs, hf, hp⟩
      rcases hall hs with ⟨rfl, rfl⟩ | ⟨l, w', x, rfl, hm, _⟩
      · rw [← he.unique hf] at hp
        exact Or.inl (by simp [Trace.dest, hp])
      · exact Or.inr ⟨_, hm, rfl, e', hf, hp⟩
  · rw [h.failed]
    constructor
    · rintro ⟨_, h1⟩ l w c e' hs hf
      rcases hall hs with ⟨_, h2⟩ | ⟨_, _, x, h2, hm, _⟩
      · cases h2
      · cases h2
        exact h1 _ hm e' hf
    · intro h1
      refine ⟨rfl, fun t ht e' hf => ?_⟩
      obtain ⟨w, hw⟩ := h.ways t ht
      cases w with
      | nil =>
        rcases hall hw with ⟨h2, _⟩ | ⟨_, _, _, h2, _⟩
        · exact absurd (List.mem_map.mpr ⟨_, ht, h2⟩) hnd'.1
        · cases h2
      | cons l w => exact h1 l w _ e' hw hf

theorem start_ok {V : Scene} {key : Word} {n fuel : Nat} {src : XY} {st : Trace}
    (h : start V key n fuel src = .ok st) :
    (V.tables.get? src = none ∧ st = ⟨[], [], []⟩) ∨
    (∃ e, Found V key n src e ∧ Traced V key n src st) := by
  unfold start at h
  cases ht : V.tables.get? src with
  | none =>
    simp only [ht] at h
    cases h
    exact Or.inl ⟨rfl, rfl⟩
  | some t =>
    simp only [ht] at h
    cases hl : locate t key n with
    | error err => simp only [hl] at h; cases h
    | ok e =>
      simp only [hl] at h
      have hf : Found V key n src e := ⟨t, ht, hl⟩
      obtain ⟨new, hg⟩ := traceFrom_ok fuel hf h
      exact Or.inr ⟨e, hf, traced_of_grown hf hg⟩

/-! ### The comparison with the destinations -/

theorem strike_ok (ds : List (XY × Nat)) : ∀ {located failed : List (XY × Nat)},
    (strike ds located failed = ([], []) ↔
      failed = [] ∧ ds.Nodup ∧ ∀ x, x ∈ located ↔ x ∈ ds) := by
  induction ds with
  | nil =>
    intro located failed
    simp only [strike, Prod.mk.injEq, List.nodup_nil, true_and]
    constructor
    · rintro ⟨rfl, rfl⟩; exact ⟨rfl, fun _ => Iff.rfl⟩
    · rintro ⟨rfl, h⟩
      exact ⟨List.eq_nil_iff_forall_not_mem.mpr (fun x hx => by cases (h x).mp hx), rfl⟩
  | cons d ds ih =>
    intro located failed
    simp only [strike]
    by_cases hd : d ∈ located
    · rw [if_pos hd, ih]
      have hmem : ∀ x, x ∈ located.filter (fun x => decide (x ≠ d)) ↔ x ∈ located ∧ x ≠ d := by
        intro x; rw [List.mem_filter]; simp
      constructor
      · rintro ⟨h1, h2, h3⟩
        refine ⟨h1, List.nodup_cons.mpr ⟨fun h => ?_, h2⟩, fun x => ?_⟩
        · exact ((hmem d).mp ((h3 d).mpr h)).2 rfl
        · rw [List.mem_cons, ← h3, hmem]
          by_cases hx : x = d
          · subst hx; simp [hd]
          · simp [hx]
      · rintro ⟨h1, h2, h3⟩
        rw [List.nodup_cons] at h2
        refine ⟨h1, h2.2, fun x => ?_⟩
        rw [hmem, h3, List.mem_cons]
        by_cases hx : x = d
        · subst hx; simp [h2.1]
        · simp [hx]
    · rw [if_neg hd, ih]
      constructor
      · rintro ⟨h1, _⟩
        cases failed <;> cases h1
      · rintro ⟨_, _, h3⟩
        exact absurd ((h3 d).mpr List.mem_cons_self) hd

theorem search_ok {V : Scene} {fuel : Nat} {src : XY} {dests : List (XY × Nat)} {key : Word} {n : Nat} :
    search V fuel src dests key n = .ok () ↔ ∃ st, start V key n fuel src = .ok st ∧
      st.failed = [] ∧ dests.Nodup ∧ ∀ x, x ∈ st.reached ↔ x ∈ dests := by
  unfold search
  cases h : start V key n fuel src with
  | error err =>
    simp only
    exact ⟨(fun h => by cases h), fun ⟨_, h, _⟩ => by cases h⟩
  | ok st =>
    simp only
    have hs := strike_ok dests (located := st.reached) (failed := [])
    by_cases hc : (strike dests st.reached []).2 ≠ [] ∨ (strike dests st.reached []).1 ≠ [] ∨ st.failed ≠ []
    · rw [if_pos hc]
      refine ⟨(fun h => by cases h), ?_⟩
      rintro ⟨st', h1, h2, h3⟩
      cases h1
      have h4 := hs.mpr ⟨rfl, h3⟩
      rw [h4] at hc
      rcases hc with hc | hc | hc
      · exact absurd rfl hc
      · exact absurd rfl hc
      · exact absurd h2 hc
    · rw [if_neg hc]
      have h1 : (strike dests st.reached []).2 = [] := Decidable.byContradiction (fun h => hc (Or.inl h))
      have h2 : (strike dests st.reached []).1 = [] :=
        Decidable.byContradiction (fun h => hc (Or.inr (Or.inl h)))
      have h3 : st.failed = [] := Decidable.byContradiction (fun h => hc (Or.inr (Or.inr h)))
      have h4 : strike dests st.reached [] = ([], []) := Prod.ext h2 h1
      exact ⟨fun _ => ⟨st, rfl, h3, (hs.mp h4).2⟩, fun _ => rfl⟩

/-! ### The trace and the packets -/

theorem mem_linksOf {e : Entry} {l : Nat} : l ∈ linksOf e ↔ l < 6 ∧ e.route.testBit l = true := by
  unfold linksOf
  rw [List.mem_filter, List.mem_range]

theorem mem_procsOf {e : Entry} {p : Nat} : p ∈ procsOf e ↔ e.route.testBit (6 + p) = true := by
  unfold procsOf
  rw [List.mem_filter, List.mem_range]
  refine ⟨fun h => h.2, fun h => ⟨?_, h⟩⟩
  have h1 : 2 ^ (6 + p) ≤ e.route := Nat.ge_two_pow_of_testBit h
  have h2 : e.route ≠ 0 := by
    intro h0; rw [h0] at h; simp at h
  have h3 : 6 + p ≤ Nat.log2 e.route := (Nat.le_log2 h2).mpr h1
  omega

theorem entries_of {V : Scene} {c : XY} {t : List Entry} (h : V.tables.get? c = some t) :
    V.entries c = t := by
  unfold Scene.entries; rw [h]; rfl

section
variable {V : Scene} {key : Word} {n i : Nat} {src : XY}
  (hn : key.toNat + n ≤ 2 ^ 32) (hi : i < n) (ha : Alike V key (key + BitVec.ofNat 32 i))
include hn hi ha

theorem Found.lookup {c : XY} {e : Entry} (h : Found V key n c e) :
    lookup (V.entries c) (key + BitVec.ofNat 32 i) = some e := by
  obtain ⟨t, ht, hl⟩ := h
  rw [entries_of ht]
  exact locate_lookup hl hn hi (fun x hx hm => ha c x (by rw [entries_of ht]; exact hx) hm)

theorem way_of_steps {w : List Nat} {c : XY} (h : Steps V key n src w c) :
    Way V (key + BitVec.ofNat 32 i) src w c := by
  induction h with
  | start => exact .start
  | hop _ hh ih =>
    obtain ⟨⟨e, hf, hl⟩, h1, _⟩ := hh
    obtain ⟨h2, h3⟩ := mem_linksOf.mp hl
    exact .hop ih (hf.lookup hn hi ha) h2 h3 h1

theorem steps_of_way {st : Trace} (ht : Traced V key n src st)
    (hw : Within V (key + BitVec.ofNat 32 i) src) {w : List Nat} {c : XY}
    (h : Way V (key + BitVec.ofNat 32 i) src w c) : Steps V key n src w c := by
  induction h with
  | start => exact .start
  | @hop w c d e l h0 h1 h2 h3 h4 ih =>
    obtain ⟨e', hf⟩ := ht.found ih
    have := hf.lookup hn hi ha
    rw [h1] at this
    cases this
    exact .hop ih ⟨⟨e, hf, mem_linksOf.mpr ⟨h2, h3⟩⟩, h4, hw _ _ _ (.hop h0 h1 h2 h3 h4)⟩
  | @straight w c d l h0 h1 h4 ih =>
    obtain ⟨e', hf⟩ := ht.found ih
    have := hf.lookup hn hi ha
    rw [h1] at this
    cases this

end

end Pacman.Valid
