import Verif.Model.PairCompressor
import Verif.Proofs.Bits
import Verif.Proofs.Sort
/-
Invariants of the pair compressor.
-/

namespace Pacman.Pair

open Pacman

/-! ### Generic list facts -/

theorem getE_mid {α : Type} (A : List α) (x : α) (B : List α) (n : Nat) (h : n = A.length) :
    getE (A ++ x :: B) n = .ok x := by
  subst h; simp [getE]

theorem setE_mid {α : Type} (A : List α) (x y : α) (B : List α) (n : Nat) (h : n = A.length) :
    setE (A ++ x :: B) n y = .ok (A ++ y :: B) := by
  subst h; simp [setE]

/-! ### Merging two entries -/

/-- The entry written by `_find_merge`. -/
def mergeE (x y : Entry) : Entry :=
  ⟨(merge x y).1, (merge x y).2.1, x.route, (merge x y).2.2⟩

theorem mergeE_valid (x y : Entry) : (mergeE x y).Valid := by
  unfold Entry.Valid mergeE merge
  simp only
  apply word_ext; intro i _
  simp only [BitVec.getLsbD_and]
  cases x.key.getLsbD i <;> cases y.key.getLsbD i <;> simp

theorem mergeE_bits (x y : Entry) (i : Nat) (hi : i < 32) :
    (mergeE x y).mask.getLsbD i =
      (x.mask.getLsbD i && y.mask.getLsbD i && (x.key.getLsbD i == y.key.getLsbD i)) ∧
    (mergeE x y).key.getLsbD i =
      (x.key.getLsbD i && y.key.getLsbD i && x.mask.getLsbD i && y.mask.getLsbD i) := by
  unfold mergeE merge
  simp only [BitVec.getLsbD_and, BitVec.getLsbD_xor, BitVec.getLsbD_or, BitVec.getLsbD_not, hi]
  cases x.key.getLsbD i <;> cases y.key.getLsbD i <;> cases x.mask.getLsbD i <;>
    cases y.mask.getLsbD i <;> simp

theorem mergeE_left {x y : Entry} (hx : x.Valid) {k : Word} (h : x.Matches k) :
    (mergeE x y).Matches k := by
  unfold Entry.Matches at *
  unfold Entry.Valid at hx
  rw [and_eq_iff] at *
  intro i hi
  have h1 := h i hi; have h2 := hx i hi
  obtain ⟨hm, hk⟩ := mergeE_bits x y i hi
  rw [hm, hk]; revert h1 h2
  cases x.key.getLsbD i <;> cases y.key.getLsbD i <;> cases x.mask.getLsbD i <;>
    cases y.mask.getLsbD i <;> cases k.getLsbD i <;> simp

theorem mergeE_right {x y : Entry} (hy : y.Valid) {k : Word} (h : y.Matches k) :
    (mergeE x y).Matches k := by
  unfold Entry.Matches at *
  unfold Entry.Valid at hy
  rw [and_eq_iff] at *
  intro i hi
  have h1 := h i hi; have h2 := hy i hi
  obtain ⟨hm, hk⟩ := mergeE_bits x y i hi
  rw [hm, hk]; revert h1 h2
  cases x.key.getLsbD i <;> cases y.key.getLsbD i <;> cases x.mask.getLsbD i <;>
    cases y.mask.getLsbD i <;> cases k.getLsbD i <;> simp

/-- `q` does everything `p` does: matches each key of `p`, with the same route, and is marked
defaultable only if `p` is. -/
structure Covers (q p : Entry) : Prop where
  keys : ∀ k, p.Matches k → q.Matches k
  route : q.route = p.route
  dflt : q.defaultable = true → p.defaultable = true

theorem Covers.refl (q : Entry) : Covers q q := ⟨fun _ h => h, rfl, id⟩

theorem Covers.trans {a b c : Entry} (h1 : Covers a b) (h2 : Covers b c) : Covers a c :=
  ⟨fun k h => h1.keys k (h2.keys k h), h1.route.trans h2.route, fun h => h2.dflt (h1.dflt h)⟩

theorem mergeE_covers_left {x y : Entry} (hx : x.Valid) : Covers (mergeE x y) x :=
  ⟨fun _ h => mergeE_left hx h, rfl, fun h => by
    simp only [mergeE, merge, Bool.and_eq_true] at h; exact h.1⟩

theorem mergeE_covers_right {x y : Entry} (hy : y.Valid) (hr : x.route = y.route) :
    Covers (mergeE x y) y :=
  ⟨fun _ h => mergeE_right hy h, hr, fun h => by
    simp only [mergeE, merge, Bool.and_eq_true] at h; exact h.2⟩

/-! ### One route -/

/-- The condition under which `_find_merge` refuses a merged entry. -/
def blocked (ordered : Bool) (V R : List Entry) (m : Entry) : Bool :=
  (!ordered && V.any (fun e => intersect e.key e.mask m.key m.mask)) ||
    R.any (fun e => intersect e.key e.mask m.key m.mask)

theorem findMerge_spec (c : Ctx) (A B : List Entry) (x y : Entry) (C V R : List Entry)
    (left index : Nat) (hl : left = A.length) (hi : index = A.length + 1 + B.length)
    (hV : (A ++ x :: B ++ y :: C).take c.previousIndex = V)
    (hR : (A ++ x :: B ++ y :: C).drop c.remainingIndex = R) :
    findMerge c (A ++ x :: B ++ y :: C) left index =
      .ok (if blocked c.ordered V R (mergeE x y) then none
        else some (A ++ mergeE x y :: B ++ y :: C)) := by
  have g1 : getE (A ++ x :: B ++ y :: C) left = .ok x := by
    rw [List.append_assoc, List.cons_append]; exact getE_mid _ _ _ _ hl
  have g2 : getE (A ++ x :: B ++ y :: C) index = .ok y :=
    getE_mid _ _ _ _ (by simp; omega)
  have s1 : ∀ z, setE (A ++ x :: B ++ y :: C) left z = .ok (A ++ z :: B ++ y :: C) := by
    intro z
    rw [List.append_assoc, List.cons_append, setE_mid _ _ _ _ _ hl]; simp
  unfold findMerge
  rw [g1, g2]
  simp only [bind, Except.bind, hV, hR, s1, pure, Except.pure]
  unfold blocked mergeE
  simp only [Bool.or_eq_true]
  split
  · next h => simp [h]
  · next h => 
    split
    · next h2 => simp [h2]
    · next h2 => simp [h, h2]

/-- The inner loop either finds nothing, or merges `x` with some `y` of the pending entries. -/
theorem inner_spec (c : Ctx) (A : List Entry) (x : Entry) (P C V R : List Entry)
    (hV : ∀ z Q D, Q.length + D.length = P.length + C.length →
      (A ++ z :: Q ++ D).take c.previousIndex = V)
    (hR : (A ++ x :: P ++ C).drop c.remainingIndex = R)
    (B P2 : List Entry) (hP : P = B ++ P2) (left right index : Nat)
    (hl : left = A.length) (hr : right = A.length + P.length)
    (hi : index = A.length + 1 + B.length) :
    (inner c left right (A ++ x :: P ++ C) index = .ok none) ∨
    ∃ y P' g, P.Perm (y :: P') ∧ y ∈ P ∧ blocked c.ordered V R (mergeE x y) = false ∧
      inner c left right (A ++ x :: P ++ C) index = .ok (some (A ++ mergeE x y :: P' ++ g :: C)) := by
  induction P2 generalizing B index with
  | nil =>
    left
    rw [inner]
    have : ¬ index ≤ right := by subst hP; simp at hr; omega
    simp [this]
  | cons y P2 ih =>
    have hle : index ≤ right := by subst hP; simp at hr; omega
    have hes : A ++ x :: P ++ C = A ++ x :: B ++ y :: (P2 ++ C) := by
      subst hP; simp
    have hf := findMerge_spec c A B x y (P2 ++ C) V R left index hl hi
      (by have := hV x (B ++ [y]) (P2 ++ C) (by subst hP; simp; omega)
          simpa using this)
      (by rw [← hes]; exact hR)
    by_cases hb : blocked c.ordered V R (mergeE x y) = true
    · rw [inner]
      simp only [hle, if_true]
      rw [hes, hf]
      simp only [hb, if_true]
      have := ih (B ++ [y]) (by subst hP; simp) (index + 1) (by simp; omega)
      rw [hes] at this
      exact this
    · right
      simp only [Bool.not_eq_true] at hb
      rw [hb] at hf
      simp only [Bool.false_eq_true, if_false] at hf
      rcases List.eq_nil_or_concat P2 with h2 | ⟨P3, z, h2⟩
      · -- y was the last entry
        subst h2
        refine ⟨y, B, y, ?_, by subst hP; simp, hb, ?_⟩
        · subst hP; simp
        · rw [inner]
          simp only [hle, if_true]
          rw [hes, hf]
          simp only
          have e1 : right = (A ++ mergeE x y :: B).length := by
            subst hP; simp at hr ⊢; omega
          have e2 : index = (A ++ mergeE x y :: B).length := by simp; omega
          rw [getE_mid _ _ _ _ e1]
          simp only [bind, Except.bind, pure, Except.pure]
          rw [setE_mid _ _ _ _ _ e2]
          simp
      · -- another entry `z` is last
        rw [List.concat_eq_append] at h2
        subst h2
        refine ⟨y, B ++ z :: P3, z, ?_, by subst hP; simp, hb, ?_⟩
        · subst hP
          refine (List.perm_middle).trans (List.Perm.cons y ?_)
          refine List.Perm.append_left B ?_
          exact List.perm_append_comm
        · rw [inner]
          simp only [hle, if_true]
          rw [hes, hf]
          simp only
          have e1 : right = (A ++ mergeE x y :: B ++ y :: P3).length := by
            subst hP; simp at hr ⊢; omega
          have e2 : index = (A ++ mergeE x y :: B).length := by simp; omega
          have t1 : A ++ mergeE x y :: B ++ y :: (P3 ++ [z] ++ C) =
              (A ++ mergeE x y :: B ++ y :: P3) ++ z :: C := by simp
          rw [t1, getE_mid _ _ _ _ e1]
          simp only [bind, Except.bind, pure, Except.pure]
          have t2 : (A ++ mergeE x y :: B ++ y :: P3) ++ z :: C =
              (A ++ mergeE x y :: B) ++ y :: (P3 ++ z :: C) := by simp
          rw [t2, setE_mid _ _ _ _ _ e2]
          simp

/-- What compressing the pending entries `P` of one route into `Q` guarantees, for any property
`Good` of entries preserved by accepted merges. -/
theorem compressByRoute_spec (Good : Entry → Prop) (c : Ctx) (V R : List Entry)
    (hval : ∀ e, Good e → e.Valid)
    (hroute : ∀ x y, Good x → Good y → x.route = y.route)
    (hmerge : ∀ x y, Good x → Good y → blocked c.ordered V R (mergeE x y) = false →
      Good (mergeE x y)) :
    ∀ (n : Nat) (W G P G2 : List Entry), P.length = n + 1 →
    (∀ p ∈ P, Good p) →
    c.previousIndex ≤ W.length → W.take c.previousIndex = V →
    c.remainingIndex = (W ++ G ++ P ++ G2).length →
    ∃ Q G', compressByRoute c (W ++ G ++ P ++ G2 ++ R) W.length (W.length + G.length)
        (W.length + G.length + n) = .ok (W ++ Q ++ G' ++ R, (W ++ Q).length) ∧
      (W ++ Q ++ G').length = c.remainingIndex ∧
      (∀ q ∈ Q, Good q) ∧ (∀ p ∈ P, ∃ q ∈ Q, Covers q p) ∧
      Q ≠ [] ∧ Q.length ≤ P.length := by
  intro n
  induction n with
  | zero =>
    intro W G P G2 hP hgood hprev hV hrem
    obtain ⟨x, rfl⟩ := List.length_eq_one_iff.1 hP
    rw [compressByRoute]
    simp only [Nat.add_zero, Nat.lt_irrefl, if_false, if_true]
    have g : getE (W ++ G ++ [x] ++ G2 ++ R) (W.length + G.length) = .ok x := by
      have : W ++ G ++ [x] ++ G2 ++ R = (W ++ G) ++ x :: (G2 ++ R) := by simp
      rw [this]; exact getE_mid _ _ _ _ (by simp)
    rw [g]
    simp only [bind, Except.bind, pure, Except.pure]
    cases G with
    | nil =>
      have s : setE (W ++ [] ++ [x] ++ G2 ++ R) W.length x = .ok (W ++ [x] ++ G2 ++ R) := by
        have : W ++ [] ++ [x] ++ G2 ++ R = W ++ x :: (G2 ++ R) := by simp
        rw [this, setE_mid _ _ _ _ _ rfl]; simp
      rw [s]
      refine ⟨[x], G2, by simp, by simp [hrem], by simpa using hgood, ?_, by simp, by simp⟩
      intro p hp; exact ⟨x, by simp, by simp at hp; subst hp; exact Covers.refl _⟩
    | cons g0 G =>
      have s : setE (W ++ (g0 :: G) ++ [x] ++ G2 ++ R) W.length x =
          .ok (W ++ [x] ++ (G ++ [x] ++ G2) ++ R) := by
        have : W ++ (g0 :: G) ++ [x] ++ G2 ++ R = W ++ g0 :: (G ++ [x] ++ G2 ++ R) := by simp
        rw [this, setE_mid _ _ _ _ _ rfl]; simp
      rw [s]
      refine ⟨[x], G ++ [x] ++ G2, by simp, by simp [hrem], by simpa using hgood, ?_,
        by simp, by simp⟩
      intro p hp; exact ⟨x, by simp, by simp at hp; subst hp; exact Covers.refl _⟩
  | succ n ih =>
    intro W G P G2 hP hgood hprev hV hrem
    cases P with
    | nil => simp at hP
    | cons x P =>
    have hes : W ++ G ++ (x :: P) ++ G2 ++ R = (W ++ G) ++ x :: P ++ (G2 ++ R) := by simp
    have hsp := inner_spec c (W ++ G) x P (G2 ++ R) V R
      (by intro z Q D _
          rw [List.append_assoc, List.append_assoc, List.take_append_of_le_length hprev]; exact hV)
      (by rw [← hes, hrem]; simp)
      [] P (by simp) (W.length + G.length) (W.length + G.length + (n + 1))
      (W.length + G.length + 1) (by simp) (by simp at hP ⊢; omega) (by simp)
    have hlt : W.length + G.length < W.length + G.length + (n + 1) := by omega
    rcases hsp with h | ⟨y, P', g, hperm, hy, hb, h⟩
    · -- nothing merges with x: it is written out
      rw [compressByRoute]
      simp only [hlt, if_true]
      rw [hes, h]
      simp only
      rw [← hes]
      have ge : getE (W ++ G ++ (x :: P) ++ G2 ++ R) (W.length + G.length) = .ok x := by
        have : W ++ G ++ (x :: P) ++ G2 ++ R = (W ++ G) ++ x :: (P ++ G2 ++ R) := by simp
        rw [this]; exact getE_mid _ _ _ _ (by simp)
      rw [ge]
      simp only [bind, Except.bind]
      have hP1 : P.length = n + 1 := by simpa using hP
      have key : ∃ G1 : List Entry, G1.length = G.length ∧
          setE (W ++ G ++ (x :: P) ++ G2 ++ R) W.length x =
            .ok ((W ++ [x]) ++ G1 ++ P ++ G2 ++ R) := by
        cases G with
        | nil =>
          refine ⟨[], rfl, ?_⟩
          have : W ++ [] ++ (x :: P) ++ G2 ++ R = W ++ x :: (P ++ G2 ++ R) := by simp
          rw [this, setE_mid _ _ _ _ _ rfl]; simp
        | cons g0 G =>
          refine ⟨G ++ [x], by simp, ?_⟩
          have : W ++ (g0 :: G) ++ (x :: P) ++ G2 ++ R = W ++ g0 :: (G ++ [x] ++ P ++ G2 ++ R) := by
            simp
          rw [this, setE_mid _ _ _ _ _ rfl]; simp
      obtain ⟨G1, hG1, hset⟩ := key
      rw [hset]
      simp only
      obtain ⟨Q, G', hq, hlen, hQ, hcov, _, hle⟩ := ih (W ++ [x]) G1 P G2 hP1
        (fun p hp => hgood p (List.mem_cons_of_mem _ hp)) (by simp; omega)
        (by rw [List.take_append_of_le_length hprev]; exact hV)
        (by rw [hrem]; simp; omega)
      refine ⟨x :: Q, G', ?_, ?_, ?_, ?_, by simp, by simp; omega⟩
      · have e1 : (W ++ [x]).length = W.length + 1 := by simp
        rw [e1, hG1] at hq
        have e2 : W.length + 1 + G.length = W.length + G.length + 1 := by omega
        have e3 : W.length + 1 + G.length + n = W.length + G.length + (n + 1) := by omega
        rw [e3] at hq
        rw [e2] at hq
        rw [hq]; simp
      · rw [← hlen]; simp
      · intro q hq'
        rcases List.mem_cons.1 hq' with rfl | h'
        · exact hgood _ (by simp)
        · exact hQ q h'
      · intro p hp
        rcases List.mem_cons.1 hp with rfl | h'
        · exact ⟨p, by simp, Covers.refl _⟩
        · obtain ⟨q, hq1, hq2⟩ := hcov p h'
          exact ⟨q, List.mem_cons_of_mem _ hq1, hq2⟩
    · -- x merges with y
      rw [compressByRoute]
      simp only [hlt, if_true]
      rw [hes, h]
      simp only
      have hgx : Good x := hgood x (by simp)
      have hgy : Good y := hgood y (List.mem_cons_of_mem _ hy)
      have hgm : Good (mergeE x y) := hmerge x y hgx hgy hb
      have hplen : P.length = n + 1 := by simpa using hP
      have hp'len : P'.length = n := by have := hperm.length_eq; simp at this; omega
      obtain ⟨Q, G', hq, hlen, hQ, hcov, hne, hle⟩ := ih W G (mergeE x y :: P') (g :: G2)
        (by simp [hp'len])
        (by intro p hp
            rcases List.mem_cons.1 hp with rfl | h'
            · exact hgm
            · exact hgood p (List.mem_cons_of_mem _ (hperm.mem_iff.2 (List.mem_cons_of_mem _ h'))))
        hprev hV (by rw [hrem]; simp; omega)
      refine ⟨Q, G', ?_, hlen, hQ, ?_, hne, by simp at hle ⊢; omega⟩
      · have e1 : W.length + G.length + (n + 1) - 1 = W.length + G.length + n := by omega
        rw [e1, ← hq]; simp
      · intro p hp
        rcases List.mem_cons.1 hp with rfl | h'
        · obtain ⟨q, hq1, hq2⟩ := hcov (mergeE p y) (by simp)
          exact ⟨q, hq1, hq2.trans (mergeE_covers_left (hval _ hgx))⟩
        · rcases List.mem_cons.1 (hperm.mem_iff.1 h') with rfl | h''
          · obtain ⟨q, hq1, hq2⟩ := hcov (mergeE x p) (by simp)
            exact ⟨q, hq1, hq2.trans (mergeE_covers_right (hval _ hgy) (hroute _ _ hgx hgy))⟩
          · exact hcov p (List.mem_cons_of_mem _ h'')

/-! ### All routes -/

theorem scanRight_spec (A : List Entry) (x : Entry) (P R : List Entry) (left right : Nat)
    (hl : left = A.length) (hr : right = A.length + P.length)
    (hP : ∀ p ∈ P, p.route = x.route) :
    ∃ P' R', scanRight (A ++ x :: P ++ R) left right = .ok (A.length + P'.length) ∧
      P ++ R = P' ++ R' ∧ (∀ p ∈ P', p.route = x.route) := by
  induction R generalizing P right with
  | nil =>
    refine ⟨P, [], ?_, by simp, hP⟩
    rw [scanRight]
    have : ¬ (right + 1 < (A ++ x :: P ++ []).length) := by simp; omega
    rw [if_neg this, hr]
  | cons y R ih =>
    have hlt : right + 1 < (A ++ x :: P ++ y :: R).length := by simp; omega
    have g1 : getE (A ++ x :: P ++ y :: R) (right + 1) = .ok y :=
      getE_mid _ _ _ _ (by simp; omega)
    have g2 : getE (A ++ x :: P ++ y :: R) left = .ok x := by
      rw [List.append_assoc, List.cons_append]; exact getE_mid _ _ _ _ hl
    rw [scanRight]
    simp only [hlt, if_true, g1, g2, bind, Except.bind, pure, Except.pure]
    by_cases hxy : y.route = x.route
    · simp only [hxy, BEq.rfl]
      obtain ⟨P', R', h1, h2, h3⟩ := ih (P ++ [y]) (right + 1) (by simp; omega)
        (by intro p hp
            rcases List.mem_append.1 hp with h | h
            · exact hP p h
            · simp at h; subst h; exact hxy)
      refine ⟨P', R', ?_, ?_, h3⟩
      · rw [← h1]; simp
      · rw [← h2]; simp
    · have : (y.route == x.route) = false := by simpa using hxy
      simp only [this]
      exact ⟨P, y :: R, by simp [hr], rfl, hP⟩

/-- Invariant between buckets: `W` written so far for the originals `D`, `R` still to do. -/
structure Inv (ordered : Bool) (W D R : List Entry) : Prop where
  valid : AllValid W
  sep : ∀ w ∈ W, ∀ r ∈ R, w.route ≠ r.route → ¬ w.Meets r
  done : ∀ o ∈ D, ∀ k, o.Matches k → routeOf W k = some o.route
  unord : ordered = false → RouteDisjoint W
  len : W.length ≤ D.length
  origin : ∀ w ∈ W, ∃ o ∈ D, o.route = w.route

theorem routeOf_append_some {A B : List Entry} {k : Word} {r : Nat} (h : routeOf A k = some r) :
    routeOf (A ++ B) k = some r := by
  unfold routeOf lookup at *
  rw [List.find?_append]
  cases hf : List.find? (fun e => decide (Entry.Matches e k)) A with
  | none => rw [hf] at h; simp at h
  | some e => rw [hf] at h; simpa using h

theorem routeOf_append_none {A B : List Entry} {k : Word} (h : ∀ a ∈ A, ¬ a.Matches k) :
    routeOf (A ++ B) k = routeOf B k := by
  unfold routeOf lookup
  rw [List.find?_append]
  have : List.find? (fun e => decide (Entry.Matches e k)) A = none := by
    rw [List.find?_eq_none]; intro a ha; simpa using h a ha
  rw [this]; simp

theorem routeOf_eq_some_of {t : List Entry} {k : Word} {r : Nat}
    (h1 : ∃ e ∈ t, e.Matches k) (h2 : ∀ e ∈ t, e.Matches k → e.route = r) :
    routeOf t k = some r := by
  unfold routeOf lookup
  cases hf : List.find? (fun e => decide (Entry.Matches e k)) t with
  | none =>
    rw [List.find?_eq_none] at hf
    obtain ⟨e, he, hm⟩ := h1
    exact absurd hm (by simpa using hf e he)
  | some e =>
    have hm : e.Matches k := by simpa using List.find?_some hf
    simp [h2 e (List.mem_of_find?_eq_some hf) hm]

theorem routeOf_some_mem {t : List Entry} {k : Word} {r : Nat} (h : routeOf t k = some r) :
    ∃ e ∈ t, e.Matches k ∧ e.route = r := by
  unfold routeOf lookup at h
  rw [Option.map_eq_some_iff] at h
  obtain ⟨e, he, hr⟩ := h
  exact ⟨e, List.mem_of_find?_eq_some he, by simpa using List.find?_some he, hr⟩

theorem blocked_false {ordered : Bool} {V R : List Entry} {m : Entry} (hV : AllValid V)
    (hR : AllValid R) (hm : m.Valid) (h : blocked ordered V R m = false) :
    (ordered = false → ∀ v ∈ V, ¬ v.Meets m) ∧ (∀ r ∈ R, ¬ r.Meets m) := by
  unfold blocked at h
  rw [Bool.or_eq_false_iff] at h
  obtain ⟨h1, h2⟩ := h
  constructor
  · intro ho v hv
    subst ho
    simp only [Bool.not_false, Bool.true_and, List.any_eq_false] at h1
    have := h1 v hv
    rw [Entry.meets_iff (hV v hv) hm]
    simpa [intersect] using this
  · intro r hr
    rw [List.any_eq_false] at h2
    have := h2 r hr
    rw [Entry.meets_iff (hR r hr) hm]
    simpa [intersect] using this

theorem outer_spec (ordered : Bool) (t : List Entry) (hv : AllValid t) (hd : RouteDisjoint t) :
    ∀ (fuel : Nat) (W G D R : List Entry), (∀ e ∈ D, e ∈ t) → (∀ e ∈ R, e ∈ t) →
    R.length ≤ fuel → Inv ordered W D R →
    ∃ W' Z, outer ordered fuel (W ++ G ++ R) W.length W.length (W.length + G.length) =
        .ok (W' ++ Z, W'.length) ∧ Inv ordered W' (D ++ R) [] := by
  intro fuel
  induction fuel with
  | zero =>
    intro W G D R hD hR hlen hinv
    have : R = [] := List.eq_nil_of_length_eq_zero (by omega)
    subst this
    refine ⟨W, G, ?_, by simpa using hinv⟩
    unfold outer; simp
  | succ fuel ih =>
    intro W G D R hD hR hlen hinv
    cases R with
    | nil =>
      refine ⟨W, G, ?_, by simpa using hinv⟩
      unfold outer; simp
    | cons x R0 =>
      unfold outer
      have hlt : W.length + G.length < (W ++ G ++ x :: R0).length := by simp
      simp only [hlt, if_true]
      obtain ⟨P', R', hs, hsplit, hroutes⟩ := scanRight_spec (W ++ G) x [] R0
        (W.length + G.length) (W.length + G.length) (by simp) (by simp) (by simp)
      have hs' : scanRight (W ++ G ++ x :: R0) (W.length + G.length) (W.length + G.length) =
          .ok (W.length + G.length + P'.length) := by
        have e : W ++ G ++ [x] ++ R0 = W ++ G ++ x :: R0 := by simp
        rw [e] at hs; rw [hs]; simp
      rw [hs']
      simp only
      have hR0 : R0 = P' ++ R' := by simpa using hsplit
      have hxt : x ∈ t := hR x (by simp)
      have hP't : ∀ p ∈ x :: P', p ∈ t := by
        intro p hp; apply hR
        rcases List.mem_cons.1 hp with h | h
        · subst h; simp
        · rw [hR0]; simp [h]
      have hR't : ∀ r ∈ R', r ∈ t := by intro r hr; apply hR; rw [hR0]; simp [hr]
      have hvR' : AllValid R' := fun r hr => hv r (hR't r hr)
      have hPr : ∀ p ∈ x :: P', p.route = x.route := by
        intro p hp
        rcases List.mem_cons.1 hp with h | h
        · rw [h]
        · exact hroutes p h
      -- what is true of pending entries
      let Good : Entry → Prop := fun e => e.Valid ∧ e.route = x.route ∧
        (∀ r ∈ R', r.route ≠ x.route → ¬ r.Meets e) ∧
        (ordered = false → ∀ w ∈ W, w.route ≠ x.route → ¬ w.Meets e)
      obtain ⟨Q, G', hq, hQlen, hQ, hcov, hne, hle⟩ := compressByRoute_spec Good
        ⟨ordered, W.length, W.length + G.length + P'.length + 1⟩ W R'
        (fun e h => h.1) (fun a b ha hb => ha.2.1.trans hb.2.1.symm)
        (by intro a b ha hb hbl
            have hbf := blocked_false hinv.valid hvR' (mergeE_valid a b) hbl
            exact ⟨mergeE_valid a b, ha.2.1, fun r hr _ => hbf.2 r hr, fun ho w hw _ => hbf.1 ho w hw⟩)
        P'.length W G (x :: P') [] (by simp)
        (by intro p hp
            refine ⟨hv p (hP't p hp), hPr p hp, ?_, ?_⟩
            · intro r hr hne'
              exact hd r (hR't r hr) p (hP't p hp) (by rw [hPr p hp]; exact hne')
            · intro _ w hw hne'
              exact hinv.sep w hw p
                (by rcases List.mem_cons.1 hp with h | h
                    · subst h; simp
                    · rw [hR0]; simp [h]) (by rw [hPr p hp]; exact hne'))
        (by simp) (by simp) (by simp; omega)
      have hes : W ++ G ++ x :: R0 = W ++ G ++ x :: P' ++ [] ++ R' := by simp [hR0]
      rw [hes, hq]
      simp only
      have hinv' : Inv ordered (W ++ Q) (D ++ (x :: P')) R' := by
        constructor
        · intro e he
          rcases List.mem_append.1 he with h | h
          · exact hinv.valid e h
          · exact (hQ e h).1
        · intro w hw r hr hne'
          rcases List.mem_append.1 hw with h | h
          · exact hinv.sep w h r (by rw [hR0]; simp [hr]) hne'
          · intro hm
            exact (hQ w h).2.2.1 r hr (by rw [← (hQ w h).2.1]; exact fun h' => hne' h'.symm) hm.symm
        · intro o ho k hk
          rcases List.mem_append.1 ho with h | h
          · exact routeOf_append_some (hinv.done o h k hk)
          · have hor : o.route = x.route := hPr o h
            apply routeOf_eq_some_of
            · obtain ⟨q, hq1, hq2⟩ := hcov o h
              exact ⟨q, by simp [hq1], hq2.keys k hk⟩
            · intro e he hm
              rcases List.mem_append.1 he with h' | h'
              · apply Classical.byContradiction
                intro hne'
                exact hinv.sep e h' o
                  (by rcases List.mem_cons.1 h with h2 | h2
                      · subst h2; simp
                      · rw [hR0]; simp [h2]) hne' ⟨k, hm, hk⟩
              · rw [(hQ e h').2.1, hor]
        · intro ho a ha b hb hne'
          have hu := hinv.unord ho
          rcases List.mem_append.1 ha with h | h <;> rcases List.mem_append.1 hb with h' | h'
          · exact hu a h b h' hne'
          · exact (hQ b h').2.2.2 ho a h (by rw [← (hQ b h').2.1]; exact hne')
          · intro hm
            exact (hQ a h).2.2.2 ho b h' (by rw [← (hQ a h).2.1]; exact fun h2 => hne' h2.symm) hm.symm
          · exact absurd ((hQ a h).2.1.trans (hQ b h').2.1.symm) hne'
        · have := hinv.len
          simp at hle ⊢; omega
        · intro w hw
          rcases List.mem_append.1 hw with h | h
          · obtain ⟨o, ho, hr⟩ := hinv.origin w h
            exact ⟨o, by simp [ho], hr⟩
          · exact ⟨x, by simp, (hQ w h).2.1.symm⟩
      obtain ⟨W', Z, ho, hi⟩ := ih (W ++ Q) G' (D ++ (x :: P')) R'
        (by intro e he
            rcases List.mem_append.1 he with h | h
            · exact hD e h
            · exact hP't e h)
        hR't (by rw [hR0] at hlen; simp at hlen; omega) hinv'
      refine ⟨W', Z, ?_, ?_⟩
      · rw [← ho]
        have : (W ++ Q).length + G'.length = W.length + G.length + P'.length + 1 := by
          rw [← List.length_append, hQlen]
        rw [this]
      · rw [hR0]; simpa using hi

theorem compressSorted_spec (ordered : Bool) (t : List Entry) (hv : AllValid t)
    (hd : RouteDisjoint t) :
    ∃ W, compressSorted ordered t = .ok W ∧ Inv ordered W t [] := by
  obtain ⟨W, Z, h1, h2⟩ := outer_spec ordered t hv hd t.length [] [] [] t (by simp) (by simp)
    (Nat.le_refl _) ⟨by simp [AllValid], by simp, by simp, fun _ => by simp [RouteDisjoint], by simp, by simp⟩
  refine ⟨W, ?_, by simpa using h2⟩
  unfold compressSorted
  have : outer ordered t.length t 0 0 0 = .ok (W ++ Z, W.length) := by simpa using h1
  rw [this]
  simp [bind, Except.bind, pure, Except.pure]

/-- Invariant between buckets for an arbitrary table. -/
structure InvAny (W D : List Entry) : Prop where
  valid : AllValid W
  cover : ∀ o ∈ D, ∃ w ∈ W, Covers w o
  len : W.length ≤ D.length
  origin : ∀ w ∈ W, ∃ o ∈ D, o.route = w.route

theorem outer_any (ordered : Bool) :
    ∀ (fuel : Nat) (W G D R : List Entry), AllValid R →
    R.length ≤ fuel → InvAny W D →
    ∃ W' Z, outer ordered fuel (W ++ G ++ R) W.length W.length (W.length + G.length) =
        .ok (W' ++ Z, W'.length) ∧ InvAny W' (D ++ R) := by
  intro fuel
  induction fuel with
  | zero =>
    intro W G D R hR hlen hinv
    have : R = [] := List.eq_nil_of_length_eq_zero (by omega)
    subst this
    refine ⟨W, G, ?_, by simpa using hinv⟩
    unfold outer; simp
  | succ fuel ih =>
    intro W G D R hR hlen hinv
    cases R with
    | nil =>
      refine ⟨W, G, ?_, by simpa using hinv⟩
      unfold outer; simp
    | cons x R0 =>
      unfold outer
      have hlt : W.length + G.length < (W ++ G ++ x :: R0).length := by simp
      simp only [hlt, if_true]
      obtain ⟨P', R', hs, hsplit, hroutes⟩ := scanRight_spec (W ++ G) x [] R0
        (W.length + G.length) (W.length + G.length) (by simp) (by simp) (by simp)
      have hs' : scanRight (W ++ G ++ x :: R0) (W.length + G.length) (W.length + G.length) =
          .ok (W.length + G.length + P'.length) := by
        have e : W ++ G ++ [x] ++ R0 = W ++ G ++ x :: R0 := by simp
        rw [e] at hs; rw [hs]; simp
      rw [hs']
      simp only
      have hR0 : R0 = P' ++ R' := by simpa using hsplit
      have hP't : ∀ p ∈ x :: P', p.Valid := by
        intro p hp; apply hR
        rcases List.mem_cons.1 hp with h | h
        · subst h; simp
        · rw [hR0]; simp [h]
      have hR't : AllValid R' := by intro r hr; apply hR; rw [hR0]; simp [hr]
      have hPr : ∀ p ∈ x :: P', p.route = x.route := by
        intro p hp
        rcases List.mem_cons.1 hp with h | h
        · rw [h]
        · exact hroutes p h
      let Good : Entry → Prop := fun e => e.Valid ∧ e.route = x.route
      obtain ⟨Q, G', hq, hQlen, hQ, hcov, hne, hle⟩ := compressByRoute_spec Good
        ⟨ordered, W.length, W.length + G.length + P'.length + 1⟩ W R'
        (fun e h => h.1) (fun a b ha hb => ha.2.trans hb.2.symm)
        (fun a b ha hb _ => ⟨mergeE_valid a b, ha.2⟩)
        P'.length W G (x :: P') [] (by simp)
        (fun p hp => ⟨hP't p hp, hPr p hp⟩)
        (by simp) (by simp) (by simp; omega)
      have hes : W ++ G ++ x :: R0 = W ++ G ++ x :: P' ++ [] ++ R' := by simp [hR0]
      rw [hes, hq]
      simp only
      have hinv' : InvAny (W ++ Q) (D ++ (x :: P')) := by
        constructor
        · intro e he
          rcases List.mem_append.1 he with h | h
          · exact hinv.valid e h
          · exact (hQ e h).1
        · intro o ho
          rcases List.mem_append.1 ho with h | h
          · obtain ⟨w, hw, hc⟩ := hinv.cover o h
            exact ⟨w, by simp [hw], hc⟩
          · obtain ⟨w, hw, hc⟩ := hcov o h
            exact ⟨w, by simp [hw], hc⟩
        · have := hinv.len
          simp at hle ⊢; omega
        · intro w hw
          rcases List.mem_append.1 hw with h | h
          · obtain ⟨o, ho, hr⟩ := hinv.origin w h
            exact ⟨o, by simp [ho], hr⟩
          · exact ⟨x, by simp, (hQ w h).2.symm⟩
      obtain ⟨W', Z, ho, hi⟩ := ih (W ++ Q) G' (D ++ (x :: P')) R' hR't
        (by rw [hR0] at hlen; simp at hlen; omega) hinv'
      refine ⟨W', Z, ?_, ?_⟩
      · rw [← ho]
        have : (W ++ Q).length + G'.length = W.length + G.length + P'.length + 1 := by
          rw [← List.length_append, hQlen]
        rw [this]
      · rw [hR0]; simpa using hi

theorem compressSorted_any (ordered : Bool) (t : List Entry) (hv : AllValid t) :
    ∃ W, compressSorted ordered t = .ok W ∧ InvAny W t := by
  obtain ⟨W, Z, h1, h2⟩ := outer_any ordered t.length [] [] [] t hv
    (Nat.le_refl _) ⟨by simp [AllValid], by simp, by simp, by simp⟩
  refine ⟨W, ?_, by simpa using h2⟩
  unfold compressSorted
  have : outer ordered t.length t 0 0 0 = .ok (W ++ Z, W.length) := by simpa using h1
  rw [this]
  simp [bind, Except.bind, pure, Except.pure]

/-! ### Sorting -/

theorem swapE_spec {α : Type} (l : List α) (i j : Nat) (hi : i < l.length) (hj : j < l.length) :
    ∃ l', swapE l i j = .ok l' ∧ l'.Perm l := by
  refine ⟨(l.set i l[j]).set j l[i], ?_, List.set_set_perm hi hj⟩
  unfold swapE getE setE
  simp [hi, hj, bind, Except.bind]

theorem partitionLoop_spec {α : Type} (cmp : α → Except PyErr Int) (l : List α)
    (low check high : Nat) (h1 : low < check) (h2 : check ≤ high + 1) (h3 : high < l.length)
    (hc : ∀ x ∈ l, ∃ c, cmp x = .ok c) :
    ∃ l' low' check', partitionLoop cmp l low check high = .ok (l', low', check') ∧ l'.Perm l ∧
      low' ≤ high ∧ check ≤ check' := by
  fun_induction partitionLoop cmp l low check high with
  | case1 l low check high hle e he =>
    exfalso
    have hlt : check < l.length := by omega
    obtain ⟨c, hc'⟩ := hc _ (List.getElem_mem hlt)
    simp [getE, hlt, bind, Except.bind, hc'] at he
  | case2 l low check high hle c he hneg e hs =>
    exfalso
    obtain ⟨l', h, _⟩ := swapE_spec l low check (by omega) (by omega)
    simp [h] at hs
  | case3 l low check high hle c he hneg l' hs ih =>
    obtain ⟨l2, h, hp⟩ := swapE_spec l low check (by omega) (by omega)
    have : l2 = l' := by simpa [h] using hs
    subst this
    obtain ⟨r, a, b, hr, hrp, hx, hy⟩ := ih (by omega) (by omega) (by rw [hp.length_eq]; exact h3)
      (fun x hx => hc x (hp.mem_iff.1 hx))
    exact ⟨r, a, b, hr, hrp.trans hp, hx, by omega⟩
  | case4 l low check high hle c he hneg hpos e hs =>
    exfalso
    obtain ⟨l', h, _⟩ := swapE_spec l high check (by omega) (by omega)
    simp [h] at hs
  | case5 l low check he0 c hneg hpos l' hs hle =>
    omega
  | case6 l low check high hle c he hneg hpos l' hs h0 ih =>
    obtain ⟨l2, h, hp⟩ := swapE_spec l high check (by omega) (by omega)
    have : l2 = l' := by simpa [h] using hs
    subst this
    obtain ⟨r, a, b, hr, hrp, hx, hy⟩ := ih h1 (by omega) (by rw [hp.length_eq]; omega)
      (fun x hx => hc x (hp.mem_iff.1 hx))
    exact ⟨r, a, b, hr, hrp.trans hp, by omega, hy⟩
  | case7 l low check high hle c he hneg hpos ih =>
    obtain ⟨r, a, b, hr, hrp, hx, hy⟩ := ih (by omega) (by omega) h3 hc
    exact ⟨r, a, b, hr, hrp, hx, by omega⟩
  | case8 l low check high hle =>
    exact ⟨l, low, check, rfl, List.Perm.refl _, by omega, Nat.le_refl _⟩

theorem quicksort_spec {α : Type} (cmp : α → α → Except PyErr Int) :
    ∀ (fuel : Nat) (l : List α) (low high : Nat), high - low ≤ fuel →
    (low < high → high < l.length) →
    (∀ x ∈ l, ∀ y ∈ l, ∃ c, cmp x y = .ok c) →
    ∃ l', quicksort cmp fuel l low high = .ok l' ∧ l'.Perm l := by
  intro fuel
  induction fuel with
  | zero =>
    intro l low high hf hh hc
    unfold quicksort
    have : ¬ low < high := by omega
    simp [this]
  | succ fuel ih =>
    intro l low high hf hh hc
    unfold quicksort
    by_cases hlt : low < high
    · have hlen := hh hlt
      have hlow : low < l.length := by omega
      simp only [hlt, if_true]
      have hg : getE l low = .ok l[low] := by simp [getE, hlow]
      rw [hg]
      simp only [bind, Except.bind]
      obtain ⟨l1, left, right, h1, hp1, hle, hcheck⟩ := partitionLoop_spec
        (fun x => cmp x l[low]) l low (low + 1) high (by omega) (by omega) hlen
        (fun x hx => hc x hx _ (List.getElem_mem hlow))
      rw [h1]
      simp only
      obtain ⟨l2, h2, hp2⟩ := ih l1 low (left - 1) (by omega)
        (by intro h; rw [hp1.length_eq]; omega)
        (fun x hx y hy => hc x (hp1.mem_iff.1 hx) y (hp1.mem_iff.1 hy))
      rw [h2]
      simp only
      obtain ⟨l3, h3, hp3⟩ := ih l2 right high (by omega)
        (by intro h; rw [hp2.length_eq, hp1.length_eq]; omega)
        (fun x hx y hy => hc x (hp1.mem_iff.1 (hp2.mem_iff.1 hx)) y
          (hp1.mem_iff.1 (hp2.mem_iff.1 hy)))
      exact ⟨l3, h3, hp3.trans (hp2.trans hp1)⟩
    · simp [hlt]

theorem compareRoutes_ok (routes : List Nat) (a b : Nat) (ha : a ∈ routes) :
    ∃ c, compareRoutes routes a b = .ok c := by
  induction routes with
  | nil => simp at ha
  | cons r rs ih =>
    unfold compareRoutes
    split
    · exact ⟨_, rfl⟩
    · split
      · next heq => cases heq
      · next r' rs' heq =>
        cases heq
        split
        · exact ⟨_, rfl⟩
        · split
          · exact ⟨_, rfl⟩
          · next h1 h2 =>
            apply ih
            rcases List.mem_cons.1 ha with h | h
            · subst h; simp at h1
            · exact h

/-- The histogram holds each route of the entries read so far, once. -/
structure HistInv (n : Nat) (h : Histogram) (es : List Entry) : Prop where
  mem : ∀ e ∈ es, e.route ∈ h.map (·.1)
  from_es : ∀ r ∈ h.map (·.1), r ∈ es.map (·.route)
  nodup : (h.map (·.1)).Nodup
  len : h.length ≤ n

theorem updateFrequency_spec (n : Nat) (h : Histogram) (es : List Entry) (e : Entry)
    (hi : HistInv n h es) (h' : Histogram) (hu : updateFrequency n h e = .ok h') :
    HistInv n h' (es ++ [e]) := by
  unfold updateFrequency at hu
  split at hu
  · next hany =>
    cases hu
    have hm : (h.map (fun rf => if rf.1 == e.route then (rf.1, rf.2 + 1) else rf)).map (·.1) =
        h.map (·.1) := by
      rw [List.map_map]; apply List.map_congr_left; intro rf _; simp only [Function.comp]; split <;> rfl
    constructor
    · rw [hm]; intro x hx
      rcases List.mem_append.1 hx with h1 | h1
      · exact hi.mem x h1
      · simp at h1; subst h1
        rw [List.any_eq_true] at hany
        obtain ⟨rf, h2, h3⟩ := hany
        have : rf.1 = x.route := by simpa using h3
        rw [← this]; exact List.mem_map_of_mem h2
    · rw [hm]; intro r hr
      have := hi.from_es r hr
      simp only [List.map_append, List.mem_append]; exact Or.inl this
    · rw [hm]; exact hi.nodup
    · simpa using hi.len
  · next hany =>
    split at hu
    · next hlt =>
      cases hu
      have hnot : e.route ∉ h.map (·.1) := by
        intro hm
        obtain ⟨rf, h2, h3⟩ := List.mem_map.1 hm
        exact hany (List.any_eq_true.2 ⟨rf, h2, by simpa using h3⟩)
      constructor
      · intro x hx
        rcases List.mem_append.1 hx with h1 | h1
        · simp only [List.map_append, List.mem_append]; exact Or.inl (hi.mem x h1)
        · simp at h1; subst h1; simp
      · intro r hr
        simp only [List.map_append, List.mem_append, List.map_cons, List.map_nil] at hr ⊢
        rcases hr with h1 | h1
        · exact Or.inl (hi.from_es r h1)
        · exact Or.inr h1
      · simp only [List.map_append, List.map_cons, List.map_nil]
        rw [List.nodup_append]
        refine ⟨hi.nodup, by simp, ?_⟩
        intro a ha b hb
        simp at hb; subst hb
        intro hab; subst hab; exact hnot ha
      · simp; omega
    · cases hu

theorem histogram_inv (n : Nat) (es h) (hh : histogram n es = .ok h) : HistInv n h es := by
  have gen : ∀ (es2 es1 : List Entry) (h1 : Histogram), HistInv n h1 es1 →
      ∀ h, es2.foldlM (updateFrequency n) h1 = .ok h → HistInv n h (es1 ++ es2) := by
    intro es2
    induction es2 with
    | nil =>
      intro es1 h1 hi h hf
      simp [pure, Except.pure] at hf
      subst hf; simpa using hi
    | cons e es2 ih =>
      intro es1 h1 hi h hf
      simp only [List.foldlM_cons, bind, Except.bind] at hf
      split at hf
      · cases hf
      · next h2 heq =>
        have := ih (es1 ++ [e]) h2 (updateFrequency_spec n h1 es1 e hi h2 heq) h hf
        simpa using this
  have := gen es [] [] ⟨by simp, by simp, by simp, by simp⟩ h hh
  simpa using this

/-- The number of distinct routes of a table. -/
def distinctRoutes (t : List Entry) : Nat := (t.map (·.route)).eraseDups.length

theorem nodup_le_of_subset {α : Type} [DecidableEq α] (a b : List α) (ha : a.Nodup)
    (h : ∀ x ∈ a, x ∈ b) : a.length ≤ b.length := by
  induction a generalizing b with
  | nil => simp
  | cons x a ih =>
    rw [List.nodup_cons] at ha
    have hx := h x (by simp)
    have := ih (b.erase x) ha.2 (by
      intro y hy
      have hyb := h y (List.mem_cons_of_mem _ hy)
      rw [List.mem_erase_of_ne]
      · exact hyb
      · rintro rfl; exact ha.1 hy)
    rw [List.length_erase_of_mem hx] at this
    have : 0 < b.length := List.length_pos_of_mem hx
    simp; omega

theorem histogram_ok (n : Nat) (es : List Entry) (hn : distinctRoutes es ≤ n) :
    ∃ h, histogram n es = .ok h := by
  have gen : ∀ (es2 es1 : List Entry) (h1 : Histogram), HistInv n h1 es1 → es1 ++ es2 = es →
      ∃ h, es2.foldlM (updateFrequency n) h1 = .ok h := by
    intro es2
    induction es2 with
    | nil => intro es1 h1 _ _; exact ⟨h1, rfl⟩
    | cons e es2 ih =>
      intro es1 h1 hi heq
      have hok : ∃ h2, updateFrequency n h1 e = .ok h2 := by
        unfold updateFrequency
        split
        · exact ⟨_, rfl⟩
        · next hany =>
          split
          · exact ⟨_, rfl⟩
          · next hlt =>
            exfalso
            have hnot : e.route ∉ h1.map (·.1) := by
              intro hm
              obtain ⟨rf, h2, h3⟩ := List.mem_map.1 hm
              exact hany (List.any_eq_true.2 ⟨rf, h2, by simpa using h3⟩)
            have := nodup_le_of_subset (e.route :: h1.map (·.1)) (es.map (·.route)).eraseDups
              (by rw [List.nodup_cons]; exact ⟨hnot, hi.nodup⟩)
              (by intro r hr
                  rw [List.mem_eraseDups, ← heq]
                  rcases List.mem_cons.1 hr with h | h
                  · subst h; simp
                  · have := hi.from_es r h
                    simp only [List.map_append, List.mem_append]; exact Or.inl this)
            unfold distinctRoutes at hn
            simp at this; omega
      obtain ⟨h2, h2eq⟩ := hok
      simp only [List.foldlM_cons, bind, Except.bind, h2eq]
      exact ih (es1 ++ [e]) h2 (updateFrequency_spec n h1 es1 e hi h2 h2eq) (by simpa using heq)
  exact gen es [] [] ⟨by simp, by simp, by simp, by simp⟩ (by simp)

theorem pySort_perm (n : Nat) (h : Histogram) (es es' : List Entry)
    (hs : pySort n h es = .ok es') : es'.Perm es := by
  unfold pySort at hs
  split at hs
  · cases hs
  · simp only at hs
    split at hs
    · cases hs; exact stableSort_perm _ _
    · cases hs

theorem pySort_ok (n : Nat) (h : Histogram) (es : List Entry) (hn : n ≠ 0) (hi : HistInv n h es) :
    ∃ es', pySort n h es = .ok es' := by
  unfold pySort
  simp only [hn, if_false]
  split
  · exact ⟨_, rfl⟩
  · next hf =>
    exfalso
    apply hf
    rw [List.all_eq_true]; intro a ha
    rw [List.all_eq_true]; intro b _
    have : a.route ∈ ((stableSort (fun a b => decide (b.2 ≤ a.2)) h).map (·.1)) := by
      have hm := hi.mem a ha
      exact ((stableSort_perm _ h).map (·.1)).mem_iff.2 hm
    obtain ⟨c, hc⟩ := compareRoutes_ok _ a.route b.route this
    simp only [hc]

theorem cSort_spec (n : Nat) (h : Histogram) (es : List Entry) (hi : HistInv n h es) :
    ∃ es', cSort h es = .ok es' ∧ es'.Perm es := by
  unfold cSort
  obtain ⟨h', hq, hp⟩ := quicksort_spec
    (fun (x p : Nat × Nat) => (.ok (if x.2 > p.2 then -1 else if x.2 < p.2 then 1 else 0) :
      Except PyErr Int))
    h.length h 0 (h.length - 1) (by omega) (by omega) (fun x _ y _ => ⟨_, rfl⟩)
  rw [hq]
  simp only [bind, Except.bind]
  exact quicksort_spec _ es.length es 0 (es.length - 1) (by omega) (by omega)
    (fun x hx y _ => compareRoutes_ok _ _ _ ((hp.map (·.1)).mem_iff.2 (hi.mem x hx)))

theorem RouteDisjoint.perm {t t' : List Entry} (h : RouteDisjoint t) (hp : t'.Perm t) :
    RouteDisjoint t' :=
  fun a ha b hb => h a (hp.mem_iff.1 ha) b (hp.mem_iff.1 hb)

/-- A successful `compress_table` compressed some permutation of the table. -/
theorem compressTable_perm (ordered useC : Bool) (n : Nat) (t : List Entry)
    (t' : List Entry) (hok : compressTable ordered useC n t = .ok t') :
    ∃ es, es.Perm t ∧ compressSorted ordered es = .ok t' := by
  unfold compressTable at hok
  simp only [bind, Except.bind] at hok
  cases hh : histogram n t with
  | error e => simp [hh] at hok
  | ok h =>
    have hi := histogram_inv n t h hh
    simp only [hh] at hok
    cases useC with
    | true =>
      obtain ⟨es', h1, h2⟩ := cSort_spec n h t hi
      simp only [if_true, h1] at hok
      exact ⟨es', h2, hok⟩
    | false =>
      simp only [Bool.false_eq_true, if_false] at hok
      cases hs : pySort n h t with
      | error e => simp [hs] at hok
      | ok es =>
        simp only [hs] at hok
        exact ⟨es, pySort_perm n h t es hs, hok⟩

theorem compressTable_spec (ordered useC : Bool) (n : Nat) (t : List Entry) (hv : AllValid t)
    (hd : RouteDisjoint t) (t' : List Entry) (hok : compressTable ordered useC n t = .ok t') :
    ∃ es, es.Perm t ∧ Inv ordered t' es [] := by
  obtain ⟨es, hp, hc⟩ := compressTable_perm ordered useC n t t' hok
  obtain ⟨W, hW, hinv⟩ := compressSorted_spec ordered es
    (fun e he => hv e (hp.mem_iff.1 he)) (RouteDisjoint.perm hd hp)
  rw [hW] at hc; cases hc
  exact ⟨es, hp, hinv⟩

theorem compressTable_any (ordered useC : Bool) (n : Nat) (t : List Entry) (hv : AllValid t)
    (t' : List Entry) (hok : compressTable ordered useC n t = .ok t') :
    ∃ es, es.Perm t ∧ InvAny t' es := by
  obtain ⟨es, hp, hc⟩ := compressTable_perm ordered useC n t t' hok
  obtain ⟨W, hW, hinv⟩ := compressSorted_any ordered es
    (fun e he => hv e (hp.mem_iff.1 he))
  rw [hW] at hc; cases hc
  exact ⟨es, hp, hinv⟩

theorem compressTable_ok (ordered useC : Bool) (n : Nat) (t : List Entry) (hv : AllValid t)
    (hn : n ≠ 0) (hr : distinctRoutes t ≤ n) :
    ∃ t', compressTable ordered useC n t = .ok t' := by
  unfold compressTable
  obtain ⟨h, hh⟩ := histogram_ok n t hr
  have hi := histogram_inv n t h hh
  rw [hh]
  simp only [bind, Except.bind]
  have fin : ∀ es, es.Perm t → ∃ t', compressSorted ordered es = .ok t' := by
    intro es hp
    obtain ⟨W, hW, _⟩ := compressSorted_any ordered es (fun e he => hv e (hp.mem_iff.1 he))
    exact ⟨W, hW⟩
  cases useC with
  | true =>
    obtain ⟨es', h1, h2⟩ := cSort_spec n h t hi
    simp only [if_true, h1]
    exact fin es' h2
  | false =>
    obtain ⟨es', h1⟩ := pySort_ok n h t hn hi
    simp only [Bool.false_eq_true, if_false, h1]
    exact fin es' (pySort_perm n h t es' h1)

end Pacman.Pair
