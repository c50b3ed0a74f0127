import Verif.Proofs.PairCompressor
/-
What the pair compressor leaves: no two entries of one route that could still be merged.
-/

namespace Pacman.Pair

/-! ### Entries that contain others, bit by bit -/

/-- Each bit that `q` looks at, `p` looks at too and wants to be the same. -/
def Gen (q p : Entry) : Prop :=
  ∀ i, i < 32 → q.mask.getLsbD i = true →
    p.mask.getLsbD i = true ∧ q.key.getLsbD i = p.key.getLsbD i

theorem Gen.refl (q : Entry) : Gen q q := fun _ _ h => ⟨h, rfl⟩

theorem Gen.trans {a b c : Entry} (h1 : Gen a b) (h2 : Gen b c) : Gen a c := by
  intro i hi h
  obtain ⟨h3, h4⟩ := h1 i hi h
  obtain ⟨h5, h6⟩ := h2 i hi h3
  exact ⟨h5, h4.trans h6⟩

theorem gen_left (x y : Entry) : Gen (mergeE x y) x := by
  intro i hi h
  obtain ⟨hm, hk⟩ := mergeE_bits x y i hi
  rw [hm] at h
  simp only [Bool.and_eq_true, beq_iff_eq] at h
  rw [hk, ← h.2, h.1.1, h.1.2]
  simp

theorem gen_right (x y : Entry) : Gen (mergeE x y) y := by
  intro i hi h
  obtain ⟨hm, hk⟩ := mergeE_bits x y i hi
  rw [hm] at h
  simp only [Bool.and_eq_true, beq_iff_eq] at h
  rw [hk, h.2, h.1.1, h.1.2]
  simp

/-- The merge is the narrowest entry around both. -/
theorem gen_merge {m x y : Entry} (h1 : Gen m x) (h2 : Gen m y) : Gen m (mergeE x y) := by
  intro i hi h
  obtain ⟨hm, hk⟩ := mergeE_bits x y i hi
  obtain ⟨a1, a2⟩ := h1 i hi h
  obtain ⟨b1, b2⟩ := h2 i hi h
  rw [hm, hk, a1, b1, ← a2, ← b2]
  simp

theorem gen_of_keys {m a : Entry} (ha : a.Valid) (h : ∀ k, a.Matches k → m.Matches k) :
    Gen m a := by
  intro i hi hm
  have hak : a.Matches a.key := ha
  have h1 := (and_eq_iff.1 (h a.key hak)) i hi
  rw [hm] at h1
  simp only [Bool.and_true] at h1
  refine ⟨?_, h1.symm⟩
  cases hai : a.mask.getLsbD i with
  | true => rfl
  | false =>
    exfalso
    have hk2 : a.Matches (a.key ^^^ BitVec.twoPow 32 i) := by
      unfold Entry.Matches
      rw [and_eq_iff]
      intro j hj
      have hv := (and_eq_iff.1 ha) j hj
      rw [BitVec.getLsbD_xor, BitVec.getLsbD_twoPow]
      by_cases hij : i = j
      · subst hij
        rw [hai] at hv ⊢
        simpa using hv
      · simp only [hij, decide_false, Bool.and_false, Bool.xor_false]
        exact hv
    have h2 := (and_eq_iff.1 (h _ hk2)) i hi
    rw [hm, BitVec.getLsbD_xor, BitVec.getLsbD_twoPow] at h2
    simp only [hi, decide_true, Bool.and_true] at h2
    rw [← h1] at h2
    cases hb : a.key.getLsbD i <;> rw [hb] at h2 <;> simp at h2

theorem keys_of_gen {m a : Entry} (hm : m.Valid) (h : Gen m a) {k : Word} (hk : a.Matches k) :
    m.Matches k := by
  unfold Entry.Matches at *
  rw [and_eq_iff] at *
  intro i hi
  have h1 := hk i hi
  have h2 := (and_eq_iff.1 hm) i hi
  cases hb : m.mask.getLsbD i with
  | false => rw [hb] at h2; simpa using h2
  | true =>
    obtain ⟨h3, h4⟩ := h i hi hb
    rw [h3] at h1
    rw [h4]; exact h1

/-- What is in the way of an entry is in the way of a wider one. -/
theorem intersect_gen {e m m' : Entry} (hm' : m'.Valid) (h : Gen m' m)
    (hi : intersect e.key e.mask m.key m.mask = true) :
    intersect e.key e.mask m'.key m'.mask = true := by
  unfold intersect at *
  rw [beq_iff_eq] at *
  apply word_ext; intro i h32
  have h1 := word_bit hi i
  have h2 := (and_eq_iff.1 hm') i h32
  rw [BitVec.getLsbD_and, BitVec.getLsbD_and] at *
  cases hb : m'.mask.getLsbD i with
  | false => rw [hb] at h2; simp only [Bool.and_false] at h2; simp [← h2]
  | true =>
    obtain ⟨h3, h4⟩ := h i h32 hb
    rw [h3] at h1
    rw [h4]; exact h1

theorem blocked_gen {o : Bool} {V R : List Entry} {m m' : Entry} (hm' : m'.Valid) (h : Gen m' m)
    (hb : blocked o V R m = true) : blocked o V R m' = true := by
  unfold blocked at *
  simp only [Bool.or_eq_true, Bool.and_eq_true, List.any_eq_true] at *
  rcases hb with ⟨ho, e, he, hi⟩ | ⟨e, he, hi⟩
  · exact Or.inl ⟨ho, e, he, intersect_gen hm' h hi⟩
  · exact Or.inr ⟨e, he, intersect_gen hm' h hi⟩

/-! ### One route -/

/-- The inner loop that finds nothing has tried all pending entries. -/
theorem inner_none (c : Ctx) (A : List Entry) (x : Entry) (P C V R : List Entry)
    (hV : ∀ z Q D, Q.length + D.length = P.length + C.length →
      (A ++ z :: Q ++ D).take c.previousIndex = V)
    (hR : (A ++ x :: P ++ C).drop c.remainingIndex = R)
    (B P2 : List Entry) (hP : P = B ++ P2) (left right index : Nat)
    (hl : left = A.length) (hr : right = A.length + P.length)
    (hi : index = A.length + 1 + B.length)
    (h : inner c left right (A ++ x :: P ++ C) index = .ok none) :
    ∀ y ∈ P2, blocked c.ordered V R (mergeE x y) = true := by
  induction P2 generalizing B index with
  | nil => intro y hy; simp at hy
  | cons y P2 ih =>
    have hle : index ≤ right := by subst hP; simp at hr; omega
    have hes : A ++ x :: P ++ C = A ++ x :: B ++ y :: (P2 ++ C) := by
      subst hP; simp
    have hf := findMerge_spec c A B x y (P2 ++ C) V R left index hl hi
      (by have := hV x (B ++ [y]) (P2 ++ C) (by subst hP; simp; omega)
          simpa using this)
      (by rw [← hes]; exact hR)
    rw [inner] at h
    simp only [hle, if_true] at h
    rw [hes, hf] at h
    cases hb : blocked c.ordered V R (mergeE x y) with
    | true =>
      rw [hb] at h
      simp only [if_true] at h
      rw [← hes] at h
      have := ih (B ++ [y]) (by subst hP; simp) (index + 1) (by simp; omega) h
      intro z hz
      rcases List.mem_cons.1 hz with rfl | hz
      · exact hb
      · exact this z hz
    | false =>
      rw [hb] at h
      simp only [Bool.false_eq_true, if_false, bind, Except.bind, pure, Except.pure] at h
      split at h
      · cases h
      · split at h
        · cases h
        · cases h

/-- Two entries of which the merge is refused. -/
abbrev Refused (o : Bool) (V R : List Entry) (a b : Entry) : Prop :=
  blocked o V R (mergeE a b) = true

/-- The entries of one route after its compression: no two of them can be merged, and nothing
is done if that was so before. -/
theorem compressByRoute_full (ρ : Nat) (c : Ctx) (V R : List Entry) :
    ∀ (n : Nat) (W G P G2 : List Entry), P.length = n + 1 →
    (∀ p ∈ P, p.Valid ∧ p.route = ρ) →
    c.previousIndex ≤ W.length → W.take c.previousIndex = V →
    c.remainingIndex = (W ++ G ++ P ++ G2).length →
    ∃ Q G', compressByRoute c (W ++ G ++ P ++ G2 ++ R) W.length (W.length + G.length)
        (W.length + G.length + n) = .ok (W ++ Q ++ G' ++ R, (W ++ Q).length) ∧
      (W ++ Q ++ G').length = c.remainingIndex ∧
      (∀ q ∈ Q, q.Valid ∧ q.route = ρ) ∧ (∀ p ∈ P, ∃ q ∈ Q, Gen q p) ∧
      Q ≠ [] ∧ (∀ q ∈ Q, ∃ p ∈ P, Gen q p) ∧
      Q.Pairwise (Refused c.ordered V R) ∧
      (P.Pairwise (Refused c.ordered V R) → Q = P) := by
  intro n
  induction n with
  | zero =>
    intro W G P G2 hP hgood hprev hV hrem
    obtain ⟨x, rfl⟩ := List.length_eq_one_iff.1 hP
    rw [compressByRoute]
    simp only [Nat.add_zero, Nat.lt_irrefl, if_false, if_true]
    have g : getE (W ++ G ++ [x] ++ G2 ++ R) (W.length + G.length) = .ok x := by
      have : W ++ G ++ [x] ++ G2 ++ R = (W ++ G) ++ x :: (G2 ++ R) := by simp
      rw [this]; exact getE_mid _ _ _ _ (by simp)
    rw [g]
    simp only [bind, Except.bind, pure, Except.pure]
    have hself : ∀ p ∈ [x], ∃ q ∈ [x], Gen q p := fun p hp => ⟨p, hp, Gen.refl p⟩
    have hself' : ∀ q ∈ [x], ∃ p ∈ [x], Gen q p := fun p hp => ⟨p, hp, Gen.refl p⟩
    cases G with
    | nil =>
      have s : setE (W ++ [] ++ [x] ++ G2 ++ R) W.length x = .ok (W ++ [x] ++ G2 ++ R) := by
        have : W ++ [] ++ [x] ++ G2 ++ R = W ++ x :: (G2 ++ R) := by simp
        rw [this, setE_mid _ _ _ _ _ rfl]; simp
      rw [s]
      exact ⟨[x], G2, by simp, by simp [hrem], hgood, hself, by simp, hself',
        List.pairwise_singleton _ _, fun _ => rfl⟩
    | cons g0 G =>
      have s : setE (W ++ (g0 :: G) ++ [x] ++ G2 ++ R) W.length x =
          .ok (W ++ [x] ++ (G ++ [x] ++ G2) ++ R) := by
        have : W ++ (g0 :: G) ++ [x] ++ G2 ++ R = W ++ g0 :: (G ++ [x] ++ G2 ++ R) := by simp
        rw [this, setE_mid _ _ _ _ _ rfl]; simp
      rw [s]
      exact ⟨[x], G ++ [x] ++ G2, by simp, by simp [hrem], hgood, hself, by simp, hself',
        List.pairwise_singleton _ _, fun _ => rfl⟩
  | succ n ih =>
    intro W G P G2 hP hgood hprev hV hrem
    cases P with
    | nil => simp at hP
    | cons x P =>
    have hes : W ++ G ++ (x :: P) ++ G2 ++ R = (W ++ G) ++ x :: P ++ (G2 ++ R) := by simp
    have hVV : ∀ z Q D, Q.length + D.length = P.length + (G2 ++ R).length →
        ((W ++ G) ++ z :: Q ++ D).take c.previousIndex = V := by
      intro z Q D _
      rw [List.append_assoc, List.append_assoc, List.take_append_of_le_length hprev]; exact hV
    have hRR : ((W ++ G) ++ x :: P ++ (G2 ++ R)).drop c.remainingIndex = R := by
      rw [← hes, hrem]; simp
    have hsp := inner_spec c (W ++ G) x P (G2 ++ R) V R hVV hRR
      [] P (by simp) (W.length + G.length) (W.length + G.length + (n + 1))
      (W.length + G.length + 1) (by simp) (by simp at hP ⊢; omega) (by simp)
    have hlt : W.length + G.length < W.length + G.length + (n + 1) := by omega
    rcases hsp with h | ⟨y, P', g, hperm, hy, hb, h⟩
    · -- nothing merges with x: it is written out
      have hall := inner_none c (W ++ G) x P (G2 ++ R) V R hVV hRR
        [] P (by simp) (W.length + G.length) (W.length + G.length + (n + 1))
        (W.length + G.length + 1) (by simp) (by simp at hP ⊢; omega) (by simp) h
      rw [compressByRoute]
      simp only [hlt, if_true]
      rw [hes, h]
      simp only
      rw [← hes]
      have ge : getE (W ++ G ++ (x :: P) ++ G2 ++ R) (W.length + G.length) = .ok x := by
        have : W ++ G ++ (x :: P) ++ G2 ++ R = (W ++ G) ++ x :: (P ++ G2 ++ R) := by simp
        rw [this]; exact getE_mid _ _ _ _ (by simp)
      rw [ge]
      simp only [bind, Except.bind]
      have hP1 : P.length = n + 1 := by simpa using hP
      have key : ∃ G1 : List Entry, G1.length = G.length ∧
          setE (W ++ G ++ (x :: P) ++ G2 ++ R) W.length x =
            .ok ((W ++ [x]) ++ G1 ++ P ++ G2 ++ R) := by
        cases G with
        | nil =>
          refine ⟨[], rfl, ?_⟩
          have : W ++ [] ++ (x :: P) ++ G2 ++ R = W ++ x :: (P ++ G2 ++ R) := by simp
          rw [this, setE_mid _ _ _ _ _ rfl]; simp
        | cons g0 G =>
          refine ⟨G ++ [x], by simp, ?_⟩
          have : W ++ (g0 :: G) ++ (x :: P) ++ G2 ++ R = W ++ g0 :: (G ++ [x] ++ P ++ G2 ++ R) := by
            simp
          rw [this, setE_mid _ _ _ _ _ rfl]; simp
      obtain ⟨G1, hG1, hset⟩ := key
      rw [hset]
      simp only
      obtain ⟨Q, G', hq, hlen, hQ, hcov, _, hfrom, hpw, hsame⟩ := ih (W ++ [x]) G1 P G2 hP1
        (fun p hp => hgood p (List.mem_cons_of_mem _ hp)) (by simp; omega)
        (by rw [List.take_append_of_le_length hprev]; exact hV)
        (by rw [hrem]; simp; omega)
      refine ⟨x :: Q, G', ?_, ?_, ?_, ?_, by simp, ?_, ?_, ?_⟩
      · have e1 : (W ++ [x]).length = W.length + 1 := by simp
        rw [e1, hG1] at hq
        have e2 : W.length + 1 + G.length = W.length + G.length + 1 := by omega
        have e3 : W.length + 1 + G.length + n = W.length + G.length + (n + 1) := by omega
        rw [e3] at hq
        rw [e2] at hq
        rw [hq]; simp
      · rw [← hlen]; simp
      · intro q hq'
        rcases List.mem_cons.1 hq' with rfl | h'
        · exact hgood _ (by simp)
        · exact hQ q h'
      · intro p hp
        rcases List.mem_cons.1 hp with rfl | h'
        · exact ⟨p, by simp, Gen.refl _⟩
        · obtain ⟨q, hq1, hq2⟩ := hcov p h'
          exact ⟨q, List.mem_cons_of_mem _ hq1, hq2⟩
      · intro q hq'
        rcases List.mem_cons.1 hq' with rfl | h'
        · exact ⟨q, by simp, Gen.refl _⟩
        · obtain ⟨p, hp1, hp2⟩ := hfrom q h'
          exact ⟨p, List.mem_cons_of_mem _ hp1, hp2⟩
      · refine List.pairwise_cons.2 ⟨?_, hpw⟩
        intro q hq'
        obtain ⟨p, hp1, hp2⟩ := hfrom q hq'
        exact blocked_gen (mergeE_valid x q)
          (gen_merge (gen_left x q) ((gen_right x q).trans hp2)) (hall p hp1)
      · intro hp
        rw [hsame (List.pairwise_cons.1 hp).2]
    · -- x merges with y
      rw [compressByRoute]
      simp only [hlt, if_true]
      rw [hes, h]
      simp only
      have hgx := hgood x (by simp)
      have hgm : (mergeE x y).Valid ∧ (mergeE x y).route = ρ := ⟨mergeE_valid x y, hgx.2⟩
      have hplen : P.length = n + 1 := by simpa using hP
      have hp'len : P'.length = n := by have := hperm.length_eq; simp at this; omega
      obtain ⟨Q, G', hq, hlen, hQ, hcov, hne, hfrom, hpw, _⟩ := ih W G (mergeE x y :: P') (g :: G2)
        (by simp [hp'len])
        (by intro p hp
            rcases List.mem_cons.1 hp with rfl | h'
            · exact hgm
            · exact hgood p (List.mem_cons_of_mem _ (hperm.mem_iff.2 (List.mem_cons_of_mem _ h'))))
        hprev hV (by rw [hrem]; simp; omega)
      refine ⟨Q, G', ?_, hlen, hQ, ?_, hne, ?_, hpw, ?_⟩
      · have e1 : W.length + G.length + (n + 1) - 1 = W.length + G.length + n := by omega
        rw [e1, ← hq]; simp
      · intro p hp
        rcases List.mem_cons.1 hp with rfl | h'
        · obtain ⟨q, hq1, hq2⟩ := hcov (mergeE p y) (by simp)
          exact ⟨q, hq1, hq2.trans (gen_left _ _)⟩
        · rcases List.mem_cons.1 (hperm.mem_iff.1 h') with rfl | h''
          · obtain ⟨q, hq1, hq2⟩ := hcov (mergeE x p) (by simp)
            exact ⟨q, hq1, hq2.trans (gen_right _ _)⟩
          · exact hcov p (List.mem_cons_of_mem _ h'')
      · intro q hq'
        obtain ⟨p, hp1, hp2⟩ := hfrom q hq'
        rcases List.mem_cons.1 hp1 with rfl | h'
        · exact ⟨x, by simp, hp2.trans (gen_left _ _)⟩
        · exact ⟨p, List.mem_cons_of_mem _ (hperm.mem_iff.2 (List.mem_cons_of_mem _ h')), hp2⟩
      · intro hp
        have := (List.pairwise_cons.1 hp).1 y hy
        unfold Refused at this
        rw [hb] at this
        cases this


/-! ### All routes -/

/-- The scan stops before an entry of another route. -/
theorem scanRight_max (A : List Entry) (x : Entry) (P R : List Entry) (left right : Nat)
    (hl : left = A.length) (hr : right = A.length + P.length)
    (hP : ∀ p ∈ P, p.route = x.route) :
    ∃ P' R', scanRight (A ++ x :: P ++ R) left right = .ok (A.length + P'.length) ∧
      P ++ R = P' ++ R' ∧ (∀ p ∈ P', p.route = x.route) ∧
      (∀ r R'', R' = r :: R'' → r.route ≠ x.route) := by
  induction R generalizing P right with
  | nil =>
    refine ⟨P, [], ?_, by simp, hP, fun _ _ h => by cases h⟩
    rw [scanRight]
    have : ¬ (right + 1 < (A ++ x :: P ++ []).length) := by simp; omega
    rw [if_neg this, hr]
  | cons y R ih =>
    have hlt : right + 1 < (A ++ x :: P ++ y :: R).length := by simp; omega
    have g1 : getE (A ++ x :: P ++ y :: R) (right + 1) = .ok y :=
      getE_mid _ _ _ _ (by simp; omega)
    have g2 : getE (A ++ x :: P ++ y :: R) left = .ok x := by
      rw [List.append_assoc, List.cons_append]; exact getE_mid _ _ _ _ hl
    rw [scanRight]
    simp only [hlt, if_true, g1, g2, bind, Except.bind, pure, Except.pure]
    by_cases hxy : y.route = x.route
    · simp only [hxy, BEq.rfl]
      obtain ⟨P', R', h1, h2, h3, h4⟩ := ih (P ++ [y]) (right + 1) (by simp; omega)
        (by intro p hp
            rcases List.mem_append.1 hp with h | h
            · exact hP p h
            · simp at h; subst h; exact hxy)
      refine ⟨P', R', ?_, ?_, h3, h4⟩
      · rw [← h1]; simp
      · rw [← h2]; simp
    · have : (y.route == x.route) = false := by simpa using hxy
      simp only [this]
      exact ⟨P, y :: R, by simp [hr], rfl, hP, fun r R'' h => by cases h; exact hxy⟩

/-- A table in which the entries of each route stand together, in falling order of `pos`. -/
structure Sorted (pos : Nat → Nat) (es : List Entry) : Prop where
  falling : es.Pairwise (fun a b => pos b.route ≤ pos a.route)
  inj : ∀ a ∈ es, ∀ b ∈ es, pos a.route = pos b.route → a.route = b.route

/-- Invariant between routes: `W` is what has been written, `R` what is still to come. -/
structure FullInv (o : Bool) (pos : Nat → Nat) (W D R : List Entry) : Prop where
  valid : AllValid W
  falling : W.Pairwise (fun a b => pos b.route ≤ pos a.route)
  apart : ∀ w ∈ W, ∀ r ∈ R, pos r.route < pos w.route
  origin : ∀ w ∈ W, ∃ d ∈ D, d.route = w.route
  cover : ∀ d ∈ D, ∃ w ∈ W, w.route = d.route
  stuck : W.Pairwise (fun a b => a.route = b.route →
    ∃ c, c.Valid ∧ c.route ≠ a.route ∧
      intersect c.key c.mask (mergeE a b).key (mergeE a b).mask = true ∧
      (c ∈ R ∨ (c ∈ W ∧ (o = true → pos c.route < pos a.route))))

theorem intersect_comm (a b c d : Word) : intersect a b c d = intersect c d a b := by
  unfold intersect
  exact Bool.eq_iff_iff.2 (by rw [beq_iff_eq, beq_iff_eq]; exact eq_comm)

/-- Splitting a sorted rest into the entries of its first route and the others. -/
theorem rest_below {pos : Nat → Nat} {x : Entry} {P' R' : List Entry}
    (hs : Sorted pos (x :: (P' ++ R')))
    (hmax : ∀ r R'', R' = r :: R'' → r.route ≠ x.route) :
    ∀ r ∈ R', pos r.route < pos x.route := by
  cases R' with
  | nil => intro r hr; cases hr
  | cons r0 R'' =>
    have hne := hmax r0 R'' rfl
    have hf := hs.falling
    have h0 : pos r0.route ≤ pos x.route := (List.pairwise_cons.1 hf).1 r0 (by simp)
    have h1 : pos r0.route < pos x.route := by
      rcases Nat.lt_or_eq_of_le h0 with h | h
      · exact h
      · exact absurd (hs.inj r0 (by simp) x (by simp) h) hne
    intro r hr
    rcases List.mem_cons.1 hr with rfl | hr
    · exact h1
    · have h2 := (List.pairwise_append.1 (List.pairwise_cons.1 hf).2).2.1
      have := (List.pairwise_cons.1 h2).1 r hr
      omega

theorem Sorted.tail {pos : Nat → Nat} {A B : List Entry} (h : Sorted pos (A ++ B)) :
    Sorted pos B where
  falling := (List.pairwise_append.1 h.falling).2.1
  inj := fun a ha b hb => h.inj a (List.mem_append_right _ ha) b (List.mem_append_right _ hb)

theorem fullInv_step {o : Bool} {pos : Nat → Nat} {W D P R' Q : List Entry} {ρ : Nat}
    (hinv : FullInv o pos W D (P ++ R')) (hR' : AllValid R')
    (hP : ∀ p ∈ P, p.Valid ∧ p.route = ρ) (hPne : P ≠ [])
    (hQ : ∀ q ∈ Q, q.Valid ∧ q.route = ρ) (hQne : Q ≠ [])
    (hbelow : ∀ r ∈ R', pos r.route < pos ρ)
    (hcov : ∀ p ∈ P, ∃ q ∈ Q, Gen q p)
    (hpw : Q.Pairwise (Refused o W R')) :
    FullInv o pos (W ++ Q) (D ++ P) R' := by
  obtain ⟨p0, hp0⟩ := List.exists_mem_of_ne_nil P hPne
  obtain ⟨q0, hq0⟩ := List.exists_mem_of_ne_nil Q hQne
  have hWρ : ∀ w ∈ W, pos ρ < pos w.route := by
    intro w hw
    have := hinv.apart w hw p0 (by simp [hp0])
    rwa [(hP p0 hp0).2] at this
  constructor
  · intro e he
    rcases List.mem_append.1 he with h | h
    · exact hinv.valid e h
    · exact (hQ e h).1
  · refine List.pairwise_append.2 ⟨hinv.falling, ?_, ?_⟩
    · refine List.pairwise_iff_forall_sublist.2 ?_
      intro a b hab
      rw [(hQ a (hab.subset (by simp))).2, (hQ b (hab.subset (by simp))).2]
      exact Nat.le_refl _
    · intro a ha b hb
      rw [(hQ b hb).2]
      exact Nat.le_of_lt (hWρ a ha)
  · intro w hw r hr
    rcases List.mem_append.1 hw with h | h
    · exact hinv.apart w h r (by simp [hr])
    · rw [(hQ w h).2]; exact hbelow r hr
  · intro w hw
    rcases List.mem_append.1 hw with h | h
    · obtain ⟨d, hd, hr⟩ := hinv.origin w h
      exact ⟨d, by simp [hd], hr⟩
    · exact ⟨p0, by simp [hp0], by rw [(hP p0 hp0).2, (hQ w h).2]⟩
  · intro d hd
    rcases List.mem_append.1 hd with h | h
    · obtain ⟨w, hw, hr⟩ := hinv.cover d h
      exact ⟨w, by simp [hw], hr⟩
    · exact ⟨q0, by simp [hq0], by rw [(hP d h).2, (hQ q0 hq0).2]⟩
  · refine List.pairwise_append.2 ⟨?_, ?_, ?_⟩
    · have : ∀ a ∈ W, ∀ b ∈ W, (a.route = b.route →
          ∃ c, c.Valid ∧ c.route ≠ a.route ∧
            intersect c.key c.mask (mergeE a b).key (mergeE a b).mask = true ∧
            (c ∈ P ++ R' ∨ (c ∈ W ∧ (o = true → pos c.route < pos a.route)))) →
          (a.route = b.route → ∃ c, c.Valid ∧ c.route ≠ a.route ∧
            intersect c.key c.mask (mergeE a b).key (mergeE a b).mask = true ∧
            (c ∈ R' ∨ (c ∈ W ++ Q ∧ (o = true → pos c.route < pos a.route)))) := by
        intro a ha b hb h hab
        obtain ⟨c, hv, hne, hi, hc⟩ := h hab
        rcases hc with hc | ⟨hc, ho⟩
        · rcases List.mem_append.1 hc with hc | hc
          · obtain ⟨q, hq, hg⟩ := hcov c hc
            have hqr := (hQ q hq).2
            have hlt := hWρ a ha
            refine ⟨q, (hQ q hq).1, ?_, ?_, Or.inr ⟨by simp [hq], fun _ => by rw [hqr]; exact hlt⟩⟩
            · intro he; rw [← he, hqr] at hlt; exact Nat.lt_irrefl _ hlt
            · rw [intersect_comm] at hi ⊢
              exact intersect_gen (hQ q hq).1 hg hi
          · exact ⟨c, hv, hne, hi, Or.inl hc⟩
        · exact ⟨c, hv, hne, hi, Or.inr ⟨by simp [hc], ho⟩⟩
      exact hinv.stuck.imp_of_mem (fun {a b} ha hb h => this a ha b hb h)
    · refine hpw.imp_of_mem ?_
      intro a b ha hb h _
      unfold Refused blocked at h
      have har := (hQ a ha).2
      simp only [Bool.or_eq_true, Bool.and_eq_true, List.any_eq_true, Bool.not_eq_true'] at h
      rcases h with ⟨ho, c, hc, hi⟩ | ⟨c, hc, hi⟩
      · have := hWρ c hc
        refine ⟨c, hinv.valid c hc, ?_, hi, Or.inr ⟨by simp [hc], ?_⟩⟩
        · rw [har]; intro he; rw [he] at this; exact Nat.lt_irrefl _ this
        · intro h; rw [ho] at h; cases h
      · have := hbelow c hc
        refine ⟨c, hR' c hc, ?_, hi, Or.inl hc⟩
        rw [har]; intro he; rw [he] at this; exact Nat.lt_irrefl _ this
    · intro a ha b hb hab
      have := hWρ a ha
      rw [hab, (hQ b hb).2] at this
      exact absurd this (Nat.lt_irrefl _)

theorem outer_full (o : Bool) (pos : Nat → Nat) :
    ∀ (fuel : Nat) (W G D R : List Entry), AllValid R → Sorted pos R →
    R.length ≤ fuel → FullInv o pos W D R →
    ∃ W' Z, outer o fuel (W ++ G ++ R) W.length W.length (W.length + G.length) =
        .ok (W' ++ Z, W'.length) ∧ FullInv o pos W' (D ++ R) [] := by
  intro fuel
  induction fuel with
  | zero =>
    intro W G D R hR _ hlen hinv
    have : R = [] := List.eq_nil_of_length_eq_zero (by omega)
    subst this
    refine ⟨W, G, ?_, by simpa using hinv⟩
    unfold outer; simp
  | succ fuel ih =>
    intro W G D R hR hsort hlen hinv
    cases R with
    | nil =>
      refine ⟨W, G, ?_, by simpa using hinv⟩
      unfold outer; simp
    | cons x R0 =>
      unfold outer
      have hlt : W.length + G.length < (W ++ G ++ x :: R0).length := by simp
      simp only [hlt, if_true]
      obtain ⟨P', R', hs, hsplit, hroutes, hmax⟩ := scanRight_max (W ++ G) x [] R0
        (W.length + G.length) (W.length + G.length) (by simp) (by simp) (by simp)
      have hs' : scanRight (W ++ G ++ x :: R0) (W.length + G.length) (W.length + G.length) =
          .ok (W.length + G.length + P'.length) := by
        have e : W ++ G ++ [x] ++ R0 = W ++ G ++ x :: R0 := by simp
        rw [e] at hs; rw [hs]; simp
      rw [hs']
      simp only
      have hR0 : R0 = P' ++ R' := by simpa using hsplit
      have hPr : ∀ p ∈ x :: P', p.Valid ∧ p.route = x.route := by
        intro p hp
        refine ⟨hR p (by rw [hR0]; rcases List.mem_cons.1 hp with h | h <;> simp [h]), ?_⟩
        rcases List.mem_cons.1 hp with h | h
        · rw [h]
        · exact hroutes p h
      have hR't : AllValid R' := by intro r hr; apply hR; rw [hR0]; simp [hr]
      obtain ⟨Q, G', hq, hQlen, hQ, hcov, hne, _, hpw, _⟩ := compressByRoute_full x.route
        ⟨o, W.length, W.length + G.length + P'.length + 1⟩ W R'
        P'.length W G (x :: P') [] (by simp) hPr
        (by simp) (by simp) (by simp; omega)
      have hes : W ++ G ++ x :: R0 = W ++ G ++ x :: P' ++ [] ++ R' := by simp [hR0]
      rw [hes, hq]
      simp only
      have hinv' : FullInv o pos (W ++ Q) (D ++ (x :: P')) R' := by
        refine fullInv_step (P := x :: P') (ρ := x.route) (by rw [hR0] at hinv; simpa using hinv)
          hR't hPr (by simp) hQ hne ?_ hcov hpw
        exact rest_below (by rw [hR0] at hsort; exact hsort) hmax
      obtain ⟨W', Z, ho, hi⟩ := ih (W ++ Q) G' (D ++ (x :: P')) R' hR't
        (Sorted.tail (A := x :: P') (by rw [hR0] at hsort; simpa using hsort))
        (by rw [hR0] at hlen; simp at hlen; omega) hinv'
      refine ⟨W', Z, ?_, ?_⟩
      · rw [← ho]
        have : (W ++ Q).length + G'.length = W.length + G.length + P'.length + 1 := by
          rw [← List.length_append, hQlen]
        rw [this]
      · rw [hR0]; simpa using hi

theorem compressSorted_full (o : Bool) (pos : Nat → Nat) (t : List Entry) (hv : AllValid t)
    (hs : Sorted pos t) :
    ∃ W, compressSorted o t = .ok W ∧ FullInv o pos W t [] := by
  obtain ⟨W, Z, h1, h2⟩ := outer_full o pos t.length [] [] [] t hv hs
    (Nat.le_refl _) ⟨by simp [AllValid], by simp, by simp, by simp, by simp, by simp⟩
  refine ⟨W, ?_, by simpa using h2⟩
  unfold compressSorted
  have : outer o t.length t 0 0 0 = .ok (W ++ Z, W.length) := by simpa using h1
  rw [this]
  simp [bind, Except.bind, pure, Except.pure]

/-- If each merge meets an entry of another route, the unordered compressor changes nothing. -/
theorem outer_same (t : List Entry) (hv : AllValid t)
    (hst : t.Pairwise (fun a b => a.route = b.route → ∃ c ∈ t, c.route ≠ a.route ∧
      intersect c.key c.mask (mergeE a b).key (mergeE a b).mask = true)) :
    ∀ (fuel : Nat) (D R : List Entry), t = D ++ R → R.length ≤ fuel →
    outer false fuel t D.length D.length D.length = .ok (t, t.length) := by
  intro fuel
  induction fuel with
  | zero =>
    intro D R ht hlen
    have : R = [] := List.eq_nil_of_length_eq_zero (by omega)
    subst this
    unfold outer; simp [ht]
  | succ fuel ih =>
    intro D R ht hlen
    cases R with
    | nil => unfold outer; simp [ht]
    | cons x R0 =>
      unfold outer
      have hlt : D.length < t.length := by rw [ht]; simp
      simp only [hlt, if_true]
      obtain ⟨P', R', hs, hsplit, hroutes, _⟩ := scanRight_max D x [] R0
        D.length D.length rfl (by simp) (by simp)
      have hs' : scanRight t D.length D.length = .ok (D.length + P'.length) := by
        have e : D ++ [x] ++ R0 = t := by rw [ht]; simp
        rw [e] at hs; rw [hs]
      rw [hs']
      simp only
      have hR0 : R0 = P' ++ R' := by simpa using hsplit
      have ht' : t = D ++ (x :: P') ++ R' := by rw [ht, hR0]; simp
      have hPr : ∀ p ∈ x :: P', p.Valid ∧ p.route = x.route := by
        intro p hp
        refine ⟨hv p (by rw [ht']; simp only [List.mem_append]; exact Or.inl (Or.inr hp)), ?_⟩
        rcases List.mem_cons.1 hp with h | h
        · rw [h]
        · exact hroutes p h
      obtain ⟨Q, G', hq, hQlen, _, _, _, _, _, hsame⟩ := compressByRoute_full x.route
        ⟨false, D.length, D.length + P'.length + 1⟩ D R'
        P'.length D [] (x :: P') [] (by simp) hPr
        (by simp) (by simp) (by simp; omega)
      have hpw : (x :: P').Pairwise (Refused false D R') := by
        have h1 : (x :: P').Pairwise (fun a b => a.route = b.route → ∃ c ∈ t, c.route ≠ a.route ∧
            intersect c.key c.mask (mergeE a b).key (mergeE a b).mask = true) := by
          rw [ht'] at hst
          rw [ht']
          exact (List.pairwise_append.1 (List.pairwise_append.1 hst).1).2.1
        refine h1.imp_of_mem ?_
        intro a b ha hb h
        have har := (hPr a ha).2
        obtain ⟨c, hc, hne, hi⟩ := h (by rw [har, (hPr b hb).2])
        rw [ht'] at hc
        unfold Refused blocked
        simp only [Bool.or_eq_true, Bool.and_eq_true, List.any_eq_true, Bool.not_false]
        rcases List.mem_append.1 hc with hc | hc
        · rcases List.mem_append.1 hc with hc | hc
          · exact Or.inl ⟨trivial, c, hc, hi⟩
          · exact absurd ((hPr c hc).2.trans har.symm) hne
        · exact Or.inr ⟨c, hc, hi⟩
      have hQP := hsame hpw
      subst hQP
      have hG' : G' = [] := by
        apply List.eq_nil_of_length_eq_zero
        simp at hQlen; omega
      subst hG'
      have hes : t = D ++ [] ++ x :: P' ++ [] ++ R' := by rw [ht']; simp
      have hq' : compressByRoute ⟨false, D.length, D.length + P'.length + 1⟩ t D.length D.length
          (D.length + P'.length) = .ok (t, (D ++ x :: P').length) := by
        have e : D ++ x :: P' ++ [] ++ R' = t := by rw [ht']; simp
        rw [← hes, e] at hq
        simpa using hq
      rw [hq']
      simp only
      have := ih (D ++ x :: P') R' ht' (by rw [hR0] at hlen; simp at hlen; omega)
      rw [← this]
      congr 1
      simp; omega

theorem compressSorted_same (t : List Entry) (hv : AllValid t)
    (hst : t.Pairwise (fun a b => a.route = b.route → ∃ c ∈ t, c.route ≠ a.route ∧
      intersect c.key c.mask (mergeE a b).key (mergeE a b).mask = true)) :
    compressSorted false t = .ok t := by
  unfold compressSorted
  have := outer_same t hv hst t.length [] t rfl (Nat.le_refl _)
  simp only [List.length_nil] at this
  rw [this]
  simp [bind, Except.bind, pure, Except.pure]

end Pacman.Pair
