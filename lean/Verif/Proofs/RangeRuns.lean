import Verif.Props.RangeCompressor
/-
How far the range compressor compresses (ranged_compressor.py:105-122, 160-213): a run of entries
of one route, in the order of the keys, that has the smallest block around it for itself should
become one entry.
-/

namespace Pacman.Range

/-! ### What is written for each run -/

theorem mergeRange_grow {es : List Entry} {K P : Nat → Nat} (hb : Blocks es K P) :
    ∀ (fuel first stop : Nat), first < stop → stop ≤ es.length → stop - first ≤ fuel →
    ∃ Z : List Entry, (0 < Z.length ∧ Z.length ≤ stop - first ∧
      ∀ w ∈ Z, ∃ i, ∃ h : i < es.length, first ≤ i ∧ i < stop ∧ w.Matches es[i].key ∧
        ∃ j, ∃ h : j < es.length, first ≤ j ∧ j < stop ∧ w.route = es[j].route) ∧
      ∀ acc, mergeRange es fuel first stop acc = .ok (acc ++ Z) := by
  intro fuel
  induction fuel with
  | zero => intro first stop h1 h2 h3; omega
  | succ fuel ih =>
    intro first stop h1 h2 h3
    have hf : first < es.length := by omega
    have hg : getE es first = .ok es[first] := by simp [getE, hf]
    by_cases hs : first + 1 = stop
    · have hself : ∀ w ∈ [es[first]], ∃ i, ∃ h : i < es.length, first ≤ i ∧ i < stop ∧
          w.Matches es[i].key ∧ ∃ j, ∃ h : j < es.length, first ≤ j ∧ j < stop ∧
            w.route = es[j].route := by
        intro w hw
        rw [List.mem_singleton.1 hw]
        refine ⟨first, hf, Nat.le_refl _, h1, ?_, first, hf, Nat.le_refl _, h1, rfl⟩
        have hB := hb.block first hf
        rw [hB.matches, hB.key]
        have := Nat.two_pow_pos (P first)
        omega
      refine ⟨[es[first]], ⟨by simp, by simp; omega, hself⟩, fun acc => ?_⟩
      unfold mergeRange
      simp only [hs, if_true, hg, bind, Except.bind, pure, Except.pure]
    · obtain ⟨pre, hpre, hpre1, hpre2, hpre3⟩ := hb.pre first hf
      obtain ⟨post, hpost, hpost1, hpost2⟩ := hb.post stop h2
      have he := hb.getEndpoint (stop - 1) (by omega)
      have e1 : stop - 1 + 1 = stop := by omega
      rw [e1] at he
      obtain ⟨s1, s2, s3, s4, s5⟩ := step_spec hb first stop (by omega) h2 pre post hpre1
        (hpost1 first (by omega)) _ rfl
      generalize hp : shrink (K first) pre post
        (startPower (K first) (K (stop - 1) + 2 ^ P (stop - 1) - 1)) = p at *
      obtain ⟨s, r1, r2, r3, r4, r5⟩ := reduceLast_spec hb (lowCut (K first) p + 2 ^ p) first hf s5 stop
        (by omega) h2
      have hw := isBlock_mk (lowCut (K first) p) p es[first].route false s2
        (by have := lowCut_le (K first) p; have := (hb.block first hf).high
            have := Nat.two_pow_pos (P first); omega) (lowCut_dvd (K first) p)
      have hwm : (⟨BitVec.ofNat 32 (lowCut (K first) p), BitVec.ofNat 32 (2 ^ 32 - 2 ^ p),
          es[first].route, false⟩ : Entry).Matches es[first].key := by
        rw [hw.matches, (hb.block first hf).key]
        have := lowCut_le (K first) p
        have := Nat.two_pow_pos (P first)
        omega
      by_cases h : stop = s + 1
      · refine ⟨[⟨BitVec.ofNat 32 (lowCut (K first) p), BitVec.ofNat 32 (2 ^ 32 - 2 ^ p),
          es[first].route, false⟩], ⟨by simp, by simp; omega, ?_⟩, fun acc => ?_⟩
        · intro w hw'
          rw [List.mem_singleton.1 hw']
          exact ⟨first, hf, Nat.le_refl _, h1, hwm, first, hf, Nat.le_refl _, h1, rfl⟩
        rw [← h] at r1
        unfold mergeRange
        simp only [hs, if_false, hb.getKey first hf, he, hpre, hpost, bind, Except.bind, hg, hp, r1,
          if_true, pure, Except.pure]
      · obtain ⟨Z, ⟨hZ0, hZ, hZm⟩, hZe⟩ := ih (s + 1) stop (by omega) h2 (by omega)
        refine ⟨⟨BitVec.ofNat 32 (lowCut (K first) p), BitVec.ofNat 32 (2 ^ 32 - 2 ^ p),
          es[first].route, false⟩ :: Z, ⟨by simp, by simp; omega, ?_⟩, fun acc => ?_⟩
        · intro w hw'
          rcases List.mem_cons.1 hw' with rfl | hw'
          · exact ⟨first, hf, Nat.le_refl _, h1, hwm, first, hf, Nat.le_refl _, h1, rfl⟩
          · obtain ⟨i, hi, i1, i2, i3, j, hj, j1, j2, j3⟩ := hZm w hw'
            exact ⟨i, hi, by omega, i2, i3, j, hj, by omega, j2, j3⟩
        unfold mergeRange
        simp only [hs, if_false, hb.getKey first hf, he, hpre, hpost, bind, Except.bind, hg, hp, r1,
          h, hZe]
        simp

theorem ranges_grow {es : List Entry} {K P : Nat → Nat} (hb : Blocks es K P) (fuel : Nat)
    (hfuel : es.length ≤ fuel) :
    ∀ (n i first : Nat) (hf : first < es.length), i + n = es.length → first ≤ i →
    (n = 0 → first < i) →
    ∃ Z : List Entry, Z.length ≤ es.length - first ∧
      ∀ acc, ranges es fuel n i first es[first].route acc = .ok (acc ++ Z) := by
  intro n
  induction n with
  | zero =>
    intro i first hf hlen hle hn
    have : i = es.length := by omega
    subst this
    obtain ⟨Z, ⟨-, hZ, -⟩, hZe⟩ := mergeRange_grow hb fuel first es.length hf (Nat.le_refl _) (by omega)
    exact ⟨Z, hZ, fun acc => by unfold ranges; exact hZe acc⟩
  | succ n ih =>
    intro i first hf hlen hle hn
    have hil : i < es.length := by omega
    have hg : getE es i = .ok es[i] := by simp [getE, hil]
    by_cases hne : es[i].route ≠ es[first].route
    · have hlt : first < i := by
        apply Classical.byContradiction
        intro h
        have : first = i := by omega
        subst this; exact hne rfl
      obtain ⟨Z1, ⟨-, h1, -⟩, h1e⟩ := mergeRange_grow hb fuel first i hlt (by omega) (by omega)
      obtain ⟨Z2, h2, h2e⟩ := ih (i + 1) i hil (by omega) (by omega) (by omega)
      refine ⟨Z1 ++ Z2, by simp; omega, fun acc => ?_⟩
      unfold ranges
      simp only [hg, bind, Except.bind, hne, ne_eq, not_false_eq_true, if_true, h1e, h2e]
      simp
    · have heq : es[i].route = es[first].route := Classical.byContradiction hne
      obtain ⟨Z, hZ, hZe⟩ := ih (i + 1) first hf (by omega) (by omega) (by omega)
      refine ⟨Z, hZ, fun acc => ?_⟩
      unfold ranges
      simp only [hg, bind, Except.bind, heq, ne_eq, not_true, if_false]
      exact hZe acc

/-- If merging the run from `a` to before `b` gives `W`, so does the whole, between what it makes of
the entries before and after. -/
theorem ranges_run {es : List Entry} {K P : Nat → Nat} (hb : Blocks es K P) (fuel : Nat)
    (hfuel : es.length ≤ fuel) (a b : Nat) (hab : a < b) (hbl : b ≤ es.length) (W : List Entry)
    (hrun : ∀ j (h : j < es.length) (ha : a < es.length), a ≤ j → j < b → es[j].route = es[a].route)
    (hleft : ∀ j (h : j < es.length) (ha : a < es.length), j + 1 = a → es[j].route ≠ es[a].route)
    (hright : ∀ (h : b < es.length) (ha : a < es.length), es[b].route ≠ es[a].route)
    (hw : ∀ acc, mergeRange es fuel a b acc = .ok (acc ++ W)) :
    ∀ (n i first : Nat) (hf : first < es.length), i + n = es.length → first ≤ i →
    (n = 0 → first < i) → first ≤ a →
    (∀ j (h : j < es.length), first ≤ j → j < i → es[j].route = es[first].route) →
    ∃ X Y : List Entry, X.length ≤ a - first ∧ Y.length ≤ es.length - b ∧
      ∀ acc, ranges es fuel n i first es[first].route acc = .ok (acc ++ (X ++ W ++ Y)) := by
  have hal : a < es.length := by omega
  intro n
  induction n with
  | zero =>
    intro i first hf hlen hle hn hfa hr
    have : i = es.length := by omega
    subst this
    have h1 : first = a := by
      apply Classical.byContradiction
      intro hne
      have e1 := hr (a - 1) (by omega) (by omega) (by omega)
      have e2 := hr a hal hfa hal
      exact hleft (a - 1) (by omega) hal (by omega) (by rw [e1, e2])
    subst h1
    have h2 : b = es.length := by
      apply Classical.byContradiction
      intro hne
      exact hright (by omega) hal (hr b (by omega) (by omega) (by omega))
    subst h2
    exact ⟨[], [], by simp, by simp, fun acc => by unfold ranges; simpa using hw acc⟩
  | succ n ih =>
    intro i first hf hlen hle hn hfa hr
    have hil : i < es.length := by omega
    have hg : getE es i = .ok es[i] := by simp [getE, hil]
    by_cases hne : es[i].route ≠ es[first].route
    · have hlt : first < i := by
        apply Classical.byContradiction
        intro h
        have : first = i := by omega
        subst this; exact hne rfl
      by_cases h1 : first = a
      · subst h1
        have h2 : i = b := by
          rcases Nat.lt_trichotomy i b with h | h | h
          · exact absurd (hrun i hil hal hle h) hne
          · exact h
          · exact absurd (hr b (by omega) (by omega) h) (hright (by omega) hal)
        subst h2
        obtain ⟨Y, hY, hYe⟩ := ranges_grow hb fuel hfuel n (i + 1) i hil (by omega) (by omega)
          (by omega)
        refine ⟨[], Y, by simp, hY, fun acc => ?_⟩
        unfold ranges
        simp only [hg, bind, Except.bind, hne, ne_eq, not_false_eq_true, if_true, hw, hYe]
        simp
      · have h2 : i ≤ a := by
          apply Classical.byContradiction
          intro h
          have e1 := hr (a - 1) (by omega) (by omega) (by omega)
          have e2 := hr a hal hfa (by omega)
          exact hleft (a - 1) (by omega) hal (by omega) (by rw [e1, e2])
        obtain ⟨Z, ⟨-, hZ, -⟩, hZe⟩ := mergeRange_grow hb fuel first i hlt (by omega) (by omega)
        obtain ⟨X, Y, hX, hY, hXY⟩ := ih (i + 1) i hil (by omega) (by omega) (by omega) h2
          (by intro j h h3 h4
              have : j = i := by omega
              subst this; rfl)
        refine ⟨Z ++ X, Y, by simp; omega, hY, fun acc => ?_⟩
        unfold ranges
        simp only [hg, bind, Except.bind, hne, ne_eq, not_false_eq_true, if_true, hZe, hXY]
        simp
    · have heq : es[i].route = es[first].route := Classical.byContradiction hne
      obtain ⟨X, Y, hX, hY, hXY⟩ := ih (i + 1) first hf (by omega) (by omega) (by omega) hfa
        (by intro j h h3 h4
            rcases Nat.lt_or_ge j i with h5 | h5
            · exact hr j h h3 h5
            · have : j = i := by omega
              subst this; exact heq)
      refine ⟨X, Y, hX, hY, fun acc => ?_⟩
      unfold ranges
      simp only [hg, bind, Except.bind, heq, ne_eq, not_true, if_false]
      exact hXY acc

/-! ### The power for a run -/

theorem lowCut_in {l q x : Nat} (hd : l / 2 ^ q * 2 ^ q = l) (h1 : l ≤ x) (h2 : x < l + 2 ^ q) :
    lowCut x q = l := by
  unfold lowCut
  have : x / 2 ^ q = l / 2 ^ q := by
    apply Nat.div_eq_of_lt_le
    · rw [hd]; exact h1
    · rw [Nat.add_mul, hd, Nat.one_mul]; exact h2
  rw [this, hd]

/-- The starting power is that of the block if the run has more than a quarter of it and goes
beyond its middle. -/
theorem startPower_block {l q f e : Nat} (hd : l / 2 ^ (q + 2) * 2 ^ (q + 2) = l) (h1 : l ≤ f)
    (h2 : f < l + 2 ^ (q + 1)) (h3 : l + 2 ^ (q + 1) < e) (h4 : e < l + 2 ^ (q + 2))
    (h5 : 2 ^ q < e - f) : startPower f e = q + 2 := by
  have hq1 : (2 : Nat) ^ (q + 1) = 2 * 2 ^ q := by rw [Nat.pow_succ]; omega
  have hq2 : (2 : Nat) ^ (q + 2) = 4 * 2 ^ q := by rw [Nat.pow_add]; omega
  have hpos := Nat.two_pow_pos q
  unfold startPower
  have hdif : ¬ (e - f < 1) := by omega
  simp only [hdif, if_false]
  have hb1 := bitLength_spec (e - f - 1)
  have hb2 := bitLength_le (e - f - 1) (q + 2) (by omega)
  have hb3 : q + 1 ≤ bitLength (e - f - 1) := by
    apply Classical.byContradiction
    intro h
    have : 2 ^ bitLength (e - f - 1) ≤ 2 ^ q := Nat.pow_le_pow_right (by omega) (by omega)
    omega
  have hhalf : lowCut f (q + 1) = l := by
    apply lowCut_in _ h1 h2
    have e1 : l / 2 ^ (q + 1) = l / 2 ^ (q + 2) * 2 := by
      apply Nat.div_eq_of_eq_mul_left (by omega)
      rw [Nat.mul_assoc]
      have : 2 * 2 ^ (q + 1) = 2 ^ (q + 2) := by omega
      rw [this, hd]
    rw [e1, Nat.mul_assoc]
    have : 2 * 2 ^ (q + 1) = 2 ^ (q + 2) := by omega
    rw [this, hd]
  have hfull : lowCut f (q + 2) = l := lowCut_in hd h1 (by omega)
  rcases Nat.lt_or_eq_of_le hb3 with h | h
  · have h6 : bitLength (e - f - 1) = q + 2 := by omega
    rw [h6, hfull, if_neg (by omega)]
  · rw [← h, hhalf, if_pos (by omega)]

/-- A run alone in its block is merged into one entry. -/
theorem mergeRange_block {es : List Entry} {K P : Nat → Nat} (hb : Blocks es K P) (fuel a b l q : Nat)
    (hab : a + 1 < b) (hbl : b ≤ es.length) (hq : q + 2 ≤ 32)
    (hd : l / 2 ^ (q + 2) * 2 ^ (q + 2) = l) (h1 : l ≤ K a) (h2 : K a < l + 2 ^ (q + 1))
    (h3 : l + 2 ^ (q + 1) < K (b - 1) + 2 ^ P (b - 1) - 1)
    (h4 : K (b - 1) + 2 ^ P (b - 1) ≤ l + 2 ^ (q + 2))
    (h5 : 2 ^ q < K (b - 1) + 2 ^ P (b - 1) - 1 - K a)
    (hpre' : ∀ j, j + 1 = a → K j + 2 ^ P j ≤ l)
    (hpost' : b < es.length → l + 2 ^ (q + 2) ≤ K b) (ha : a < es.length) (hfuel : 0 < fuel) :
    ∀ acc, mergeRange es fuel a b acc = .ok (acc ++ [⟨BitVec.ofNat 32 l,
      BitVec.ofNat 32 (2 ^ 32 - 2 ^ (q + 2)), es[a].route, false⟩]) := by
  intro acc
  obtain ⟨fuel, rfl⟩ : ∃ n, fuel = n + 1 := ⟨fuel - 1, by omega⟩
  have hg : getE es a = .ok es[a] := by simp [getE, ha]
  obtain ⟨pre, hpre, hpre1, hpre2, hpre3⟩ := hb.pre a ha
  have he := hb.getEndpoint (b - 1) (by omega)
  have e1 : b - 1 + 1 = b := by omega
  rw [e1] at he
  have hlastpos := Nat.two_pow_pos (P (b - 1))
  have hprel : pre ≤ l := by
    cases a with
    | zero =>
      have : pre = 0 := by
        simp only [Range.getEndpoint] at hpre
        cases hpre; rfl
      omega
    | succ j =>
      have := hpre' j rfl
      have := (hpre3 j rfl).1
      omega
  have hpost : ∃ post, Range.getKey es b = .ok post ∧ l + 2 ^ (q + 2) ≤ post := by
    by_cases hbe : b = es.length
    · refine ⟨maxsize, by rw [hbe, getKey_end], ?_⟩
      have hl : l < 2 ^ 32 := by
        have := (hb.block a ha).high
        have := Nat.two_pow_pos (P a)
        omega
      have : 2 ^ (q + 2) ≤ 2 ^ 32 := Nat.pow_le_pow_right (by omega) hq
      unfold maxsize; omega
    · exact ⟨K b, hb.getKey b (by omega), hpost' (by omega)⟩
  obtain ⟨post, hpost, hpostl⟩ := hpost
  have hfull : lowCut (K a) (q + 2) = l := lowCut_in hd h1 (by
    have hq1 : (2 : Nat) ^ (q + 1) = 2 * 2 ^ q := by rw [Nat.pow_succ]; omega
    have hq2 : (2 : Nat) ^ (q + 2) = 4 * 2 ^ q := by rw [Nat.pow_add]; omega
    omega)
  have hstart := startPower_block hd h1 h2 h3 (by omega) h5
  have hshrink : shrink (K a) pre post (q + 2) = q + 2 := by
    show shrink (K a) pre post ((q + 1) + 1) = (q + 1) + 1
    unfold shrink
    show (if lowCut (K a) (q + 2) < pre ∨ lowCut (K a) (q + 2) + 2 ^ (q + 2) > post then _ else _) = _
    rw [hfull, if_neg (by omega)]
  have hred : reduceLast es (l + 2 ^ (q + 2)) b = .ok b := by
    obtain ⟨b', rfl⟩ : ∃ n, b = n + 1 := ⟨b - 1, by omega⟩
    unfold reduceLast
    rw [he]
    simp only [bind, Except.bind]
    rw [if_neg (by simp only [Nat.add_sub_cancel] at *; omega)]
  unfold mergeRange
  have hs : ¬ a + 1 = b := by omega
  simp only [hs, if_false, hb.getKey a ha, he, hpre, hpost, bind, Except.bind, hg, hstart, hshrink,
    hfull, hred, if_true, pure, Except.pure]

/-- Otherwise the first entry written ends at the middle of the block or before. -/
theorem startPower_short {l q f e : Nat} (hd : l / 2 ^ (q + 1) * 2 ^ (q + 1) = l) (h1 : l ≤ f)
    (h2 : f < l + 2 ^ q) (h3 : l + 2 ^ q ≤ e) (h4 : e < l + 2 ^ (q + 1))
    (h5 : e = l + 2 ^ q ∨ 2 * (e - f) ≤ 2 ^ q) : startPower f e ≤ q := by
  have hq1 : (2 : Nat) ^ (q + 1) = 2 * 2 ^ q := by rw [Nat.pow_succ]; omega
  have hpos := Nat.two_pow_pos q
  unfold startPower
  have hdif : ¬ (e - f < 1) := by omega
  simp only [hdif, if_false]
  have hb2 := bitLength_le (e - f - 1) q (by omega)
  have hhalf : lowCut f q = l := by
    apply lowCut_in _ h1 h2
    have e1 : l / 2 ^ q = l / 2 ^ (q + 1) * 2 := by
      apply Nat.div_eq_of_eq_mul_left (by omega)
      rw [Nat.mul_assoc, ← hq1, hd]
    rw [e1, Nat.mul_assoc, ← hq1, hd]
  rcases Nat.lt_or_eq_of_le hb2 with h | h
  · split
    · exact h
    · exact Nat.le_of_lt h
  · rw [h, hhalf]
    rcases h5 with h5 | h5
    · rw [if_neg (by omega)]; exact Nat.le_refl _
    · exfalso
      cases q with
      | zero => omega
      | succ q =>
        have := bitLength_le (e - f - 1) q (by rw [Nat.pow_succ] at h5; omega)
        omega

theorem shrink_le (f pre post : Nat) : ∀ p, shrink f pre post p ≤ p := by
  intro p
  induction p with
  | zero => exact Nat.le_refl _
  | succ p ih =>
    unfold shrink
    split
    · omega
    · exact Nat.le_refl _

/-- A run that goes from the lower into the upper half of a block but is not wide enough becomes
two entries or more. -/
theorem mergeRange_split {es : List Entry} {K P : Nat → Nat} (hb : Blocks es K P) (fuel a b l q : Nat)
    (hab : a + 1 < b) (hbl : b ≤ es.length)
    (hd : l / 2 ^ (q + 1) * 2 ^ (q + 1) = l) (h1 : l ≤ K a) (h2 : K a < l + 2 ^ q)
    (h3 : l + 2 ^ q ≤ K (b - 1) + 2 ^ P (b - 1) - 1)
    (h4 : K (b - 1) + 2 ^ P (b - 1) ≤ l + 2 ^ (q + 1))
    (h5 : K (b - 1) + 2 ^ P (b - 1) - 1 = l + 2 ^ q ∨
      2 * (K (b - 1) + 2 ^ P (b - 1) - 1 - K a) ≤ 2 ^ q) (hfuel : b - a ≤ fuel) :
    ∃ W : List Entry, (2 ≤ W.length ∧ ∀ w ∈ W, ∃ i, ∃ h : i < es.length, a ≤ i ∧ i < b ∧
        w.Matches es[i].key ∧ ∃ j, ∃ h : j < es.length, a ≤ j ∧ j < b ∧ w.route = es[j].route) ∧
      ∀ acc, mergeRange es fuel a b acc = .ok (acc ++ W) := by
  obtain ⟨W, ⟨hW0, -, hWm⟩, hWe⟩ := mergeRange_grow hb fuel a b (by omega) hbl hfuel
  refine ⟨W, ⟨?_, hWm⟩, hWe⟩
  have ha : a < es.length := by omega
  have hlastpos := Nat.two_pow_pos (P (b - 1))
  obtain ⟨fuel, rfl⟩ : ∃ n, fuel = n + 1 := ⟨fuel - 1, by omega⟩
  have hg : getE es a = .ok es[a] := by simp [getE, ha]
  obtain ⟨pre, hpre, hpre1, hpre2, hpre3⟩ := hb.pre a ha
  obtain ⟨post, hpost, hpost1, hpost2⟩ := hb.post b hbl
  have he := hb.getEndpoint (b - 1) (by omega)
  have e1 : b - 1 + 1 = b := by omega
  rw [e1] at he
  obtain ⟨s1, s2, s3, s4, s5⟩ := step_spec hb a b (by omega) hbl pre post hpre1
    (hpost1 a (by omega)) _ rfl
  have hp' := Nat.le_trans (shrink_le (K a) pre post
    (startPower (K a) (K (b - 1) + 2 ^ P (b - 1) - 1)))
    (startPower_short hd h1 h2 h3 (by omega) h5)
  generalize hp : shrink (K a) pre post
    (startPower (K a) (K (b - 1) + 2 ^ P (b - 1) - 1)) = p at *
  obtain ⟨s, r1, r2, r3, r4, r5⟩ := reduceLast_spec hb (lowCut (K a) p + 2 ^ p) a ha s5 b
    (by omega) hbl
  have hcut : lowCut (K a) p + 2 ^ p ≤ l + 2 ^ q := by
    have hq1 : (2 : Nat) ^ (q + 1) = 2 * 2 ^ q := by rw [Nat.pow_succ]; omega
    have hdq : l / 2 ^ q * 2 ^ q = l := by
      have e1 : l / 2 ^ q = l / 2 ^ (q + 1) * 2 := by
        apply Nat.div_eq_of_eq_mul_left (Nat.two_pow_pos q)
        rw [Nat.mul_assoc, ← hq1, hd]
      rw [e1, Nat.mul_assoc, ← hq1, hd]
    exact (nested (x := K a) (lowCut_dvd (K a) p) hdq hp' (lowCut_le _ _) (by
      have := Nat.two_pow_pos (P a); omega) h1 h2).2
  have hne : ¬ b = s + 1 := by
    intro h
    have : b - 1 = s := by omega
    rw [this] at h3 h4 hlastpos
    omega
  have hthis := hWe []
  unfold mergeRange at hthis
  have hs : ¬ a + 1 = b := by omega
  obtain ⟨Z, ⟨hZ0, -, -⟩, hZe⟩ := mergeRange_grow hb fuel (s + 1) b (by omega) hbl (by omega)
  simp only [hs, if_false, hb.getKey a ha, he, hpre, hpost, bind, Except.bind, hg, hp, r1,
    hne, hZe, List.nil_append, Except.ok.injEq] at hthis
  rw [← hthis]
  simp
  omega

end Pacman.Range
