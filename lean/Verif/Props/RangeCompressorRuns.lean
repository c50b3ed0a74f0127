import Verif.Proofs.RangeRuns
/-
How far the range compressor compresses (ranged_compressor.py:105-122, 160-213).  The entries are
taken in the order of their keys, and each run of entries of one route is merged by itself.  A run
that has a block of keys for itself could be written as one entry.
-/

namespace Pacman.Range

/-- The table can be compressed, and in the order of the keys its entries are `A`, `S`, `C`. -/
structure InOrder (t A S C : List Entry) : Prop where
  valid : AllValid t
  masks : ∀ e ∈ t, Contiguous e.mask
  apart : NoOverlap t
  same : (A ++ S ++ C).Perm t
  keys : (A ++ S ++ C).Pairwise (fun a b => a.key.toNat < b.key.toNat)

/-- `S` is a whole run of route `r`, and no other entry has a key in the block of `2 ^ q` keys from
`l`. -/
structure RunAlone (A S C : List Entry) (r l q : Nat) : Prop where
  two : 2 ≤ S.length
  route : ∀ e ∈ S, e.route = r
  left : ∀ e, A.getLast? = some e → e.route ≠ r
  right : ∀ e, C.head? = some e → e.route ≠ r
  size : q ≤ 32
  start : 2 ^ q ∣ l
  inside : ∀ e ∈ S, ∀ k, e.Matches k → l ≤ k.toNat ∧ k.toNat < l + 2 ^ q
  outside : ∀ e ∈ A ++ C, ∀ k, e.Matches k → ¬ (l ≤ k.toNat ∧ k.toNat < l + 2 ^ q)

/-- `S` has keys in both halves of the block: no smaller block holds it. -/
def Crosses (S : List Entry) (l q : Nat) : Prop :=
  (∃ e ∈ S, ∃ k, e.Matches k ∧ 2 * k.toNat < 2 * l + 2 ^ q) ∧
  (∃ e ∈ S, ∃ k, e.Matches k ∧ 2 * l + 2 ^ q ≤ 2 * k.toNat)

/-- There are keys of `S` before and after the middle of the block, more than a quarter of the
block from each other; the key at the middle counts for neither. -/
def WideRun (S : List Entry) (l q : Nat) : Prop :=
  ∃ e ∈ S, ∃ k, e.Matches k ∧ ∃ e' ∈ S, ∃ k', e'.Matches k' ∧
    2 * k.toNat < 2 * l + 2 ^ q ∧ 2 * l + 2 ^ q < 2 * k'.toNat ∧ 2 ^ q < 4 * (k'.toNat - k.toNat)

/-! ### The sorted table -/

theorem sorted_table {t A S C : List Entry} (h : InOrder t A S C) :
    stableSort (fun a b : Entry => decide (a.key.toNat ≤ b.key.toNat)) t = A ++ S ++ C := by
  have hp := stableSort_perm (fun a b : Entry => decide (a.key.toNat ≤ b.key.toNat)) t
  have hs := stableSort_sorted (fun a b : Entry => decide (a.key.toNat ≤ b.key.toNat))
    (by intro a b; simp only [decide_eq_true_eq]; omega)
    (by intro a b c; simp only [decide_eq_true_eq]; omega) t
  have hk : (A ++ S ++ C).Pairwise (fun a b => decide (a.key.toNat ≤ b.key.toNat) = true) :=
    h.keys.imp (by intro a b hab; simp only [decide_eq_true_eq]; omega)
  refine List.Perm.eq_of_pairwise ?_ hs hk (hp.trans h.same.symm)
  intro a b ha hb hab hba
  simp only [decide_eq_true_eq] at hab hba
  obtain ⟨i, hi, rfl⟩ := List.getElem_of_mem (h.same.mem_iff.2 (hp.mem_iff.1 ha))
  obtain ⟨j, hj, rfl⟩ := List.getElem_of_mem hb
  have hK := List.pairwise_iff_getElem.1 h.keys
  rcases Nat.lt_trichotomy i j with hij | hij | hij
  · have := hK i j hi hj hij; omega
  · subst hij; rfl
  · have := hK j i hj hi hij; omega

theorem sorted_blocks {t A S C : List Entry} (h : InOrder t A S C) :
    ∃ K P, Blocks (A ++ S ++ C) K P ∧
      ∀ i (hi : i < (A ++ S ++ C).length), K i = (A ++ S ++ C)[i].key.toNat := by
  obtain ⟨K, P, hKP⟩ := blocks_of (A ++ S ++ C) (fun e he => h.valid e (h.same.mem_iff.1 he))
    (fun e he => h.masks e (h.same.mem_iff.1 he))
  refine ⟨K, P, ⟨fun i hi => (hKP i hi).2, ?_⟩, fun i hi => (hKP i hi).1⟩
  intro i hi
  have hi' : i < (A ++ S ++ C).length := by omega
  have hlt := List.pairwise_iff_getElem.1 h.keys i (i + 1) hi' hi (by omega)
  rw [← (hKP i hi').1, ← (hKP (i + 1) hi).1] at hlt
  have hno : NoOverlap (A ++ S ++ C) := by
    unfold NoOverlap
    exact h.same.symm.pairwise h.apart (fun h hm => h hm.symm)
  have hnm := List.pairwise_iff_getElem.1 hno i (i + 1) hi' hi (by omega)
  apply Classical.byContradiction
  intro hc
  apply hnm
  refine ⟨(A ++ S ++ C)[i + 1].key, ?_, ?_⟩
  · rw [(hKP i hi').2.matches, (hKP (i + 1) hi).2.key]; omega
  · rw [(hKP (i + 1) hi).2.matches, (hKP (i + 1) hi).2.key]
    have := Nat.two_pow_pos (P (i + 1))
    omega

theorem compress_sorted {t A S C : List Entry} (h : InOrder t A S C) (fuel : Nat)
    (asFar : Bool) (target : Nat) (hgo : asFar = true ∨ target ≤ t.length)
    (h0 : 0 < (A ++ S ++ C).length) :
    compressTable fuel asFar target t =
      ranges (A ++ S ++ C) fuel (A ++ S ++ C).length 0 0 (A ++ S ++ C)[0].route [] := by
  unfold compressTable
  rw [if_neg (by
    rintro ⟨h1, h2⟩
    rcases hgo with h3 | h3
    · rw [h1] at h3; cases h3
    · omega)]
  simp only [sorted_table h]
  obtain ⟨K, P, hB, hK⟩ := sorted_blocks h
  obtain ⟨b, hb1, hb2⟩ := validate_spec hB.block (A ++ S ++ C).length 0 (by omega)
  rw [hb1, hb2.2 (fun j _ hj => hB.next j hj)]
  have hg : getE (A ++ S ++ C) 0 = .ok (A ++ S ++ C)[0] := by
    unfold getE; rw [List.getElem?_eq_getElem h0]
  simp only [hg, bind, Except.bind]

/-- What the whole of `ranges` does with the run. -/
theorem compress_run {t A S C : List Entry} {r l q : Nat} (h : InOrder t A S C)
    (hr : RunAlone A S C r l q) (fuel : Nat) (hfuel : t.length ≤ fuel) (asFar : Bool) (target : Nat)
    (hgo : asFar = true ∨ target ≤ t.length) (W : List Entry)
    (hw : ∀ acc, mergeRange (A ++ S ++ C) fuel A.length (A.length + S.length) acc = .ok (acc ++ W)) :
    ∃ X Y : List Entry, compressTable fuel asFar target t = .ok (X ++ W ++ Y) ∧
      X.length ≤ A.length ∧ Y.length ≤ C.length := by
  have h2 := hr.two
  have hlen : (A ++ S ++ C).length = A.length + S.length + C.length := by simp [Nat.add_assoc]
  obtain ⟨K, P, hB, hK⟩ := sorted_blocks h
  have hS : ∀ j (hj : j < (A ++ S ++ C).length), A.length ≤ j → j < A.length + S.length →
      (A ++ S ++ C)[j].route = r := by
    intro j hj h3 h4
    have : (A ++ S ++ C)[j] ∈ S := by
      rw [List.getElem_append_left (by simp; omega), List.getElem_append_right h3]
      exact List.getElem_mem _
    exact hr.route _ this
  obtain ⟨X, Y, hX, hY, hXY⟩ := ranges_run hB fuel (by rw [h.same.length_eq]; exact hfuel) A.length
    (A.length + S.length) (by omega) (by omega) W
    (by intro j hj ha h3 h4
        rw [hS j hj h3 h4, hS A.length ha (Nat.le_refl _) (by omega)])
    (by intro j hj ha h3
        rw [hS A.length ha (Nat.le_refl _) (by omega)]
        apply hr.left
        have hjA : j < A.length := by omega
        rw [List.getLast?_eq_getElem?, show A.length - 1 = j by omega, List.getElem?_eq_getElem hjA]
        rw [List.getElem_append_left (by simp; omega), List.getElem_append_left hjA])
    (by intro hj ha
        rw [hS A.length ha (Nat.le_refl _) (by omega)]
        apply hr.right
        rw [List.getElem_append_right (by simp)]
        have hC : 0 < C.length := by omega
        rw [List.head?_eq_getElem?, List.getElem?_eq_getElem hC]
        simp)
    hw (A ++ S ++ C).length 0 0 (by omega) (by omega) (Nat.le_refl _) (by omega) (by omega)
    (by intro j hj h3 h4; omega)
  refine ⟨X, Y, ?_, by omega, by omega⟩
  rw [compress_sorted h fuel asFar target hgo (by omega), hXY]
  simp

/-- The first and the last key of the run. -/
theorem run_ends {A S C : List Entry} {r l q : Nat} (hr : RunAlone A S C r l q) {K P : Nat → Nat}
    (hB : Blocks (A ++ S ++ C) K P) (f e : Nat) (hf : f = K A.length)
    (he : e = K (A.length + S.length - 1) + 2 ^ P (A.length + S.length - 1) - 1) :
    (∀ s ∈ S, ∀ k, s.Matches k → f ≤ k.toNat ∧ k.toNat ≤ e) ∧
    (∃ s ∈ S, ∃ k, s.Matches k ∧ k.toNat = f) ∧ (∃ s ∈ S, ∃ k, s.Matches k ∧ k.toNat = e) := by
  have h2 := hr.two
  have hlen : (A ++ S ++ C).length = A.length + S.length + C.length := by simp [Nat.add_assoc]
  have hat : ∀ i (hi : i < S.length), ∃ hj : A.length + i < (A ++ S ++ C).length,
      (A ++ S ++ C)[A.length + i] = S[i] := by
    intro i hi
    refine ⟨by omega, ?_⟩
    rw [List.getElem_append_left (by simp; omega), List.getElem_append_right (by omega)]
    simp
  refine ⟨?_, ?_, ?_⟩
  · intro s hs k hk
    obtain ⟨i, hi, rfl⟩ := List.getElem_of_mem hs
    obtain ⟨hj, hji⟩ := hat i hi
    rw [← hji, (hB.block _ hj).matches] at hk
    have hpos := Nat.two_pow_pos (P A.length)
    have hpos' := Nat.two_pow_pos (P (A.length + S.length - 1))
    constructor
    · rcases Nat.eq_zero_or_pos i with h0 | h0
      · subst h0; simp only [Nat.add_zero] at hk; omega
      · have := hB.mono A.length (A.length + i) (by omega) hj
        omega
    · rcases Nat.lt_or_ge (i + 1) S.length with h0 | h0
      · have := hB.mono (A.length + i) (A.length + S.length - 1) (by omega) (by omega)
        omega
      · have : A.length + i = A.length + S.length - 1 := by omega
        rw [this] at hk
        omega
  · obtain ⟨hj, hji⟩ := hat 0 (by omega)
    refine ⟨S[0], List.getElem_mem _, S[0].key, ?_, ?_⟩
    · rw [← hji, (hB.block _ hj).matches, (hB.block _ hj).key]
      have := Nat.two_pow_pos (P (A.length + 0))
      omega
    · rw [← hji, (hB.block _ hj).key, hf]; rfl
  · obtain ⟨hj, hji⟩ := hat (S.length - 1) (by omega)
    have e1 : A.length + (S.length - 1) = A.length + S.length - 1 := by omega
    have hpos' := Nat.two_pow_pos (P (A.length + S.length - 1))
    have hb := hB.block _ hj
    have hh := hb.high
    rw [e1] at hh
    refine ⟨S[S.length - 1], List.getElem_mem _, BitVec.ofNat 32 e, ?_, ?_⟩
    · rw [← hji, hb.matches, BitVec.toNat_ofNat, Nat.mod_eq_of_lt (by omega), e1]
      omega
    · rw [BitVec.toNat_ofNat, Nat.mod_eq_of_lt (by omega)]

/-! ### The claims -/

/-- **C141.** A run that has a block of keys for itself becomes one entry. This is false. -/
def C141_full : Prop :=
  ∀ (fuel : Nat) (asFar : Bool) (target : Nat) (t A S C : List Entry) (r l q : Nat),
    InOrder t A S C → RunAlone A S C r l q → t.length ≤ fuel → (asFar = true ∨ target ≤ t.length) →
    ∃ X w Y, compressTable fuel asFar target t = .ok (X ++ [w] ++ Y) ∧
      X.length ≤ A.length ∧ Y.length ≤ C.length ∧ w.route = r ∧
      ∀ e ∈ S, ∀ k, e.Matches k → w.Matches k

/-- **C141**, for a run with keys before and after the middle of the block and more than a quarter
of the block from each other: it becomes the one entry that has just this block, and the entries
before and after it become at most as many as they were. -/
theorem C141_run_partial (fuel : Nat) (asFar : Bool) (target : Nat) (t A S C : List Entry)
    (r l q : Nat) (h : InOrder t A S C) (hr : RunAlone A S C r l q) (hfuel : t.length ≤ fuel)
    (hgo : asFar = true ∨ target ≤ t.length) (hw : WideRun S l q) :
    ∃ X Y, compressTable fuel asFar target t =
        .ok (X ++ [⟨BitVec.ofNat 32 l, BitVec.ofNat 32 (2 ^ 32 - 2 ^ q), r, false⟩] ++ Y) ∧
      X.length ≤ A.length ∧ Y.length ≤ C.length := by
  have h2 := hr.two
  have hlen : (A ++ S ++ C).length = A.length + S.length + C.length := by simp [Nat.add_assoc]
  have htl := h.same.length_eq
  obtain ⟨K, P, hB, hK⟩ := sorted_blocks h
  obtain ⟨hall, ⟨s1, m1, k1, g1, f1⟩, ⟨s2, m2, k2, g2, f2⟩⟩ := run_ends hr hB _ _ rfl rfl
  obtain ⟨e, he, x, hx, e', he', y, hy, hx1, hy1, hxy⟩ := hw
  have ax := hall e he x hx
  have ay := hall e' he' y hy
  have b1 := hr.inside s1 m1 k1 g1
  have b2 := hr.inside s2 m2 k2 g2
  have hpos' := Nat.two_pow_pos (P (A.length + S.length - 1))
  have hd : l / 2 ^ q * 2 ^ q = l := Nat.div_mul_cancel hr.start
  -- the block has at least four keys
  obtain ⟨p, rfl⟩ : ∃ p, q = p + 2 := by
    have bx := hr.inside e he x hx
    have by' := hr.inside e' he' y hy
    match q, hx1, hy1, by' with
    | 0, hx1, hy1, by' => simp only [Nat.pow_zero] at *; omega
    | 1, hx1, hy1, by' => simp only [Nat.pow_one] at *; omega
    | p + 2, _, _, _ => exact ⟨p, rfl⟩
  have hq1 : (2 : Nat) ^ (p + 1) = 2 * 2 ^ p := by rw [Nat.pow_succ]; omega
  have hq2 : (2 : Nat) ^ (p + 2) = 4 * 2 ^ p := by rw [Nat.pow_add]; omega
  have ha : A.length < (A ++ S ++ C).length := by omega
  have hout : ∀ i (hi : i < (A ++ S ++ C).length), i < A.length ∨ A.length + S.length ≤ i →
      (A ++ S ++ C)[i] ∈ A ++ C := by
    intro i hi hcase
    rcases hcase with hc | hc
    · rw [List.getElem_append_left (by simp; omega), List.getElem_append_left hc]
      exact List.mem_append_left _ (List.getElem_mem _)
    · rw [List.getElem_append_right (by simp; omega)]
      exact List.mem_append_right _ (List.getElem_mem _)
  have hmerge := mergeRange_block hB fuel A.length (A.length + S.length) l p (by omega) (by omega)
    hr.size hd (by omega) (by omega) (by omega) (by omega) (by omega)
    (by intro j hj
        have hjl : j < (A ++ S ++ C).length := by omega
        have hb := hB.block j hjl
        have hm := hB.mono j A.length (by omega) ha
        have hpj := Nat.two_pow_pos (P j)
        have hh := hb.high
        apply Classical.byContradiction
        intro hc
        have := hr.outside _ (hout j hjl (by omega)) (BitVec.ofNat 32 (K j + 2 ^ P j - 1))
        rw [hb.matches, BitVec.toNat_ofNat, Nat.mod_eq_of_lt (by omega)] at this
        exact this (by omega) (by omega))
    (by intro hj
        have hb := hB.block _ hj
        have hm := hB.mono (A.length + S.length - 1) (A.length + S.length) (by omega) hj
        have hpj := Nat.two_pow_pos (P (A.length + S.length))
        apply Classical.byContradiction
        intro hc
        have := hr.outside _ (hout _ hj (by omega)) (A ++ S ++ C)[A.length + S.length].key
        rw [hb.matches, hb.key] at this
        exact this (by omega) (by omega)) ha (by omega)
  have hroute : (A ++ S ++ C)[A.length].route = r := by
    apply hr.route
    rw [List.getElem_append_left (by simp; omega), List.getElem_append_right (Nat.le_refl _)]
    exact List.getElem_mem _
  rw [hroute] at hmerge
  exact compress_run h hr fuel hfuel asFar target hgo _ hmerge

/-- **C141**, the rest: in the smallest block that holds it, a run that is not wide in this sense
becomes two entries or more, though it could be one. -/
theorem C141_otherwise_two (fuel : Nat) (asFar : Bool) (target : Nat) (t A S C : List Entry)
    (r l q : Nat) (h : InOrder t A S C) (hr : RunAlone A S C r l q) (hfuel : t.length ≤ fuel)
    (hgo : asFar = true ∨ target ≤ t.length) (hc : Crosses S l q) (hw : ¬ WideRun S l q) :
    ∃ X W Y, compressTable fuel asFar target t = .ok (X ++ W ++ Y) ∧
      X.length ≤ A.length ∧ Y.length ≤ C.length ∧ 2 ≤ W.length ∧
      ∀ w ∈ W, w.route = r ∧ ∃ e ∈ S, w.Matches e.key := by
  have h2 := hr.two
  have hlen : (A ++ S ++ C).length = A.length + S.length + C.length := by simp [Nat.add_assoc]
  have htl := h.same.length_eq
  obtain ⟨K, P, hB, hK⟩ := sorted_blocks h
  obtain ⟨hall, ⟨s1, m1, k1, g1, f1⟩, ⟨s2, m2, k2, g2, f2⟩⟩ := run_ends hr hB _ _ rfl rfl
  obtain ⟨⟨e, he, x, hx, hx1⟩, ⟨e', he', y, hy, hy1⟩⟩ := hc
  have ax := hall e he x hx
  have ay := hall e' he' y hy
  have b1 := hr.inside s1 m1 k1 g1
  have b2 := hr.inside s2 m2 k2 g2
  have hpos' := Nat.two_pow_pos (P (A.length + S.length - 1))
  have hd : l / 2 ^ q * 2 ^ q = l := Nat.div_mul_cancel hr.start
  obtain ⟨p, rfl⟩ : ∃ p, q = p + 1 := by
    have bx := hr.inside e he x hx
    have by' := hr.inside e' he' y hy
    match q, hx1, hy1, by' with
    | 0, hx1, hy1, by' => simp only [Nat.pow_zero] at *; omega
    | p + 1, _, _, _ => exact ⟨p, rfl⟩
  have hq1 : (2 : Nat) ^ (p + 1) = 2 * 2 ^ p := by rw [Nat.pow_succ]; omega
  have hnw : k2.toNat = l + 2 ^ p ∨ 2 * (k2.toNat - k1.toNat) ≤ 2 ^ p := by
    apply Classical.byContradiction
    intro hn
    exact hw ⟨s1, m1, k1, g1, s2, m2, k2, g2, by omega, by omega, by omega⟩
  obtain ⟨W, ⟨hW2, hWm⟩, hWe⟩ := mergeRange_split hB fuel A.length (A.length + S.length) l p
    (by omega) (by omega) hd (by omega) (by omega) (by omega) (by omega)
    (by rw [← f2, ← f1]; exact hnw) (by omega)
  obtain ⟨X, Y, hXY, hX, hY⟩ := compress_run h hr fuel hfuel asFar target hgo W hWe
  refine ⟨X, W, Y, hXY, hX, hY, hW2, ?_⟩
  have hin : ∀ i (hi : i < (A ++ S ++ C).length), A.length ≤ i → i < A.length + S.length →
      (A ++ S ++ C)[i] ∈ S := by
    intro i hi h3 h4
    rw [List.getElem_append_left (by simp; omega), List.getElem_append_right h3]
    exact List.getElem_mem _
  intro w hwW
  obtain ⟨i, hi, i1, i2, i3, j, hj, j1, j2, j3⟩ := hWm w hwW
  exact ⟨by rw [j3]; exact hr.route _ (hin j hj j1 j2), _, hin i hi i1 i2, i3⟩

/-! ### Cases -/

theorem single_matches {e : Entry} (h : e.mask = 0xFFFFFFFF#32) (k : Word) :
    e.Matches k ↔ k = e.key := by
  unfold Entry.Matches
  rw [h, show (0xFFFFFFFF#32) = BitVec.allOnes 32 by decide, BitVec.and_allOnes]

/-- The entry for one key. -/
def single (key : Word) (route : Nat) : Entry := ⟨key, 0xFFFFFFFF#32, route, false⟩

theorem singles_inOrder (A S C : List (Word × Nat))
    (hk : (A ++ S ++ C).Pairwise (fun a b => a.1.toNat < b.1.toNat)) (t : List (Word × Nat))
    (hp : (A ++ S ++ C).Perm t) :
    InOrder (t.map fun p => single p.1 p.2) (A.map fun p => single p.1 p.2)
      (S.map fun p => single p.1 p.2) (C.map fun p => single p.1 p.2) := by
  have hord : (A.map (fun p => single p.1 p.2) ++ S.map (fun p => single p.1 p.2) ++
      C.map fun p => single p.1 p.2) = (A ++ S ++ C).map fun p => single p.1 p.2 := by simp
  refine ⟨?_, ?_, ?_, ?_, ?_⟩
  · intro e he
    obtain ⟨p, -, rfl⟩ := List.mem_map.1 he
    unfold Entry.Valid single
    rw [show (0xFFFFFFFF#32) = BitVec.allOnes 32 by decide, BitVec.and_allOnes]
  · intro e he
    obtain ⟨p, -, rfl⟩ := List.mem_map.1 he
    exact ⟨0, by omega, (by decide : 0xFFFFFFFF#32 = BitVec.ofNat 32 (2 ^ 32 - 2 ^ 0))⟩
  · have h1 : NoOverlap ((A ++ S ++ C).map fun p => single p.1 p.2) := by
      unfold NoOverlap
      rw [List.pairwise_map]
      refine hk.imp ?_
      rintro a b hab ⟨k, k1, k2⟩
      rw [single_matches rfl] at k1 k2
      rw [k1] at k2
      have : a.1 = b.1 := k2
      rw [this] at hab
      omega
    exact (hp.map _).pairwise h1 (fun h hm => h hm.symm)
  · rw [hord]; exact hp.map _
  · rw [hord, List.pairwise_map]
    exact hk

theorem singles_alone (A S C : List (Word × Nat)) (r l q : Nat) (h2 : 2 ≤ S.length)
    (hr : ∀ p ∈ S, p.2 = r) (hl : ∀ p, A.getLast? = some p → p.2 ≠ r)
    (hc : ∀ p, C.head? = some p → p.2 ≠ r) (hq : q ≤ 32) (hd : 2 ^ q ∣ l)
    (hin : ∀ p ∈ S, l ≤ p.1.toNat ∧ p.1.toNat < l + 2 ^ q)
    (hout : ∀ p ∈ A ++ C, ¬ (l ≤ p.1.toNat ∧ p.1.toNat < l + 2 ^ q)) :
    RunAlone (A.map fun p => single p.1 p.2) (S.map fun p => single p.1 p.2)
      (C.map fun p => single p.1 p.2) r l q := by
  refine ⟨by simpa using h2, ?_, ?_, ?_, hq, hd, ?_, ?_⟩
  · intro e he
    obtain ⟨p, hp, rfl⟩ := List.mem_map.1 he
    exact hr p hp
  · intro e he
    rw [List.getLast?_map] at he
    cases h : A.getLast? with
    | none => rw [h] at he; cases he
    | some p => rw [h] at he; cases he; exact hl p h
  · intro e he
    rw [List.head?_map] at he
    cases h : C.head? with
    | none => rw [h] at he; cases he
    | some p => rw [h] at he; cases he; exact hc p h
  · intro e he k hk
    obtain ⟨p, hp, rfl⟩ := List.mem_map.1 he
    rw [(single_matches rfl k).1 hk]
    exact hin p hp
  · intro e he k hk
    rw [← List.map_append] at he
    obtain ⟨p, hp, rfl⟩ := List.mem_map.1 he
    rw [(single_matches rfl k).1 hk]
    exact hout p hp

/-- Keys 4, 6 and 7 of route 2 between two entries of route 1. -/
theorem wide_order : InOrder [single 6 2, single 9 1, single 4 2, single 2 1, single 7 2]
    [single 2 1] [single 4 2, single 6 2, single 7 2] [single 9 1] :=
  singles_inOrder [(2, 1)] [(4, 2), (6, 2), (7, 2)] [(9, 1)] (by decide)
    [(6, 2), (9, 1), (4, 2), (2, 1), (7, 2)] (by decide)

theorem wide_alone :
    RunAlone [single 2 1] [single 4 2, single 6 2, single 7 2] [single 9 1] 2 4 2 :=
  singles_alone [(2, 1)] [(4, 2), (6, 2), (7, 2)] [(9, 1)] 2 4 2 (by decide) (by decide)
    (by intro p hp; cases hp; decide) (by intro p hp; cases hp; decide) (by decide) (by decide)
    (by decide) (by decide)

theorem wide_wide : WideRun [single 4 2, single 6 2, single 7 2] 4 2 :=
  ⟨single 4 2, by simp, 4, by decide, single 7 2, by simp, 7, by decide, by decide, by decide,
    by decide⟩

/-- The hypotheses of `C141_run_partial` hold of it, and the three become one. -/
example : ∃ X Y, compressTable 5 true 1023
      [single 6 2, single 9 1, single 4 2, single 2 1, single 7 2] =
        .ok (X ++ [⟨4, 0xFFFFFFFC, 2, false⟩] ++ Y) ∧ X.length ≤ 1 ∧ Y.length ≤ 1 :=
  C141_run_partial 5 true 1023 _ _ _ _ 2 4 2 wide_order wide_alone (by decide) (.inl rfl) wide_wide

example : compressTable 5 true 1023 [single 6 2, single 9 1, single 4 2, single 2 1, single 7 2] =
    .ok [single 2 1, ⟨4, 0xFFFFFFFC, 2, false⟩, single 9 1] := by decide +kernel

theorem pair_order : InOrder [single 4 2, single 5 2] [] [single 4 2, single 5 2] [] :=
  singles_inOrder [] [(4, 2), (5, 2)] [] (by decide) [(4, 2), (5, 2)] (by decide)

theorem pair_alone : RunAlone [] [single 4 2, single 5 2] [] 2 4 1 :=
  singles_alone [] [(4, 2), (5, 2)] [] 2 4 1 (by decide) (by decide)
    (by intro p hp; cases hp) (by intro p hp; cases hp) (by decide) (by decide)
    (by decide) (by decide)

theorem pair_kept : compressTable 2 true 1023 [single 4 2, single 5 2] =
    .ok [single 4 2, single 5 2] := by decide +kernel

/-- **C141**: the full claim is false of the code: keys 4 and 5 of one route, alone in the table,
stay two entries. -/
theorem C141_false : ¬ C141_full := by
  intro h
  obtain ⟨X, w, Y, he, hX, hY, -, -⟩ := h 2 true 1023 _ _ _ _ 2 4 1 pair_order pair_alone (by decide)
    (.inl rfl)
  rw [pair_kept] at he
  have hl := congrArg (fun x : Except PyErr (List Entry) => match x with
    | .ok l => l.length
    | .error _ => 0) he
  simp only [List.length_append, List.length_cons, List.length_nil] at hl hX hY
  omega

theorem pair_crosses : Crosses [single 4 2, single 5 2] 4 1 :=
  ⟨⟨single 4 2, by simp, 4, by decide, by decide⟩, ⟨single 5 2, by simp, 5, by decide, by decide⟩⟩

theorem pair_narrow : ¬ WideRun [single 4 2, single 5 2] 4 1 := by
  rintro ⟨e, he, k, hk, e', he', k', hk', h1, h2, h3⟩
  have := pair_alone.inside e' he' k' hk'
  omega

/-- The hypotheses of `C141_otherwise_two` hold of it. -/
example : ∃ X W Y, compressTable 2 true 1023 [single 4 2, single 5 2] = .ok (X ++ W ++ Y) ∧
    X.length ≤ 0 ∧ Y.length ≤ 0 ∧ 2 ≤ W.length ∧
    ∀ w ∈ W, w.route = 2 ∧ ∃ e ∈ [single 4 2, single 5 2], w.Matches e.key :=
  C141_otherwise_two 2 true 1023 _ _ _ _ 2 4 1 pair_order pair_alone (by decide) (.inl rfl)
    pair_crosses pair_narrow

end Pacman.Range
