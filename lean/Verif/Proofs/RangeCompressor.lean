import Verif.Model.RangeCompressor
import Verif.Proofs.PairCompressor
/-
Lemmas on contiguous blocks and the range compressor.
-/

namespace Pacman.Range

open Pacman.Pair (routeOf_append_some routeOf_append_none routeOf_eq_some_of routeOf_some_mem)

/-- The mask with `p` zeros at the end. -/
def maskP (p : Nat) : Word := BitVec.ofNat 32 (2 ^ 32 - 2 ^ p)

theorem maskP_bit_fin : ∀ p : Fin 33, ∀ i : Fin 32,
    (maskP p.val).getLsbD i.val = decide (p.val ≤ i.val) := by decide +kernel

theorem maskP_bit (p i : Nat) (hp : p ≤ 32) (hi : i < 32) :
    (maskP p).getLsbD i = decide (p ≤ i) :=
  maskP_bit_fin ⟨p, by omega⟩ ⟨i, hi⟩

theorem not_maskP_fin : ∀ p : Fin 33, (~~~ (maskP p.val)).toNat = 2 ^ p.val - 1 := by decide +kernel

theorem and_maskP (k : Word) (p : Nat) (hp : p ≤ 32) :
    (k &&& maskP p).toNat = k.toNat / 2 ^ p * 2 ^ p := by
  apply Nat.eq_of_testBit_eq
  intro i
  rw [BitVec.testBit_toNat, Nat.testBit_mul_two_pow, Nat.testBit_div_two_pow]
  by_cases hi : i < 32
  · rw [BitVec.getLsbD_and, maskP_bit p i hp hi]
    by_cases h : p ≤ i
    · have : i - p + p = i := by omega
      simp [h, this, BitVec.testBit_toNat]
    · simp [h]
  · rw [BitVec.getLsbD_of_ge _ _ (by omega)]
    by_cases h : p ≤ i
    · have : i - p + p = i := by omega
      simp [h, this, BitVec.testBit_toNat, BitVec.getLsbD_of_ge k i (by omega)]
    · simp [h]

/-- Entry `e` matches exactly the `2 ^ p` keys from `low` on. -/
structure IsBlock (e : Entry) (low p : Nat) : Prop where
  key : e.key.toNat = low
  mask : e.mask = maskP p
  le : p ≤ 32
  dvd : low / 2 ^ p * 2 ^ p = low

theorem IsBlock.matches {e : Entry} {low p : Nat} (h : IsBlock e low p) (k : Word) :
    e.Matches k ↔ low ≤ k.toNat ∧ k.toNat < low + 2 ^ p := by
  have hpos : 0 < 2 ^ p := Nat.two_pow_pos p
  unfold Entry.Matches
  rw [← BitVec.toNat_inj, h.mask, and_maskP _ _ h.le, h.key]
  have h1 := Nat.div_add_mod k.toNat (2 ^ p)
  have h2 := Nat.mod_lt k.toNat hpos
  rw [Nat.mul_comm] at h1
  constructor
  · intro h3; omega
  · rintro ⟨h3, h4⟩
    have : k.toNat / 2 ^ p = low / 2 ^ p := by
      apply Nat.div_eq_of_lt_le
      · rw [h.dvd]; exact h3
      · rw [Nat.add_mul, h.dvd, Nat.one_mul]; exact h4
    rw [this, h.dvd]

theorem IsBlock.key_and {e : Entry} {low p : Nat} (h : IsBlock e low p) :
    (e.key &&& e.mask).toNat = low := by
  rw [h.mask, and_maskP _ _ h.le, h.key, h.dvd]

theorem IsBlock.valid {e : Entry} {low p : Nat} (h : IsBlock e low p) : e.Valid := by
  unfold Entry.Valid
  rw [← BitVec.toNat_inj, h.key_and, h.key]

theorem IsBlock.endpoint {e : Entry} {low p : Nat} (h : IsBlock e low p) :
    (e.key ||| ~~~ e.mask).toNat + 1 = low + 2 ^ p := by
  have hpos : 0 < 2 ^ p := Nat.two_pow_pos p
  have hn := not_maskP_fin ⟨p, by have := h.le; omega⟩
  simp only at hn
  rw [BitVec.toNat_or, h.mask, hn, h.key]
  have := Nat.two_pow_add_eq_or_of_lt (i := p) (b := 2 ^ p - 1) (by omega) (low / 2 ^ p)
  rw [Nat.mul_comm, h.dvd] at this
  rw [← this]; omega

theorem IsBlock.high {e : Entry} {low p : Nat} (h : IsBlock e low p) : low + 2 ^ p ≤ 2 ^ 32 := by
  have := h.endpoint
  have h2 := (e.key ||| ~~~ e.mask).isLt
  omega

theorem isBlock_mk (low p : Nat) (r : Nat) (d : Bool) (hp : p ≤ 32) (hl : low < 2 ^ 32)
    (hd : low / 2 ^ p * 2 ^ p = low) :
    IsBlock ⟨BitVec.ofNat 32 low, BitVec.ofNat 32 (2 ^ 32 - 2 ^ p), r, d⟩ low p :=
  ⟨by simp only [BitVec.toNat_ofNat]; exact Nat.mod_eq_of_lt hl, rfl, hp, hd⟩

theorem isBlock_of_valid {e : Entry} (hv : e.Valid) {p : Nat} (hp : p ≤ 32)
    (hm : e.mask = maskP p) : IsBlock e e.key.toNat p := by
  refine ⟨rfl, hm, hp, ?_⟩
  unfold Entry.Valid at hv
  rw [hm] at hv
  rw [← and_maskP _ _ hp, hv]

/-- Aligned blocks are nested or disjoint. -/
theorem nested {l1 p1 l2 p2 x : Nat} (d1 : l1 / 2 ^ p1 * 2 ^ p1 = l1) (d2 : l2 / 2 ^ p2 * 2 ^ p2 = l2)
    (hle : p1 ≤ p2) (h1 : l1 ≤ x) (h2 : x < l1 + 2 ^ p1) (h3 : l2 ≤ x) (h4 : x < l2 + 2 ^ p2) :
    l2 ≤ l1 ∧ l1 + 2 ^ p1 ≤ l2 + 2 ^ p2 := by
  have e : 2 ^ p2 = 2 ^ (p2 - p1) * 2 ^ p1 := by rw [← Nat.pow_add]; congr 1; omega
  have hpos : 0 < 2 ^ p1 := Nat.two_pow_pos p1
  -- in units of 2 ^ p1
  have hx1 : x / 2 ^ p1 = l1 / 2 ^ p1 := by
    apply Nat.div_eq_of_lt_le
    · rw [d1]; exact h1
    · rw [Nat.add_mul, d1, Nat.one_mul]; exact h2
  have hl2 : l2 = (l2 / 2 ^ p2 * 2 ^ (p2 - p1)) * 2 ^ p1 := by
    rw [Nat.mul_assoc, ← e, d2]
  generalize hA : l2 / 2 ^ p2 * 2 ^ (p2 - p1) = A at hl2
  have hle2 : A ≤ x / 2 ^ p1 := by rw [Nat.le_div_iff_mul_le hpos, ← hl2]; exact h3
  have hlt2 : x / 2 ^ p1 < A + 2 ^ (p2 - p1) := by
    rw [Nat.div_lt_iff_lt_mul hpos, Nat.add_mul, ← hl2, ← e]; exact h4
  rw [hx1] at hle2 hlt2
  constructor
  · rw [hl2, ← d1]; exact Nat.mul_le_mul_right _ hle2
  · have : (l1 / 2 ^ p1 + 1) * 2 ^ p1 ≤ (A + 2 ^ (p2 - p1)) * 2 ^ p1 :=
      Nat.mul_le_mul_right _ hlt2
    rw [Nat.add_mul, Nat.add_mul, d1, ← hl2, ← e, Nat.one_mul] at this
    exact this

theorem bitLength_spec (n : Nat) : n < 2 ^ bitLength n := by
  unfold bitLength
  split
  · next h => subst h; simp
  · exact Nat.lt_log2_self

theorem bitLength_le (n k : Nat) (h : n < 2 ^ k) : bitLength n ≤ k := by
  unfold bitLength
  split
  · omega
  · next h0 => exact (Nat.log2_lt h0).2 h

theorem lowCut_le (x p : Nat) : lowCut x p ≤ x := Nat.div_mul_le_self x (2 ^ p)

theorem lt_lowCut (x p : Nat) : x < lowCut x p + 2 ^ p := by
  unfold lowCut
  have h1 := Nat.div_add_mod x (2 ^ p)
  have h2 := Nat.mod_lt x (Nat.two_pow_pos p)
  rw [Nat.mul_comm] at h1
  omega

theorem lowCut_dvd (x p : Nat) : lowCut x p / 2 ^ p * 2 ^ p = lowCut x p := by
  unfold lowCut
  rw [Nat.mul_div_cancel _ (Nat.two_pow_pos p)]

theorem shrink_spec (x pre post a : Nat) (p0 : Nat) (hle : a ≤ p0)
    (h1 : pre ≤ lowCut x a) (h2 : lowCut x a + 2 ^ a ≤ post) :
    a ≤ shrink x pre post p0 ∧ shrink x pre post p0 ≤ p0 ∧
    pre ≤ lowCut x (shrink x pre post p0) ∧
    lowCut x (shrink x pre post p0) + 2 ^ (shrink x pre post p0) ≤ post := by
  induction p0 with
  | zero =>
    have : a = 0 := by omega
    subst this
    exact ⟨by simp [shrink], by simp [shrink], h1, h2⟩
  | succ p ih =>
    unfold shrink
    split
    · next h =>
      have hne : a ≠ p + 1 := by
        rintro rfl
        rcases h with h | h <;> omega
      have := ih (by omega)
      exact ⟨this.1, by omega, this.2.2⟩
    · next h => exact ⟨hle, Nat.le_refl _, by omega, by omega⟩

/-! ### The sorted list of blocks -/

/-- Entries are consecutive, disjoint, aligned blocks. -/
structure Blocks (es : List Entry) (K P : Nat → Nat) : Prop where
  block : ∀ i (h : i < es.length), IsBlock es[i] (K i) (P i)
  next : ∀ i, i + 1 < es.length → K i + 2 ^ P i ≤ K (i + 1)

theorem Blocks.mono {es : List Entry} {K P : Nat → Nat} (hb : Blocks es K P) (i j : Nat)
    (hij : i < j) (hj : j < es.length) : K i + 2 ^ P i ≤ K j := by
  induction j with
  | zero => omega
  | succ j ih =>
    have hn := hb.next j (by omega)
    by_cases h : i = j
    · subst h; exact hn
    · have := ih (by omega) (by omega)
      have := Nat.two_pow_pos (P j)
      omega

theorem Blocks.getKey {es : List Entry} {K P : Nat → Nat} (hb : Blocks es K P) (i : Nat)
    (h : i < es.length) : getKey es i = .ok (K i) := by
  unfold Range.getKey
  have : i ≠ es.length := by omega
  simp only [this, if_false, getE, List.getElem?_eq_getElem h]
  simp only [bind, Except.bind, pure, Except.pure, (hb.block i h).key_and]

theorem getKey_end (es : List Entry) : getKey es es.length = .ok maxsize := by
  simp [getKey]

theorem Blocks.getEndpoint {es : List Entry} {K P : Nat → Nat} (hb : Blocks es K P) (i : Nat)
    (h : i < es.length) : getEndpoint es (i + 1) = .ok (K i + 2 ^ P i - 1) := by
  unfold Range.getEndpoint
  simp only [getE, List.getElem?_eq_getElem h]
  simp only [bind, Except.bind, pure, Except.pure]
  have := (hb.block i h).endpoint
  congr 1; omega

/-- The first key beyond entry `stop - 1` that may not be touched. -/
theorem Blocks.post {es : List Entry} {K P : Nat → Nat} (hb : Blocks es K P) (stop : Nat)
    (h : stop ≤ es.length) : ∃ post, Range.getKey es stop = .ok post ∧
      (∀ i, i < stop → K i + 2 ^ P i ≤ post) ∧ (∀ i, stop ≤ i → i < es.length → post ≤ K i) := by
  by_cases hs : stop = es.length
  · refine ⟨maxsize, by rw [hs, getKey_end], ?_, by intro i h1 h2; omega⟩
    intro i hi
    have := (hb.block i (by omega)).high
    unfold maxsize; omega
  · refine ⟨K stop, hb.getKey stop (by omega), fun i hi => hb.mono i stop hi (by omega), ?_⟩
    intro i h1 h2
    by_cases he : stop = i
    · subst he; exact Nat.le_refl _
    · have := hb.mono stop i (by omega) h2
      have := Nat.two_pow_pos (P stop)
      omega

theorem Blocks.pre {es : List Entry} {K P : Nat → Nat} (hb : Blocks es K P) (first : Nat)
    (h : first < es.length) : ∃ pre, Range.getEndpoint es first = .ok pre ∧
      pre ≤ K first ∧ (∀ i, i + 1 < first → K i + 2 ^ P i ≤ pre) ∧
      (∀ i, i + 1 = first → pre = K i + 2 ^ P i - 1 ∧ pre < K first) := by
  cases first with
  | zero => exact ⟨0, rfl, by omega, by intro i hi; omega, by intro i hi; omega⟩
  | succ f =>
    have hp := Nat.two_pow_pos (P f)
    have hn := hb.next f h
    refine ⟨_, hb.getEndpoint f (by omega), by omega, ?_, ?_⟩
    · intro i hi
      have := hb.mono i f (by omega) (by omega); omega
    · intro i hi
      have : i = f := by omega
      subst this; exact ⟨rfl, by omega⟩

theorem reduceLast_spec {es : List Entry} {K P : Nat → Nat} (hb : Blocks es K P) (high first : Nat)
    (hf : first < es.length) (hh : K first + 2 ^ P first ≤ high) (stop : Nat) (h1 : first < stop)
    (h2 : stop ≤ es.length) :
    ∃ s, reduceLast es high stop = .ok (s + 1) ∧ first ≤ s ∧ s + 1 ≤ stop ∧
      K s + 2 ^ P s ≤ high ∧ ∀ i, s < i → i < stop → high < K i + 2 ^ P i := by
  induction stop with
  | zero => omega
  | succ stop ih =>
    unfold reduceLast
    rw [hb.getEndpoint stop (by omega)]
    simp only [bind, Except.bind]
    have hp := Nat.two_pow_pos (P stop)
    split
    · next h =>
      have hne : first ≠ stop := by rintro rfl; omega
      obtain ⟨s, e1, e2, e3, e4, e5⟩ := ih (by omega) (by omega)
      refine ⟨s, e1, e2, by omega, e4, fun i h5 h6 => ?_⟩
      by_cases h7 : i = stop
      · subst h7; omega
      · exact e5 i h5 (by omega)
    · next h => exact ⟨stop, rfl, by omega, Nat.le_refl _, by omega, fun i h5 h6 => by omega⟩

/-- What one round of `_merge_range` decides. -/
theorem step_spec {es : List Entry} {K P : Nat → Nat} (hb : Blocks es K P) (first stop : Nat)
    (h1 : first + 1 < stop) (h2 : stop ≤ es.length) (pre post : Nat)
    (hpre : pre ≤ K first) (hpost : K first + 2 ^ P first ≤ post) (p : Nat)
    (hpdef : shrink (K first) pre post
      (startPower (K first) (K (stop - 1) + 2 ^ P (stop - 1) - 1)) = p) :
    P first ≤ p ∧ p ≤ 32 ∧ pre ≤ lowCut (K first) p ∧ lowCut (K first) p + 2 ^ p ≤ post ∧
      K first + 2 ^ P first ≤ lowCut (K first) p + 2 ^ p := by
  have hf : first < es.length := by omega
  have hbf := hb.block first hf
  have hbl := hb.block (stop - 1) (by omega)
  have hm := hb.mono first (stop - 1) (by omega) (by omega)
  have hlp := Nat.two_pow_pos (P (stop - 1))
  have hfp := Nat.two_pow_pos (P first)
  have hhi := hbl.high
  generalize hL : K (stop - 1) + 2 ^ P (stop - 1) - 1 = L at *
  have hL1 : K first + 2 ^ P first ≤ L := by omega
  have hL2 : L < 2 ^ 32 := by omega
  have hself : lowCut (K first) (P first) = K first := hbf.dvd
  have hb1 := bitLength_spec (L - K first - 1)
  have hb2 := bitLength_le (L - K first - 1) 32 (by omega)
  have hge : P first ≤ bitLength (L - K first - 1) := by
    have : 2 ^ P first ≤ 2 ^ bitLength (L - K first - 1) := by omega
    exact (Nat.pow_le_pow_iff_right (by omega)).1 this
  have hstart : P first ≤ startPower (K first) L ∧ startPower (K first) L ≤ 32 := by
    unfold startPower
    have hd : ¬ (L - K first < 1) := by omega
    simp only [hd, if_false]
    split
    · next hlt =>
      refine ⟨by omega, ?_⟩
      have : bitLength (L - K first - 1) ≠ 32 := by
        intro h32
        rw [h32] at hlt; omega
      omega
    · exact ⟨hge, hb2⟩
  obtain ⟨s1, s2, s3, s4⟩ := shrink_spec (K first) pre post (P first) _ hstart.1
    (by rw [hself]; exact hpre) (by rw [hself]; exact hpost)
  rw [hpdef] at s1 s2 s3 s4
  refine ⟨s1, Nat.le_trans s2 hstart.2, s3, s4, ?_⟩
  have hk := lowCut_le (K first) p
  have hk2 := lt_lowCut (K first) p
  have := nested (x := K first) hbf.dvd (lowCut_dvd (K first) p) s1 (Nat.le_refl _) (by omega) hk hk2
  exact this.2

theorem free_maskP_fin : ∀ p : Fin 33, (⟨0, maskP p.val, 0, false⟩ : Entry).free = p.val := by decide +kernel

theorem IsBlock.free {e : Entry} {low p : Nat} (h : IsBlock e low p) : e.free = p := by
  have := free_maskP_fin ⟨p, by have := h.le; omega⟩
  unfold Entry.free at *
  rw [h.mask]
  exact this

/-- Invariant: the first `f` entries are dealt with by `acc`. -/
structure Inv (es : List Entry) (K P : Nat → Nat) (acc : List Entry) (f : Nat) : Prop where
  done : ∀ i (h : i < es.length), i < f → ∀ k, es[i].Matches k → routeOf acc k = some es[i].route
  blocks : ∀ v ∈ acc, ∃ l p, IsBlock v l p ∧ (∃ j, j < f ∧ j < es.length ∧ l ≤ K j ∧ K j < l + 2 ^ p) ∧
    (∀ i, i < es.length → f ≤ i → l + 2 ^ p ≤ K i)
  len : acc.length ≤ f
  origin : ∀ v ∈ acc, ∃ i, ∃ h : i < es.length, v.route = es[i].route
  kept : ∀ v ∈ acc, v ∈ es ∨ v.defaultable = false
  disj : (∀ i, i < es.length → P i = 0 → K i % 2 = 1) → Orthogonal acc
  nest : NarrowFirst acc

/-- Adding one entry which deals with entries `first, ..., s`. -/
theorem Inv.add {es : List Entry} {K P : Nat → Nat} (hb : Blocks es K P) {acc : List Entry}
    {first : Nat} (hi : Inv es K P acc first) (s : Nat) (hs : first ≤ s) (hsl : s < es.length)
    (w : Entry) (l p : Nat) (hw : IsBlock w l p)
    (hroute : ∀ i (h : i < es.length), first ≤ i → i ≤ s → w.route = es[i].route)
    (hlow : l ≤ K first) (hhigh : K s + 2 ^ P s ≤ l + 2 ^ p)
    (hother : ∀ i, i < es.length → s < i → l + 2 ^ p ≤ K i) (hkept : w ∈ es ∨ w.defaultable = false)
    (hsep : (∀ i, i < es.length → P i = 0 → K i % 2 = 1) → ∀ j, j < first → K j < l) :
    Inv es K P (acc ++ [w]) (s + 1) := by
  have hwb : ∀ k, w.Matches k ↔ l ≤ k.toNat ∧ k.toNat < l + 2 ^ p := hw.matches
  have hK : ∀ i, first ≤ i → i ≤ s → K first ≤ K i ∧ K i + 2 ^ P i ≤ K s + 2 ^ P s := by
    intro i h1 h2
    constructor
    · by_cases h : first = i
      · subst h; exact Nat.le_refl _
      · have := hb.mono first i (by omega) (by omega)
        have := Nat.two_pow_pos (P first)
        omega
    · by_cases h : i = s
      · subst h; exact Nat.le_refl _
      · have := hb.mono i s (by omega) (by omega)
        have := Nat.two_pow_pos (P s)
        omega
  have hKf := hK first (Nat.le_refl _) hs
  have hpf := Nat.two_pow_pos (P first)
  constructor
  · intro i h hlt k hk
    by_cases hif : i < first
    · exact routeOf_append_some (hi.done i h hif k hk)
    · have hr := hroute i h (by omega) (by omega)
      have hki := ((hb.block i h).matches k).1 hk
      have hKi := hK i (by omega) (by omega)
      apply routeOf_eq_some_of
      · exact ⟨w, by simp, (hwb k).2 ⟨by omega, by omega⟩⟩
      · intro e he hm
        rcases List.mem_append.1 he with he | he
        · obtain ⟨l', p', hb', _, hsep'⟩ := hi.blocks e he
          have h1 := hsep' i h (by omega)
          have h2 := (hb'.matches k).1 hm
          omega
        · simp at he; subst he; exact hr
  · intro v hv
    rcases List.mem_append.1 hv with hv | hv
    · obtain ⟨l', p', hb', ⟨j, hj1, hj2, hj3, hj4⟩, hsep'⟩ := hi.blocks v hv
      exact ⟨l', p', hb', ⟨j, by omega, hj2, hj3, hj4⟩, fun i h hle => hsep' i h (by omega)⟩
    · simp at hv; subst hv
      exact ⟨l, p, hw, ⟨first, by omega, by omega, hlow, by omega⟩,
        fun i h hle => hother i h (by omega)⟩
  · have := hi.len; simp; omega
  · intro v hv
    rcases List.mem_append.1 hv with hv | hv
    · exact hi.origin v hv
    · simp at hv; subst hv
      exact ⟨first, by omega, hroute first (by omega) (Nat.le_refl _) hs⟩
  · intro v hv
    rcases List.mem_append.1 hv with hv | hv
    · exact hi.kept v hv
    · rw [List.mem_singleton] at hv; rw [hv]; exact hkept
  · intro hP
    refine List.pairwise_append.2 ⟨hi.disj hP, List.pairwise_singleton _ _, ?_⟩
    intro v hv u hu
    rw [List.mem_singleton] at hu
    subst hu
    rintro ⟨k, hk1, hk2⟩
    obtain ⟨l', p', hb', ⟨j, hj1, hj2, hj3, hj4⟩, hsep'⟩ := hi.blocks v hv
    have h1 := (hb'.matches k).1 hk1
    have h2 := (hwb k).1 hk2
    have h3 := hsep' first (by omega) (Nat.le_refl _)
    -- v ends before K first, w contains K first
    have hjl := hsep hP j hj1
    rcases Nat.le_total p' p with hpp | hpp
    · have := nested hb'.dvd hw.dvd hpp h1.1 h1.2 h2.1 h2.2
      omega
    · have := nested hw.dvd hb'.dvd hpp h2.1 h2.2 h1.1 h1.2
      omega
  · refine List.pairwise_append.2 ⟨hi.nest, List.pairwise_singleton _ _, ?_⟩
    intro v hv u hu
    rw [List.mem_singleton] at hu
    subst hu
    obtain ⟨l', p', hb', _, hsep'⟩ := hi.blocks v hv
    have h3 := hsep' first (by omega) (Nat.le_refl _)
    constructor
    · intro heq
      simp only [Prod.mk.injEq] at heq
      have hkf := (hb.block first (by omega)).key
      have hm : u.Matches (es[first]'(by omega)).key := (hwb _).2 (by rw [hkf]; omega)
      have hm' : v.Matches (es[first]'(by omega)).key := by
        unfold Entry.Matches at hm ⊢
        rw [heq.1, heq.2]; exact hm
      have := (hb'.matches _).1 hm'
      rw [hkf] at this
      omega
    · rintro ⟨k, hk1, hk2⟩
      have h1 := (hb'.matches k).1 hk1
      have h2 := (hwb k).1 hk2
      rw [hb'.free, hw.free]
      rcases Nat.le_total p' p with hpp | hpp
      · exact hpp
      · have := nested hw.dvd hb'.dvd hpp h2.1 h2.2 h1.1 h1.2
        omega

theorem mergeRange_spec {es : List Entry} {K P : Nat → Nat} (hb : Blocks es K P) :
    ∀ (fuel first stop : Nat) (acc : List Entry), first < stop → stop ≤ es.length →
    stop - first ≤ fuel →
    (∀ i (h : i < es.length) (hf : first < es.length), first ≤ i → i < stop →
      es[i].route = es[first].route) →
    Inv es K P acc first →
    ∃ acc', mergeRange es fuel first stop acc = .ok acc' ∧ Inv es K P acc' stop := by
  intro fuel
  induction fuel with
  | zero => intro first stop acc h1 h2 h3; omega
  | succ fuel ih =>
    intro first stop acc h1 h2 h3 hr hi
    unfold mergeRange
    have hf : first < es.length := by omega
    have hpf := Nat.two_pow_pos (P first)
    have hg : getE es first = .ok es[first] := by simp [getE, hf]
    by_cases hs : first + 1 = stop
    · simp only [hs, if_true, hg, bind, Except.bind, pure, Except.pure]
      refine ⟨_, rfl, ?_⟩
      subst hs
      apply Inv.add hb hi first (Nat.le_refl _) hf es[first] (K first) (P first) (hb.block first hf)
      · intro i h h4 h5
        have : i = first := by omega
        subst this; rfl
      · exact Nat.le_refl _
      · exact Nat.le_refl _
      · intro i h h4; exact hb.mono first i h4 h
      · exact Or.inl (List.getElem_mem hf)
      · intro _ j hj
        have := hb.mono j first hj hf
        have := Nat.two_pow_pos (P j)
        omega
    · obtain ⟨pre, hpre, hpre1, hpre2, hpre3⟩ := hb.pre first hf
      obtain ⟨post, hpost, hpost1, hpost2⟩ := hb.post stop h2
      have he := hb.getEndpoint (stop - 1) (by omega)
      have e1 : stop - 1 + 1 = stop := by omega
      rw [e1] at he
      simp only [hs, if_false, hb.getKey first hf, he, hpre, hpost, bind, Except.bind, hg]
      obtain ⟨s1, s2, s3, s4, s5⟩ := step_spec hb first stop (by omega) h2 pre post hpre1
        (hpost1 first (by omega)) _ rfl
      generalize hp : shrink (K first) pre post
        (startPower (K first) (K (stop - 1) + 2 ^ P (stop - 1) - 1)) = p at *
      obtain ⟨s, r1, r2, r3, r4, r5⟩ := reduceLast_spec hb (lowCut (K first) p + 2 ^ p) first hf s5 stop
        (by omega) h2
      rw [r1]
      have hlow := lowCut_le (K first) p
      have hK := (hb.block first hf).high
      have hw := isBlock_mk (lowCut (K first) p) p es[first].route false s2 (by omega)
        (lowCut_dvd (K first) p)
      have hadd : Inv es K P (acc ++ [⟨BitVec.ofNat 32 (lowCut (K first) p),
          BitVec.ofNat 32 (2 ^ 32 - 2 ^ p), es[first].route, false⟩]) (s + 1) := by
        apply Inv.add hb hi s r2 (by omega) _ _ _ hw
        · intro i h h4 h5; exact (hr i h hf h4 (by omega)).symm
        · exact hlow
        · exact r4
        · intro i h h4
          rcases Nat.lt_or_ge i stop with h5 | h5
          · have h6 := r5 i h4 h5
            have h7 := hb.mono first i (by omega) h
            have h8 := Nat.two_pow_pos (P i)
            apply Classical.byContradiction
            intro hlt
            have h9 : K i < lowCut (K first) p + 2 ^ p := by omega
            rcases Nat.le_total (P i) p with hpp | hpp
            · have := nested (x := K i) (hb.block i h).dvd (lowCut_dvd (K first) p) hpp (Nat.le_refl _) (by omega) (by omega) h9
              omega
            · have := nested (x := K i) (lowCut_dvd (K first) p) (hb.block i h).dvd hpp (by omega) h9 (Nat.le_refl _) (by omega)
              omega
          · have := hpost2 i h5 h; omega
        · exact Or.inr rfl
        · intro hP j hj
          have hpj := Nat.two_pow_pos (P j)
          rcases Nat.lt_or_ge (j + 1) first with h5 | h5
          · have := hpre2 j h5
            omega
          · have h6 := hpre3 j (by omega)
            by_cases h7 : P j = 0
            · have h8 := hP j (by omega) h7
              have h9 := hb.mono j first hj hf
              cases p with
              | zero =>
                have : lowCut (K first) 0 = K first := by simp [lowCut]
                omega
              | succ p =>
                have : lowCut (K first) (p + 1) % 2 = 0 := by
                  unfold lowCut
                  rw [Nat.pow_succ, ← Nat.mul_assoc]
                  exact Nat.mul_mod_left _ _
                omega
            · have h8 : 2 ≤ 2 ^ P j := by
                have : 2 ^ 1 ≤ 2 ^ P j := Nat.pow_le_pow_right (by omega) (by omega)
                simpa using this
              omega
      simp only [pure, Except.pure]
      split
      · next h =>
        refine ⟨_, rfl, ?_⟩
        rw [h]; exact hadd
      · next h =>
        exact ih (s + 1) stop _ (by omega) h2 (by omega)
          (by intro i h4 hf' h5 h6
              rw [hr i h4 hf (by omega) h6, hr (s + 1) hf' hf (by omega) (by omega)]) hadd

theorem ranges_spec {es : List Entry} {K P : Nat → Nat} (hb : Blocks es K P) (fuel : Nat)
    (hfuel : es.length ≤ fuel) :
    ∀ (n i first : Nat) (acc : List Entry) (hf : first < es.length), i + n = es.length → first ≤ i →
    (n = 0 → first < i) → 
    (∀ j (h : j < es.length), first ≤ j → j < i → es[j].route = es[first].route) →
    Inv es K P acc first →
    ∃ acc', ranges es fuel n i first es[first].route acc = .ok acc' ∧
      Inv es K P acc' es.length := by
  intro n
  induction n with
  | zero =>
    intro i first acc hf hlen hle hn hr hi
    unfold ranges
    have : i = es.length := by omega
    subst this
    exact mergeRange_spec hb fuel first _ acc hf (Nat.le_refl _) (by omega)
      (fun j h _ h1 h2 => hr j h h1 h2) hi
  | succ n ih =>
    intro i first acc hf hlen hle hn hr hi
    unfold ranges
    have hil : i < es.length := by omega
    have hg : getE es i = .ok es[i] := by simp [getE, hil]
    simp only [hg, bind, Except.bind]
    by_cases hne : es[i].route ≠ es[first].route
    · have hlt : first < i := by
        apply Classical.byContradiction
        intro h
        have : first = i := by omega
        subst this; exact hne rfl
      simp only [hne, ne_eq, not_false_eq_true, if_true]
      obtain ⟨acc', h1, h2⟩ := mergeRange_spec hb fuel first i acc hlt (by omega) (by omega)
        (fun j h _ h1 h2 => hr j h h1 h2) hi
      rw [h1]
      simp only
      exact ih (i + 1) i acc' hil (by omega) (by omega) (by omega)
        (by intro j h h3 h4
            have : j = i := by omega
            subst this; rfl) h2
    · have heq : es[i].route = es[first].route := Classical.byContradiction hne
      simp only [heq, ne_eq, not_true, if_false]
      exact ih (i + 1) first acc hf (by omega) (by omega) (by omega)
        (by intro j h h3 h4
            rcases Nat.lt_or_ge j i with h5 | h5
            · exact hr j h h3 h5
            · have : j = i := by omega
              subst this; exact heq) hi

theorem validate_spec {es : List Entry} {K P : Nat → Nat}
    (hb : ∀ i (h : i < es.length), IsBlock es[i] (K i) (P i)) (n i : Nat) (hn : i + n = es.length) :
    ∃ b, validate es n i = .ok b ∧
      (b = true ↔ ∀ j, i ≤ j → j + 1 < es.length → K j + 2 ^ P j ≤ K (j + 1)) := by
  induction n generalizing i with
  | zero =>
    refine ⟨true, rfl, ?_⟩
    simp only [true_iff]
    intro j h1 h2; omega
  | succ n ih =>
    unfold validate
    have hil : i < es.length := by omega
    have he : getEndpoint es (i + 1) = .ok (K i + 2 ^ P i - 1) := by
      unfold getEndpoint
      simp only [getE, List.getElem?_eq_getElem hil, bind, Except.bind, pure, Except.pure]
      have := (hb i hil).endpoint
      congr 1; omega
    have hp := Nat.two_pow_pos (P i)
    obtain ⟨b, hb1, hb2⟩ := ih (i + 1) (by omega)
    by_cases hl : i + 1 = es.length
    · have hk : getKey es (i + 1) = .ok maxsize := by rw [hl, getKey_end]
      have hhi := (hb i hil).high
      have hlt : ¬ (K i + 2 ^ P i - 1 ≥ maxsize) := by unfold maxsize; omega
      simp only [he, hk, bind, Except.bind, hlt, if_false]
      refine ⟨b, hb1, ?_⟩
      rw [hb2]
      constructor
      · intro h j h1 h2; omega
      · intro h j h1 h2; exact h j (by omega) h2
    · have hi1 : i + 1 < es.length := by omega
      have hk : getKey es (i + 1) = .ok (K (i + 1)) := by
        unfold getKey
        simp only [hl, if_false, getE, List.getElem?_eq_getElem hi1, bind, Except.bind, pure,
          Except.pure, (hb (i + 1) hi1).key_and]
      simp only [he, hk, bind, Except.bind]
      split
      · next h =>
        refine ⟨false, rfl, ?_⟩
        simp only [Bool.false_eq_true, false_iff]
        intro h'
        have := h' i (Nat.le_refl _) hi1
        omega
      · next h =>
        refine ⟨b, hb1, ?_⟩
        rw [hb2]
        constructor
        · intro h' j h1 h2
          by_cases hij : i = j
          · subst hij; omega
          · exact h' j (by omega) h2
        · intro h' j h1 h2; exact h' j (by omega) h2

end Pacman.Range
