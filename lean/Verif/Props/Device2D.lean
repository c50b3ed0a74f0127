import Verif.Proofs.Device2D
import Verif.Props.Slices
/-
C48, C64 and C65: keys and slices of 2D devices, slices of FPGA devices.
-/

namespace Pacman.Device

open Slices (Slice mkSlice rasterIds mdIds)

/-! ### C48 -/

/-- C48: for a device that is accepted and a sub-rectangle of it, there is a key and mask just if the fields fit into 32
bits and the base key into what is left. Otherwise an exception is raised. -/
theorem C48_exists {d : Dev} (hv : verify d = .ok ()) {base i : Nat} (hi : i < nSub d) :
    (∃ km, getKeyMask d base i = .ok km) ↔ keyShift d ≤ 32 ∧ base < 2 ^ (32 - keyShift d) :=
  getKeyMask_ok hv hi

/-- C48: the keys and masks of two sub-rectangles, or of one under two base keys, have no key in common. -/
theorem C48_disjoint {d : Dev} (hv : verify d = .ok ()) {b b' i j : Nat} (hi : i < nSub d) (hj : j < nSub d)
    {km km' : Nat × Nat} (h : getKeyMask d b i = .ok km) (h' : getKeyMask d b' j = .ok km') (hne : (b, i) ≠ (b', j))
    (K : Nat) : ¬ (Matches K km ∧ Matches K km') := by
  rintro ⟨m, m'⟩
  obtain ⟨h1, h2, h3⟩ := (match_fields hv hi h K).1 m
  obtain ⟨h1', h2', h3'⟩ := (match_fields hv hj h' K).1 m'
  apply hne
  have e1 : i / perRow d = j / perRow d := by rw [← h2, h2']
  have e2 : i % perRow d = j % perRow d := by rw [← h3, h3']
  have e3 : i = j := by rw [← Nat.div_add_mod i (perRow d), ← Nat.div_add_mod j (perRow d), e1, e2]
  rw [← h1, h1', e3]

/-- C48: every pixel is in a sub-rectangle. -/
theorem C48_index {d : Dev} (hv : verify d = .ok ()) {x y : Nat} (hx : x < d.w) (hy : y < d.h) :
    indexOf d x y < nSub d := by
  obtain ⟨_, _, _, _, h5, h6⟩ := geom hv
  have h1 : x / d.sw < perRow d := div_lt_ceilDiv h5 hx
  have h2 : y / d.sh < perCol d := div_lt_ceilDiv h6 hy
  have h3 := Nat.mul_le_mul_right (perRow d) (Nat.succ_le_of_lt h2)
  unfold indexOf nSub
  rw [Nat.succ_mul] at h3
  rw [Nat.mul_comm (perRow d)]
  omega

/-- C48, as far as it holds: if no sub-rectangle spans a dimension of more than one pixel, the key of a pixel is
matched by the key and mask of the sub-rectangle it is in and by no other, and only with the right base key. Missing:
sub-rectangles that span a dimension, for which it is false (see `C48_spanned`). -/
theorem C48_pixels_partial {d : Dev} (hv : verify d = .ok ()) (hw : d.sw < d.w ∨ d.w = 1) (hh : d.sh < d.h ∨ d.h = 1)
    {b b' i x y : Nat} (hi : i < nSub d) (hb : b < 2 ^ (32 - keyShift d)) (hx : x < d.w) (hy : y < d.h)
    {km : Nat × Nat} (h : getKeyMask d b' i = .ok km) :
    Matches (pixelKey d b x y) km ↔ b = b' ∧ i = indexOf d x y := by
  obtain ⟨⟨a, ha⟩, ⟨c, hc⟩, l1, l2⟩ := (verify_iff d).1 hv
  obtain ⟨f1, f2, f3⟩ := pixel_fields (d := d) (base := b) hx hy
  have hks : keyShift d = xBits d + yBits d := Nat.add_comm _ _
  have ex : x / 2 ^ (xBits d - subXBits d) = x / d.sw := by
    unfold xBits subXBits perRow
    rw [ha] at hw l1 ⊢
    exact low_bits hw l1 hx
  have ey : y / 2 ^ (yBits d - subYBits d) = y / d.sh := by
    unfold yBits subYBits perCol
    rw [hc] at hh l2 ⊢
    exact low_bits hh l2 hy
  have hxr : x / d.sw < perRow d := div_lt_ceilDiv (geom hv).2.2.2.2.1 hx
  rw [match_fields hv hi h, f1, f2, f3, ex, ey, index_iff hxr, Nat.mod_eq_of_lt (by rw [← hks]; exact hb)]
  rfl

/-- A 5 by 4 device in sub-rectangles of 2 by 2, with base key 3. -/
example : verify ⟨5, 4, 2, 2⟩ = .ok () ∧ nSub ⟨5, 4, 2, 2⟩ = 6 ∧
    getKeyMask ⟨5, 4, 2, 2⟩ 3 4 = .ok (0x72, 0xFFFFFFF6) ∧ pixelKey ⟨5, 4, 2, 2⟩ 3 3 2 = 0x73 ∧
    indexOf ⟨5, 4, 2, 2⟩ 3 2 = 4 := by decide +kernel

/-- C48 does not hold for all devices: if the sub-rectangles are as wide as the device, and that is more than one pixel,
then the pixels in the right half are matched by no key and mask; and likewise for the height. -/
theorem C48_spanned {d : Dev} (hv : verify d = .ok ()) {b b' i x y : Nat} (hi : i < nSub d) (hx : x < d.w)
    (hy : y < d.h) {km : Nat × Nat} (h : getKeyMask d b' i = .ok km)
    (hs : (d.sw = d.w ∧ 2 ≤ d.w ∧ d.w ≤ 2 * x) ∨ (d.sh = d.h ∧ 2 ≤ d.h ∧ d.h ≤ 2 * y)) :
    ¬ Matches (pixelKey d b x y) km := by
  obtain ⟨⟨a, ha⟩, ⟨c, hc⟩, l1, l2⟩ := (verify_iff d).1 hv
  obtain ⟨f1, f2, f3⟩ := pixel_fields (d := d) (base := b) hx hy
  rw [match_fields hv hi h, f2, f3]
  rintro ⟨_, hm1, hm2⟩
  have key : ∀ (e z s w : Nat), s = 2 ^ e → s = w → 2 ≤ w → w ≤ 2 * z →
      ceilDiv w s = 1 ∧ 1 ≤ z / 2 ^ (nBits w - nBits (ceilDiv w s)) := by
    intro e z s w hse hsw h2 hz
    have hw : w = 2 ^ e := by rw [← hsw, hse]
    rw [hsw, hw, ceilDiv_self, nBits_pow]
    refine ⟨rfl, ?_⟩
    have he : e ≠ 0 := by intro h0; rw [hw, h0] at h2; omega
    have h1 : nBits 1 = 1 := rfl
    rw [if_neg he, h1, Nat.le_div_iff_mul_le (Nat.two_pow_pos _)]
    have : 2 ^ e = 2 ^ (e - 1) * 2 := by rw [← Nat.pow_succ]; congr 1; omega
    omega
  rcases hs with ⟨h1, h2, h3⟩ | ⟨h1, h2, h3⟩
  · obtain ⟨k1, k2⟩ := key a x d.sw d.w ha h1 h2 h3
    unfold xBits subXBits at hm2
    rw [show perRow d = 1 from k1] at hm2
    rw [k1] at k2
    rw [Nat.mod_one] at hm2
    rw [hm2] at k2
    exact absurd k2 (by decide)
  · obtain ⟨k1, k2⟩ := key c y d.sh d.h hc h1 h2 h3
    have hrow : i / perRow d = 0 := by
      have := (sub_lt hv hi).2
      rw [show perCol d = 1 from k1] at this
      exact Nat.lt_one_iff.1 this
    unfold yBits subYBits at hm1
    rw [hrow, show perCol d = 1 from k1] at hm1
    rw [k1] at k2
    rw [hm1] at k2
    exact absurd k2 (by decide)

/-- A device of 4 by 4 as one: the pixel (2, 0) is not matched. -/
example : verify ⟨4, 4, 4, 4⟩ = .ok () ∧ nSub ⟨4, 4, 4, 4⟩ = 1 ∧
    getKeyMask ⟨4, 4, 4, 4⟩ 0 0 = .ok (0, 0xFFFFFFFA) ∧ ¬ Matches (pixelKey ⟨4, 4, 4, 4⟩ 0 2 0) (0, 0xFFFFFFFA) := by
  decide +kernel

/-! ### C64 -/

theorem mem_range'_block {z s w q : Nat} (hs : 0 < s) :
    z ∈ List.range' (q * s) (min (q * s + s) w - q * s) ↔ z < w ∧ z / s = q := by
  rw [List.mem_range'_1, Nat.div_eq_iff hs]
  omega

/-- The pixels of a slice. -/
theorem mem_slice {d : Dev} (hv : verify d = .ok ()) {q r p : Nat} :
    p ∈ mdIds [(q * d.sw, d.sw, d.w), (r * d.sh, d.sh, d.h)] ↔
      p < d.w * d.h ∧ p % d.w / d.sw = q ∧ p / d.w / d.sh = r := by
  obtain ⟨_, _, _, _, h5, h6⟩ := geom hv
  obtain ⟨_, _, l1, l2⟩ := (verify_iff d).1 hv
  have hw : 0 < d.w := by omega
  simp only [mdIds, List.mem_flatMap, List.mem_map, List.mem_singleton, mem_range'_block h5, mem_range'_block h6]
  constructor
  · rintro ⟨_, ⟨_, rfl, y, ⟨hy, hr⟩, rfl⟩, x, ⟨hx, hq⟩, rfl⟩
    rw [Nat.mul_zero, Nat.add_zero, Nat.add_comm x, Nat.mul_add_mod, Nat.mod_eq_of_lt hx,
      Nat.mul_add_div hw, Nat.div_eq_of_lt hx, Nat.add_zero]
    refine ⟨?_, hq, hr⟩
    have := Nat.mul_le_mul_left d.w (Nat.succ_le_of_lt hy)
    rw [Nat.mul_succ] at this
    omega
  · rintro ⟨hp, hq, hr⟩
    refine ⟨p / d.w, ⟨0, rfl, p / d.w, ⟨?_, hr⟩, by omega⟩, p % d.w, ⟨Nat.mod_lt _ hw, hq⟩, ?_⟩
    · rw [Nat.div_lt_iff_lt_mul hw, Nat.mul_comm]; exact hp
    · rw [Nat.add_comm, Nat.div_add_mod]

theorem nodup_slice {d : Dev} (q r : Nat) :
    (mdIds [(q * d.sw, d.sw, d.w), (r * d.sh, d.sh, d.h)]).Nodup := by
  have hrow : ∀ n s : Nat, (List.range' s n).Nodup := fun n s => List.nodup_range'
  simp only [mdIds, List.flatMap_cons, List.flatMap_nil, List.append_nil, Nat.mul_zero, Nat.add_zero, List.map_id']
  rw [List.nodup_iff_pairwise_ne, List.pairwise_flatMap]
  constructor
  · intro y _
    rw [List.pairwise_map]
    exact (hrow _ _).imp (fun hab hh => hab (Nat.add_right_cancel hh))
  · refine List.Pairwise.imp ?_ (hrow _ _)
    intro y y' hne a ha b hb hab
    obtain ⟨x, hx, rfl⟩ := List.mem_map.1 ha
    obtain ⟨x', hx', rfl⟩ := List.mem_map.1 hb
    rw [List.mem_range'_1] at hx hx'
    have hxw : x < d.w := by omega
    have hxw' : x' < d.w := by omega
    apply hne
    have := congrArg (· / d.w) hab
    simp only [Nat.add_comm _ (d.w * _), Nat.mul_add_div (show 0 < d.w by omega), Nat.div_eq_of_lt hxw,
      Nat.div_eq_of_lt hxw', Nat.add_zero] at this
    exact this

/-- The slice of a sub-rectangle (the constructor does not raise). -/
theorem getSlice_eq {d : Dev} (hv : verify d = .ok ()) (i : Nat) :
    getSlice d i = .ok ⟨i * (d.sw * d.sh), d.sw * d.sh,
      some [(i % perRow d * d.sw, d.sw, d.w), (i / perRow d * d.sh, d.sh, d.h)]⟩ := by
  obtain ⟨_, _, _, _, h5, h6⟩ := geom hv
  have := Nat.mul_pos h5 h6
  unfold getSlice mkSlice subSquare
  simp only
  rw [if_neg (by omega), Nat.add_sub_cancel_left]

/-- C64: the slices of all sub-rectangles together have every pixel of the device once. The slice of a sub-rectangle has
the pixels that are in it. -/
theorem C64_pixels {d : Dev} (hv : verify d = .ok ()) :
    ∃ ss, (List.range (nSub d)).mapM (getSlice d) = .ok ss ∧
      (ss.flatMap rasterIds).Perm (List.range (d.w * d.h)) ∧
      ∀ i s, ss[i]? = some s → s.lo = i * (d.sw * d.sh) ∧ s.n = d.sw * d.sh ∧
        ∀ p, p ∈ rasterIds s ↔ p < d.w * d.h ∧ indexOf d (p % d.w) (p / d.w) = i := by
  obtain ⟨_, _, g3, _, h5, h6⟩ := geom hv
  obtain ⟨_, _, l1, l2⟩ := (verify_iff d).1 hv
  have hw : 0 < d.w := by omega
  let f : Nat → Slice := fun i => ⟨i * (d.sw * d.sh), d.sw * d.sh,
      some [(i % perRow d * d.sw, d.sw, d.w), (i / perRow d * d.sh, d.sh, d.h)]⟩
  have hmem : ∀ i p, p ∈ rasterIds (f i) ↔ p < d.w * d.h ∧ indexOf d (p % d.w) (p / d.w) = i := by
    intro i p
    show p ∈ mdIds _ ↔ _
    rw [mem_slice hv]
    have hxr : p % d.w / d.sw < perRow d := div_lt_ceilDiv h5 (Nat.mod_lt _ hw)
    have := index_iff (i := i) (a := p / d.w / d.sh) hxr
    unfold indexOf
    constructor
    · rintro ⟨h1, h2, h3⟩; exact ⟨h1, (this.1 ⟨h3, h2⟩).symm⟩
    · rintro ⟨h1, h2⟩
      have := this.2 h2.symm
      exact ⟨h1, this.2, this.1⟩
  refine ⟨(List.range (nSub d)).map f, ?_, ?_, ?_⟩
  · have hgen : ∀ l : List Nat, l.mapM (getSlice d) = .ok (l.map f) := by
      intro l
      induction l with
      | nil => rfl
      | cons i l ih =>
        rw [List.mapM_cons, getSlice_eq hv i, ih]
        rfl
    exact hgen _
  · apply (List.perm_ext_iff_of_nodup _ List.nodup_range).2
    · intro p
      simp only [List.mem_flatMap, List.mem_map, List.mem_range]
      constructor
      · rintro ⟨_, ⟨i, _, rfl⟩, hp⟩
        exact ((hmem i p).1 hp).1
      · intro hp
        refine ⟨_, ⟨indexOf d (p % d.w) (p / d.w), ?_, rfl⟩, (hmem _ _).2 ⟨hp, rfl⟩⟩
        apply C48_index hv (Nat.mod_lt _ hw)
        rw [Nat.div_lt_iff_lt_mul hw, Nat.mul_comm]; exact hp
    · rw [List.nodup_iff_pairwise_ne, List.pairwise_flatMap]
      constructor
      · intro s hs
        obtain ⟨i, _, rfl⟩ := List.mem_map.1 hs
        exact nodup_slice _ _
      · rw [List.pairwise_map]
        refine List.Pairwise.imp ?_ List.nodup_range
        intro i j hij a ha b hb hab
        rw [hmem] at ha hb
        rw [hab] at ha
        exact hij (ha.2.symm.trans hb.2)
  · intro i s hs
    rw [List.getElem?_map] at hs
    cases hr : (List.range (nSub d))[i]? with
    | none => rw [hr] at hs; cases hs
    | some k =>
      rw [hr] at hs
      have hk : k = i := by
        have := List.getElem?_eq_some_iff.1 hr
        obtain ⟨_, hh⟩ := this
        rw [List.getElem_range] at hh
        exact hh.symm
      subst hk
      cases hs
      exact ⟨rfl, rfl, hmem k⟩

/-- The number of pixels of a slice as it says, which is the number it has when the sub-rectangles fit. Missing: other
sizes, for which it is false (see `C64_too_many`). -/
theorem C64_count_partial {d : Dev} (hv : verify d = .ok ()) (hw : d.sw ∣ d.w) (hh : d.sh ∣ d.h) {i : Nat}
    (hi : i < nSub d) : ∃ s, getSlice d i = .ok s ∧ (rasterIds s).length = s.n := by
  refine ⟨_, getSlice_eq hv i, ?_⟩
  obtain ⟨_, _, g3, _, h5, h6⟩ := geom hv
  obtain ⟨s1, s2⟩ := sub_lt hv hi
  have fit : ∀ {q s w : Nat}, 0 < s → s ∣ w → q < ceilDiv w s → min (q * s + s) w - q * s = s := by
    intro q s w hs hd hq
    obtain ⟨k, rfl⟩ := hd
    have hk : ¬ k ≤ q := by
      intro hk
      apply Nat.not_le_of_lt hq
      rw [ceilDiv_le hs, Nat.mul_comm]
      exact Nat.mul_le_mul_right s hk
    have : (q + 1) * s ≤ k * s := Nat.mul_le_mul_right s (by omega)
    rw [Nat.add_mul, Nat.one_mul, Nat.mul_comm k] at this
    omega
  show (mdIds _).length = d.sw * d.sh
  simp only [mdIds, List.length_flatMap, List.length_map, List.length_range', List.flatMap_cons, List.flatMap_nil,
    List.append_nil, fit h5 hw s1, fit h6 hh s2]
  rw [List.map_const', List.sum_replicate_nat]
  simp [Nat.mul_comm]

/-- C64: a slice may say that it has more pixels than are in it. -/
theorem C64_too_many :
    verify ⟨3, 2, 2, 2⟩ = .ok () ∧ nSub ⟨3, 2, 2, 2⟩ = 2 ∧
    (getSlice ⟨3, 2, 2, 2⟩ 1).map (fun s => (s.n, rasterIds s)) = .ok (4, [2, 5]) := by decide +kernel

example : (List.range 6).mapM (getSlice ⟨5, 4, 2, 2⟩) = .ok
    [⟨0, 4, some [(0, 2, 5), (0, 2, 4)]⟩, ⟨4, 4, some [(2, 2, 5), (0, 2, 4)]⟩, ⟨8, 4, some [(4, 2, 5), (0, 2, 4)]⟩,
     ⟨12, 4, some [(0, 2, 5), (2, 2, 4)]⟩, ⟨16, 4, some [(2, 2, 5), (2, 2, 4)]⟩, ⟨20, 4, some [(4, 2, 5), (2, 2, 4)]⟩] := by
  decide +kernel

/-! ### C65 -/

theorem fpgaSlice_eq {n k i : Nat} (hi : i < k) (h : k ≤ n) :
    fpgaSlice n k i = .ok ⟨n / k * i, n / k, none⟩ := by
  have hk : 0 < k := by omega
  have ha : 0 < n / k := Nat.div_pos h hk
  have h1 : n / k * (i + 1) ≤ n / k * k := Nat.mul_le_mul_left _ hi
  have h2 := Nat.div_mul_le_self n k
  unfold fpgaSlice mkSlice
  rw [if_neg (by omega)]
  simp only
  rw [Nat.min_eq_left (by omega), if_neg (by rw [Nat.mul_succ]; omega), Nat.mul_succ, Nat.add_sub_cancel_left]

/-- C65: the slices of the machine vertices of a link follow each other, all of the same size, from atom 0, and leave out
the remainder of the division: together they have the atoms below `n / k * k`. -/
theorem C65_atoms {n k : Nat} (hk : 0 < k) (h : k ≤ n) :
    ∃ ss, (List.range k).mapM (fpgaSlice n k) = .ok ss ∧ ss.flatMap rasterIds = List.range (n / k * k) ∧
      Slices.Contiguous 0 ss ∧ ∀ s ∈ ss, s.n = n / k := by
  have ha : 0 < n / k := Nat.div_pos h hk
  have gen : ∀ m i, i + m ≤ k → ∃ ss, (List.range' i m).mapM (fpgaSlice n k) = .ok ss ∧
      ss.flatMap rasterIds = List.range' (n / k * i) (n / k * m) ∧ Slices.Contiguous (n / k * i) ss ∧
      ∀ s ∈ ss, s.n = n / k := by
    intro m
    induction m with
    | zero => intro i _; exact ⟨[], rfl, by simp, trivial, by simp⟩
    | succ m ih =>
      intro i hi
      obtain ⟨ss, h1, h2, h3, h4⟩ := ih (i + 1) (by omega)
      refine ⟨⟨n / k * i, n / k, none⟩ :: ss, ?_, ?_, ?_, ?_⟩
      · rw [List.range'_succ, List.mapM_cons, fpgaSlice_eq (by omega) h, h1]
        rfl
      · rw [List.flatMap_cons, h2, Nat.mul_succ, Nat.mul_succ, Nat.add_comm (n / k * m)]
        exact List.range'_append_1
      · refine ⟨rfl, ha, by simp [rasterIds], ?_⟩
        rw [Nat.mul_succ] at h3; exact h3
      · intro s hs
        rcases List.mem_cons.1 hs with rfl | hs
        · rfl
        · exact h4 s hs
  obtain ⟨ss, h1, h2, h3, h4⟩ := gen k 0 (by omega)
  refine ⟨ss, ?_, ?_, ?_, h4⟩
  · rw [List.range_eq_range']; exact h1
  · rw [h2, List.range_eq_range', Nat.mul_zero]
  · rw [Nat.mul_zero] at h3; exact h3

/-- C65, as far as it holds: if the number of machine vertices divides the number of atoms, every atom is in one slice.
Missing: other numbers, for which it is false (see `C65_atoms_lost`). -/
theorem C65_all_atoms_partial {n k : Nat} (hk : 0 < k) (hn : 0 < n) (hd : k ∣ n) :
    ∃ ss, (List.range k).mapM (fpgaSlice n k) = .ok ss ∧ ss.flatMap rasterIds = List.range n ∧
      Slices.Contiguous 0 ss := by
  obtain ⟨ss, h1, h2, h3, _⟩ := C65_atoms hk (Nat.le_of_dvd hn hd)
  rw [Nat.div_mul_cancel hd] at h2
  exact ⟨ss, h1, h2, h3⟩

/-- C65 does not hold for all numbers: atom 9 of 10 is in no slice of 3. -/
theorem C65_atoms_lost :
    ((List.range 3).mapM (fpgaSlice 10 3)).map (fun ss => ss.flatMap rasterIds) = .ok (List.range 9) ∧
    (fpgaOutgoing 10).map rasterIds = .ok (List.range 10) := by decide +kernel

/-- C65: with more machine vertices than atoms there are no slices. -/
theorem C65_no_slices {n k : Nat} (h : n < k) (i : Nat) : fpgaSlice n k i = .error .pacmanValueError := by
  unfold fpgaSlice mkSlice
  rw [if_neg (by omega)]
  simp only [Nat.div_eq_of_lt h, Nat.zero_mul, Nat.zero_min, Nat.le_refl, if_true]

example : (List.range 3).mapM (fpgaSlice 12 3) = .ok [⟨0, 4, none⟩, ⟨4, 4, none⟩, ⟨8, 4, none⟩] := by decide +kernel

end Pacman.Device
