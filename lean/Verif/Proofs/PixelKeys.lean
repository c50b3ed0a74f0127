import Verif.Props.Device2D
import Verif.Spec.Generators
/-
The keys of 2D devices as words.
-/

namespace Pacman.Device

theorem ones_lt {ks : Nat} : 2 ^ ks * (2 ^ (32 - ks) - 1) < 2 ^ 32 := by
  by_cases h : ks ≤ 32
  · have hp : 2 ^ ks * 2 ^ (32 - ks) = 2 ^ 32 := by rw [← Nat.pow_add, show ks + (32 - ks) = 32 by omega]
    rw [Nat.mul_sub, hp, Nat.mul_one]
    have := Nat.two_pow_pos ks
    omega
  · rw [show 32 - ks = 0 by omega, Nat.pow_zero, Nat.sub_self, Nat.mul_zero]
    decide

theorem div_lt_base {ks : Nat} (h : ks ≤ 32) (k : Word) : k.toNat / 2 ^ ks < 2 ^ (32 - ks) := by
  refine Nat.div_lt_of_lt_mul ?_
  rw [← Nat.pow_add, show ks + (32 - ks) = 32 by omega]
  exact k.isLt

/-- The keys of the device are those with its base key. -/
theorem appWords_iff {d : Dev} {base : Nat} (hks : keyShift d ≤ 32) (hb : base < 2 ^ (32 - keyShift d)) (k : Word) :
    k &&& (appWords d base).2 = (appWords d base).1 ↔ k.toNat / 2 ^ keyShift d = base := by
  have hp : 2 ^ keyShift d * 2 ^ (32 - keyShift d) = 2 ^ 32 := by
    rw [← Nat.pow_add, show keyShift d + (32 - keyShift d) = 32 by omega]
  have hb32 : base * 2 ^ keyShift d < 2 ^ 32 := by
    rw [← hp, Nat.mul_comm]
    exact Nat.mul_lt_mul_of_pos_left hb (Nat.two_pow_pos _)
  rw [← BitVec.toNat_inj, BitVec.toNat_and]
  unfold appWords
  simp only
  rw [BitVec.toNat_ofNat, BitVec.toNat_ofNat, Nat.mod_eq_of_lt ones_lt, Nat.mod_eq_of_lt hb32, and_high,
    Nat.mod_eq_of_lt (div_lt_base hks k), Nat.mul_comm]
  exact ⟨fun h => Nat.eq_of_mul_eq_mul_right (Nat.two_pow_pos _) h, fun h => by rw [h]⟩

/-- The key of the device has no bits outside of its mask. -/
theorem appWords_valid (d : Dev) (base : Nat) : (appWords d base).1 &&& (appWords d base).2 = (appWords d base).1 := by
  rw [← BitVec.toNat_inj, BitVec.toNat_and]
  unfold appWords
  simp only
  rw [BitVec.toNat_ofNat, BitVec.toNat_ofNat, Nat.mod_eq_of_lt ones_lt, and_high]
  by_cases h : keyShift d ≤ 32
  · have hp : 2 ^ (32 - keyShift d) * 2 ^ keyShift d = 2 ^ 32 := by
      rw [← Nat.pow_add, show 32 - keyShift d + keyShift d = 32 by omega]
    rw [← hp, Nat.mul_mod_mul_right, Nat.mul_div_cancel _ (Nat.two_pow_pos _), Nat.mod_mod, Nat.mul_comm]
  · have h1 : base * 2 ^ keyShift d % 2 ^ 32 = 0 := by
      refine Nat.mod_eq_zero_of_dvd (Nat.dvd_trans ?_ (Nat.dvd_mul_left _ _))
      exact Nat.pow_dvd_pow 2 (by omega)
    rw [h1, Nat.zero_div, Nat.zero_mod, Nat.mul_zero]

/-- The mask is a word, and so is the key. -/
theorem km_lt {d : Dev} {base i : Nat} {km : Nat × Nat} (h : getKeyMask d base i = .ok km) :
    km.1 &&& km.2 = km.1 := by
  unfold getKeyMask at h
  split at h
  · cases h
  · unfold mkKeyMask at h
    simp only at h
    split at h
    · cases h
    · rename_i hk
      cases h
      exact Classical.not_not.1 hk

theorem toWords_valid {d : Dev} {base i : Nat} {km : Nat × Nat} (h : getKeyMask d base i = .ok km) :
    (toWords km).1 &&& (toWords km).2 = (toWords km).1 := by
  rw [← BitVec.toNat_inj, BitVec.toNat_and]
  unfold toWords
  simp only
  rw [BitVec.toNat_ofNat, BitVec.toNat_ofNat, ← Nat.and_mod_two_pow, km_lt h]

theorem getKeyMask_mask {d : Dev} {base i : Nat} {km : Nat × Nat} (h : getKeyMask d base i = .ok km) :
    keyShift d ≤ 32 ∧ km.2 = 2 ^ (xBits d + yBits d) * (2 ^ (32 - (xBits d + yBits d)) - 1) +
      (2 ^ xBits d * (2 ^ (yBits d - subYBits d) * (2 ^ subYBits d - 1)) +
        2 ^ (xBits d - subXBits d) * (2 ^ subXBits d - 1)) := by
  have hks : keyShift d ≤ 32 := by
    apply Classical.byContradiction
    intro hk
    unfold getKeyMask mask at h
    rw [if_pos (by omega)] at h
    cases h
  refine ⟨hks, ?_⟩
  unfold getKeyMask at h
  rw [mask_eq hks] at h
  simp only at h
  unfold mkKeyMask at h
  split at h
  · cases h
  · cases h
    rfl

/-- The fields of the mask. -/
theorem mask_fields {d : Dev} (hv : verify d = .ok ()) {base i : Nat} {km : Nat × Nat} (h : getKeyMask d base i = .ok km) :
    km.2 / 2 ^ keyShift d = 2 ^ (32 - keyShift d) - 1 ∧
    km.2 / 2 ^ xBits d % 2 ^ yBits d = 2 ^ (yBits d - subYBits d) * (2 ^ subYBits d - 1) ∧
    km.2 % 2 ^ xBits d = 2 ^ (xBits d - subXBits d) * (2 ^ subXBits d - 1) := by
  obtain ⟨hks, he⟩ := getKeyMask_mask h
  obtain ⟨g1, g2, -⟩ := geom hv
  have hk : keyShift d = xBits d + yBits d := Nat.add_comm _ _
  have part : ∀ {a b n : Nat}, a + b = n → 2 ^ a * (2 ^ b - 1) < 2 ^ n := by
    intro a b n hab
    rw [← hab, Nat.pow_add]
    have h1 := Nat.two_pow_pos b
    exact Nat.mul_lt_mul_of_pos_left (by omega) (Nat.two_pow_pos a)
  have lx := part g1
  have ly := part g2
  have e : km.2 = 2 ^ xBits d * (2 ^ yBits d * (2 ^ (32 - (xBits d + yBits d)) - 1) +
      2 ^ (yBits d - subYBits d) * (2 ^ subYBits d - 1)) + 2 ^ (xBits d - subXBits d) * (2 ^ subXBits d - 1) := by
    rw [he, Nat.mul_add, Nat.pow_add, Nat.mul_assoc, Nat.add_assoc]
  have e1 : km.2 / 2 ^ xBits d = 2 ^ yBits d * (2 ^ (32 - (xBits d + yBits d)) - 1) +
      2 ^ (yBits d - subYBits d) * (2 ^ subYBits d - 1) := by
    rw [e, Nat.mul_add_div (Nat.two_pow_pos _), Nat.div_eq_of_lt lx, Nat.add_zero]
  refine ⟨?_, ?_, ?_⟩
  · rw [hk, Nat.pow_add, ← Nat.div_div_eq_div_mul, e1, Nat.mul_add_div (Nat.two_pow_pos _), Nat.div_eq_of_lt ly, Nat.add_zero]
  · rw [e1, Nat.mul_add_mod, Nat.mod_eq_of_lt ly]
  · rw [e, Nat.mul_add_mod, Nat.mod_eq_of_lt lx]

theorem mask_lt {d : Dev} (hv : verify d = .ok ()) {base i : Nat} {km : Nat × Nat} (h : getKeyMask d base i = .ok km) :
    km.2 < 2 ^ 32 := by
  have h1 := (mask_fields hv h).1
  have hks := (getKeyMask_mask h).1
  have h2 : km.2 / 2 ^ keyShift d < 2 ^ (32 - keyShift d) := by
    rw [h1]
    have := Nat.two_pow_pos (32 - keyShift d)
    omega
  rw [Nat.div_lt_iff_lt_mul (Nat.two_pow_pos _), ← Nat.pow_add, show 32 - keyShift d + keyShift d = 32 by omega] at h2
  exact h2

theorem key_lt {d : Dev} (hv : verify d = .ok ()) {base i : Nat} {km : Nat × Nat} (h : getKeyMask d base i = .ok km) :
    km.1 < 2 ^ 32 :=
  Nat.lt_of_le_of_lt (by rw [← km_lt h]; exact Nat.and_le_right) (mask_lt hv h)

theorem toWords_iff {d : Dev} (hv : verify d = .ok ()) {base i : Nat} {km : Nat × Nat} (h : getKeyMask d base i = .ok km)
    (k : Word) : k &&& (toWords km).2 = (toWords km).1 ↔ Matches k.toNat km := by
  rw [← BitVec.toNat_inj, BitVec.toNat_and]
  unfold toWords Matches
  simp only
  rw [BitVec.toNat_ofNat, BitVec.toNat_ofNat, Nat.mod_eq_of_lt (mask_lt hv h), Nat.mod_eq_of_lt (key_lt hv h)]

/-- The keys of a sub-rectangle are among those of the device. -/
theorem toWords_inside {d : Dev} (hv : verify d = .ok ()) {base i : Nat} (hi : i < nSub d) {km : Nat × Nat}
    (h : getKeyMask d base i = .ok km) :
    (toWords km).1 &&& (appWords d base).2 = (appWords d base).1 ∧
    (toWords km).2 &&& (appWords d base).2 = (appWords d base).2 := by
  obtain ⟨hks, hb⟩ := (getKeyMask_ok hv hi).1 ⟨km, h⟩
  have hk : keyShift d = xBits d + yBits d := Nat.add_comm _ _
  have hp : 2 ^ (32 - keyShift d) * 2 ^ keyShift d = 2 ^ 32 := by
    rw [← Nat.pow_add, show 32 - keyShift d + keyShift d = 32 by omega]
  constructor
  · rw [appWords_iff hks hb]
    have h1 : Matches km.1 km := km_lt h
    have h2 := ((match_fields hv hi h _).1 h1).1
    rw [← hk, Nat.mod_eq_of_lt] at h2
    · show (BitVec.ofNat 32 km.1).toNat / _ = _
      rw [BitVec.toNat_ofNat, Nat.mod_eq_of_lt (key_lt hv h)]
      exact h2
    · rw [Nat.div_lt_iff_lt_mul (Nat.two_pow_pos _), hp]
      exact key_lt hv h
  · rw [← BitVec.toNat_inj, BitVec.toNat_and]
    unfold appWords toWords
    simp only
    rw [BitVec.toNat_ofNat, BitVec.toNat_ofNat, Nat.mod_eq_of_lt ones_lt, Nat.mod_eq_of_lt (mask_lt hv h), and_high,
      (mask_fields hv h).1, Nat.mod_eq_of_lt]
    have := Nat.two_pow_pos (32 - keyShift d)
    omega

theorem nBits_pos {n : Nat} (h : 0 < n) : 0 < nBits n := by
  unfold nBits
  rw [if_neg (by omega)]
  split
  · exact Nat.one_pos
  · rename_i h1
    apply Nat.pos_of_ne_zero
    intro h0
    have := clog2_le_iff.1 (Nat.le_of_eq h0)
    omega

/-- The masks of sub-rectangles that are higher than one pixel, and not as high as the device, have holes. -/
theorem mask_hole {d : Dev} (hv : verify d = .ok ()) (hh : 1 < d.sh) (hlt : d.sh < d.h) {base i : Nat} {km : Nat × Nat}
    (h : getKeyMask d base i = .ok km) : ¬ Gen.Prefix (toWords km).2 := by
  rintro ⟨n, hn⟩
  have e : (toWords km).2.toNat = km.2 := by
    show (BitVec.ofNat 32 km.2).toNat = _
    rw [BitVec.toNat_ofNat, Nat.mod_eq_of_lt (mask_lt hv h)]
  rw [e] at hn
  obtain ⟨f1, f2, f3⟩ := mask_fields hv h
  obtain ⟨hks, -⟩ := getKeyMask_mask h
  have hk : keyShift d = xBits d + yBits d := Nat.add_comm _ _
  obtain ⟨g1, g2, g3, g4, -⟩ := geom hv
  have hsx : 0 < subXBits d := nBits_pos g3
  have hsy : 0 < subYBits d := nBits_pos g4
  obtain ⟨-, ⟨c, hc⟩, -, l2⟩ := (verify_iff d).1 hv
  have hy : yBits d - subYBits d = c := by
    have := bits_split (w := d.h) (a := c) (by rw [← hc]; exact hlt)
    unfold yBits subYBits perCol
    rw [hc]
    omega
  have hc0 : c ≠ 0 := by intro h0; rw [hc, h0] at hh; exact absurd hh (by decide)
  have hnlt : n < xBits d := by
    apply Classical.byContradiction
    intro hge
    have h1 : 2 ^ xBits d ∣ 2 ^ n := Nat.pow_dvd_pow 2 (by omega)
    have h2 : 2 ^ xBits d ∣ 2 ^ 32 := Nat.pow_dvd_pow 2 (by omega)
    have h3 : 2 ^ xBits d ∣ km.2 := by
      rw [← hn] at h2
      exact (Nat.dvd_add_left h1).1 h2
    rw [Nat.mod_eq_zero_of_dvd h3] at f3
    have h4 : 2 ≤ 2 ^ subXBits d := by
      have := Nat.pow_le_pow_right (n := 2) (by decide) hsx
      exact this
    have h5 := Nat.mul_pos (Nat.two_pow_pos (xBits d - subXBits d)) (show 0 < 2 ^ subXBits d - 1 by omega)
    omega
  have h6 : km.2 / 2 ^ xBits d = 2 ^ (32 - xBits d) - 1 := by
    have hp : 2 ^ xBits d * 2 ^ (32 - xBits d) = 2 ^ 32 := by rw [← Nat.pow_add, show xBits d + (32 - xBits d) = 32 by omega]
    have hpos := Nat.two_pow_pos (32 - xBits d)
    have hlt' : 2 ^ n < 2 ^ xBits d := Nat.pow_lt_pow_right (by decide) hnlt
    have : km.2 = 2 ^ xBits d * (2 ^ (32 - xBits d) - 1) + (2 ^ xBits d - 2 ^ n) := by
      rw [Nat.mul_sub, hp, Nat.mul_one]
      have : 2 ^ xBits d ≤ 2 ^ 32 := Nat.pow_le_pow_right (by decide) (by omega)
      omega
    rw [this, Nat.mul_add_div (Nat.two_pow_pos _), Nat.div_eq_of_lt, Nat.add_zero]
    have := Nat.two_pow_pos n
    omega
  rw [hy] at f2
  have h7 : 2 ∣ km.2 / 2 ^ xBits d := by
    have h8 : 2 ∣ 2 ^ yBits d := by
      have := Nat.pow_dvd_pow 2 (show 1 ≤ yBits d by omega)
      exact this
    have h9 : 2 ∣ km.2 / 2 ^ xBits d % 2 ^ yBits d := by
      rw [f2]
      exact Nat.dvd_trans (Nat.pow_dvd_pow 2 (show 1 ≤ c by omega)) (Nat.dvd_mul_right _ _)
    exact (Nat.dvd_mod_iff h8).1 h9
  rw [h6] at h7
  have h8 : 2 ∣ 2 ^ (32 - xBits d) := Nat.pow_dvd_pow 2 (show 1 ≤ 32 - xBits d by omega)
  have := Nat.two_pow_pos (32 - xBits d)
  omega

theorem getKeyMask_key {d : Dev} {base i : Nat} {km : Nat × Nat} (h : getKeyMask d base i = .ok km) :
    km.1 = 2 ^ (xBits d + yBits d) * base + (2 ^ xBits d * (2 ^ (yBits d - subYBits d) * (i / perRow d)) +
        2 ^ (xBits d - subXBits d) * (i % perRow d)) := by
  unfold getKeyMask at h
  split at h
  · cases h
  · unfold mkKeyMask at h
    simp only at h
    split at h
    · cases h
    · cases h
      exact key_eq d base i

/-- Their keys are one after another. -/
theorem line_words {d : Dev} (hv : verify d = .ok ()) (hl : InLine d) {base i : Nat} (hi : i < nSub d) {km : Nat × Nat}
    (h : getKeyMask d base i = .ok km) :
    (toWords km).1.toNat = (appWords d base).1.toNat + i * 2 ^ (xBits d - subXBits d) ∧
    (toWords km).2.toNat = 2 ^ 32 - 1 - (2 ^ (xBits d - subXBits d) - 1) := by
  obtain ⟨hs, hp⟩ := hl
  obtain ⟨hks, hb⟩ := (getKeyMask_ok hv hi).1 ⟨km, h⟩
  obtain ⟨g1, g2, g3, g4, -⟩ := geom hv
  have hk : keyShift d = xBits d + yBits d := Nat.add_comm _ _
  have hcol : perCol d = d.h := by
    unfold perCol ceilDiv
    rw [hs, Nat.div_one]
    omega
  have hyy : yBits d - subYBits d = 0 := by
    unfold yBits subYBits
    rw [hcol, Nat.sub_self]
  constructor
  · show (BitVec.ofNat 32 km.1).toNat = (BitVec.ofNat 32 (base * 2 ^ keyShift d)).toNat + _
    have hpw : 2 ^ keyShift d * 2 ^ (32 - keyShift d) = 2 ^ 32 := by
      rw [← Nat.pow_add, show keyShift d + (32 - keyShift d) = 32 by omega]
    have hb32 : base * 2 ^ keyShift d < 2 ^ 32 := by
      rw [← hpw, Nat.mul_comm]
      exact Nat.mul_lt_mul_of_pos_left hb (Nat.two_pow_pos _)
    rw [BitVec.toNat_ofNat, BitVec.toNat_ofNat, Nat.mod_eq_of_lt (key_lt hv h), Nat.mod_eq_of_lt hb32, getKeyMask_key h, hyy,
      Nat.pow_zero, Nat.one_mul, hk, Nat.mul_comm base]
    congr 1
    rcases hp with hp | hp
    · have e : 2 ^ xBits d = 2 ^ (xBits d - subXBits d) * perRow d := by rw [hp, ← Nat.pow_add, g1]
      rw [e, Nat.mul_assoc, ← Nat.mul_add, Nat.div_add_mod, Nat.mul_comm]
    · have h0 : i / perRow d = 0 := by
        have := (sub_lt hv hi).2
        rw [hcol, hp] at this
        exact Nat.lt_one_iff.1 this
      have h1 : i % perRow d = i := by
        rw [← Nat.div_add_mod i (perRow d), h0, Nat.mul_zero, Nat.zero_add, Nat.mod_mod]
      rw [h0, Nat.mul_zero, Nat.zero_add, h1, Nat.mul_comm]
  · show (BitVec.ofNat 32 km.2).toNat = _
    rw [BitVec.toNat_ofNat, Nat.mod_eq_of_lt (mask_lt hv h), (getKeyMask_mask h).2, hyy, Nat.pow_zero, Nat.one_mul]
    have e1 : subYBits d = yBits d := by omega
    have e2 : 2 ^ (xBits d + yBits d) * 2 ^ (32 - (xBits d + yBits d)) = 2 ^ 32 := by
      rw [← Nat.pow_add, show xBits d + yBits d + (32 - (xBits d + yBits d)) = 32 by omega]
    have e3 : 2 ^ (xBits d - subXBits d) * 2 ^ subXBits d = 2 ^ xBits d := by rw [← Nat.pow_add, g1]
    rw [e1, Nat.mul_sub, Nat.mul_sub, Nat.mul_sub, e2, e3, ← Nat.pow_add, Nat.mul_one, Nat.mul_one, Nat.mul_one]
    have p1 := Nat.two_pow_pos (xBits d - subXBits d)
    have p2 : 2 ^ (xBits d - subXBits d) ≤ 2 ^ xBits d := Nat.pow_le_pow_right (by decide) (by omega)
    have p3 : 2 ^ xBits d ≤ 2 ^ (xBits d + yBits d) := Nat.pow_le_pow_right (by decide) (by omega)
    have p4 : 2 ^ (xBits d + yBits d) ≤ 2 ^ 32 := Nat.pow_le_pow_right (by decide) (by omega)
    omega

/-- There are no more sub-rectangles than numbers for them. -/
theorem nSub_le {d : Dev} (hv : verify d = .ok ()) : nSub d ≤ 2 ^ (subXBits d + yBits d) := by
  obtain ⟨g1, g2, g3, g4, -⟩ := geom hv
  have h1 : perRow d ≤ 2 ^ subXBits d := by
    have := nBits_lt (n := perRow d) (i := perRow d - 1) (by omega)
    unfold subXBits
    omega
  have h2 : perCol d ≤ 2 ^ yBits d := by
    have := nBits_lt (n := perCol d) (i := perCol d - 1) (by omega)
    have h3 : 2 ^ subYBits d ≤ 2 ^ yBits d := Nat.pow_le_pow_right (by decide) (by omega)
    unfold subYBits at h3
    omega
  unfold nSub
  rw [Nat.pow_add]
  exact Nat.mul_le_mul h1 h2

theorem appWords_mask {d : Dev} (base : Nat) (hks : keyShift d ≤ 32) :
    (appWords d base).2.toNat = 2 ^ 32 - 1 - (2 ^ keyShift d - 1) := by
  show (BitVec.ofNat 32 _).toNat = _
  rw [BitVec.toNat_ofNat, Nat.mod_eq_of_lt ones_lt]
  have e2 : 2 ^ keyShift d * 2 ^ (32 - keyShift d) = 2 ^ 32 := by
    rw [← Nat.pow_add, show keyShift d + (32 - keyShift d) = 32 by omega]
  rw [Nat.mul_sub, e2, Nat.mul_one]
  have := Nat.two_pow_pos (keyShift d)
  omega

end Pacman.Device
