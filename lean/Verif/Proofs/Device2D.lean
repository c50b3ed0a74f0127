import Verif.Spec.Device2D
import Verif.Proofs.MergeEntries
/-
Lemmas on 2D devices.
-/

namespace Pacman.Device

open Alloc (clog2)

theorem and_split (n a b c d : Nat) (hb : b < 2 ^ n) (hd : d < 2 ^ n) :
    (2 ^ n * a + b) &&& (2 ^ n * c + d) = 2 ^ n * (a &&& c) + (b &&& d) := by
  have hbd : b &&& d < 2 ^ n := Nat.lt_of_le_of_lt Nat.and_le_left hb
  apply Nat.eq_of_testBit_eq
  intro i
  rw [Nat.testBit_and, Nat.testBit_two_pow_mul_add _ hb, Nat.testBit_two_pow_mul_add _ hd,
    Nat.testBit_two_pow_mul_add _ hbd]
  split <;> rw [Nat.testBit_and]

theorem split_inj {n a b c d : Nat} (hb : b < 2 ^ n) (hd : d < 2 ^ n) :
    2 ^ n * a + b = 2 ^ n * c + d ↔ a = c ∧ b = d := by
  constructor
  · intro h
    have h1 := congrArg (· / 2 ^ n) h
    have h2 := congrArg (· % 2 ^ n) h
    simp only [Nat.mul_add_div (Nat.two_pow_pos n), Nat.div_eq_of_lt hb, Nat.div_eq_of_lt hd, Nat.mul_add_mod,
      Nat.mod_eq_of_lt hb, Nat.mod_eq_of_lt hd, Nat.add_zero] at h1 h2
    exact ⟨h1, h2⟩
  · rintro ⟨rfl, rfl⟩; rfl

/-- A number masked with some low bits cleared. -/
theorem and_high (y l s : Nat) : y &&& 2 ^ l * (2 ^ s - 1) = 2 ^ l * (y / 2 ^ l % 2 ^ s) := by
  have h1 : y = 2 ^ l * (y / 2 ^ l) + y % 2 ^ l := (Nat.div_add_mod y (2 ^ l)).symm
  have h2 := and_split l (y / 2 ^ l) (y % 2 ^ l) (2 ^ s - 1) 0 (Nat.mod_lt _ (Nat.two_pow_pos l)) (Nat.two_pow_pos l)
  rw [Nat.and_two_pow_sub_one_eq_mod, Nat.and_zero, Nat.add_zero, Nat.add_zero, ← h1] at h2
  exact h2

/-- The three fields of a key. -/
theorem match_iff (xb yb yl xl sy sx B Y X t : Nat) (hx : xl + sx = xb) (hy : yl + sy = yb)
    (hY : Y < 2 ^ sy) (hX : X < 2 ^ sx) (K : Nat) :
    K &&& (2 ^ (xb + yb) * (2 ^ t - 1) + (2 ^ xb * (2 ^ yl * (2 ^ sy - 1)) + 2 ^ xl * (2 ^ sx - 1)))
        = 2 ^ (xb + yb) * B + (2 ^ xb * (2 ^ yl * Y) + 2 ^ xl * X) ↔
      K / 2 ^ (xb + yb) % 2 ^ t = B ∧ K / 2 ^ xb % 2 ^ yb / 2 ^ yl = Y ∧ K % 2 ^ xb / 2 ^ xl = X := by
  have px := Nat.two_pow_pos xb
  have hbx : ∀ a, a < 2 ^ sx → 2 ^ xl * a < 2 ^ xb := by
    intro a ha
    rw [← hx, Nat.pow_add]
    exact Nat.mul_lt_mul_of_pos_left ha (Nat.two_pow_pos xl)
  have hby : ∀ a, a < 2 ^ sy → 2 ^ yl * a < 2 ^ yb := by
    intro a ha
    rw [← hy, Nat.pow_add]
    exact Nat.mul_lt_mul_of_pos_left ha (Nat.two_pow_pos yl)
  have hlow : ∀ a b, a < 2 ^ yb → b < 2 ^ xb → 2 ^ xb * a + b < 2 ^ (xb + yb) := by
    intro a b ha hb
    have h1 : 2 ^ xb * (a + 1) ≤ 2 ^ xb * 2 ^ yb := Nat.mul_le_mul_left _ ha
    rw [Nat.pow_add]
    rw [Nat.mul_add] at h1
    omega
  have ms : 2 ^ sx - 1 < 2 ^ sx := by have := Nat.two_pow_pos sx; omega
  have mt : 2 ^ sy - 1 < 2 ^ sy := by have := Nat.two_pow_pos sy; omega
  have hKx : K % 2 ^ xb < 2 ^ xb := Nat.mod_lt _ px
  have hKy : K / 2 ^ xb % 2 ^ yb < 2 ^ yb := Nat.mod_lt _ (Nat.two_pow_pos yb)
  have hK : K = 2 ^ (xb + yb) * (K / 2 ^ (xb + yb)) + (2 ^ xb * (K / 2 ^ xb % 2 ^ yb) + K % 2 ^ xb) := by
    have h1 := (Nat.div_add_mod K (2 ^ xb)).symm
    have h2 := (Nat.div_add_mod (K / 2 ^ xb) (2 ^ yb)).symm
    rw [Nat.div_div_eq_div_mul, ← Nat.pow_add] at h2
    rw [← Nat.add_assoc, Nat.pow_add, Nat.mul_assoc, ← Nat.mul_add, ← Nat.pow_add, ← h2, ← h1]
  have hrow : K / 2 ^ xb % 2 ^ yb / 2 ^ yl % 2 ^ sy = K / 2 ^ xb % 2 ^ yb / 2 ^ yl := by
    apply Nat.mod_eq_of_lt
    rw [Nat.div_lt_iff_lt_mul (Nat.two_pow_pos yl), Nat.mul_comm, ← Nat.pow_add, hy]
    exact hKy
  have hcol : K % 2 ^ xb / 2 ^ xl % 2 ^ sx = K % 2 ^ xb / 2 ^ xl := by
    apply Nat.mod_eq_of_lt
    rw [Nat.div_lt_iff_lt_mul (Nat.two_pow_pos xl), Nat.mul_comm, ← Nat.pow_add, hx]
    exact hKx
  have hlhs : K &&& (2 ^ (xb + yb) * (2 ^ t - 1) + (2 ^ xb * (2 ^ yl * (2 ^ sy - 1)) + 2 ^ xl * (2 ^ sx - 1)))
      = 2 ^ (xb + yb) * (K / 2 ^ (xb + yb) % 2 ^ t) + (2 ^ xb * (2 ^ yl * (K / 2 ^ xb % 2 ^ yb / 2 ^ yl))
        + 2 ^ xl * (K % 2 ^ xb / 2 ^ xl)) := by
    conv =>
      lhs
      lhs
      rw [hK]
    rw [and_split _ _ _ _ _ (hlow _ _ hKy hKx) (hlow _ _ (hby _ mt) (hbx _ ms)), and_split _ _ _ _ _ hKx (hbx _ ms),
      and_high, and_high, Nat.and_two_pow_sub_one_eq_mod, hrow, hcol]
  have hY' : K / 2 ^ xb % 2 ^ yb / 2 ^ yl < 2 ^ sy := by
    rw [← hrow]; exact Nat.mod_lt _ (Nat.two_pow_pos sy)
  have hX' : K % 2 ^ xb / 2 ^ xl < 2 ^ sx := by
    rw [← hcol]; exact Nat.mod_lt _ (Nat.two_pow_pos sx)
  rw [hlhs, split_inj (hlow _ _ (hby _ hY') (hbx _ hX')) (hlow _ _ (hby _ hY) (hbx _ hX)),
    split_inj (hbx _ hX') (hbx _ hX), Nat.mul_right_inj (Nat.pos_iff_ne_zero.1 (Nat.two_pow_pos yl)),
    Nat.mul_right_inj (Nat.pos_iff_ne_zero.1 (Nat.two_pow_pos xl))]

/-! ### Numbers of bits -/

theorem clog2_le_iff {n m : Nat} : clog2 n ≤ m ↔ n ≤ 2 ^ m := by
  constructor
  · intro h
    exact Nat.le_trans (Alloc.le_two_pow_clog2 n) (Nat.pow_le_pow_right (by decide) h)
  · exact Gen.clog2_le

theorem nBits_lt {n i : Nat} (h : i < n) : i < 2 ^ nBits n := by
  unfold nBits
  split
  · omega
  · split
    · omega
    · exact Nat.lt_of_lt_of_le h (Alloc.le_two_pow_clog2 n)

theorem ceilDiv_le {a b m : Nat} (hb : 0 < b) : ceilDiv a b ≤ m ↔ a ≤ m * b := by
  unfold ceilDiv
  rw [← Nat.lt_succ_iff, Nat.div_lt_iff_lt_mul hb, Nat.succ_mul]
  omega

theorem isPow2_iff {v : Nat} : isPow2 v = true ↔ ∃ a, v = 2 ^ a := by
  unfold isPow2
  rw [decide_eq_true_eq]
  constructor
  · rintro ⟨h0, h⟩
    refine ⟨v.log2, ?_⟩
    apply Nat.le_antisymm _ (Nat.log2_self_le h0)
    apply Nat.le_of_not_lt
    intro hlt
    have hb : v < 2 ^ (v.log2 + 1) := Nat.lt_log2_self
    have h1 : (v &&& (v - 1)).testBit v.log2 = true := by
      rw [Nat.testBit_and]
      have e1 : ∀ u, 2 ^ v.log2 ≤ u → u < 2 ^ (v.log2 + 1) → u.testBit v.log2 = true := by
        intro u h1 h2
        have h3 : u = 2 ^ v.log2 * 1 + (u - 2 ^ v.log2) := by omega
        rw [h3, Nat.testBit_two_pow_mul_add _ (by rw [Nat.pow_succ] at h2; omega)]
        simp
      rw [e1 v (by omega) hb, e1 (v - 1) (by omega) (by omega)]
      rfl
    rw [h] at h1
    simp at h1
  · rintro ⟨a, rfl⟩
    refine ⟨Nat.pos_iff_ne_zero.1 (Nat.two_pow_pos a), ?_⟩
    rw [Nat.and_two_pow_sub_one_eq_mod, Nat.mod_self]

/-- What `_verify_sub_size` checks. -/
theorem verify_iff (d : Dev) :
    verify d = .ok () ↔ (∃ a, d.sw = 2 ^ a) ∧ (∃ b, d.sh = 2 ^ b) ∧ d.sw ≤ d.w ∧ d.sh ≤ d.h := by
  unfold verify
  rw [← isPow2_iff, ← isPow2_iff]
  cases isPow2 d.sw with
  | false => simp
  | true =>
    cases isPow2 d.sh with
    | false => simp
    | true =>
      simp only [Bool.true_eq_false, if_false, true_and]
      by_cases h1 : d.sw > d.w
      · rw [if_pos h1]; exact ⟨fun hh => (by cases hh), fun hh => absurd hh.1 (by omega)⟩
      · rw [if_neg h1]
        by_cases h2 : d.sh > d.h
        · rw [if_pos h2]; exact ⟨fun hh => (by cases hh), fun hh => absurd hh.2 (by omega)⟩
        · rw [if_neg h2]; exact ⟨fun _ => ⟨by omega, by omega⟩, fun _ => rfl⟩

/-- More than one sub-rectangle: the low bits are those within one. -/
theorem bits_split {w a : Nat} (h : 2 ^ a < w) : nBits (ceilDiv w (2 ^ a)) + a = nBits w := by
  have hp := Nat.two_pow_pos a
  have h2 : ¬ ceilDiv w (2 ^ a) ≤ 1 := by rw [ceilDiv_le hp]; omega
  have e1 : nBits (ceilDiv w (2 ^ a)) = clog2 (ceilDiv w (2 ^ a)) := by
    unfold nBits; rw [if_neg (by omega), if_neg (by omega)]
  have e2 : nBits w = clog2 w := by unfold nBits; rw [if_neg (by omega), if_neg (by omega)]
  rw [e1, e2]
  have key : ∀ m, clog2 (ceilDiv w (2 ^ a)) ≤ m ↔ clog2 w ≤ m + a := by
    intro m
    rw [clog2_le_iff, clog2_le_iff, ceilDiv_le hp, Nat.pow_add]
  have ha : a < clog2 w := by
    apply Nat.lt_of_not_le
    rw [clog2_le_iff]; omega
  apply Nat.le_antisymm
  · have := (key (clog2 w - a)).2 (by omega)
    omega
  · exact (key _).1 (Nat.le_refl _)

theorem ceilDiv_self (a : Nat) : ceilDiv (2 ^ a) (2 ^ a) = 1 := by
  have hp := Nat.two_pow_pos a
  unfold ceilDiv
  exact Nat.div_eq_of_lt_le (by omega) (by omega)

theorem nBits_pow (a : Nat) : nBits (2 ^ a) = if a = 0 then 1 else a := by
  have hp := Nat.two_pow_pos a
  by_cases h : a = 0
  · subst h; rfl
  · have h1 : 2 ^ 1 ≤ 2 ^ a := Nat.pow_le_pow_right (by decide) (by omega)
    unfold nBits
    rw [if_neg (by omega), if_neg (by omega), if_neg h]
    apply Nat.le_antisymm
    · exact clog2_le_iff.2 (Nat.le_refl _)
    · apply Nat.le_of_not_lt
      intro hlt
      have : clog2 (2 ^ a) ≤ a - 1 := by omega
      rw [clog2_le_iff] at this
      have := (Nat.pow_le_pow_iff_right (a := 2) (by decide)).1 this
      omega

theorem sub_le {w a : Nat} (h : 2 ^ a ≤ w) : nBits (ceilDiv w (2 ^ a)) ≤ nBits w := by
  by_cases h1 : 2 ^ a < w
  · have := bits_split h1; omega
  · have : w = 2 ^ a := by omega
    have e : nBits 1 = 1 := rfl
    rw [this, ceilDiv_self, nBits_pow, e]
    split <;> omega

theorem div_lt_ceilDiv {x w b : Nat} (hb : 0 < b) (h : x < w) : x / b < ceilDiv w b := by
  apply Nat.lt_of_not_le
  rw [ceilDiv_le hb]
  have := Nat.div_mul_le_self x b
  omega

end Pacman.Device

namespace Pacman.Device

/-- The numbers of bits fit together. -/
theorem geom {d : Dev} (hv : verify d = .ok ()) :
    xBits d - subXBits d + subXBits d = xBits d ∧ yBits d - subYBits d + subYBits d = yBits d ∧
    0 < perRow d ∧ 0 < perCol d ∧ 0 < d.sw ∧ 0 < d.sh := by
  obtain ⟨⟨a, ha⟩, ⟨b, hb⟩, h1, h2⟩ := (verify_iff d).1 hv
  have pa := Nat.two_pow_pos a
  have pb := Nat.two_pow_pos b
  have h3 : subXBits d ≤ xBits d := by
    unfold subXBits xBits perRow; rw [ha]; exact sub_le (by omega)
  have h4 : subYBits d ≤ yBits d := by
    unfold subYBits yBits perCol; rw [hb]; exact sub_le (by omega)
  have h5 : 0 < perRow d := by
    have := div_lt_ceilDiv (x := 0) (w := d.w) (b := d.sw) (by omega) (by omega)
    exact Nat.lt_of_le_of_lt (Nat.zero_le _) this
  have h6 : 0 < perCol d := by
    have := div_lt_ceilDiv (x := 0) (w := d.h) (b := d.sh) (by omega) (by omega)
    exact Nat.lt_of_le_of_lt (Nat.zero_le _) this
  exact ⟨by omega, by omega, h5, h6, by omega, by omega⟩

theorem subXBits_le {d : Dev} (hv : verify d = .ok ()) : subXBits d ≤ xBits d ∧ subYBits d ≤ yBits d := by
  have := geom hv; omega

theorem sub_lt {d : Dev} {i : Nat} (hv : verify d = .ok ()) (hi : i < nSub d) :
    i % perRow d < perRow d ∧ i / perRow d < perCol d := by
  obtain ⟨_, _, h, _⟩ := geom hv
  refine ⟨Nat.mod_lt _ h, ?_⟩
  rw [Nat.div_lt_iff_lt_mul h, Nat.mul_comm]
  exact hi

theorem mask_eq {d : Dev} (h : keyShift d ≤ 32) :
    mask d = .ok (2 ^ (xBits d + yBits d) * (2 ^ (32 - (xBits d + yBits d)) - 1) +
      (2 ^ xBits d * (2 ^ (yBits d - subYBits d) * (2 ^ subYBits d - 1)) +
        2 ^ (xBits d - subXBits d) * (2 ^ subXBits d - 1))) := by
  have hk : keyShift d = xBits d + yBits d := Nat.add_comm _ _
  unfold mask
  rw [if_neg (by omega), hk]
  simp only [Nat.shiftLeft_eq, Nat.one_mul, yIndexShift, xIndexShift, sourceXShift, sourceYShift, Nat.zero_add]
  rw [Nat.pow_add 2 (xBits d) (yBits d - subYBits d), Nat.add_assoc]
  congr 2
  · exact Nat.mul_comm _ _
  · congr 1
    · rw [Nat.mul_comm, Nat.mul_assoc]
    · exact Nat.mul_comm _ _

theorem key_eq (d : Dev) (base index : Nat) :
    base <<< keyShift d + (subSquare d index).2 <<< yIndexShift d + (subSquare d index).1 <<< xIndexShift d =
      2 ^ (xBits d + yBits d) * base + (2 ^ xBits d * (2 ^ (yBits d - subYBits d) * (index / perRow d)) +
        2 ^ (xBits d - subXBits d) * (index % perRow d)) := by
  have hk : keyShift d = xBits d + yBits d := Nat.add_comm _ _
  simp only [hk, Nat.shiftLeft_eq, yIndexShift, xIndexShift, sourceXShift, sourceYShift, Nat.zero_add, subSquare]
  rw [Nat.pow_add 2 (xBits d) (yBits d - subYBits d), Nat.add_assoc]
  congr 1
  · exact Nat.mul_comm _ _
  · congr 1
    · rw [Nat.mul_comm, Nat.mul_assoc]
    · exact Nat.mul_comm _ _

theorem match_fields {d : Dev} (hv : verify d = .ok ()) {base i : Nat} (hi : i < nSub d) {km : Nat × Nat}
    (h : getKeyMask d base i = .ok km) (K : Nat) :
    Matches K km ↔ K / 2 ^ (xBits d + yBits d) % 2 ^ (32 - (xBits d + yBits d)) = base ∧
      K / 2 ^ xBits d % 2 ^ yBits d / 2 ^ (yBits d - subYBits d) = i / perRow d ∧
      K % 2 ^ xBits d / 2 ^ (xBits d - subXBits d) = i % perRow d := by
  obtain ⟨g1, g2, _, _⟩ := geom hv
  obtain ⟨l1, l2⟩ := sub_lt hv hi
  unfold getKeyMask at h
  by_cases hk : keyShift d ≤ 32
  · rw [mask_eq hk] at h
    simp only at h
    rw [key_eq] at h
    unfold mkKeyMask at h
    split at h
    · cases h
    · cases h
      exact match_iff _ _ _ _ _ _ _ _ _ _ g1 g2 (nBits_lt l2) (nBits_lt l1) K
  · have : mask d = .error .valueError := by unfold mask; rw [if_pos (by omega)]
    rw [this] at h; cases h

theorem getKeyMask_ok {d : Dev} (hv : verify d = .ok ()) {base i : Nat} (hi : i < nSub d) :
    (∃ km, getKeyMask d base i = .ok km) ↔ keyShift d ≤ 32 ∧ base < 2 ^ (32 - keyShift d) := by
  obtain ⟨g1, g2, _, _⟩ := geom hv
  obtain ⟨l1, l2⟩ := sub_lt hv hi
  have hks : keyShift d = xBits d + yBits d := Nat.add_comm _ _
  unfold getKeyMask
  by_cases hk : keyShift d ≤ 32
  · rw [mask_eq hk]
    simp only
    rw [key_eq]
    have hm := match_iff _ _ _ _ _ _ base _ _ (32 - (xBits d + yBits d)) g1 g2 (nBits_lt l2) (nBits_lt l1)
      (2 ^ (xBits d + yBits d) * base + (2 ^ xBits d * (2 ^ (yBits d - subYBits d) * (i / perRow d)) +
        2 ^ (xBits d - subXBits d) * (i % perRow d)))
    have hx : 2 ^ (xBits d - subXBits d) * (i % perRow d) < 2 ^ xBits d := by
      have := Nat.mul_lt_mul_of_pos_left (nBits_lt l1) (Nat.two_pow_pos (xBits d - subXBits d))
      rw [← Nat.pow_add] at this
      unfold subXBits at *
      rwa [g1] at this
    have hy : 2 ^ (yBits d - subYBits d) * (i / perRow d) < 2 ^ yBits d := by
      have := Nat.mul_lt_mul_of_pos_left (nBits_lt l2) (Nat.two_pow_pos (yBits d - subYBits d))
      rw [← Nat.pow_add] at this
      unfold subYBits at *
      rwa [g2] at this
    have hlow : 2 ^ xBits d * (2 ^ (yBits d - subYBits d) * (i / perRow d)) +
        2 ^ (xBits d - subXBits d) * (i % perRow d) < 2 ^ (xBits d + yBits d) := by
      have h1 := Nat.mul_le_mul_left (2 ^ xBits d) (Nat.succ_le_of_lt hy)
      rw [Nat.pow_add]
      rw [Nat.mul_succ] at h1
      omega
    have hdiv : (2 ^ (xBits d + yBits d) * base + (2 ^ xBits d * (2 ^ (yBits d - subYBits d) * (i / perRow d)) +
        2 ^ (xBits d - subXBits d) * (i % perRow d))) / 2 ^ (xBits d + yBits d) = base := by
      rw [Nat.mul_add_div (Nat.two_pow_pos _), Nat.div_eq_of_lt hlow, Nat.add_zero]
    have hsnd : (2 ^ (xBits d + yBits d) * base + (2 ^ xBits d * (2 ^ (yBits d - subYBits d) * (i / perRow d)) +
        2 ^ (xBits d - subXBits d) * (i % perRow d))) / 2 ^ xBits d % 2 ^ yBits d / 2 ^ (yBits d - subYBits d)
        = i / perRow d := by
      rw [Nat.pow_add, Nat.mul_assoc, ← Nat.add_assoc, ← Nat.mul_add, Nat.mul_add_div (Nat.two_pow_pos _),
        Nat.div_eq_of_lt hx, Nat.add_zero, Nat.mul_add_mod, Nat.mod_eq_of_lt hy,
        Nat.mul_div_cancel_left _ (Nat.two_pow_pos _)]
    have hthd : (2 ^ (xBits d + yBits d) * base + (2 ^ xBits d * (2 ^ (yBits d - subYBits d) * (i / perRow d)) +
        2 ^ (xBits d - subXBits d) * (i % perRow d))) % 2 ^ xBits d / 2 ^ (xBits d - subXBits d)
        = i % perRow d := by
      rw [Nat.pow_add, Nat.mul_assoc, ← Nat.add_assoc, ← Nat.mul_add, Nat.mul_add_mod, Nat.mod_eq_of_lt hx,
        Nat.mul_div_cancel_left _ (Nat.two_pow_pos _)]
    rw [hdiv, hsnd, hthd] at hm
    simp only [and_true] at hm
    have hlt : base % 2 ^ (32 - (xBits d + yBits d)) = base ↔ base < 2 ^ (32 - keyShift d) := by
      rw [hks]
      constructor
      · intro hh; rw [← hh]; exact Nat.mod_lt _ (Nat.two_pow_pos _)
      · exact Nat.mod_eq_of_lt
    rw [hlt] at hm
    unfold mkKeyMask
    constructor
    · rintro ⟨km, hkm⟩
      split at hkm
      · cases hkm
      · rename_i hne
        exact ⟨hk, hm.1 (Classical.not_not.1 hne)⟩
    · rintro ⟨_, hb⟩
      rw [if_neg (Classical.not_not.2 (hm.2 hb))]
      exact ⟨_, rfl⟩
  · have : mask d = .error .valueError := by unfold mask; rw [if_pos (by omega)]
    rw [this]
    exact ⟨fun ⟨_, hh⟩ => (by cases hh), fun hh => absurd hh.1 hk⟩

/-- The fields of the key of a pixel. -/
theorem pixel_fields {d : Dev} {base x y : Nat} (hx : x < d.w) (hy : y < d.h) :
    pixelKey d base x y / 2 ^ (xBits d + yBits d) = base ∧ pixelKey d base x y / 2 ^ xBits d % 2 ^ yBits d = y ∧
    pixelKey d base x y % 2 ^ xBits d = x := by
  have lx : x < 2 ^ xBits d := nBits_lt hx
  have ly : y < 2 ^ yBits d := nBits_lt hy
  have e : pixelKey d base x y = 2 ^ xBits d * (2 ^ yBits d * base + y) + x := by
    unfold pixelKey; rw [Nat.mul_comm (base * _ + y), Nat.mul_comm base]
  have e1 : pixelKey d base x y / 2 ^ xBits d = 2 ^ yBits d * base + y := by
    rw [e, Nat.mul_add_div (Nat.two_pow_pos _), Nat.div_eq_of_lt lx, Nat.add_zero]
  refine ⟨?_, ?_, ?_⟩
  · rw [Nat.pow_add, ← Nat.div_div_eq_div_mul, e1, Nat.mul_add_div (Nat.two_pow_pos _), Nat.div_eq_of_lt ly,
      Nat.add_zero]
  · rw [e1, Nat.mul_add_mod, Nat.mod_eq_of_lt ly]
  · rw [e, Nat.mul_add_mod, Nat.mod_eq_of_lt lx]

theorem index_iff {n i a b : Nat} (hb : b < n) : a = i / n ∧ b = i % n ↔ i = a * n + b := by
  constructor
  · rintro ⟨h1, h2⟩
    rw [h1, h2, Nat.mul_comm, Nat.div_add_mod]
  · intro h
    rw [h, Nat.mul_comm, Nat.mul_add_div (by omega), Nat.div_eq_of_lt hb, Nat.mul_add_mod, Nat.mod_eq_of_lt hb]
    exact ⟨rfl, rfl⟩

theorem low_bits {w a : Nat} (h : 2 ^ a < w ∨ w = 1) (hle : 2 ^ a ≤ w) {x : Nat} (hx : x < w) :
    x / 2 ^ (nBits w - nBits (ceilDiv w (2 ^ a))) = x / 2 ^ a := by
  rcases h with h | h
  · have := bits_split h
    have e : nBits w - nBits (ceilDiv w (2 ^ a)) = a := by omega
    rw [e]
  · have : x = 0 := by omega
    rw [this, Nat.zero_div, Nat.zero_div]

end Pacman.Device
