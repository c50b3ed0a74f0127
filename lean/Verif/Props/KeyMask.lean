import Verif.Proofs.KeyMask
/-
Properties of key/mask pairs: enumeration of keys and key ranges.
-/

namespace Pacman.KeyMask

/-- Specification: all 32-bit keys matched by a key/mask, in increasing order. -/
def matchingKeys (key mask : Word) : List Word :=
  ((List.range (2 ^ 32)).map (BitVec.ofNat 32)).filter (fun k => k &&& mask == key)

/-- `matchingKeys` is what it says: strictly increasing, and with exactly the matching keys. -/
theorem matchingKeys_spec (key mask : Word) :
    (matchingKeys key mask).Pairwise (fun a b => a.toNat < b.toNat) ∧
    ∀ k, k ∈ matchingKeys key mask ↔ k &&& mask = key := by
  constructor
  · unfold matchingKeys
    apply List.Pairwise.filter
    rw [List.pairwise_map]
    apply List.Pairwise.imp_of_mem _ List.pairwise_lt_range
    intro a b ha hb h
    rw [List.mem_range] at ha hb
    rw [BitVec.toNat_ofNat, BitVec.toNat_ofNat, Nat.mod_eq_of_lt ha, Nat.mod_eq_of_lt hb]
    exact h
  · intro k
    unfold matchingKeys
    rw [List.mem_filter]
    constructor
    · rintro ⟨_, h⟩; simpa using h
    · intro h
      refine ⟨?_, by simpa using h⟩
      rw [List.mem_map]
      exact ⟨k.toNat, List.mem_range.2 k.isLt, by simp⟩

theorem eq_matchingKeys (key mask : Word) (l : List Word)
    (h1 : l.Pairwise (fun a b => a.toNat < b.toNat)) (h2 : ∀ k, k ∈ l ↔ k &&& mask = key) :
    l = matchingKeys key mask := by
  obtain ⟨s1, s2⟩ := matchingKeys_spec key mask
  have nd : ∀ l : List Word, l.Pairwise (fun a b => a.toNat < b.toNat) → l.Nodup := by
    intro l h
    exact h.imp (fun {a b} hab heq => by subst heq; omega)
  apply List.Perm.eq_of_pairwise (le := fun a b => a.toNat < b.toNat) _ h1 s1
  · rw [List.perm_ext_iff_of_nodup (nd _ h1) (nd _ s1)]
    intro k; rw [h2, s2]
  · intro a b _ _ hab hba; omega

theorem keysOf_eq (key mask : Word) (hv : key &&& mask = key) (h0 : nZeros (expand mask) ≠ 0) :
    (List.range (2 ^ nZeros (expand mask))).map (keyOf key mask) = matchingKeys key mask := by
  apply eq_matchingKeys
  · rw [List.pairwise_map]
    apply List.Pairwise.imp_of_mem _ List.pairwise_lt_range
    intro a b _ hb h
    exact keyOf_lt key mask a b h0 h (List.mem_range.1 hb)
  · intro k
    rw [keyOf_matches key mask hv h0 k, List.mem_map]
    constructor
    · rintro ⟨v, h, e⟩; exact ⟨v, List.mem_range.1 h, e⟩
    · rintro ⟨v, h, e⟩; exact ⟨v, List.mem_range.2 h, e⟩

theorem fullMask (key mask : Word) (h0 : nZeros (expand mask) = 0) :
    matchingKeys key mask = [key] := by
  symm
  apply eq_matchingKeys
  · simp
  · intro k; rw [nZeros_zero h0 k]; simp

theorem mask_full_iff (mask : Word) : nZeros (expand mask) = 0 ↔ mask = 0xFFFFFFFF#32 := by
  constructor
  · intro h
    have := nZeros_zero h 0xFFFFFFFF#32
    have e : 0xFFFFFFFF#32 &&& mask = mask := by
      have : 0xFFFFFFFF#32 = BitVec.allOnes 32 := by decide
      rw [this, BitVec.allOnes_and]
    rw [← e, this]
  · rintro rfl; decide +kernel

theorem matchingKeys_length (key mask : Word) (hv : key &&& mask = key) :
    (matchingKeys key mask).length = nKeys mask := by
  unfold nKeys
  rw [zeros_length]
  by_cases h0 : nZeros (expand mask) = 0
  · rw [fullMask key mask h0, h0]; rfl
  · rw [← keysOf_eq key mask hv h0]; simp

/-- **C01.** `get_keys()` returns exactly the matching keys, in increasing order, and `n_keys` is
their number. -/
theorem C01_get_keys_exact (key mask : Word) (hv : key &&& mask = key) :
    getKeys key mask none 0 none = .ok (matchingKeys key mask, nKeys mask) ∧
    nKeys mask = (matchingKeys key mask).length := by
  refine ⟨?_, (matchingKeys_length key mask hv).symm⟩
  unfold getKeys nKeys limitOf
  simp only [zeros_length]
  by_cases h0 : nZeros (expand mask) = 0
  · simp [h0, setItem, fullMask key mask h0]
  · simp only [h0, if_false, Option.getD_none]
    have := fill_ok key mask 0 (2 ^ nZeros (expand mask)) 0 []
      (List.replicate (2 ^ nZeros (expand mask)) 0) [] rfl (by simp)
    simp only [List.nil_append, List.append_nil] at this
    rw [this]
    simp only [← List.range_eq_range']
    rw [keysOf_eq key mask hv h0]

/-- **C01**, limits and given arrays: unless the mask is full, the first
`min limit n_keys len(array)` keys are written from `offset` on, nothing else in the array is
changed, and the call fails exactly when they would run past the end of the array. -/
theorem C01_get_keys_array (key mask : Word) (hv : key &&& mask = key)
    (hm : mask ≠ 0xFFFFFFFF#32) (a : List Word) (o : Nat) (limit : Option Nat) :
    let n := min (limit.getD (nKeys mask)) (min (nKeys mask) a.length)
    getKeys key mask (some a) o limit =
      if n = 0 ∨ o + n ≤ a.length then
        .ok (if n = 0 then a else
          a.take o ++ (matchingKeys key mask).take n ++ a.drop (o + n), n)
      else .error .indexError := by
  intro n
  have h0 : nZeros (expand mask) ≠ 0 := fun h => hm ((mask_full_iff mask).1 h)
  have hk : nKeys mask = 2 ^ nZeros (expand mask) := by unfold nKeys; rw [zeros_length]
  unfold getKeys
  simp only [zeros_length, h0, if_false, Option.getD_some]
  have hmax : (if a.length < 2 ^ nZeros (expand mask) then a.length
      else 2 ^ nZeros (expand mask)) = min (nKeys mask) a.length := by
    rw [hk]; split <;> omega
  rw [hmax]
  have hn : limitOf limit (min (nKeys mask) a.length) = n := by
    cases limit with
    | none => simp only [n, limitOf, Option.getD_none]; omega
    | some l => rfl
  rw [hn]
  have hnle : n ≤ nKeys mask := by simp only [n]; omega
  by_cases hz : n = 0
  · simp [hz, fill]
  · by_cases ho : o + n ≤ a.length
    · have hc : (n = 0 ∨ o + n ≤ a.length) := Or.inr ho
      rw [if_pos hc, if_neg hz]
      have e : a = a.take o ++ (a.drop o).take n ++ a.drop (o + n) := by
        rw [← List.drop_drop, List.append_assoc, List.take_append_drop, List.take_append_drop]
      have := fill_ok key mask o n 0 (a.take o) ((a.drop o).take n) (a.drop (o + n))
        (by simp; omega) (by simp; omega)
      rw [← e] at this
      rw [this]
      simp only [← List.range_eq_range']
      rw [← keysOf_eq key mask hv h0, ← List.map_take, List.take_range, ← hk, Nat.min_eq_left hnle]
    · have hc : ¬ (n = 0 ∨ o + n ≤ a.length) := by omega
      rw [if_neg hc, fill_error key mask o n 0 a (Or.inr hz) (by omega)]

/-- **C01**, limit without array. -/
theorem C01_get_keys_limit (key mask : Word) (hv : key &&& mask = key)
    (hm : mask ≠ 0xFFFFFFFF#32) (l : Nat) :
    getKeys key mask none 0 (some l) =
      .ok ((matchingKeys key mask).take l, min l (nKeys mask)) := by
  have h0 : nZeros (expand mask) ≠ 0 := fun h => hm ((mask_full_iff mask).1 h)
  have hk : nKeys mask = 2 ^ nZeros (expand mask) := by unfold nKeys; rw [zeros_length]
  unfold getKeys
  simp only [zeros_length, h0, if_false, Option.getD_none, limitOf]
  rw [← hk]
  have := fill_ok key mask 0 (min l (nKeys mask)) 0 []
    (List.replicate (min l (nKeys mask)) 0) [] rfl (by simp)
  simp only [List.nil_append, List.append_nil] at this
  rw [this]
  simp only [← List.range_eq_range']
  rw [← keysOf_eq key mask hv h0, ← List.map_take, List.take_range, ← hk]

/-- With a full mask the limit is ignored: one key is returned even for limit 0
(base_key_and_mask.py:132-136 returns before looking at `n_keys`). -/
theorem C01_full_mask_ignores_limit (key : Word) (l : Nat) :
    getKeys key 0xFFFFFFFF#32 none 0 (some l) = .ok ([key], 1) := by
  unfold getKeys
  simp only [zeros_length, (mask_full_iff _).2 rfl]
  simp [setItem]

/-- A key/mask object exists exactly when the key has no bit outside the mask. -/
theorem C01_constructor (key mask : Word) :
    (mk key mask = .ok (key, mask) ↔ key &&& mask = key) ∧
    (mk key mask = .error .configuration ↔ key &&& mask ≠ key) := by
  unfold mk
  by_cases h : key &&& mask = key <;> simp [h]

/-- A mask with holes: four keys, not contiguous. -/
example : (0x50#32 &&& 0xFFFFFFF5#32 = 0x50#32) ∧ 0xFFFFFFF5#32 ≠ 0xFFFFFFFF#32 ∧
    getKeys 0x50 0xFFFFFFF5 none 0 none = .ok ([0x50, 0x52, 0x58, 0x5A], 4) ∧
    getKeys 0x50 0xFFFFFFF5 (some [1, 1, 1, 1, 1]) 2 (some 3) =
      .ok ([1, 1, 0x50, 0x52, 0x58], 3) ∧
    getKeys 0x50 0xFFFFFFF5 (some [1, 1, 1, 1, 1]) 2 none = .error .indexError := by
  refine ⟨by decide, by decide, by decide +kernel, by decide +kernel, by decide +kernel⟩

/-- A range of the second kind of result: the numbers `base, ..., base + n - 1`. -/
def InRange (x : Nat) (r : Word × Nat) : Prop := r.1.toNat ≤ x ∧ x < r.1.toNat + r.2

/-- **C02.** The ranges are pairwise disjoint and together hold exactly the matching keys. -/
theorem C02_key_ranges_partition (key mask : Word) (hv : key &&& mask = key) :
    (getKeyRanges key mask).Pairwise (fun r s => ∀ x, ¬ (InRange x r ∧ InRange x s)) ∧
    (∀ x : Nat, (∃ r ∈ getKeyRanges key mask, InRange x r) ↔
      ∃ k : Word, k.toNat = x ∧ k &&& mask = key) := by
  obtain ⟨f, G, hf, hG, hnd, hmod, hinj, hmatch⟩ := ranges_spec key mask hv
  have hpos : 0 < 2 ^ f := Nat.two_pow_pos f
  have hin : ∀ w ∈ G, ∀ x, InRange x (w, 2 ^ f) ↔ x / 2 ^ f = w.toNat / 2 ^ f := by
    intro w hw x
    have hm := hmod w hw
    have hd := Nat.div_add_mod w.toNat (2 ^ f)
    rw [hm, Nat.add_zero] at hd
    unfold InRange
    simp only
    constructor
    · rintro ⟨h1, h2⟩
      have e : w.toNat = w.toNat / 2 ^ f * 2 ^ f := by rw [Nat.mul_comm]; exact hd.symm
      apply Nat.div_eq_of_lt_le
      · rw [← e]; exact h1
      · rw [Nat.add_mul, ← e, Nat.one_mul]; exact h2
    · intro h
      have h1 := Nat.div_add_mod x (2 ^ f)
      have h2 := Nat.mod_lt x hpos
      rw [h, hd] at h1
      omega
  have hr : ∀ r ∈ getKeyRanges key mask, ∃ w ∈ G, r = (w, 2 ^ f) := by
    intro r h; rw [hG] at h
    obtain ⟨w, hw, e⟩ := List.mem_map.1 h
    exact ⟨w, hw, e.symm⟩
  constructor
  · rw [hG, List.pairwise_map]
    apply List.Pairwise.imp_of_mem _ hnd
    rintro a b ha hb hne x ⟨h1, h2⟩
    rw [hin a ha] at h1
    rw [hin b hb] at h2
    exact hne (hinj a ha b hb (h1.symm.trans h2))
  · intro x
    constructor
    · rintro ⟨r, h, hx⟩
      obtain ⟨w, hw, rfl⟩ := hr r h
      have hx' := (hin w hw x).1 hx
      have hlt : x < 2 ^ 32 := by
        have hw32 := w.isLt
        have e : 2 ^ 32 = 2 ^ (32 - f) * 2 ^ f := by rw [← Nat.pow_add]; congr 1; omega
        have h1 : w.toNat / 2 ^ f < 2 ^ (32 - f) := by
          rw [Nat.div_lt_iff_lt_mul hpos, ← e]; exact hw32
        rw [e, ← Nat.div_lt_iff_lt_mul hpos, hx']
        exact h1
      refine ⟨BitVec.ofNat 32 x, by simp; omega, ?_⟩
      rw [hmatch]
      refine ⟨w, hw, ?_⟩
      rw [BitVec.toNat_ofNat, Nat.mod_eq_of_lt hlt]
      exact hx'
    · rintro ⟨k, rfl, hk⟩
      obtain ⟨w, hw, h⟩ := (hmatch k).1 hk
      refine ⟨(w, 2 ^ f), ?_, (hin w hw _).2 h⟩
      rw [hG]; exact List.mem_map_of_mem hw

/-- Two holes above two trailing zeros: four ranges of four keys. -/
example : (0x100#32 &&& 0xFFFFFF5C#32 = 0x100#32) ∧
    getKeyRanges 0x100 0xFFFFFF5C = [(0x100, 4), (0x180, 4), (0x120, 4), (0x1A0, 4)] := by
  refine ⟨by decide, by decide +kernel⟩

end Pacman.KeyMask
