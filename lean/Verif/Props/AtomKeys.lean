import Verif.Model.AtomKeys
import Verif.Props.KeyMask
import Verif.Props.Allocator
/-
C121, C122: the keys of atoms, and functions on bits.
-/

namespace Pacman.AtomKeys

open KeyMask Alloc

/-! ### The keys of a routing info -/

/-- **C121.** A routing info gives all the keys of its key and mask, in increasing order; asked for `n` keys
it gives the first `n`, and refuses if there are not so many. -/
theorem C121_info (key mask : Word) (hv : key &&& mask = key) (n : Nat) :
    infoKeys key mask none = .ok (matchingKeys key mask) ∧
    (n ≤ nKeys mask → n ≠ 0 ∨ mask ≠ 0xFFFFFFFF#32 →
      infoKeys key mask (some n) = .ok ((matchingKeys key mask).take n)) ∧
    (nKeys mask < n → infoKeys key mask (some n) = .error .configuration) := by
  have hl := matchingKeys_length key mask hv
  have hf : ∀ n, n ≤ nKeys mask → n ≠ 0 ∨ mask ≠ 0xFFFFFFFF#32 →
      infoKeys.fill key mask n = .ok ((matchingKeys key mask).take n) := by
    intro n hn h
    unfold infoKeys.fill
    by_cases hm : mask = 0xFFFFFFFF#32
    · have h0 := (mask_full_iff mask).2 hm
      have h1 : nKeys mask = 1 := by unfold nKeys; rw [zeros_length, h0]
      have hn1 : n = 1 := by
        rcases h with h | h
        · omega
        · exact absurd hm h
      subst hn1
      rw [fullMask key mask h0]
      unfold getKeys
      simp only [zeros_length, h0, if_true]
      rfl
    · have := C01_get_keys_array key mask hv hm (List.replicate n 0) 0 (some n)
      simp only [Option.getD_some, List.length_replicate] at this
      have e : min n (min (nKeys mask) n) = n := by omega
      rw [e] at this
      rw [this, if_pos (by omega)]
      by_cases hz : n = 0
      · subst hz; rfl
      · rw [if_neg hz]; simp
  refine ⟨?_, ?_, ?_⟩
  · have h2 : 0 < nKeys mask := Nat.two_pow_pos _
    have := hf (nKeys mask) (Nat.le_refl _) (.inl (by omega))
    rw [← hl, List.take_length] at this
    show infoKeys.fill key mask (nKeys mask) = _
    rw [← hl]; exact this
  · intro hn h
    show (if nKeys mask < n then _ else _) = _
    rw [if_neg (by omega)]
    exact hf n hn h
  · intro h
    show (if nKeys mask < n then _ else _) = _
    rw [if_pos h]

example : infoKeys 0x50 0xFFFFFFF5 (some 3) = .ok [0x50, 0x52, 0x58] ∧
    infoKeys 0x50 0xFFFFFFF5 (some 5) = .error .configuration ∧
    (matchingKeys 0x50#32 0xFFFFFFF5#32).take 3 = [0x50, 0x52, 0x58] := by
  refine ⟨by decide +kernel, by decide +kernel, ?_⟩
  have h := (C121_info 0x50 0xFFFFFFF5 (by decide) 3).2.1 (by decide +kernel) (.inl (by decide))
  have h' : infoKeys 0x50 0xFFFFFFF5 (some 3) = .ok [0x50, 0x52, 0x58] := by decide +kernel
  rw [h'] at h
  exact (Except.ok.inj h).symm

/-- **C121, what fails.** Asked for no keys, a routing info with a single key raises an `IndexError`. -/
theorem C121_no_keys_of_one (key : Word) : infoKeys key 0xFFFFFFFF#32 (some 0) = .error .indexError := by
  have h0 := (mask_full_iff 0xFFFFFFFF#32).2 rfl
  unfold infoKeys
  simp only
  rw [if_neg (Nat.not_lt_zero _)]
  unfold infoKeys.fill getKeys
  simp only [zeros_length, h0, if_true]
  rfl

/-! ### The keys of a slice -/

theorem covers_word (k m : Nat) (hk : k < 2 ^ 32) (x : Word) :
    Covers k m x ↔ x &&& BitVec.ofNat 32 m = BitVec.ofNat 32 k := by
  unfold Covers
  rw [← BitVec.toNat_inj, BitVec.toNat_and, BitVec.toNat_ofNat, BitVec.toNat_ofNat, Nat.mod_eq_of_lt hk]
  have h1 : x.toNat &&& m < 2 ^ 32 := Nat.lt_of_le_of_lt Nat.and_le_left x.isLt
  have h2 : x.toNat &&& (m % 2 ^ 32) = x.toNat &&& m := by
    rw [← Nat.mod_eq_of_lt h1, Nat.and_mod_two_pow, Nat.mod_eq_of_lt x.isLt]
  rw [h2]

theorem interval_keys {k m a : Nat} (hle : k + 2 ^ a ≤ 2 ^ 32)
    (hc : ∀ x : Word, Covers k m x ↔ k ≤ x.toNat ∧ x.toNat < k + 2 ^ a) :
    matchingKeys (BitVec.ofNat 32 k) (BitVec.ofNat 32 m) =
      (List.range (2 ^ a)).map (fun i => BitVec.ofNat 32 (k + i)) := by
  have hpos := Nat.two_pow_pos a
  symm
  apply eq_matchingKeys
  · rw [List.pairwise_map]
    apply List.Pairwise.imp_of_mem _ List.pairwise_lt_range
    intro i j hi hj h
    rw [List.mem_range] at hi hj
    rw [BitVec.toNat_ofNat, BitVec.toNat_ofNat, Nat.mod_eq_of_lt (by omega), Nat.mod_eq_of_lt (by omega)]
    omega
  · intro x
    rw [← covers_word k m (by omega), hc, List.mem_map]
    constructor
    · rintro ⟨i, hi, rfl⟩
      rw [List.mem_range] at hi
      rw [BitVec.toNat_ofNat, Nat.mod_eq_of_lt (by omega)]
      omega
    · rintro ⟨h1, h2⟩
      refine ⟨x.toNat - k, List.mem_range.2 (by omega), ?_⟩
      rw [Nat.add_sub_cancel' h1]
      simp

/-- **C121.** A machine vertex without a fixed key has one routing info in its partition. If it asked for
enough keys, the keys computed for its atoms are different words, in the order of the atoms, and each is one
of its info's keys; without extra bits they are just what the info gives as its first keys. -/
theorem C121_atoms {flexible : Bool} {ps : List Part} {infos : Infos} (hwf : WF ps)
    (hi : NoIdleFixed ps) (hc : Counted ps) (h : allocate flexible ps = .ok infos) {p : Part}
    (hp : p ∈ ps) (hpf : p.fixed = none) {v : MVertex} (hv : v ∈ p.outgoing) (n extra : Nat)
    (hn : ∀ i, i < n → i <<< extra < v.nKeys) :
    ∃ k m i, .mach p.ident v.id k m i ∈ infos ∧
      (∀ j ∈ infos, j.of = (p.ident, .mach v.id) → j = .mach p.ident v.id k m i) ∧
      (sliceKeys k n extra).length = n ∧
      (sliceKeys k n extra).Pairwise (· < ·) ∧
      (∀ x ∈ sliceKeys k n extra, ∃ w : Word, w.toNat = x ∧ Covers k m w) ∧
      (n ≠ 0 → extra = 0 →
        infoKeys (BitVec.ofNat 32 k) (BitVec.ofNat 32 m) (some n) =
          .ok ((sliceKeys k n 0).map (BitVec.ofNat 32))) := by
  obtain ⟨k, m, i, a, _, _, _, _, _, hmem, _, huniq, _, hkeys, hle, hcov, _⟩ :=
    C19_block_fits hwf hi hc h hp hpf hv
  have hpos := Nat.two_pow_pos a
  refine ⟨k, m, i, hmem, huniq, by simp [sliceKeys], ?_, ?_, ?_⟩
  · unfold sliceKeys
    rw [List.pairwise_map]
    apply List.Pairwise.imp _ List.pairwise_lt_range
    intro a b h
    rw [Nat.shiftLeft_eq, Nat.shiftLeft_eq]
    have := Nat.mul_lt_mul_of_pos_right h (Nat.two_pow_pos extra)
    omega
  · intro x hx
    unfold sliceKeys at hx
    obtain ⟨j, hj, rfl⟩ := List.mem_map.1 hx
    have hj' := hn j (List.mem_range.1 hj)
    have e : (BitVec.ofNat 32 (k + j <<< extra)).toNat = k + j <<< extra := by
      rw [BitVec.toNat_ofNat, Nat.mod_eq_of_lt (by omega)]
    refine ⟨BitVec.ofNat 32 (k + j <<< extra), e, ?_⟩
    rw [hcov, e]
    generalize j <<< extra = s at hj'
    omega
  · intro hn0 he
    subst he
    have hlt : n - 1 < v.nKeys := by
      have := hn (n - 1) (by omega)
      rwa [Nat.shiftLeft_zero] at this
    have hmk := interval_keys hle hcov
    have hval : BitVec.ofNat 32 k &&& BitVec.ofNat 32 m = BitVec.ofNat 32 k := by
      rw [← covers_word k m (by omega), hcov, BitVec.toNat_ofNat, Nat.mod_eq_of_lt (by omega)]
      omega
    have hlen := matchingKeys_length _ _ hval
    rw [hmk, List.length_map, List.length_range] at hlen
    rw [(C121_info _ _ hval n).2.1 (by rw [← hlen]; omega) (.inl hn0), hmk, ← List.map_take,
      List.take_range, Nat.min_eq_left (by omega)]
    unfold sliceKeys
    rw [List.map_map]
    rfl

/-- **C121.** In both modes of allocation no key of an atom is a key of another machine vertex or of the same
one in another partition: what is sent for an atom can be told from everything else. -/
theorem C121_apart {fl : Bool} {ps : List Part} {infos : Infos} (hwf : WF ps)
    (hi : NoIdleFixed ps) (hc : Counted ps) (h : allocate fl ps = .ok infos) {p q : Part}
    (hp : p ∈ ps) (hq : q ∈ ps) (hpf : p.fixed = none) (hqf : q.fixed = none) {v w : MVertex}
    (hv : v ∈ p.outgoing) (hw : w ∈ q.outgoing) (hne : (p.ident, v.id) ≠ (q.ident, w.id))
    {k1 m1 i1 k2 m2 i2 : Nat}
    (h1 : .mach p.ident v.id k1 m1 i1 ∈ infos) (h2 : .mach q.ident w.id k2 m2 i2 ∈ infos)
    (n1 e1 n2 e2 : Nat) (hn1 : ∀ i, i < n1 → i <<< e1 < v.nKeys) (hn2 : ∀ i, i < n2 → i <<< e2 < w.nKeys) :
    ∀ x ∈ sliceKeys k1 n1 e1, x ∉ sliceKeys k2 n2 e2 := by
  intro x hx hy
  obtain ⟨k, m, i, _, hu, _, _, hcov, _⟩ := C121_atoms hwf hi hc h hp hpf hv n1 e1 hn1
  have := hu _ h1 rfl
  injection this with _ _ ek em _
  subst ek; subst em
  obtain ⟨k', m', i', _, hu', _, _, hcov', _⟩ := C121_atoms hwf hi hc h hq hqf hw n2 e2 hn2
  have := hu' _ h2 rfl
  injection this with _ _ ek em _
  subst ek; subst em
  obtain ⟨a, ha, hca⟩ := hcov x hx
  obtain ⟨b, hb, hcb⟩ := hcov' x hy
  have hab : a = b := BitVec.eq_of_toNat_eq (ha.trans hb.symm)
  subst hab
  obtain ⟨d, z', used, ab, L, hs⟩ := allocate_ok hwf hi hc h
  exact hs.mach_disjoint hwf hc hp hq hpf hv hw hne h1 h2 (.inl hqf) a ⟨hca, hcb⟩

/-- The nine atoms of vertex 12, and four atoms of it with one bit left free below. -/
example : sliceKeys 0x10 9 0 = [0x10, 0x11, 0x12, 0x13, 0x14, 0x15, 0x16, 0x17, 0x18] ∧
    sliceKeys 0x10 4 1 = [0x10, 0x12, 0x14, 0x16] ∧
    (∃ k m i, .mach 0 12 k m i ∈ mixedInfos ∧
      ∀ x ∈ sliceKeys k 9 0, ∃ w : Word, w.toNat = x ∧ Covers k m w) ∧
    ∀ x ∈ sliceKeys 0x10 4 1, x ∉ sliceKeys 0x300 200 0 := by
  refine ⟨by decide, by decide, ?_, ?_⟩
  · obtain ⟨k, m, i, h1, _, _, _, h2, _⟩ :=
      C121_atoms mixed_wf.1 mixed_wf.2.1 mixed_wf.2.2 mixed_ok (p := mixed[0]) (v := free 12 9 4)
        (by decide) (by decide) (by decide) 9 0 (by intro i hi; rw [Nat.shiftLeft_zero]; exact hi)
    exact ⟨k, m, i, h1, h2⟩
  · exact C121_apart mixed_wf.1 mixed_wf.2.1 mixed_wf.2.2 mixed_ok (p := mixed[0]) (q := mixed[2])
      (v := free 12 9 4) (w := free 30 200 0) (by decide) (by decide) (by decide) (by decide) (by decide)
      (by decide) (by decide) (m1 := 0xFFFFFFF0) (i1 := 1) (m2 := 0xFFFFFF00) (i2 := 0) (by decide)
      (by decide) 4 1 200 0 (by
        intro i hi
        have : i = 0 ∨ i = 1 ∨ i = 2 ∨ i = 3 := by omega
        rcases this with rfl | rfl | rfl | rfl <;> decide)
      (by intro i hi; rw [Nat.shiftLeft_zero]; exact hi)

/-! ### C122: bits -/

theorem pick_ok (bits : List Bool) (ps : List Nat) (vals : List Bool) :
    pick bits ps = .ok vals ↔ ps.map (fun p => bits[p]?) = vals.map some := by
  induction ps generalizing vals with
  | nil =>
    unfold pick
    cases vals <;> simp
  | cons p ps ih =>
    unfold pick
    cases hb : bits[p]? with
    | none =>
      simp only [List.map_cons, hb]
      constructor
      · intro h; cases h
      · intro h; cases vals <;> simp at h
    | some b =>
      cases hp : pick bits ps with
      | error e =>
        simp only [List.map_cons, hb]
        constructor
        · intro h; cases h
        · intro h
          cases vals with
          | nil => simp at h
          | cons x xs =>
            simp only [List.map_cons, List.cons.injEq] at h
            rw [(ih xs).2 h.2] at hp
            cases hp
      | ok bs =>
        have hbs := (ih bs).1 hp
        simp only [List.map_cons, hb]
        constructor
        · intro h
          cases h
          rw [List.map_cons, hbs]
        · intro h
          cases vals with
          | nil => simp at h
          | cons x xs =>
            simp only [List.map_cons, List.cons.injEq, Option.some.injEq] at h
            rw [(ih xs).2 h.2] at hp
            cases hp
            rw [h.1]

theorem pick_of_lt (w : Word) (ps : List Nat) (h : ∀ p ∈ ps, p < 32) :
    pick (expand w) ps = .ok (ps.map (fun p => w.getMsbD p)) := by
  rw [pick_ok, List.map_map]
  apply List.map_congr_left
  intro p hp
  have := h p hp
  simp [expand, this]

/-- **C122.** Expanding a word to bits and compressing bits to a word undo each other. -/
theorem C122_inverse (w : Word) (bits : List Bool) (h : bits.length = 32) :
    compress (expand w) = w ∧ expand (compress bits) = bits ∧ (expand w).length = 32 :=
  ⟨compress_expand w, expand_compress bits h, by simp [expand]⟩

example : compress (expand 0x80000001) = 0x80000001 ∧
    expand 0x80000001 = true :: (List.replicate 30 false ++ [true]) := by decide +kernel

/-- **C122.** Extracting the bits at some positions gives the number that the bits spell, the first position
giving the highest bit. -/
theorem C122_extract_partial (w : Word) (ps : List Nat) (h : ∀ p ∈ ps, p < 32) (h0 : ps ≠ [])
    (h32 : ps.length ≤ 32) :
    ∃ v, compressBits (expand w) ps = .ok v ∧ v.toNat < 2 ^ ps.length ∧
      ∀ i, i < ps.length → v.toNat.testBit (ps.length - 1 - i) = w.getMsbD (ps[i]?.getD 0) := by
  have hl : ps.length ≠ 0 := fun hl => h0 (List.eq_nil_of_length_eq_zero hl)
  have hv : bitsVal (List.replicate (32 - ps.length) false ++ ps.map (fun p => w.getMsbD p)) =
      bitsVal (ps.map (fun p => w.getMsbD p)) := by
    have : ∀ (n : Nat) (l : List Bool), bitsVal (List.replicate n false ++ l) = bitsVal l := by
      intro n l
      induction n with
      | zero => rfl
      | succ n ih =>
        rw [List.replicate_succ, List.cons_append]
        show (if false = true then _ else 0) + _ = _
        rw [ih]
        simp
    exact this _ _
  have ht : (compress (List.replicate (32 - ps.length) false ++ ps.map (fun p => w.getMsbD p))).toNat =
      bitsVal (ps.map (fun p => w.getMsbD p)) := by
    rw [compress_toNat _ (by simp; omega), hv]
  refine ⟨compress (List.replicate (32 - ps.length) false ++ ps.map (fun p => w.getMsbD p)), ?_, ?_, ?_⟩
  · unfold compressBits
    rw [pick_of_lt w ps h]
    simp only
    rw [if_neg (show ¬ (ps.length = 0 ∨ ps.length > 32) by omega), if_pos (by simp)]
  · rw [ht]
    have := bitsVal_lt (ps.map (fun p => w.getMsbD p))
    rwa [List.length_map] at this
  · intro i hi
    rw [ht, testBit_bitsVal]
    have h1 : ps.length - 1 - i < (ps.map (fun p => w.getMsbD p)).length := by simp; omega
    have h2 : ps.length - 1 - (ps.length - 1 - i) = i := by omega
    simp [hi, h2]
    omega

example : compressBits (expand 0x80000003) [0, 5, 30, 31] = .ok 0b1011 := by decide +kernel

/-- **C122, what fails.** No positions, or more than 32, are refused with a `ValueError`, though the value of
no bits is 0; a position outside the array is an `IndexError`. -/
theorem C122_extract_refuses (w : Word) :
    compressBits (expand w) [] = .error .valueError ∧
    (∀ ps : List Nat, (∀ p ∈ ps, p < 32) → 32 < ps.length →
      compressBits (expand w) ps = .error .valueError) ∧
    (∀ ps : List Nat, (∃ p ∈ ps, 32 ≤ p) → compressBits (expand w) ps = .error .indexError) := by
  refine ⟨rfl, ?_, ?_⟩
  · intro ps h h32
    unfold compressBits
    rw [pick_of_lt w ps h]
    simp only [List.length_map]
    rw [if_pos (show ps.length = 0 ∨ ps.length > 32 from .inr h32), if_neg (by omega)]
  · intro ps ⟨p, hp, h⟩
    have hpick : pick (expand w) ps = .error .indexError := by
      induction ps with
      | nil => cases hp
      | cons q qs ih =>
        unfold pick
        cases hb : (expand w)[q]? with
        | none => rfl
        | some b =>
          have hq : q < 32 := by
            have := (List.getElem?_eq_some_iff.1 hb).1
            simpa [expand] using this
          have hp' : p ∈ qs := by
            rcases List.mem_cons.1 hp with rfl | h'
            · omega
            · exact h'
          simp only
          rw [ih hp']
    unfold compressBits
    rw [hpick]

/-- **C122.** An iterable has a single item if `is_single` says so, and the other way round, as long as no
item is `None`. -/
theorem C122_single_partial {α : Type} (l : List α) : isSingle (l.map some) = true ↔ l.length = 1 := by
  match l with
  | [] => simp [isSingle]
  | [a] => simp [isSingle]
  | a :: b :: l => simp [isSingle]

example : isSingle [some 5] = true ∧ isSingle [some 5, some 5] = false ∧ isSingle ([] : List (Option Nat)) = false := by
  decide

/-- **C122, what fails.** `None` counts as the end of the iterable. -/
theorem C122_none_is_no_item : isSingle ([none] : List (Option Nat)) = false ∧
    isSingle [some 1, none, some 2] = true := by decide

end Pacman.AtomKeys
