import Verif.Model.KeyMask
import Verif.Proofs.Bits
/-
Lemmas on bit arrays, key enumeration and key ranges.
-/

namespace Pacman.KeyMask

theorem bitsVal_lt (l : List Bool) : bitsVal l < 2 ^ l.length := by
  induction l with
  | nil => simp [bitsVal]
  | cons b bs ih =>
    simp only [bitsVal, List.length_cons, Nat.pow_succ]
    cases b <;> simp <;> omega

theorem testBit_bitsVal (l : List Bool) (i : Nat) :
    (bitsVal l).testBit i = (decide (i < l.length) && l.getD (l.length - 1 - i) false) := by
  induction l generalizing i with
  | nil => simp [bitsVal]
  | cons b bs ih =>
    have hlt := bitsVal_lt bs
    simp only [bitsVal, List.length_cons]
    rcases Nat.lt_trichotomy i bs.length with h | h | h
    · have e : bs.length + 1 - 1 - i = (bs.length - 1 - i) + 1 := by omega
      rw [e, List.getD_cons_succ]
      have : (bitsVal bs).testBit i = bs.getD (bs.length - 1 - i) false := by simp [ih, h]
      cases b
      · simp [this, Nat.lt_succ_of_lt h]
      · simp only [if_true]
        rw [Nat.testBit_two_pow_add_gt h, this]; simp [Nat.lt_succ_of_lt h]
    · subst h
      have e : bs.length + 1 - 1 - bs.length = 0 := by omega
      rw [e, List.getD_cons_zero]
      have ht := Nat.testBit_lt_two_pow hlt
      cases b
      · simp [ht]
      · simp only [if_true]
        rw [Nat.testBit_two_pow_add_eq, ht]; simp
    · have hn : ¬ i < bs.length + 1 := by omega
      simp only [hn, decide_false, Bool.false_and]
      apply Nat.testBit_lt_two_pow
      have : 2 ^ (bs.length + 1) ≤ 2 ^ i := Nat.pow_le_pow_right (by omega) (by omega)
      rw [Nat.pow_succ] at this
      cases b <;> simp <;> omega

theorem bitsVal_inj {a b : List Bool} (hl : a.length = b.length) (h : bitsVal a = bitsVal b) :
    a = b := by
  apply List.ext_getElem hl
  intro i h1 h2
  have := testBit_bitsVal a (a.length - 1 - i)
  have h' := testBit_bitsVal b (b.length - 1 - i)
  rw [h, hl] at this
  rw [this] at h'
  have e : b.length - 1 - (b.length - 1 - i) = i := by omega
  have hlt : b.length - 1 - i < b.length := by omega
  rw [e] at h'
  simpa [hlt, List.getD_eq_getElem?_getD, h1, h2] using h'

@[simp] theorem length_expand (w : Word) : (expand w).length = 32 := by simp [expand]

theorem expand_getElem (w : Word) (i : Nat) (h : i < (expand w).length) :
    (expand w)[i] = w.getMsbD i := by simp [expand]

theorem bitsVal_expand (w : Word) : bitsVal (expand w) = w.toNat := by
  apply Nat.eq_of_testBit_eq
  intro i
  rw [testBit_bitsVal, length_expand, BitVec.testBit_toNat]
  by_cases h : i < 32
  · have : 32 - 1 - i < (expand w).length := by simp; omega
    rw [List.getD_eq_getElem?_getD, List.getElem?_eq_getElem this, expand_getElem]
    simp only [h, decide_true, Bool.true_and, Option.getD_some]
    rw [BitVec.getMsbD_eq_getLsbD]
    have e : 32 - 1 - (32 - 1 - i) = i := by omega
    have : 32 - 1 - i < 32 := by omega
    rw [e]; simp [this]
  · simp [h, BitVec.getLsbD_of_ge w i (by omega)]

theorem compress_toNat (l : List Bool) (h : l.length = 32) : (compress l).toNat = bitsVal l := by
  have := bitsVal_lt l
  rw [h] at this
  simp only [compress, BitVec.toNat_ofNat]
  exact Nat.mod_eq_of_lt this

theorem compress_expand (w : Word) : compress (expand w) = w := by
  apply BitVec.eq_of_toNat_eq
  rw [compress_toNat _ (length_expand w), bitsVal_expand]

theorem expand_compress (l : List Bool) (h : l.length = 32) : expand (compress l) = l := by
  apply bitsVal_inj (by simp [h])
  rw [bitsVal_expand, compress_toNat l h]

theorem length_assign (b : List Bool) (p : List Nat) (v : List Bool) :
    (assign b p v).length = b.length := by
  unfold assign
  generalize p.zip v = z
  induction z generalizing b with
  | nil => rfl
  | cons x z ih => simp [List.foldl_cons, ih]

theorem lastN_expand_length (n : Nat) (w : Word) (h0 : n ≠ 0) (h : n ≤ 32) :
    (lastN n (expand w)).length = n := by
  simp [lastN, h0]; omega

theorem bitsVal_drop (l : List Bool) (n : Nat) (h : n ≤ l.length) :
    bitsVal (l.drop (l.length - n)) = bitsVal l % 2 ^ n := by
  apply Nat.eq_of_testBit_eq
  intro i
  rw [testBit_bitsVal, Nat.testBit_mod_two_pow, testBit_bitsVal]
  have hl : (l.drop (l.length - n)).length = n := by simp; omega
  rw [hl]
  by_cases hi : i < n
  · have h2 : i < l.length := by omega
    simp only [hi, h2, decide_true, Bool.true_and, List.getD_eq_getElem?_getD, List.getElem?_drop]
    have : l.length - n + (n - 1 - i) = l.length - 1 - i := by omega
    rw [this]
  · simp [hi]

theorem bitsVal_lastN (n v : Nat) (h0 : n ≠ 0) (h : n ≤ 32) (hv : v < 2 ^ n) :
    bitsVal (lastN n (expand (BitVec.ofNat 32 v))) = v := by
  unfold lastN
  rw [if_neg h0, bitsVal_drop _ _ (by simpa using h), bitsVal_expand, BitVec.toNat_ofNat]
  have : 2 ^ n ≤ 2 ^ 32 := Nat.pow_le_pow_right (by omega) h
  rw [Nat.mod_eq_of_lt (by omega : v < 2 ^ 32), Nat.mod_eq_of_lt hv]

/-! ### Enumeration in order -/

/-- Walks over mask and key, taking the next value bit at each zero of the mask. -/
def merge : List Bool → List Bool → List Bool → List Bool
  | true :: m, k :: ks, vs => k :: merge m ks vs
  | false :: m, _ :: ks, v :: vs => v :: merge m ks vs
  | _, ks, _ => ks

/-- The bits at the zeros of the mask. -/
def extract : List Bool → List Bool → List Bool
  | true :: m, _ :: ks => extract m ks
  | false :: m, k :: ks => k :: extract m ks
  | _, _ => []

def nZeros (m : List Bool) : Nat := m.countP (fun b => !b)

theorem zeros_spec (pre m : List Bool) :
    ((List.range' pre.length m.length).filter (fun i => (pre ++ m)[i]? == some false)).length =
      nZeros m ∧
    ∀ (ks vs : List Bool), ks.length = m.length →
      vs.length = nZeros m → ∀ pk : List Bool, pk.length = pre.length →
    assign (pk ++ ks) ((List.range' pre.length m.length).filter
      (fun i => (pre ++ m)[i]? == some false)) vs = pk ++ merge m ks vs := by
  induction m generalizing pre with
  | nil =>
    refine ⟨by simp [nZeros], ?_⟩
    intro ks vs hk hv pk hpk
    have : ks = [] := List.eq_nil_of_length_eq_zero (by simpa using hk)
    subst this
    simp [assign, merge]
  | cons b m ih =>
    have e : pre ++ b :: m = (pre ++ [b]) ++ m := by simp
    have hl : (pre ++ [b]).length = pre.length + 1 := by simp
    have ih' := ih (pre ++ [b])
    rw [hl, ← e] at ih'
    have hr : List.range' pre.length (b :: m).length =
        pre.length :: List.range' (pre.length + 1) m.length := by
      simp [List.range'_succ]
    have hg : (pre ++ b :: m)[pre.length]? = some b := by simp
    rw [hr, List.filter_cons, hg]
    cases b with
    | true =>
      simp only [show (some true == some false) = false from rfl, Bool.false_eq_true, if_false]
      refine ⟨by rw [ih'.1]; simp [nZeros], ?_⟩
      intro ks vs hk hv pk hpk
      cases ks with
      | nil => simp at hk
      | cons k ks =>
        have := ih'.2 ks vs (by simpa using hk) (by simpa [nZeros] using hv) (pk ++ [k])
          (by simp [hpk])
        have e2 : pk ++ k :: ks = pk ++ [k] ++ ks := by simp
        rw [e2, this, merge]; simp
    | false =>
      simp only [BEq.rfl, if_true]
      refine ⟨by rw [List.length_cons, ih'.1]; simp [nZeros], ?_⟩
      intro ks vs hk hv pk hpk
      cases ks with
      | nil => simp at hk
      | cons k ks =>
        cases vs with
        | nil => simp [nZeros] at hv
        | cons v vs =>
          have := ih'.2 ks vs (by simpa using hk) (by simpa [nZeros] using hv) (pk ++ [v])
            (by simp [hpk])
          unfold assign at this ⊢
          rw [List.zip_cons_cons, List.foldl_cons]
          have e2 : (pk ++ k :: ks).set pre.length v = pk ++ [v] ++ ks := by
            rw [← hpk]; simp
          rw [e2, this, merge]; simp

theorem zeros_length (m : List Bool) : (zeros m).length = nZeros m := by
  have := (zeros_spec [] m).1
  simpa [zeros, List.range_eq_range'] using this

theorem assign_zeros (m ks vs : List Bool) (hk : ks.length = m.length) (hv : vs.length = nZeros m) :
    assign ks (zeros m) vs = merge m ks vs := by
  have := (zeros_spec [] m).2 ks vs hk hv [] rfl
  simpa [zeros, List.range_eq_range'] using this

theorem merge_length (m ks vs : List Bool) : (merge m ks vs).length = ks.length := by
  fun_induction merge m ks vs <;> simp_all

theorem merge_lt (m ks : List Bool) (hk : ks.length = m.length) :
    ∀ vs ws : List Bool, vs.length = nZeros m → ws.length = nZeros m → bitsVal vs < bitsVal ws →
    bitsVal (merge m ks vs) < bitsVal (merge m ks ws) := by
  induction m generalizing ks with
  | nil =>
    intro vs ws hv hw h
    simp [nZeros] at hv hw
    subst hv; subst hw; simp at h
  | cons b m ih =>
    cases ks with
    | nil => simp at hk
    | cons k ks =>
      have hk' : ks.length = m.length := by simpa using hk
      intro vs ws hv hw h
      cases b with
      | true =>
        have := ih ks hk' vs ws (by simpa [nZeros] using hv) (by simpa [nZeros] using hw) h
        simp only [merge, bitsVal, merge_length]; omega
      | false =>
        cases vs with
        | nil => simp [nZeros] at hv
        | cons v vs =>
          cases ws with
          | nil => simp [nZeros] at hw
          | cons w ws =>
            have hv' : vs.length = nZeros m := by simpa [nZeros] using hv
            have hw' : ws.length = nZeros m := by simpa [nZeros] using hw
            have ih' := ih ks hk' vs ws hv' hw'
            have b1 := bitsVal_lt (merge m ks vs)
            have b2 := bitsVal_lt ws
            simp only [merge, bitsVal, merge_length] at h b1 ⊢
            rw [hv', hw'] at h
            rw [hw'] at b2
            cases v <;> cases w
            · simp at h ⊢; exact ih' h
            · simp at h ⊢; omega
            · simp at h; omega
            · simp at h ⊢; exact ih' h

theorem extract_length (m ks : List Bool) (hk : ks.length = m.length) :
    (extract m ks).length = nZeros m := by
  induction m generalizing ks with
  | nil => simp [extract, nZeros]
  | cons b m ih =>
    cases ks with
    | nil => simp at hk
    | cons k ks =>
      have := ih ks (by simpa using hk)
      cases b <;> simp [extract, nZeros] at this ⊢ <;> exact this

/-- `ks` agrees with the key at the ones of the mask. -/
def Agree (m key ks : List Bool) : Prop :=
  ∀ i : Nat, m[i]? = some true → ks[i]? = key[i]?

theorem merge_extract (m key ks : List Bool) (h1 : key.length = m.length)
    (h2 : ks.length = m.length) (h : Agree m key ks) : merge m key (extract m ks) = ks := by
  induction m generalizing key ks with
  | nil =>
    have h1 := List.eq_nil_of_length_eq_zero h1
    have h2 := List.eq_nil_of_length_eq_zero h2
    subst h1; subst h2; rfl
  | cons b m ih =>
    cases key with
    | nil => simp at h1
    | cons c key =>
      cases ks with
      | nil => simp at h2
      | cons k ks =>
        have ih' := ih key ks (by simpa using h1) (by simpa using h2)
          (fun i hi => by simpa using h (i + 1) (by simpa using hi))
        cases b with
        | true =>
          have := h 0 (by simp)
          simp at this
          simp [merge, extract, ih', this]
        | false => simp [merge, extract, ih']

theorem agree_merge (m key vs : List Bool) (h1 : key.length = m.length)
    (h2 : vs.length = nZeros m) : Agree m key (merge m key vs) := by
  induction m generalizing key vs with
  | nil => intro i hi; simp at hi
  | cons b m ih =>
    cases key with
    | nil => simp at h1
    | cons c key =>
      cases b with
      | true =>
        have ih' := ih key vs (by simpa using h1) (by simpa [nZeros] using h2)
        intro i hi
        cases i with
        | zero => simp [merge]
        | succ i => simpa [merge] using ih' i (by simpa using hi)
      | false =>
        cases vs with
        | nil => simp [nZeros] at h2
        | cons v vs =>
          have ih' := ih key vs (by simpa using h1) (by simpa [nZeros] using h2)
          intro i hi
          cases i with
          | zero => simp at hi
          | succ i => simpa [merge] using ih' i (by simpa using hi)

/-- Agreement of the bits is a match of the word. -/
theorem agree_iff (mask key k : Word) (hv : key &&& mask = key) :
    Agree (expand mask) (expand key) (expand k) ↔ k &&& mask = key := by
  constructor
  · intro h
    apply BitVec.eq_of_getMsbD_eq
    intro i hi
    have hk : key.getMsbD i = (key.getMsbD i && mask.getMsbD i) := by
      have := congrArg (fun w => BitVec.getMsbD w i) hv
      simpa using this.symm
    have := h i
    simp [expand, hi] at this
    simp only [BitVec.getMsbD_and]
    rw [hk]
    cases hm : mask.getMsbD i
    · simp
    · simp [this hm]
  · intro h i hi
    have hlt : i < 32 := by
      rcases Nat.lt_or_ge i 32 with h' | h'
      · exact h'
      · rw [List.getElem?_eq_none (by simpa using h')] at hi; cases hi
    simp [expand, hlt] at hi ⊢
    rw [← h]; simp [hi]

theorem nZeros_le (w : Word) : nZeros (expand w) ≤ 32 := by
  have := List.countP_le_length (p := fun b => !b) (l := expand w)
  simpa [nZeros] using this

theorem nZeros_zero {w : Word} (h : nZeros (expand w) = 0) (k : Word) : k &&& w = k := by
  unfold nZeros at h
  rw [List.countP_eq_zero] at h
  apply BitVec.eq_of_getMsbD_eq
  intro i hi
  have := h (w.getMsbD i) (by simp only [expand, List.mem_map, List.mem_range]; exact ⟨i, hi, rfl⟩)
  simp at this
  simp [this]

theorem keyOf_eq (key mask : Word) (v : Nat) (h0 : nZeros (expand mask) ≠ 0) :
    expand (keyOf key mask v) = merge (expand mask) (expand key)
      (lastN (nZeros (expand mask)) (expand (BitVec.ofNat 32 v))) := by
  unfold keyOf
  simp only [zeros_length]
  rw [assign_zeros _ _ _ (by simp) (by rw [lastN_expand_length _ _ h0 (nZeros_le mask)])]
  exact expand_compress _ (by simp [merge_length])

theorem keyOf_lt (key mask : Word) (v w : Nat) (h0 : nZeros (expand mask) ≠ 0) (hvw : v < w)
    (hw : w < 2 ^ nZeros (expand mask)) : (keyOf key mask v).toNat < (keyOf key mask w).toNat := by
  rw [← bitsVal_expand, ← bitsVal_expand, keyOf_eq _ _ _ h0, keyOf_eq _ _ _ h0]
  apply merge_lt _ _ (by simp) _ _ (lastN_expand_length _ _ h0 (nZeros_le mask))
    (lastN_expand_length _ _ h0 (nZeros_le mask))
  rw [bitsVal_lastN _ _ h0 (nZeros_le mask) (by omega), bitsVal_lastN _ _ h0 (nZeros_le mask) hw]
  exact hvw

theorem keyOf_matches (key mask : Word) (hv : key &&& mask = key)
    (h0 : nZeros (expand mask) ≠ 0) (k : Word) :
    k &&& mask = key ↔ ∃ v < 2 ^ nZeros (expand mask), keyOf key mask v = k := by
  constructor
  · intro h
    have ha := (agree_iff mask key k hv).2 h
    refine ⟨bitsVal (extract (expand mask) (expand k)), ?_, ?_⟩
    · have := bitsVal_lt (extract (expand mask) (expand k))
      rwa [extract_length _ _ (by simp)] at this
    · rw [← compress_expand (keyOf _ _ _), ← compress_expand k, keyOf_eq _ _ _ h0]
      congr 1
      have hlen := extract_length (expand mask) (expand k) (by simp)
      have : lastN (nZeros (expand mask)) (expand (BitVec.ofNat 32
          (bitsVal (extract (expand mask) (expand k))))) = extract (expand mask) (expand k) := by
        apply bitsVal_inj (by rw [lastN_expand_length _ _ h0 (nZeros_le mask), hlen])
        apply bitsVal_lastN _ _ h0 (nZeros_le mask)
        have := bitsVal_lt (extract (expand mask) (expand k))
        rwa [hlen] at this
      rw [compress_expand, this]
      exact merge_extract _ _ _ (by simp) (by simp) ha
  · rintro ⟨v, _, rfl⟩
    rw [← agree_iff mask key _ hv, keyOf_eq _ _ _ h0]
    exact agree_merge _ _ _ (by simp) (lastN_expand_length _ _ h0 (nZeros_le mask))

/-! ### The whole call -/

theorem fill_ok (key mask : Word) (offset : Nat) (n value : Nat) (A B C : List Word)
    (hA : A.length = value + offset) (hB : B.length = n) :
    fill key mask offset n value (A ++ B ++ C) =
      .ok (A ++ (List.range' value n).map (keyOf key mask) ++ C) := by
  induction n generalizing value A B with
  | zero =>
    have := List.eq_nil_of_length_eq_zero hB
    subst this
    simp [fill]
  | succ n ih =>
    cases B with
    | nil => simp at hB
    | cons b B =>
      unfold fill setItem
      have hlt : value + offset < (A ++ b :: B ++ C).length := by simp; omega
      simp only [hlt, if_true]
      have e : (A ++ b :: B ++ C).set (value + offset) (keyOf key mask value) =
          (A ++ [keyOf key mask value]) ++ B ++ C := by rw [← hA]; simp
      rw [e, ih (value + 1) (A ++ [keyOf key mask value]) B (by simp; omega) (by simpa using hB)]
      simp [List.range'_succ]

theorem fill_error (key mask : Word) (offset : Nat) (n value : Nat) (a : List Word)
    (hv : value + offset ≤ a.length ∨ n ≠ 0) (h : a.length < value + offset + n) :
    fill key mask offset n value a = .error .indexError := by
  induction n generalizing value a with
  | zero => omega
  | succ n ih =>
    unfold fill setItem
    split
    · next h' =>
      split at h'
      · cases h'
      · cases h'; rfl
    · next a' h' =>
      split at h'
      · next hlt =>
        cases h'
        apply ih
        · left; simp; omega
        · simp; omega
      · cases h'

/-! ### Ranges -/

theorem firstZeros_spec (bits : List Bool) (n : Nat) (hn : n ≤ bits.length) :
    (firstZeros bits n).1 + (firstZeros bits n).2 = n ∧
    (∀ i, (firstZeros bits n).2 ≤ i → i < n → bits[i]? = some false) := by
  induction n with
  | zero => simp [firstZeros]
  | succ n ih =>
    unfold firstZeros
    have ih' := ih (by omega)
    split
    · next h =>
      refine ⟨by simp only; omega, ?_⟩
      intro i h1 h2
      rcases Nat.lt_or_ge i n with h3 | h3
      · exact ih'.2 i h1 h3
      · have : i = n := by omega
        subst this; simpa using h
    · refine ⟨by simp, ?_⟩
      intro i h1 h2; simp only at h1; omega

theorem mem_remainingZeros (bits : List Bool) (n i : Nat) :
    i ∈ remainingZeros bits n ↔ i < n ∧ bits[i]? = some false := by
  induction n with
  | zero => simp [remainingZeros]
  | succ n ih =>
    unfold remainingZeros
    split
    · next h =>
      rw [List.mem_cons, ih]
      have h' : bits[n]? = some false := by simpa using h
      constructor
      · rintro (rfl | ⟨h1, h2⟩)
        · exact ⟨by omega, h'⟩
        · exact ⟨by omega, h2⟩
      · rintro ⟨h1, h2⟩
        by_cases hin : i = n
        · exact Or.inl hin
        · exact Or.inr ⟨by omega, h2⟩
    · next h =>
      rw [ih]
      constructor
      · rintro ⟨h1, h2⟩; exact ⟨by omega, h2⟩
      · rintro ⟨h1, h2⟩
        refine ⟨?_, h2⟩
        by_cases hin : i = n
        · subst hin; simp [h2] at h
        · omega

theorem remainingZeros_nodup (bits : List Bool) (n : Nat) : (remainingZeros bits n).Nodup := by
  induction n with
  | zero => simp [remainingZeros]
  | succ n ih =>
    unfold remainingZeros
    split
    · rw [List.nodup_cons]
      refine ⟨?_, ih⟩
      rw [mem_remainingZeros]; omega
    · exact ih

theorem remainingZeros_length (bits : List Bool) (n : Nat) : (remainingZeros bits n).length ≤ n := by
  induction n with
  | zero => simp [remainingZeros]
  | succ n ih =>
    unfold remainingZeros
    split
    · simpa using ih
    · omega

theorem assign_not_mem (b : List Bool) (p : List Nat) (v : List Bool) (i : Nat) (h : i ∉ p) :
    (assign b p v)[i]? = b[i]? := by
  unfold assign
  induction p generalizing b v with
  | nil => simp
  | cons q p ih =>
    cases v with
    | nil => simp
    | cons x v =>
      rw [List.zip_cons_cons, List.foldl_cons, ih _ _ (fun h' => h (List.mem_cons_of_mem _ h'))]
      rw [List.getElem?_set_ne]
      rintro rfl; simp at h

theorem assign_mem (b : List Bool) (p : List Nat) (v : List Bool) (hn : p.Nodup)
    (hl : v.length = p.length) (hb : ∀ i ∈ p, i < b.length) (j : Nat) (hj : j < p.length) :
    (assign b p v)[p[j]]? = v[j]? := by
  induction p generalizing b v j with
  | nil => simp at hj
  | cons q p ih =>
    cases v with
    | nil => simp at hl
    | cons x v =>
      rw [List.nodup_cons] at hn
      have hstep : assign b (q :: p) (x :: v) = assign (b.set q x) p v := by
        unfold assign; rw [List.zip_cons_cons, List.foldl_cons]
      rw [hstep]
      cases j with
      | zero =>
        simp only [List.getElem_cons_zero]
        rw [assign_not_mem _ _ _ _ hn.1]
        have := hb q (by simp)
        simp [this]
      | succ j =>
        simp only [List.getElem_cons_succ, List.getElem?_cons_succ]
        exact ih (b.set q x) v hn.2 (by simpa using hl)
          (by intro i hi; simpa using hb i (List.mem_cons_of_mem _ hi)) j (by simpa using hj)

theorem testBit_top (w : Word) (f p : Nat) (hfp : f + p = 32) (j : Nat) :
    (w.toNat / 2 ^ f).testBit j = (decide (j < p) && w.getMsbD (p - 1 - j)) := by
  rw [Nat.testBit_div_two_pow, BitVec.testBit_toNat, BitVec.getMsbD_eq_getLsbD]
  by_cases h : j < p
  · have h1 : p - 1 - j < 32 := by omega
    have h2 : 32 - 1 - (p - 1 - j) = f + j := by omega
    have h3 : j + f = f + j := by omega
    simp [h, h1, h2, h3]
  · simp only [h, decide_false, Bool.false_and]
    exact BitVec.getLsbD_of_ge _ _ (by omega)

theorem top_eq_iff (k w : Word) (f p : Nat) (hfp : f + p = 32) :
    k.toNat / 2 ^ f = w.toNat / 2 ^ f ↔ ∀ i < p, k.getMsbD i = w.getMsbD i := by
  constructor
  · intro h i hi
    have h1 := testBit_top k f p hfp (p - 1 - i)
    have h2 := testBit_top w f p hfp (p - 1 - i)
    rw [h, h2] at h1
    have e1 : p - 1 - (p - 1 - i) = i := by omega
    have e2 : p - 1 - i < p := by omega
    simpa [e1, e2] using h1.symm
  · intro h
    apply Nat.eq_of_testBit_eq
    intro j
    rw [testBit_top k f p hfp, testBit_top w f p hfp]
    by_cases hj : j < p
    · rw [h (p - 1 - j) (by omega)]
    · simp [hj]

theorem low_zero (w : Word) (f p : Nat) (hfp : f + p = 32)
    (h : ∀ i, p ≤ i → i < 32 → w.getMsbD i = false) : w.toNat % 2 ^ f = 0 := by
  apply Nat.eq_of_testBit_eq
  intro j
  rw [Nat.testBit_mod_two_pow, BitVec.testBit_toNat, Nat.zero_testBit]
  by_cases hj : j < f
  · have := h (32 - 1 - j) (by omega) (by omega)
    rw [BitVec.getMsbD_eq_getLsbD] at this
    have e : 32 - 1 - (32 - 1 - j) = j := by omega
    have e2 : 32 - 1 - j < 32 := by omega
    rw [e] at this
    simp [e2] at this
    simp [this]
  · simp [hj]

/-- The bits of an assigned word. -/
theorem compress_assign_bit (key : Word) (p : List Nat) (v : List Bool) (i : Nat) (hi : i < 32) :
    (compress (assign (expand key) p v)).getMsbD i = ((assign (expand key) p v)[i]?).getD false := by
  have hl : (assign (expand key) p v).length = 32 := by rw [length_assign]; simp
  have := expand_getElem (compress (assign (expand key) p v)) i (by simpa using hi)
  rw [← this]
  have e := expand_compress _ hl
  simp only [e]
  rw [List.getElem?_eq_getElem (by rw [hl]; exact hi)]
  rfl

theorem ranges_spec (key mask : Word) (hv : key &&& mask = key) :
    ∃ (f : Nat) (G : List Word), f ≤ 32 ∧
      getKeyRanges key mask = G.map (fun w => (w, 2 ^ f)) ∧ G.Nodup ∧
      (∀ w ∈ G, w.toNat % 2 ^ f = 0) ∧
      (∀ a ∈ G, ∀ b ∈ G, a.toNat / 2 ^ f = b.toNat / 2 ^ f → a = b) ∧
      (∀ k : Word, k &&& mask = key ↔ ∃ w ∈ G, k.toNat / 2 ^ f = w.toNat / 2 ^ f) := by
  obtain ⟨hfp, hfirst⟩ := firstZeros_spec (expand mask) 32 (by simp)
  have hdef : ∀ G, getKeyRanges key mask = G ↔ (if (remainingZeros (expand mask)
      (firstZeros (expand mask) 32).2).length = 0 then [(key, 2 ^ (firstZeros (expand mask) 32).1)]
    else (List.range (2 ^ (remainingZeros (expand mask)
        (firstZeros (expand mask) 32).2).length)).map (fun v =>
      (compress (assign (expand key) (remainingZeros (expand mask)
        (firstZeros (expand mask) 32).2) (lastN (remainingZeros (expand mask)
        (firstZeros (expand mask) 32).2).length (expand (BitVec.ofNat 32 v)))),
        2 ^ (firstZeros (expand mask) 32).1))) = G := by
    intro G
    unfold getKeyRanges
    simp only [length_expand]
  generalize hF : (firstZeros (expand mask) 32).1 = f at *
  generalize hP : (firstZeros (expand mask) 32).2 = p at *
  have hmem := mem_remainingZeros (expand mask) p
  have hnd := remainingZeros_nodup (expand mask) p
  have hlen := remainingZeros_length (expand mask) p
  generalize hR : remainingZeros (expand mask) p = rem at *
  have hbit : ∀ (w : Word) (i : Nat), i < 32 → (expand w)[i]? = some (w.getMsbD i) := by
    intro w i hi; simp [expand, hi]
  -- mask bits
  have hlow : ∀ i, p ≤ i → i < 32 → mask.getMsbD i = false := by
    intro i h1 h2
    have := hfirst i h1 h2
    rw [hbit _ _ h2] at this; simpa using this
  have hhigh : ∀ i, i < p → i ∉ rem → mask.getMsbD i = true := by
    intro i h1 h2
    rw [hmem, hbit _ _ (by omega)] at h2
    cases hm : mask.getMsbD i
    · exact absurd ⟨h1, by rw [hm]⟩ h2
    · rfl
  have hrem : ∀ i, i ∈ rem → i < p ∧ mask.getMsbD i = false := by
    intro i h1
    rw [hmem] at h1
    refine ⟨h1.1, ?_⟩
    have := h1.2
    rw [hbit _ _ (by omega)] at this; simpa using this
  have hkey : ∀ i, i < 32 → mask.getMsbD i = false → key.getMsbD i = false := by
    intro i _ hm
    have := congrArg (fun w => BitVec.getMsbD w i) hv
    simp [hm] at this; exact this
  have hmatch : ∀ k : Word, k &&& mask = key ↔
      ∀ i < p, i ∉ rem → k.getMsbD i = key.getMsbD i := by
    intro k
    rw [← agree_iff mask key k hv]
    constructor
    · intro h i h1 h2
      have := h i (by rw [hbit _ _ (by omega), hhigh i h1 h2])
      rw [hbit _ _ (by omega), hbit _ _ (by omega)] at this
      simpa using this
    · intro h i hi
      have hlt : i < 32 := by
        rcases Nat.lt_or_ge i 32 with h' | h'
        · exact h'
        · rw [List.getElem?_eq_none (by simpa using h')] at hi; cases hi
      rw [hbit _ _ hlt] at hi
      simp only [Option.some.injEq] at hi
      have h1 : i < p := by
        rcases Nat.lt_or_ge i p with h' | h'
        · exact h'
        · rw [hlow i h' hlt] at hi; cases hi
      have h2 : i ∉ rem := by
        intro h'
        rw [(hrem i h').2] at hi; cases hi
      rw [hbit _ _ hlt, hbit _ _ hlt, h i h1 h2]
  by_cases h0 : rem.length = 0
  · have hr : rem = [] := List.eq_nil_of_length_eq_zero h0
    refine ⟨f, [key], by omega, (hdef _).2 (by simp [h0]), by simp, ?_, by simp, ?_⟩
    · intro w hw; simp at hw; subst hw
      exact low_zero w f p hfp (fun i h1 h2 => hkey i h2 (hlow i h1 h2))
    · intro k
      rw [hmatch k]
      simp only [List.mem_singleton, exists_eq_left]
      rw [top_eq_iff k key f p hfp]
      subst hr; simp
  · -- several sets
    have hRle : rem.length ≤ 32 := by omega
    let vals : Nat → List Bool := fun v => lastN rem.length (expand (BitVec.ofNat 32 v))
    have hvl : ∀ v, (vals v).length = rem.length := fun v => lastN_expand_length _ _ h0 hRle
    let g : Nat → Word := fun v => compress (assign (expand key) rem (vals v))
    have hgn : ∀ v i, i < 32 → i ∉ rem → (g v).getMsbD i = key.getMsbD i := by
      intro v i hi hn
      show (compress (assign (expand key) rem (vals v))).getMsbD i = _
      rw [compress_assign_bit _ _ _ _ hi, assign_not_mem _ _ _ _ hn, hbit _ _ hi]; rfl
    have hgm : ∀ v j (hj : j < rem.length), (g v).getMsbD rem[j] = ((vals v)[j]?).getD false := by
      intro v j hj
      have hlt : rem[j] < 32 := by have := (hrem _ (List.getElem_mem hj)).1; omega
      show (compress (assign (expand key) rem (vals v))).getMsbD _ = _
      rw [compress_assign_bit _ _ _ _ hlt, assign_mem _ _ _ hnd (hvl v) _ j hj]
      intro i hi
      have := (hrem i hi).1
      simp; omega
    have hinj : ∀ v w, v < 2 ^ rem.length → w < 2 ^ rem.length →
        (∀ i < p, (g v).getMsbD i = (g w).getMsbD i) → v = w := by
      intro v w h1 h2 h
      have : vals v = vals w := by
        apply List.ext_getElem (by rw [hvl, hvl])
        intro j hj1 hj2
        have hj : j < rem.length := by rw [← hvl v]; exact hj1
        have hb := h rem[j] (hrem _ (List.getElem_mem hj)).1
        rw [hgm v j hj, hgm w j hj] at hb
        simpa [hj1, hj2] using hb
      rw [← bitsVal_lastN rem.length v h0 hRle h1, ← bitsVal_lastN rem.length w h0 hRle h2]
      exact congrArg bitsVal this
    refine ⟨f, (List.range (2 ^ rem.length)).map g, by omega,
      (hdef _).2 (by simp only [h0, if_false, List.map_map]; rfl), ?_, ?_, ?_, ?_⟩
    · rw [List.Nodup, List.pairwise_map]
      apply List.Pairwise.imp_of_mem _ List.pairwise_lt_range
      intro a b ha hb hab heq
      rw [List.mem_range] at ha hb
      have := hinj a b ha hb (fun i _ => by rw [heq])
      omega
    · intro w hw
      obtain ⟨v, hv', rfl⟩ := List.mem_map.1 hw
      apply low_zero _ f p hfp
      intro i h1 h2
      rw [hgn v i h2 (fun h => by have := (hrem i h).1; omega)]
      exact hkey i h2 (hlow i h1 h2)
    · intro a ha b hb h
      obtain ⟨v, hv', rfl⟩ := List.mem_map.1 ha
      obtain ⟨w, hw', rfl⟩ := List.mem_map.1 hb
      rw [top_eq_iff _ _ f p hfp] at h
      rw [hinj v w (List.mem_range.1 hv') (List.mem_range.1 hw') h]
    · intro k
      rw [hmatch k]
      constructor
      · intro h
        have hbl : (rem.map (fun i => k.getMsbD i)).length = rem.length := by simp
        have hvv : vals (bitsVal (rem.map (fun i => k.getMsbD i))) =
            rem.map (fun i => k.getMsbD i) := by
          apply bitsVal_inj (by rw [hvl, hbl])
          apply bitsVal_lastN _ _ h0 hRle
          have := bitsVal_lt (rem.map (fun i => k.getMsbD i))
          rwa [hbl] at this
        refine ⟨g (bitsVal (rem.map (fun i => k.getMsbD i))), ?_, ?_⟩
        · apply List.mem_map_of_mem
          rw [List.mem_range]
          have := bitsVal_lt (rem.map (fun i => k.getMsbD i))
          rwa [hbl] at this
        · rw [top_eq_iff _ _ f p hfp]
          intro i hi
          by_cases hm : i ∈ rem
          · obtain ⟨j, hj, rfl⟩ := List.getElem_of_mem hm
            rw [hgm _ j hj, hvv]
            simp [hj]
          · rw [hgn _ i (by omega) hm]
            exact h i hi hm
      · rintro ⟨w, hw, h⟩ i hi hm
        obtain ⟨v, hv', rfl⟩ := List.mem_map.1 hw
        rw [top_eq_iff _ _ f p hfp] at h
        rw [h i hi, hgn v i (by omega) hm]

end Pacman.KeyMask
