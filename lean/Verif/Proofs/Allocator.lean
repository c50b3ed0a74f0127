import Verif.Proofs.AllocatorZones
import Verif.Proofs.Bits
import Verif.Proofs.Sort
import Verif.Props.KeyMask
/-
The loop of the allocator and the blocks it hands out.
-/

namespace Pacman.Alloc

theorem land_maskOf {k b : Nat} (hk : k < 2 ^ 32) (hb : b ≤ 32) :
    k &&& maskOf b = k / 2 ^ b * 2 ^ b := by
  have hp : 0 < 2 ^ b := Nat.two_pow_pos b
  have hle : 2 ^ b ≤ 2 ^ 32 := Nat.pow_le_pow_right (by omega) hb
  have hm : maskOf b = 2 ^ 32 - ((2 ^ b - 1) + 1) := by unfold maskOf; omega
  apply Nat.eq_of_testBit_eq
  intro i
  rw [Nat.testBit_and, hm, Nat.testBit_two_pow_sub_succ (by omega), Nat.testBit_two_pow_sub_one,
    Nat.testBit_mul_two_pow, Nat.testBit_div_two_pow]
  by_cases hi : b ≤ i
  · have h1 : ¬ i < b := by omega
    have h2 : i - b + b = i := by omega
    simp only [h1, hi, h2, decide_false, decide_true, Bool.not_false, Bool.and_true, Bool.true_and]
    by_cases h3 : i < 32
    · simp [h3]
    · have : k.testBit i = false := by
        apply Nat.testBit_lt_two_pow
        exact Nat.lt_of_lt_of_le hk (Nat.pow_le_pow_right (by omega) (by omega))
      simp [this]
  · have h1 : i < b := by omega
    simp [h1, hi]

theorem land_maskOf_mul {x b : Nat} (hk : x * 2 ^ b < 2 ^ 32) (hb : b ≤ 32) :
    (x * 2 ^ b) &&& maskOf b = x * 2 ^ b := by
  rw [land_maskOf hk hb, Nat.mul_div_cancel _ (Nat.two_pow_pos b)]

theorem blocked_bits (b : Nat) (m k : Word) :
    (k >>> b) &&& ((m >>> b) ||| BitVec.ofNat 32 ((2 ^ b - 1) * 2 ^ (bitsInKey - b))) =
      (k &&& m) >>> b := by
  apply word_ext
  intro i hi
  simp only [BitVec.getLsbD_and, BitVec.getLsbD_or, BitVec.getLsbD_ushiftRight, BitVec.getLsbD_ofNat,
    Nat.testBit_mul_two_pow, bitsInKey]
  by_cases h : 32 - b ≤ i
  · have : k.getLsbD (b + i) = false := BitVec.getLsbD_of_ge _ _ (by omega)
    simp [this]
  · simp [h]

/-- Every block met by a fixed key is blocked. -/
theorem mem_blockedBy {b : Nat} {km : Word × Word} (hv : km.1 &&& km.2 = km.1) {k : Word}
    (hk : k &&& km.2 = km.1) : k.toNat / 2 ^ b ∈ blockedBy b km := by
  have h1 := blocked_bits b km.2 k
  have h2 := blocked_bits b km.2 km.1
  rw [hk] at h1
  rw [hv] at h2
  obtain ⟨r, hr, hin⟩ := ((KeyMask.C02_key_ranges_partition _ _ h2).2 (k >>> b).toNat).2 ⟨_, rfl, h1⟩
  rw [BitVec.toNat_ushiftRight, Nat.shiftRight_eq_div_pow] at hin
  unfold blockedBy
  rw [List.mem_flatMap]
  refine ⟨r, hr, List.mem_map.2 ⟨k.toNat / 2 ^ b - r.1.toNat, ?_, ?_⟩⟩
  · rw [List.mem_range]; exact (by have := hin.1; have := hin.2; omega)
  · have := hin.1; omega

theorem mem_fixedUsed {b : Nat} {fixed : Fixed} {i : Nat × VId} {km : Word × Word}
    (h : fixed.get? i = some km) (hv : km.1 &&& km.2 = km.1) {k : Word} (hk : k &&& km.2 = km.1) :
    k.toNat / 2 ^ b ∈ fixedUsed b fixed := by
  unfold fixedUsed
  rw [List.mem_eraseDups, List.mem_flatMap]
  exact ⟨_, Dict.mem_of_get? h, mem_blockedBy hv hk⟩

theorem nextFree_spec (used : List Nat) : ∀ (fuel i : Nat),
    (∃ j, nextFree used fuel i = .ok j ∧ i ≤ j ∧ j ∉ used ∧ ∀ x, i ≤ x → x < j → x ∈ used) ∨
    (nextFree used fuel i = .error .outOfFuel ∧ ∀ x, i ≤ x → x < i + fuel → x ∈ used) := by
  intro fuel
  induction fuel with
  | zero => intro i; right; exact ⟨rfl, fun x h1 h2 => by omega⟩
  | succ fuel ih =>
    intro i
    rw [nextFree]
    split
    · rename_i hi
      rcases ih (i + 1) with ⟨j, h1, h2, h3, h4⟩ | ⟨h1, h2⟩
      · left
        refine ⟨j, h1, by omega, h3, fun x hx hxj => ?_⟩
        by_cases hxi : x = i
        · rw [hxi]; exact hi
        · exact h4 x (by omega) hxj
      · right
        refine ⟨h1, fun x hx hxj => ?_⟩
        by_cases hxi : x = i
        · rw [hxi]; exact hi
        · exact h2 x (by omega) (by omega)
    · rename_i hi
      left
      exact ⟨i, rfl, Nat.le_refl _, hi, fun x h1 h2 => by omega⟩

/-- The loop over the blocked indices ends. -/
theorem nextFree_ok (used : List Nat) (i : Nat) :
    ∃ j, nextFree used (used.length + 1) i = .ok j ∧ i ≤ j ∧ j ∉ used ∧
      ∀ x, i ≤ x → x < j → x ∈ used := by
  rcases nextFree_spec used (used.length + 1) i with h | ⟨_, h⟩
  · exact h
  · exfalso
    have hn : ((List.range (used.length + 1)).map (i + ·)).Nodup := by
      unfold List.Nodup
      rw [List.pairwise_map]
      exact List.nodup_range.imp (fun h => by omega)
    have := List.Nodup.length_le_of_subset hn (l₂ := used) (by
      intro x hx
      rw [List.mem_map] at hx
      obtain ⟨j, hj, rfl⟩ := hx
      rw [List.mem_range] at hj
      exact h _ (by omega) (by omega))
    rw [List.length_map, List.length_range] at this
    omega

theorem addInfo_new {s : Infos} {i : Info} (h : i.of ∉ s.map Info.of) :
    addInfo s i = .ok (s ++ [i]) := by
  unfold addInfo
  rw [if_neg]
  simp only [List.any_eq_true, decide_eq_true_eq, not_exists, not_and]
  intro j hj heq
  exact h (List.mem_map.2 ⟨j, hj, heq⟩)

/-- Key and mask handed out to a machine vertex. -/
def kmOf (fixed : Fixed) (ap a m ident : Nat) (v : MVertex) (i : Nat) : Nat × Nat :=
  match fixed.get? (ident, .mach v.id) with
  | some km => (km.1.toNat, km.2.toNat)
  | none => ((ap * 2 ^ m + i) * 2 ^ a, maskOf a)

/-- Infos of the machine vertices of a partition. -/
def machInfos (fixed : Fixed) (ap a m ident : Nat) : List MVertex → Nat → Infos
  | [], _ => []
  | v :: vs, i =>
    .mach ident v.id (kmOf fixed ap a m ident v i).1 (kmOf fixed ap a m ident v i).2 i ::
      machInfos fixed ap a m ident vs (i + 1)

/-- Key and mask handed out to an application vertex. -/
def appKmOf (fixed : Fixed) (ap both : Nat) (p : Part) : Nat × Nat :=
  match fixed.get? (ak p) with
  | some km => (km.1.toNat, km.2.toNat)
  | none => (ap * 2 ^ both, maskOf both)

/-- Sizes used for a partition. -/
def bitsOf (flexible : Bool) (z : Zones) (p : Part) : Nat × Int :=
  partBits flexible z (bitsNeeded (maxKeys p.outgoing))

/-- Infos of one partition. -/
def infosOf (flexible : Bool) (fixed : Fixed) (z : Zones) (pa : Part × Nat) : Infos :=
  let bits := bitsOf flexible z pa.1
  machInfos fixed pa.2 bits.1 bits.2.toNat pa.1.ident (sortMachine pa.1.outgoing) 0 ++
    [.app pa.1.ident pa.1.pre (appKmOf fixed pa.2 z.both pa.1).1 (appKmOf fixed pa.2 z.both pa.1).2
      (maskOf bits.1) bits.1 (((sortMachine pa.1.outgoing).length : Int) - 1)]

/-- Partition and vertex of the infos of one partition. -/
def keysOf (p : Part) : List (Nat × VId) := (sortMachine p.outgoing).map (mk p) ++ [ak p]

theorem machInfos_of (fixed : Fixed) (ap a m ident : Nat) : ∀ (vs : List MVertex) (i : Nat),
    (machInfos fixed ap a m ident vs i).map Info.of = vs.map (fun v => (ident, VId.mach v.id)) := by
  intro vs
  induction vs with
  | nil => intro i; rfl
  | cons v vs ih =>
    intro i
    rw [machInfos, List.map_cons, List.map_cons, ih]
    rfl

theorem infosOf_of (flexible : Bool) (fixed : Fixed) (z : Zones) (pa : Part × Nat) :
    (infosOf flexible fixed z pa).map Info.of = keysOf pa.1 := by
  unfold infosOf keysOf
  simp only [List.map_append, machInfos_of, List.map_cons, List.map_nil]
  rfl

/-- There is room for the block of index `ap`. -/
theorem block_lt {ap both ab : Nat} (h1 : ap < 2 ^ ab) (h2 : ab + both ≤ 32) :
    (ap + 1) * 2 ^ both ≤ 2 ^ 32 := by
  calc (ap + 1) * 2 ^ both ≤ 2 ^ ab * 2 ^ both := Nat.mul_le_mul_right _ h1
    _ = 2 ^ (ab + both) := (Nat.pow_add 2 ab both).symm
    _ ≤ 2 ^ 32 := Nat.pow_le_pow_right (by omega) h2

/-- A machine block lies in the block of its partition. -/
theorem mach_block {ap a m i : Nat} (hi : i < 2 ^ m) :
    ap * 2 ^ (a + m) ≤ (ap * 2 ^ m + i) * 2 ^ a ∧
    (ap * 2 ^ m + i) * 2 ^ a + 2 ^ a ≤ (ap + 1) * 2 ^ (a + m) := by
  have e : 2 ^ (a + m) = 2 ^ m * 2 ^ a := by rw [Nat.add_comm, Nat.pow_add]
  rw [e]
  refine ⟨?_, ?_⟩
  · rw [← Nat.mul_assoc]
    exact Nat.mul_le_mul_right _ (Nat.le_add_right _ _)
  · have h1 : (ap * 2 ^ m + i) * 2 ^ a + 2 ^ a = (ap * 2 ^ m + i + 1) * 2 ^ a := by
      rw [Nat.add_mul (ap * 2 ^ m + i) 1, Nat.one_mul]
    have h2 : (ap + 1) * (2 ^ m * 2 ^ a) = (ap * 2 ^ m + 2 ^ m) * 2 ^ a := by
      rw [← Nat.mul_assoc, Nat.add_mul ap 1, Nat.one_mul]
    rw [h1, h2]
    exact Nat.mul_le_mul_right _ (by omega)

theorem machineKM_ok {fixed : Fixed} {ap a : Nat} {mi : Int} {ident : Nat} {v : MVertex} {i : Nat}
    (h : (fixed.get? (ident, .mach v.id)).isSome ∨
      (0 ≤ mi ∧ i < 2 ^ mi.toNat ∧ a ≤ 32 ∧ (ap + 1) * 2 ^ (a + mi.toNat) ≤ 2 ^ 32)) :
    machineKM fixed ap a mi ident v i = .ok (kmOf fixed ap a mi.toNat ident v i) := by
  unfold machineKM kmOf
  cases hf : fixed.get? (ident, VId.mach v.id) with
  | some km => rfl
  | none =>
    rw [hf] at h
    simp only [Option.isSome_none, Bool.false_eq_true, false_or] at h
    obtain ⟨h1, h2, h3, h4⟩ := h
    have hneg : ¬ mi < 0 := by omega
    simp only [shiftCount, if_neg hneg, bind, Except.bind]
    unfold mkKM
    rw [← Nat.shiftLeft_add_eq_or_of_lt h2, Nat.shiftLeft_eq, Nat.shiftLeft_eq]
    have hb := (@mach_block ap a mi.toNat i h2).2
    have hp : 0 < 2 ^ a := Nat.two_pow_pos a
    rw [if_pos (land_maskOf_mul (by omega) h3)]

theorem allocMachine_ok {fixed : Fixed} {ap a : Nat} {mi : Int} {ident : Nat} :
    ∀ (vs : List MVertex) (i : Nat) (s : Infos),
    ((∀ v ∈ vs, (fixed.get? (ident, .mach v.id)).isSome) ∨
      (0 ≤ mi ∧ i + vs.length ≤ 2 ^ mi.toNat ∧ a ≤ 32 ∧ (ap + 1) * 2 ^ (a + mi.toNat) ≤ 2 ^ 32)) →
    (s.map Info.of ++ vs.map (fun v => (ident, VId.mach v.id))).Nodup →
    allocMachine fixed ap a mi ident vs i s = .ok (s ++ machInfos fixed ap a mi.toNat ident vs i) := by
  intro vs
  induction vs with
  | nil => intro i s _ _; simp [allocMachine, machInfos]
  | cons v vs ih =>
    intro i s h hn
    rw [allocMachine, machineKM_ok (by
      rcases h with h | ⟨h1, h2, h3, h4⟩
      · exact .inl (h v (by simp))
      · rw [List.length_cons] at h2
        exact .inr ⟨h1, by omega, h3, h4⟩)]
    simp only [bind, Except.bind]
    rw [addInfo_new (Tables.nodup_append_cons (by simpa [Info.of] using hn))]
    simp only
    rw [ih (i + 1) _ (by
        rcases h with h | ⟨h1, h2, h3, h4⟩
        · exact .inl (fun w hw => h w (by simp [hw]))
        · rw [List.length_cons] at h2
          exact .inr ⟨h1, by omega, h3, h4⟩)
      (by simpa [Info.of, List.append_assoc] using hn)]
    simp [machInfos]

/-- What the loop needs to know of a partition: its keys are fixed, or its zone fits. -/
def Ready (flexible : Bool) (fixed : Fixed) (z : Zones) (p : Part) : Prop :=
  ((fixed.get? (ak p)).isSome ∧ ∀ v ∈ p.outgoing, (fixed.get? (mk p v)).isSome) ∨
  (fixed.get? (ak p) = none ∧
    (bitsOf flexible z p).2 = ((z.both - (bitsOf flexible z p).1 : Nat) : Int) ∧
    (bitsOf flexible z p).1 ≤ z.both ∧
    p.outgoing.length ≤ 2 ^ (z.both - (bitsOf flexible z p).1))

theorem sortMachine_perm (vs : List MVertex) : (sortMachine vs).Perm vs := stableSort_perm _ _

theorem allocOne_ok {flexible : Bool} {fixed : Fixed} {z : Zones} {used : List Nat} {ap : Nat}
    {s : Infos} {p : Part} {j ab : Nat} (hj : nextFree used (used.length + 1) ap = .ok j)
    (hne : p.outgoing ≠ [])
    (hz : z.perPart.get? (p.pre, p.ident) = some (bitsNeeded (maxKeys p.outgoing)))
    (hr : Ready flexible fixed z p) (hab : j < 2 ^ ab) (hb : ab + z.both ≤ 32)
    (hn : (s.map Info.of ++ keysOf p).Nodup) :
    allocOne flexible fixed z used ap s p = .ok (j + 1, s ++ infosOf flexible fixed z (p, j)) := by
  unfold allocOne
  rw [hj]
  simp only [bind, Except.bind]
  rw [if_neg hne, hz]
  simp only
  have hbits : partBits flexible z (bitsNeeded (maxKeys p.outgoing)) = bitsOf flexible z p := rfl
  rw [hbits]
  have hlen : (sortMachine p.outgoing).length = p.outgoing.length := (sortMachine_perm _).length_eq
  unfold keysOf at hn
  rw [← List.append_assoc] at hn
  have hn1 := (List.nodup_append.1 hn).1
  rw [allocMachine_ok (sortMachine p.outgoing) 0 s (by
    rcases hr with ⟨_, h⟩ | ⟨h0, h1, h2, h3⟩
    · exact .inl (fun v hv => h v ((sortMachine_perm _).mem_iff.1 hv))
    · right
      rw [h1, Int.toNat_natCast, hlen]
      have := block_lt hab hb
      exact ⟨by omega, by omega, by omega, by rw [Nat.add_sub_cancel' h2]; exact this⟩) hn1]
  simp only
  have hkm : appKM fixed j (bitsOf flexible z p).1 (bitsOf flexible z p).2 p =
      .ok (appKmOf fixed j z.both p) := by
    unfold appKM appKmOf
    rcases hr with ⟨h, _⟩ | ⟨h0, h1, h2, h3⟩
    · cases hf : fixed.get? (ak p) with
      | none => rw [hf] at h; simp at h
      | some km => rfl
    · have h0' : fixed.get? (p.ident, VId.app p.pre) = none := h0
      rw [h0']
      simp only
      have hsum : ((bitsOf flexible z p).1 : Int) + (bitsOf flexible z p).2 = (z.both : Int) := by
        rw [h1]; omega
      rw [hsum]
      have hneg : ¬ (z.both : Int) < 0 := by omega
      simp only [shiftCount, if_neg hneg, bind, Except.bind, Int.toNat_natCast]
      unfold mkKM
      have := block_lt hab hb
      have hp := Nat.two_pow_pos z.both
      rw [Nat.add_mul, Nat.one_mul] at this
      rw [Nat.shiftLeft_eq, if_pos (land_maskOf_mul (by omega) (by omega))]
  rw [hkm]
  simp only
  rw [addInfo_new (by
    apply Tables.nodup_append_cons (r := [])
    rw [List.map_append, machInfos_of]
    exact hn)]
  simp only [pure, Except.pure, infosOf, List.append_assoc]

/-- Partitions with the indices they get. -/
structure Numbered (used : List Nat) (ps : List Part) (ap top : Nat) (L : List (Part × Nat)) : Prop where
  parts : L.map (·.1) = ps.filter (fun p => decide (p.outgoing ≠ []))
  incr : L.Pairwise (fun x y => x.2 < y.2)
  ge : ∀ x ∈ L, ap ≤ x.2
  lt : ∀ x ∈ L, x.2 < top
  free : ∀ x ∈ L, x.2 ∉ used

theorem allocLoop_ok {flexible : Bool} {fixed : Fixed} {z : Zones} {used : List Nat} {ab : Nat}
    (hb : ab + z.both ≤ 32) : ∀ (ps : List Part) (ap : Nat) (s : Infos) (D : List Nat),
    (∀ p ∈ ps, p.outgoing ≠ [] →
      z.perPart.get? (p.pre, p.ident) = some (bitsNeeded (maxKeys p.outgoing))) →
    (∀ p ∈ ps, p.outgoing ≠ [] → Ready flexible fixed z p) →
    (∀ x, x < ap → x ∈ D ++ used) →
    D.length + (ps.filter (fun p => decide (p.outgoing ≠ []))).length + used.length ≤ 2 ^ ab →
    (s.map Info.of ++ (ps.filter (fun p => decide (p.outgoing ≠ []))).flatMap keysOf).Nodup →
    ∃ L, Numbered used ps ap (2 ^ ab) L ∧
      allocLoop flexible fixed z used ps ap s = .ok (s ++ L.flatMap (infosOf flexible fixed z)) := by
  intro ps
  induction ps with
  | nil =>
    intro ap s D _ _ _ _ _
    exact ⟨[], ⟨rfl, List.Pairwise.nil, by simp, by simp, by simp⟩, by simp [allocLoop]⟩
  | cons p ps ih =>
    intro ap s D hz hr hD hlen hn
    obtain ⟨j, hj, hle, hfree, hmid⟩ := nextFree_ok used ap
    have hjD : ∀ x, x < j → x ∈ D ++ used := by
      intro x hx
      by_cases h : x < ap
      · exact hD x h
      · exact List.mem_append.2 (.inr (hmid x (by omega) hx))
    rw [allocLoop]
    by_cases he : p.outgoing = []
    · have h1 : allocOne flexible fixed z used ap s p = .ok (j, s) := by
        unfold allocOne
        rw [hj]
        simp only [bind, Except.bind, if_pos he]
        rfl
      have hfil : (p :: ps).filter (fun p => decide (p.outgoing ≠ [])) =
          ps.filter (fun p => decide (p.outgoing ≠ [])) := by
        rw [List.filter_cons, if_neg]; simp [he]
      rw [hfil] at hlen hn
      obtain ⟨L, hL, hok⟩ := ih j s D (fun q hq => hz q (by simp [hq]))
        (fun q hq => hr q (by simp [hq])) hjD hlen hn
      refine ⟨L, ⟨by rw [hL.parts, hfil], hL.incr, fun x hx => Nat.le_trans hle (hL.ge x hx),
        hL.lt, hL.free⟩, ?_⟩
      rw [h1]
      exact hok
    · have hfil : (p :: ps).filter (fun p => decide (p.outgoing ≠ [])) =
          p :: ps.filter (fun p => decide (p.outgoing ≠ [])) := by
        rw [List.filter_cons, if_pos]; simp [he]
      rw [hfil] at hlen hn
      rw [List.length_cons] at hlen
      have hjlt : j < 2 ^ ab := by
        have := List.Nodup.length_le_of_subset (List.nodup_range (n := j)) (l₂ := D ++ used)
          (fun x hx => hjD x (List.mem_range.1 hx))
        rw [List.length_range, List.length_append] at this
        omega
      rw [List.flatMap_cons, ← List.append_assoc] at hn
      have hn1 := (List.nodup_append.1 hn).1
      rw [allocOne_ok hj he (hz p (by simp) he) (hr p (by simp) he) hjlt hb hn1]
      obtain ⟨L, hL, hok⟩ := ih (j + 1) (s ++ infosOf flexible fixed z (p, j)) (j :: D)
        (fun q hq => hz q (by simp [hq])) (fun q hq => hr q (by simp [hq]))
        (by
          intro x hx
          by_cases h : x = j
          · simp [h]
          · have := hjD x (by omega)
            simp only [List.cons_append, List.mem_cons]
            exact .inr this)
        (by rw [List.length_cons]; omega)
        (by rw [List.map_append, infosOf_of]; exact hn)
      refine ⟨(p, j) :: L, ⟨?_, ?_, ?_, ?_, ?_⟩, ?_⟩
      · rw [List.map_cons, hL.parts, hfil]
      · rw [List.pairwise_cons]
        exact ⟨fun x hx => hL.ge x hx, hL.incr⟩
      · intro x hx
        rw [List.mem_cons] at hx
        rcases hx with rfl | hx
        · exact hle
        · have := hL.ge x hx; omega
      · intro x hx
        rw [List.mem_cons] at hx
        rcases hx with rfl | hx
        · exact hjlt
        · exact hL.lt x hx
      · intro x hx
        rw [List.mem_cons] at hx
        rcases hx with rfl | hx
        · exact hfree
        · exact hL.free x hx
      · simp only [bind, Except.bind]
        rw [hok, List.flatMap_cons, List.append_assoc]

/-- Key and mask of an info. -/
def Info.km : Info → Nat × Nat
  | .mach _ _ k m _ => (k, m)
  | .app _ _ k m _ _ _ => (k, m)

theorem findMachine_nodup (p : Part) : ∀ (vs : List MVertex) (s s' : FState) (f f' u : Bool),
    (Dict.keys s.fixed).Nodup → findMachine p vs s f u = .ok (s', f') → (Dict.keys s'.fixed).Nodup := by
  intro vs
  induction vs with
  | nil =>
    intro s s' f f' u hn h
    simp only [findMachine, Except.ok.injEq, Prod.mk.injEq] at h
    rw [← h.1]; exact hn
  | cons v vs ih =>
    intro s s' f f' u hn h
    rw [findMachine] at h
    simp only at h
    split at h
    · split at h
      · simp at h
      · split at h
        · simp at h
        · split at h
          · simp at h
          · exact ih _ _ _ _ _ (Dict.nodup_set hn _ _) h
    · split at h
      · simp at h
      · exact ih { s with vert := some v } _ _ _ _ hn h

theorem findOne_nodup {p : Part} {s s' : FState} (hn : (Dict.keys s.fixed).Nodup)
    (h : findOne s p = .ok s') : (Dict.keys s'.fixed).Nodup := by
  unfold findOne at h
  cases hm : findMachine p p.outgoing s false false with
  | error e => rw [hm] at h; simp [bind, Except.bind] at h
  | ok r =>
    obtain ⟨s1, f1⟩ := r
    rw [hm] at h
    simp only [bind, Except.bind, pure, Except.pure] at h
    have h1 := findMachine_nodup p _ _ _ _ _ _ hn hm
    split at h
    · simp only [Except.ok.injEq] at h; subst h; exact h1
    · split at h
      · simp only [Except.ok.injEq] at h; subst h; exact Dict.nodup_set h1 _ _
      · split at h
        · simp at h
        · split at h
          · simp at h
          · simp only [Except.ok.injEq] at h; subst h
            exact Dict.nodup_set (Dict.nodup_set h1 _ _) _ _

theorem findFixed_nodup : ∀ (ps : List Part) (s s' : FState), (Dict.keys s.fixed).Nodup →
    findFixed s ps = .ok s' → (Dict.keys s'.fixed).Nodup := by
  intro ps
  induction ps with
  | nil =>
    intro s s' hn h
    simp only [findFixed, Except.ok.injEq] at h
    rw [← h]; exact hn
  | cons p ps ih =>
    intro s s' hn h
    rw [findFixed] at h
    cases h1 : findOne s p with
    | error e => rw [h1] at h; simp [bind, Except.bind] at h
    | ok s1 =>
      rw [h1] at h
      exact ih s1 s' (findOne_nodup hn h1) h

theorem allocFixed_ok {ps : List Part} {z : Zones} : ∀ (fs : Fixed) (s : Infos),
    (∀ f ∈ fs, ∃ i, fixedInfo ps z f = .ok i ∧ i.of = f.1 ∧ i.km = (f.2.1.toNat, f.2.2.toNat)) →
    (s.map Info.of ++ fs.map (·.1)).Nodup →
    ∃ L, allocFixed ps z fs s = .ok (s ++ L) ∧ L.map Info.of = fs.map (·.1) ∧
      ∀ f ∈ fs, ∃ i ∈ L, fixedInfo ps z f = .ok i ∧ i.of = f.1 ∧ i.km = (f.2.1.toNat, f.2.2.toNat) := by
  intro fs
  induction fs with
  | nil => intro s _ _; exact ⟨[], by simp [allocFixed], rfl, by simp⟩
  | cons f fs ih =>
    intro s h hn
    obtain ⟨i, h1, h2, h3⟩ := h f (by simp)
    rw [allocFixed, h1]
    simp only [bind, Except.bind]
    rw [List.map_cons] at hn
    rw [addInfo_new (by rw [h2]; exact Tables.nodup_append_cons hn)]
    simp only
    obtain ⟨L, k1, k2, k3⟩ := ih (s ++ [i]) (fun g hg => h g (by simp [hg]))
      (by rw [List.map_append, List.map_cons, List.map_nil, h2, List.append_assoc]; exact hn)
    refine ⟨i :: L, by rw [k1]; simp, by rw [List.map_cons, List.map_cons, k2, h2], ?_⟩
    intro g hg
    rw [List.mem_cons] at hg
    rcases hg with rfl | hg
    · exact ⟨i, by simp, h1, h2, h3⟩
    · obtain ⟨i', j1, j2⟩ := k3 g hg
      exact ⟨i', by simp [j1], j2⟩

theorem maxKeys_zero {vs : List MVertex} (h : maxKeys vs = 0) : ∀ v ∈ vs, v.nKeys = 0 := by
  intro v hv
  have := le_maxKeys hv
  omega

theorem keysOf_nodup : ∀ (ps : List Part), WF ps →
    ((ps.filter (fun p => decide (p.outgoing ≠ []))).flatMap keysOf).Nodup := by
  intro ps
  induction ps with
  | nil => intro _; simp
  | cons p ps ih =>
    intro hwf
    obtain ⟨hown, hwf'⟩ := wf_cons hwf
    rw [List.filter_cons]
    split
    · rw [List.flatMap_cons, List.nodup_append]
      refine ⟨?_, ih hwf', ?_⟩
      · unfold keysOf
        rw [List.nodup_append]
        refine ⟨?_, by simp, ?_⟩
        · have hperm : ((sortMachine p.outgoing).map (mk p)).Perm (p.outgoing.map (mk p)) :=
            (sortMachine_perm _).map _
          rw [hperm.nodup_iff]
          have := hown.ids
          unfold List.Nodup at this ⊢
          rw [List.pairwise_map] at this ⊢
          refine this.imp ?_
          intro a b hab heq
          apply hab
          simpa [mk] using heq
        · intro a ha b hb
          rw [List.mem_singleton] at hb
          subst hb
          rw [List.mem_map] at ha
          obtain ⟨v, _, rfl⟩ := ha
          simp [mk, ak]
      · intro a ha b hb heq
        subst heq
        rw [List.mem_flatMap] at hb
        obtain ⟨q, hq, hb⟩ := hb
        have hq := (List.mem_filter.1 hq).1
        unfold keysOf at ha hb
        rw [List.mem_append, List.mem_map, List.mem_singleton] at ha hb
        rcases ha with ⟨v, hv, rfl⟩ | rfl
        · rcases hb with ⟨w, hw, heq⟩ | heq
          · exact hown.mach q hq v ((sortMachine_perm _).mem_iff.1 hv) w
              ((sortMachine_perm _).mem_iff.1 hw) heq
          · simp [mk, ak] at heq
        · rcases hb with ⟨w, hw, heq⟩ | heq
          · simp [mk, ak] at heq
          · exact hown.app q hq heq.symm
    · exact ih hwf'

/-- The sizes used for an unfixed partition. -/
theorem ready_of {flexible : Bool} {ps : List Part} {d : Fixed} {z z' : Zones} {used : List Nat}
    (hinv : ZInv d ps ⟨0, 0, 0, []⟩ z) (hch : Checked flexible d z z' used) {p : Part} (hp : p ∈ ps)
    (hf : d.get? (ak p) = none) (hone : maxKeys p.outgoing = 0 → p.outgoing.length ≤ 1) :
    (bitsOf flexible z' p).2 = ((z'.both - (bitsOf flexible z' p).1 : Nat) : Int) ∧
    (bitsOf flexible z' p).1 ≤ z'.both ∧
    p.outgoing.length ≤ 2 ^ (z'.both - (bitsOf flexible z' p).1) ∧
    maxKeys p.outgoing ≤ 2 ^ (bitsOf flexible z' p).1 := by
  have hk := le_two_pow_bitsNeeded (maxKeys p.outgoing)
  have hl := le_two_pow_bitsNeeded p.outgoing.length
  have hb := hch.both
  have hfit : ∀ m, bitsNeeded p.outgoing.length ≤ m ∨ maxKeys p.outgoing = 0 →
      p.outgoing.length ≤ 2 ^ m := by
    intro m hm
    rcases hm with hm | hm
    · exact Nat.le_trans hl (Nat.pow_le_pow_right (by omega) hm)
    · exact Nat.le_trans (hone hm) (Nat.one_le_two_pow)
  by_cases h0 : maxKeys p.outgoing = 0
  · unfold bitsOf partBits
    rw [h0, bitsNeeded_zero]
    cases flexible with
    | true =>
      simp only [if_true]
      exact ⟨by omega, by omega, hfit _ (.inr h0), by simp⟩
    | false =>
      obtain ⟨g1, g2⟩ := hch.glob rfl
      simp only [Bool.false_eq_true, if_false, Nat.zero_le, if_true]
      exact ⟨by omega, by omega, hfit _ (.inr h0), by simp⟩
  · have fits := hinv.fits p hp hf (by omega)
    have f1 := fits.atoms
    have f2 := fits.machine
    have f3 := fits.both
    unfold bitsOf partBits
    cases flexible with
    | true =>
      simp only [if_true]
      exact ⟨by omega, by omega, hfit _ (.inl (by omega)), hk⟩
    | false =>
      obtain ⟨g1, g2⟩ := hch.glob rfl
      simp only [Bool.false_eq_true, if_false]
      split
      · rename_i hle
        exact ⟨by simp only; omega, by simp only; omega, hfit _ (.inl (by simp only; omega)),
          Nat.le_trans hk (Nat.pow_le_pow_right (by omega) hle)⟩
      · exact ⟨by simp only; omega, by simp only; omega, hfit _ (.inl (by simp only; omega)), hk⟩

/-- Everything known of an allocation. -/
structure Shape (flexible : Bool) (ps : List Part) (infos : Infos) (d : Fixed) (z z' : Zones)
    (used : List Nat) (ab : Nat) (L : List (Part × Nat)) : Prop where
  all : AllFixed ps d
  inv : ZInv d ps ⟨0, 0, 0, []⟩ z
  checked : Checked flexible d z z' used
  room : ab + z'.both ≤ 32
  num : Numbered used ps 0 (2 ^ ab) L
  loop : (∃ p ∈ ps, p.fixed = none) → infos = L.flatMap (infosOf flexible d z')
  whole : (∀ p ∈ ps, p.fixed ≠ none) → ∀ k km, d.get? k = some km →
    ∃ i ∈ infos, fixedInfo ps z' (k, km) = .ok i ∧ i.of = k ∧ i.km = (km.1.toNat, km.2.toNat)
  nodup : (infos.map Info.of).Nodup

theorem calculateZones_le (d : Fixed) (ps : List Part)
    (hn : (ps.map (fun p => (p.pre, p.ident))).Nodup) :
    (calculateZones d ps).machine ≤ (calculateZones d ps).both ∧
    (calculateZones d ps).both ≤ (calculateZones d ps).machine + (calculateZones d ps).atoms :=
  ⟨(calculateZones_inv d ps hn).le.le (Nat.le_refl _), (calculateZones_inv d ps hn).le.sum (Nat.le_refl _)⟩

/-- After the zones are checked nothing can go wrong. -/
theorem allocate_shape {flexible : Bool} {ps : List Part} (hwf : WF ps) (hi : NoIdleFixed ps)
    (hc : Counted ps) {f : FState} {z' : Zones} {used : List Nat}
    (h1 : findFixed ⟨[], true, none⟩ ps = .ok f)
    (h2 : checkZones flexible f.fixed (calculateZones f.fixed ps) = .ok (z', used)) :
    ∃ infos ab L, allocate flexible ps = .ok infos ∧
      Shape flexible ps infos f.fixed (calculateZones f.fixed ps) z' used ab L := by
  obtain ⟨ha, hall, hframe⟩ := findFixed_ok ps _ f hwf hi (fun _ _ => ⟨rfl, fun _ _ => rfl⟩) h1
  have hinv := calculateZones_inv f.fixed ps hwf.pairs
  obtain ⟨hle1, hle2⟩ := calculateZones_le f.fixed ps hwf.pairs
  have hch := checkZones_ok hle1 h2 hle2
  obtain ⟨ab, hroom, hab⟩ := hch.room
  have hlen := hinv.length
  simp only [List.length_nil, Nat.zero_add] at hlen
  have hready : ∀ p ∈ ps, p.outgoing ≠ [] → Ready flexible f.fixed z' p := by
    intro p hp _
    cases hpf : p.fixed with
    | none =>
      have hnone := (ha.none p hp hpf).1
      obtain ⟨r1, r2, r3, _⟩ := ready_of hinv hch hp hnone (hc p hp hpf ∘ maxKeys_zero)
      exact .inr ⟨hnone, r1, r2, r3⟩
    | some akm =>
      exact .inl ⟨by rw [ha.app p hp akm hpf]; rfl,
        fun v hv => by rw [(ha.mach p hp akm hpf v hv).1]; rfl⟩
  obtain ⟨L, hL, hok⟩ := allocLoop_ok (flexible := flexible) (fixed := f.fixed) (used := used) hab ps 0
    [] [] (by rw [hch.perPart]; exact hinv.bits) hready (by simp)
    (by rw [hlen] at hroom; simpa using hroom) (by simpa using keysOf_nodup ps hwf)
  simp only [Bool.true_and] at hall
  by_cases hfa : ∃ p ∈ ps, p.fixed = none
  · have hfalse : f.allFixed = false := by
      rw [hall, Bool.eq_false_iff]
      intro h
      rw [List.all_eq_true] at h
      obtain ⟨p, hp, hpn⟩ := hfa
      have := h p hp
      rw [hpn] at this
      simp at this
    refine ⟨L.flatMap (infosOf flexible f.fixed z'), ab, L, ?_, ⟨ha, hinv, hch, hab, hL,
      fun _ => rfl, ?_, ?_⟩⟩
    · unfold allocate
      rw [h1]
      simp only [bind, Except.bind]
      rw [h2]
      simp only [hfalse, Bool.false_eq_true, if_false]
      rw [hok, List.nil_append]
    · intro h
      obtain ⟨p, hp, hpn⟩ := hfa
      exact absurd hpn (h p hp)
    · rw [List.map_flatMap]
      simp only [infosOf_of]
      have : L.flatMap (fun x => keysOf x.1) = (L.map (·.1)).flatMap keysOf := by
        rw [List.flatMap_map]
      rw [this, hL.parts]
      exact keysOf_nodup ps hwf
  · have htrue : f.allFixed = true := by
      rw [hall, List.all_eq_true]
      intro p hp
      cases hpf : p.fixed with
      | none => exact absurd ⟨p, hp, hpf⟩ hfa
      | some _ => rfl
    have hnd := findFixed_nodup ps _ f (by simp [Dict.keys]) h1
    have hown : ∀ k km, f.fixed.get? k = some km →
        ∃ p ∈ ps, k = ak p ∨ ∃ v ∈ p.outgoing, k = mk p v := by
      intro k km hk
      apply Classical.byContradiction
      intro hno
      have := hframe k (by
        intro p hp
        refine ⟨fun h => hno ⟨p, hp, .inl h⟩, fun v hv h => hno ⟨p, hp, .inr ⟨v, hv, h⟩⟩⟩)
      rw [hk] at this
      simp [Dict.get?] at this
    obtain ⟨I, k1, k2, k3⟩ := allocFixed_ok (ps := ps) (z := z') f.fixed [] (by
      rintro ⟨k, km⟩ hf
      have hk := Dict.get?_of_mem hnd hf
      obtain ⟨p, hp, rfl | ⟨v, hv, rfl⟩⟩ := hown k km hk
      · have hne : p.outgoing ≠ [] := fun h0 => hfa ⟨p, hp, hi p hp h0⟩
        unfold fixedInfo
        simp only [ak]
        rw [hch.perPart, hinv.bits p hp hne]
        cases hfind : ps.find? (fun q => decide (q.pre = p.pre)) with
        | none =>
          rw [List.find?_eq_none] at hfind
          have := hfind p hp
          simp at this
        | some q => exact ⟨_, rfl, rfl, rfl⟩
      · unfold fixedInfo
        simp only [mk]
        cases hfind : (ps.flatMap (·.outgoing)).find? (fun m => decide (m.id = v.id)) with
        | none =>
          rw [List.find?_eq_none] at hfind
          have := hfind v (List.mem_flatMap.2 ⟨p, hp, hv⟩)
          simp at this
        | some q => exact ⟨_, rfl, rfl, rfl⟩) (by simpa [Dict.keys] using hnd)
    refine ⟨I, ab, L, ?_, ⟨ha, hinv, hch, hab, hL, fun h => absurd h hfa, ?_, ?_⟩⟩
    · unfold allocate
      rw [h1]
      simp only [bind, Except.bind]
      rw [h2]
      simp only [htrue, if_true]
      rw [k1, List.nil_append]
    · intro _ k km hk
      exact k3 (k, km) (Dict.mem_of_get? hk)
    · rw [k2]; simpa [Dict.keys] using hnd

theorem covers_maskOf {y a : Nat} (ha : a ≤ 32) (x : Word) :
    Covers (y * 2 ^ a) (maskOf a) x ↔ x.toNat / 2 ^ a = y := by
  unfold Covers
  rw [land_maskOf x.isLt ha]
  constructor
  · intro h
    exact Nat.eq_of_mul_eq_mul_right (Nat.two_pow_pos a) h
  · intro h; rw [h]

theorem covers_word (km : Word × Word) (x : Word) :
    Covers km.1.toNat km.2.toNat x ↔ x &&& km.2 = km.1 := by
  unfold Covers
  rw [← BitVec.toNat_and]
  exact BitVec.toNat_inj

theorem mem_machInfos {fixed : Fixed} {ap a m ident : Nat} {x : Info} :
    ∀ (vs : List MVertex) (i0 : Nat), x ∈ machInfos fixed ap a m ident vs i0 →
    ∃ j, ∃ v : MVertex, vs[j]? = some v ∧ x = .mach ident v.id (kmOf fixed ap a m ident v (i0 + j)).1
      (kmOf fixed ap a m ident v (i0 + j)).2 (i0 + j) := by
  intro vs
  induction vs with
  | nil => intro i0 h; simp [machInfos] at h
  | cons v vs ih =>
    intro i0 h
    rw [machInfos, List.mem_cons] at h
    rcases h with rfl | h
    · exact ⟨0, v, rfl, rfl⟩
    · obtain ⟨j, w, h1, h2⟩ := ih (i0 + 1) h
      refine ⟨j + 1, w, by simpa using h1, ?_⟩
      rw [h2, show i0 + 1 + j = i0 + (j + 1) by omega]

theorem machInfos_mem {fixed : Fixed} {ap a m ident : Nat} :
    ∀ (vs : List MVertex) (i0 : Nat) (v : MVertex), v ∈ vs → ∃ j,
      .mach ident v.id (kmOf fixed ap a m ident v j).1 (kmOf fixed ap a m ident v j).2 j
        ∈ machInfos fixed ap a m ident vs i0 := by
  intro vs
  induction vs with
  | nil => intro i0 v h; simp at h
  | cons w vs ih =>
    intro i0 v h
    rw [List.mem_cons] at h
    rcases h with rfl | h
    · exact ⟨i0, by rw [machInfos]; simp⟩
    · obtain ⟨j, hj⟩ := ih (i0 + 1) v h
      exact ⟨j, by rw [machInfos]; simp [hj]⟩

/-- Two infos for the same vertex are the same. -/
theorem info_unique {infos : Infos} (hn : (infos.map Info.of).Nodup) {i j : Info} (hi : i ∈ infos)
    (hj : j ∈ infos) (h : i.of = j.of) : i = j := by
  induction infos with
  | nil => simp at hi
  | cons a l ih =>
    rw [List.map_cons, List.nodup_cons] at hn
    rw [List.mem_cons] at hi hj
    rcases hi with rfl | hi <;> rcases hj with rfl | hj
    · rfl
    · exact absurd (List.mem_map.2 ⟨j, hj, h.symm⟩) hn.1
    · exact absurd (List.mem_map.2 ⟨i, hi, h⟩) hn.1
    · exact ih hn.2 hi hj

theorem info_unique' {infos : Infos} (hn : (infos.map Info.of).Nodup) {i j : Info} (hi : i ∈ infos)
    (hj : j ∈ infos) (h : i.of = j.of) : i.km = j.km := by
  rw [info_unique hn hi hj h]

section
variable {flexible : Bool} {ps : List Part} {infos : Infos} {d : Fixed} {z z' : Zones}
  {used : List Nat} {ab : Nat} {L : List (Part × Nat)}

theorem Shape.number (hs : Shape flexible ps infos d z z' used ab L) {p : Part} (hp : p ∈ ps)
    (hne : p.outgoing ≠ []) : ∃ ap, (p, ap) ∈ L := by
  have : p ∈ L.map (·.1) := by
    rw [hs.num.parts, List.mem_filter]
    exact ⟨hp, by simpa using hne⟩
  rw [List.mem_map] at this
  obtain ⟨⟨q, ap⟩, h1, rfl⟩ := this
  exact ⟨ap, h1⟩

/-- Indices of different partitions differ. -/
theorem Shape.index_ne (hs : Shape flexible ps infos d z z' used ab L) {p q : Part} {i j : Nat}
    (hp : (p, i) ∈ L) (hq : (q, j) ∈ L) (h : i = j) : p = q := by
  have aux : ∀ (M : List (Part × Nat)), M.Pairwise (fun x y => x.2 < y.2) → (p, i) ∈ M → (q, j) ∈ M →
      p = q := by
    intro M
    induction M with
    | nil => intro _ h; simp at h
    | cons x M ih =>
      intro hM h1 h2
      rw [List.pairwise_cons] at hM
      rw [List.mem_cons] at h1 h2
      rcases h1 with rfl | h1 <;> rcases h2 with h2 | h2
      · simpa using (congrArg (·.1) h2).symm
      · have := hM.1 _ h2; simp only at this; omega
      · subst h2; have := hM.1 _ h1; simp only at this; omega
      · exact ih hM.2 h1 h2
  exact aux L hs.num.incr hp hq

/-- Infos of an unfixed or fixed partition when some partition is unfixed. -/
theorem Shape.mem (hs : Shape flexible ps infos d z z' used ab L) (hu : ∃ p ∈ ps, p.fixed = none)
    {x : Info} {pa : Part × Nat} (h : pa ∈ L) (hx : x ∈ infosOf flexible d z' pa) : x ∈ infos := by
  rw [hs.loop hu, List.mem_flatMap]
  exact ⟨pa, h, hx⟩

/-- The info of a fixed machine vertex. -/
theorem Shape.fixed_mach (hs : Shape flexible ps infos d z z' used ab L) {p : Part} (hp : p ∈ ps)
    {akm : Word × Word} (hf : p.fixed = some akm) {v : MVertex} (hv : v ∈ p.outgoing) :
    ∃ i, .mach p.ident v.id (v.fixed.getD akm).1.toNat (v.fixed.getD akm).2.toNat i ∈ infos := by
  have hd := (hs.all.mach p hp akm hf v hv).1
  by_cases hu : ∃ p ∈ ps, p.fixed = none
  · obtain ⟨ap, hap⟩ := hs.number hp (fun h => by rw [h] at hv; simp at hv)
    obtain ⟨j, hj⟩ := machInfos_mem (fixed := d) (ap := ap) (a := (bitsOf flexible z' p).1)
      (m := (bitsOf flexible z' p).2.toNat) (ident := p.ident) (sortMachine p.outgoing) 0 v
      ((sortMachine_perm _).mem_iff.2 hv)
    refine ⟨j, hs.mem hu hap ?_⟩
    have hk : kmOf d ap (bitsOf flexible z' p).1 (bitsOf flexible z' p).2.toNat p.ident v j =
        ((v.fixed.getD akm).1.toNat, (v.fixed.getD akm).2.toNat) := by
      unfold kmOf
      have hd' : d.get? (p.ident, VId.mach v.id) = some (v.fixed.getD akm) := hd
      rw [hd']
    rw [hk] at hj
    unfold infosOf
    exact List.mem_append.2 (.inl hj)
  · obtain ⟨i, h1, -, h2, h3⟩ := hs.whole (fun q hq h => hu ⟨q, hq, h⟩) _ _ hd
    cases i with
    | mach a b c e g =>
      simp only [Info.of, mk, Prod.mk.injEq, VId.mach.injEq] at h2
      simp only [Info.km, Prod.mk.injEq] at h3
      rw [h2.1, h2.2, h3.1, h3.2] at h1
      exact ⟨g, h1⟩
    | app _ _ _ _ _ _ _ => simp [Info.of, mk] at h2

/-- Where a machine vertex comes among those of its partition, if one has been made. -/
theorem machInfos_at {fixed : Fixed} {ap a m ident : Nat} {v : MVertex} : ∀ (vs : List MVertex) (i0 i : Nat), vs[i]? = some v →
    .mach ident v.id (kmOf fixed ap a m ident v (i0 + i)).1 (kmOf fixed ap a m ident v (i0 + i)).2 (i0 + i)
      ∈ machInfos fixed ap a m ident vs i0 := by
  intro vs
  induction vs with
  | nil => intro i0 i h; simp at h
  | cons w vs ih =>
    intro i0 i h
    rw [machInfos, List.mem_cons]
    cases i with
    | zero =>
      simp only [List.getElem?_cons_zero, Option.some.injEq] at h
      subst h
      left; rfl
    | succ i =>
      right
      rw [List.getElem?_cons_succ] at h
      have := ih (i0 + 1) i h
      rwa [show i0 + 1 + i = i0 + (i + 1) by omega] at this

/-- The index of a fixed machine vertex. -/
theorem Shape.fixed_index (hs : Shape flexible ps infos d z z' used ab L) {p : Part} (hp : p ∈ ps)
    {akm : Word × Word} (hf : p.fixed = some akm) {v : MVertex} {i : Nat} (hv : (sortMachine p.outgoing)[i]? = some v)
    (hix : ∀ q ∈ ps, ∀ u ∈ q.outgoing, u.id = v.id → u.index = i) :
    .mach p.ident v.id (v.fixed.getD akm).1.toNat (v.fixed.getD akm).2.toNat i ∈ infos := by
  have hv' : v ∈ p.outgoing := (sortMachine_perm _).mem_iff.1 (List.mem_of_getElem? hv)
  have hd := (hs.all.mach p hp akm hf v hv').1
  by_cases hu : ∃ p ∈ ps, p.fixed = none
  · obtain ⟨ap, hap⟩ := hs.number hp (fun h => by rw [h] at hv'; simp at hv')
    have hj := machInfos_at (fixed := d) (ap := ap) (a := (bitsOf flexible z' p).1)
      (m := (bitsOf flexible z' p).2.toNat) (ident := p.ident) (sortMachine p.outgoing) 0 i hv
    have hk : kmOf d ap (bitsOf flexible z' p).1 (bitsOf flexible z' p).2.toNat p.ident v (0 + i) =
        ((v.fixed.getD akm).1.toNat, (v.fixed.getD akm).2.toNat) := by
      unfold kmOf
      have hd' : d.get? (p.ident, VId.mach v.id) = some (v.fixed.getD akm) := hd
      rw [hd']
    rw [hk, Nat.zero_add] at hj
    exact hs.mem hu hap (List.mem_append.2 (.inl hj))
  · obtain ⟨j, h1, h2, -⟩ := hs.whole (fun q hq h => hu ⟨q, hq, h⟩) _ _ hd
    unfold fixedInfo at h2
    simp only [mk] at h2
    split at h2
    · rename_i u hfind
      have h3 := List.find?_some hfind
      have h4 := List.mem_of_find?_eq_some hfind
      simp only [decide_eq_true_eq] at h3
      obtain ⟨q, hq, hu⟩ := List.mem_flatMap.1 h4
      rw [hix q hq u hu h3] at h2
      cases h2
      exact h1
    · cases h2

/-- What else the info of a fixed application vertex says. -/
theorem Shape.fixed_last (hs : Shape flexible ps infos d z z' used ab L) {p : Part} (hp : p ∈ ps)
    {akm : Word × Word} (hf : p.fixed = some akm) (hne : p.outgoing ≠ [])
    (hn : ∀ q ∈ ps, q.pre = p.pre → p.outgoing.length ≤ q.nMachine) :
    ∃ nb mi, .app p.ident p.pre akm.1.toNat akm.2.toNat (maskOf nb) nb mi ∈ infos ∧ (p.outgoing.length : Int) - 1 ≤ mi := by
  have hd := hs.all.app p hp akm hf
  by_cases hu : ∃ p ∈ ps, p.fixed = none
  · obtain ⟨ap, hap⟩ := hs.number hp hne
    refine ⟨(bitsOf flexible z' p).1, ((sortMachine p.outgoing).length : Int) - 1,
      hs.mem hu hap (List.mem_append.2 (.inr (List.mem_singleton.2 ?_))), ?_⟩
    · unfold appKmOf
      simp only [hd]
    · rw [(sortMachine_perm _).length_eq]
      exact Int.le_refl _
  · obtain ⟨j, h1, h2, -⟩ := hs.whole (fun q hq h => hu ⟨q, hq, h⟩) _ _ hd
    unfold fixedInfo at h2
    simp only [ak] at h2
    split at h2
    · rename_i bits q hb hfind
      have h3 := List.find?_some hfind
      have h4 := List.mem_of_find?_eq_some hfind
      simp only [decide_eq_true_eq] at h3
      cases h2
      refine ⟨_, _, h1, ?_⟩
      have := hn q h4 h3
      omega
    · cases h2

/-- The info of a fixed application vertex. -/
theorem Shape.fixed_app (hs : Shape flexible ps infos d z z' used ab L) {p : Part} (hp : p ∈ ps)
    {akm : Word × Word} (hf : p.fixed = some akm) (hne : p.outgoing ≠ []) :
    ∃ mm nb mi, .app p.ident p.pre akm.1.toNat akm.2.toNat mm nb mi ∈ infos := by
  have hd := hs.all.app p hp akm hf
  by_cases hu : ∃ p ∈ ps, p.fixed = none
  · obtain ⟨ap, hap⟩ := hs.number hp hne
    refine ⟨maskOf (bitsOf flexible z' p).1, (bitsOf flexible z' p).1,
      ((sortMachine p.outgoing).length : Int) - 1,
      hs.mem hu hap (List.mem_append.2 (.inr (List.mem_singleton.2 ?_)))⟩
    unfold appKmOf
    simp only [hd]
  · obtain ⟨i, h1, -, h2, h3⟩ := hs.whole (fun q hq h => hu ⟨q, hq, h⟩) _ _ hd
    cases i with
    | app a b c e g k l =>
      simp only [Info.of, ak, Prod.mk.injEq, VId.app.injEq] at h2
      simp only [Info.km, Prod.mk.injEq] at h3
      rw [h2.1, h2.2, h3.1, h3.2] at h1
      exact ⟨_, _, _, h1⟩
    | mach _ _ _ _ _ => simp [Info.of, ak] at h2

/-- Block of an unfixed machine vertex. -/
theorem Shape.free_mach (hs : Shape flexible ps infos d z z' used ab L) (hc : Counted ps) {p : Part}
    (hp : p ∈ ps) (hf : p.fixed = none) {v : MVertex} (hv : v ∈ p.outgoing) :
    ∃ ap i a m : Nat, (p, ap) ∈ L ∧ (sortMachine p.outgoing)[i]? = some v ∧ i < 2 ^ m ∧
      a + m = z'.both ∧ v.nKeys ≤ 2 ^ a ∧ a = (bitsOf flexible z' p).1 ∧
      .mach p.ident v.id ((ap * 2 ^ m + i) * 2 ^ a) (maskOf a) i ∈ infos := by
  have hnone := (hs.all.none p hp hf)
  obtain ⟨ap, hap⟩ := hs.number hp (fun h => by rw [h] at hv; simp at hv)
  obtain ⟨r1, r2, r3, r4⟩ := ready_of hs.inv hs.checked hp hnone.1 (hc p hp hf ∘ maxKeys_zero)
  obtain ⟨i, hi⟩ := List.mem_iff_getElem?.1 ((sortMachine_perm _).mem_iff.2 hv)
  have hlt : i < p.outgoing.length := by
    rw [← (sortMachine_perm _).length_eq]
    exact (List.getElem?_eq_some_iff.1 hi).1
  refine ⟨ap, i, (bitsOf flexible z' p).1, z'.both - (bitsOf flexible z' p).1, hap, hi, by omega,
    by omega, Nat.le_trans (le_maxKeys hv) r4, rfl, ?_⟩
  have := machInfos_at (fixed := d) (ap := ap) (a := (bitsOf flexible z' p).1)
    (m := (bitsOf flexible z' p).2.toNat) (ident := p.ident) (sortMachine p.outgoing) 0 i hi
  have hk : kmOf d ap (bitsOf flexible z' p).1 (bitsOf flexible z' p).2.toNat p.ident v (0 + i) =
      ((ap * 2 ^ (z'.both - (bitsOf flexible z' p).1) + i) * 2 ^ (bitsOf flexible z' p).1,
        maskOf (bitsOf flexible z' p).1) := by
    unfold kmOf
    have hd' : d.get? (p.ident, VId.mach v.id) = none := (hnone.2 v hv).1
    rw [hd', r1, Int.toNat_natCast]
    simp
  rw [hk] at this
  refine hs.mem ⟨p, hp, hf⟩ hap (List.mem_append.2 (.inl ?_))
  simpa using this

/-- Block of an unfixed application vertex. -/
theorem Shape.free_app (hs : Shape flexible ps infos d z z' used ab L) {p : Part}
    (hp : p ∈ ps) (hf : p.fixed = none) (hne : p.outgoing ≠ []) :
    ∃ ap mm nb mi, (p, ap) ∈ L ∧
      .app p.ident p.pre (ap * 2 ^ z'.both) (maskOf z'.both) mm nb mi ∈ infos := by
  have hnone := (hs.all.none p hp hf).1
  obtain ⟨ap, hap⟩ := hs.number hp hne
  refine ⟨ap, maskOf (bitsOf flexible z' p).1, (bitsOf flexible z' p).1,
    ((sortMachine p.outgoing).length : Int) - 1, hap, hs.mem ⟨p, hp, hf⟩ hap
    (List.mem_append.2 (.inr (List.mem_singleton.2 ?_)))⟩
  unfold appKmOf
  simp only [hnone]

/-- A word of a machine block lies in the block of the partition. -/
theorem div_block {ap i a m both : Nat} (hi : i < 2 ^ m) (hb : a + m = both) {x : Nat}
    (h : x / 2 ^ a = ap * 2 ^ m + i) : x / 2 ^ both = ap := by
  rw [← hb, Nat.pow_add, ← Nat.div_div_eq_div_mul, h, Nat.add_comm, Nat.mul_comm,
    Nat.add_mul_div_left _ _ (Nat.two_pow_pos m), Nat.div_eq_of_lt hi, Nat.zero_add]

/-- No word of a block is covered by a fixed key, as long as the zones kept their size. -/
theorem Shape.free_fixed (hs : Shape flexible ps infos d z z' used ab L) (hb : z'.both = z.both)
    {p : Part} {ap : Nat} (hap : (p, ap) ∈ L) {k : Nat × VId} {km : Word × Word}
    (hk : d.get? k = some km) (hv : km.1 &&& km.2 = km.1) (x : Word) (hx : x.toNat / 2 ^ z'.both = ap) :
    ¬ Covers km.1.toNat km.2.toNat x := by
  intro hcov
  rw [covers_word] at hcov
  have := mem_fixedUsed (b := z.both) hk hv hcov
  rw [← hs.checked.usedEq, ← hb, hx] at this
  exact hs.num.free _ hap this

theorem Shape.both_le (hs : Shape flexible ps infos d z z' used ab L) : z'.both ≤ 32 := by
  have := hs.room; omega

theorem same_id {p : Part} {v w : MVertex} (hn : (p.outgoing.map (·.id)).Nodup)
    (hv : v ∈ p.outgoing) (hw : w ∈ p.outgoing) (h : v.id = w.id) : v = w := by
  generalize p.outgoing = l at *
  induction l with
  | nil => simp at hv
  | cons a l ih =>
    rw [List.map_cons, List.nodup_cons] at hn
    rw [List.mem_cons] at hv hw
    rcases hv with rfl | hv <;> rcases hw with rfl | hw
    · rfl
    · exact absurd (List.mem_map.2 ⟨w, hw, h.symm⟩) hn.1
    · exact absurd (List.mem_map.2 ⟨v, hv, h⟩) hn.1
    · exact ih hn.2 hv hw

theorem WF.ids (hwf : WF ps) {p : Part} (hp : p ∈ ps) : (p.outgoing.map (·.id)).Nodup := by
  induction ps with
  | nil => simp at hp
  | cons q ps ih =>
    obtain ⟨h1, h2⟩ := wf_cons hwf
    rw [List.mem_cons] at hp
    rcases hp with rfl | hp
    · exact h1.ids
    · exact ih h2 hp

theorem WF.fixedKM (hwf : WF ps) (hp : p ∈ ps) {akm : Word × Word} (hf : p.fixed = some akm)
    {v : MVertex} (hv : v ∈ p.outgoing) :
    (v.fixed.getD akm).1 &&& (v.fixed.getD akm).2 = (v.fixed.getD akm).1 := by
  cases hvf : v.fixed with
  | none => exact hwf.valid p hp akm hf
  | some km => exact hwf.validM p hp v hv km hvf

/-- The disjointness of machine blocks; the last hypothesis is needed against fixed keys only. -/
theorem Shape.mach_disjoint (hs : Shape flexible ps infos d z z' used ab L) (hwf : WF ps)
    (hc : Counted ps) {p q : Part} (hp : p ∈ ps) (hq : q ∈ ps) (hpf : p.fixed = none)
    {v w : MVertex} (hv : v ∈ p.outgoing) (hw : w ∈ q.outgoing)
    (hne : (p.ident, v.id) ≠ (q.ident, w.id)) {k1 m1 i1 k2 m2 i2 : Nat}
    (h1 : .mach p.ident v.id k1 m1 i1 ∈ infos) (h2 : .mach q.ident w.id k2 m2 i2 ∈ infos)
    (hb : q.fixed = none ∨ z'.both = z.both) (x : Word) : ¬ (Covers k1 m1 x ∧ Covers k2 m2 x) := by
  rintro ⟨c1, c2⟩
  obtain ⟨ap, i, a, m, hap, hi, him, ham, _, hbits, hmem⟩ := hs.free_mach hc hp hpf hv
  have e1 := info_unique' hs.nodup h1 hmem rfl
  simp only [Info.km, Prod.mk.injEq] at e1
  have h32 := hs.both_le
  rw [e1.1, e1.2, covers_maskOf (by omega)] at c1
  have hx := div_block him ham c1
  cases hqf : q.fixed with
  | none =>
    obtain ⟨ap', i', a', m', hap', hi', him', ham', _, hbits', hmem'⟩ := hs.free_mach hc hq hqf hw
    have e2 := info_unique' hs.nodup h2 hmem' rfl
    simp only [Info.km, Prod.mk.injEq] at e2
    rw [e2.1, e2.2, covers_maskOf (by omega)] at c2
    have hx' := div_block him' ham' c2
    have hpq := hs.index_ne hap hap' (by omega)
    subst hpq
    rw [← hbits] at hbits'
    subst hbits'
    have hm : m = m' := by omega
    subst hm
    have hapeq : ap = ap' := by omega
    subst hapeq
    have hii : i = i' := by omega
    subst hii
    rw [hi] at hi'
    simp only [Option.some.injEq] at hi'
    subst hi'
    exact hne rfl
  | some akm =>
    rcases hb with hb | hb
    · rw [hqf] at hb; simp at hb
    obtain ⟨j, hj⟩ := hs.fixed_mach hq hqf hw
    have e2 := info_unique' hs.nodup h2 hj rfl
    simp only [Info.km, Prod.mk.injEq] at e2
    rw [e2.1, e2.2] at c2
    exact hs.free_fixed hb hap (hs.all.mach q hq akm hqf w hw).1 (hwf.fixedKM hq hqf hw) x hx c2

/-- The disjointness of the block of a partition and what another partition gets. -/
theorem Shape.app_disjoint (hs : Shape flexible ps infos d z z' used ab L) (hwf : WF ps)
    (hc : Counted ps) {p q : Part} (hp : p ∈ ps) (hq : q ∈ ps) (hpf : p.fixed = none)
    (hne : (p.pre, p.ident) ≠ (q.pre, q.ident)) {k1 m1 : Nat} {mm1 nb1 : Nat} {mi1 : Int}
    (hpo : p.outgoing ≠ []) (h1 : .app p.ident p.pre k1 m1 mm1 nb1 mi1 ∈ infos)
    (hb : q.fixed = none ∨ z'.both = z.both) (x : Word) (hx : Covers k1 m1 x) :
    (∀ k2 m2 mm2 nb2 mi2, q.outgoing ≠ [] → .app q.ident q.pre k2 m2 mm2 nb2 mi2 ∈ infos →
      ¬ Covers k2 m2 x) ∧
    (∀ w ∈ q.outgoing, ∀ k2 m2 i2, .mach q.ident w.id k2 m2 i2 ∈ infos → ¬ Covers k2 m2 x) := by
  obtain ⟨ap, _, _, _, hap, hmem⟩ := hs.free_app hp hpf hpo
  have e1 := info_unique' hs.nodup h1 hmem rfl
  simp only [Info.km, Prod.mk.injEq] at e1
  have h32 := hs.both_le
  rw [e1.1, e1.2, covers_maskOf h32] at hx
  refine ⟨?_, ?_⟩
  · intro k2 m2 mm2 nb2 mi2 hqo h2 c2
    cases hqf : q.fixed with
    | none =>
      obtain ⟨ap', _, _, _, hap', hmem'⟩ := hs.free_app hq hqf hqo
      have e2 := info_unique' hs.nodup h2 hmem' rfl
      simp only [Info.km, Prod.mk.injEq] at e2
      rw [e2.1, e2.2, covers_maskOf h32] at c2
      have hpq := hs.index_ne hap hap' (by omega)
      subst hpq
      exact hne rfl
    | some akm =>
      rcases hb with hb | hb
      · rw [hqf] at hb; simp at hb
      obtain ⟨_, _, _, hj⟩ := hs.fixed_app hq hqf hqo
      have e2 := info_unique' hs.nodup h2 hj rfl
      simp only [Info.km, Prod.mk.injEq] at e2
      rw [e2.1, e2.2] at c2
      exact hs.free_fixed hb hap (hs.all.app q hq akm hqf) (hwf.valid q hq akm hqf) x hx c2
  · intro w hw k2 m2 i2 h2 c2
    cases hqf : q.fixed with
    | none =>
      obtain ⟨ap', i', a', m', hap', hi', him', ham', _, hbits', hmem'⟩ := hs.free_mach hc hq hqf hw
      have e2 := info_unique' hs.nodup h2 hmem' rfl
      simp only [Info.km, Prod.mk.injEq] at e2
      rw [e2.1, e2.2, covers_maskOf (by omega)] at c2
      have hx' := div_block him' ham' c2
      have hpq := hs.index_ne hap hap' (by omega)
      subst hpq
      exact hne rfl
    | some akm =>
      rcases hb with hb | hb
      · rw [hqf] at hb; simp at hb
      obtain ⟨j, hj⟩ := hs.fixed_mach hq hqf hw
      have e2 := info_unique' hs.nodup h2 hj rfl
      simp only [Info.km, Prod.mk.injEq] at e2
      rw [e2.1, e2.2] at c2
      exact hs.free_fixed hb hap (hs.all.mach q hq akm hqf w hw).1 (hwf.fixedKM hq hqf hw) x hx c2

end

theorem findMachine_error (p : Part) : ∀ (vs : List MVertex) (s : FState) (f u : Bool) (e : PyErr),
    findMachine p vs s f u = .error e → e = .routeInfoAllocation := by
  intro vs
  induction vs with
  | nil => intro s f u e h; simp [findMachine] at h
  | cons v vs ih =>
    intro s f u e h
    rw [findMachine] at h
    simp only at h
    split at h
    · split at h
      · simpa using h.symm
      · split at h
        · simpa using h.symm
        · split at h
          · simpa using h.symm
          · exact ih _ _ _ _ h
    · split at h
      · simpa using h.symm
      · exact ih _ _ _ _ h

theorem findOne_error {p : Part} {s : FState} {e : PyErr} (hn : (p.outgoing.map (·.id)).Nodup)
    (he : p.outgoing = [] → p.fixed = none) (h : findOne s p = .error e) : e = .routeInfoAllocation := by
  unfold findOne at h
  cases hm : findMachine p p.outgoing s false false with
  | error e' =>
    rw [hm] at h
    simp only [bind, Except.bind, Except.error.injEq] at h
    rw [← h]
    exact findMachine_error _ _ _ _ _ _ hm
  | ok r =>
    obtain ⟨s1, f1⟩ := r
    rw [hm] at h
    simp only [bind, Except.bind, pure, Except.pure] at h
    obtain ⟨_, h2, _⟩ := findMachine_ok p p.outgoing s s1 false f1 false hn hm
    split at h
    · simp at h
    · rename_i akm hp
      split at h
      · simp at h
      · split at h
        · simpa using h.symm
        · split at h
          · rename_i hv
            rw [hv] at h2
            cases ho : p.outgoing with
            | nil => rw [he ho] at hp; simp at hp
            | cons a l =>
              rw [ho, List.getLast?_cons] at h2
              simp at h2
          · simp at h

theorem findFixed_error : ∀ (ps : List Part) (s : FState) (e : PyErr), WF ps → NoIdleFixed ps →
    findFixed s ps = .error e → e = .routeInfoAllocation := by
  intro ps
  induction ps with
  | nil => intro s e _ _ h; simp [findFixed] at h
  | cons p ps ih =>
    intro s e hwf hi h
    obtain ⟨hown, hwf'⟩ := wf_cons hwf
    rw [findFixed] at h
    cases h1 : findOne s p with
    | error e' =>
      rw [h1] at h
      simp only [bind, Except.bind, Except.error.injEq] at h
      rw [← h]
      exact findOne_error hown.ids (hi p (by simp)) h1
    | ok s1 =>
      rw [h1] at h
      exact ih s1 e hwf' (fun q hq => hi q (by simp [hq])) h

theorem checkZones_error {flexible : Bool} {d : Fixed} {z : Zones} {e : PyErr}
    (h : checkZones flexible d z = .error e) : e = .routeInfoAllocation := by
  unfold checkZones at h
  simp only at h
  split at h
  · simpa using h.symm
  · split at h
    · simpa using h.symm
    · split at h
      · simp at h
      · split at h <;> simp at h

/-- A result of the allocator, taken apart. -/
theorem allocate_ok {flexible : Bool} {ps : List Part} {infos : Infos} (hwf : WF ps)
    (hi : NoIdleFixed ps) (hc : Counted ps) (h : allocate flexible ps = .ok infos) :
    ∃ d z' used ab L, Shape flexible ps infos d (calculateZones d ps) z' used ab L := by
  cases h1 : findFixed ⟨[], true, none⟩ ps with
  | error e => unfold allocate at h; rw [h1] at h; simp [bind, Except.bind] at h
  | ok f =>
    cases h2 : checkZones flexible f.fixed (calculateZones f.fixed ps) with
    | error e =>
      unfold allocate at h
      rw [h1] at h
      simp only [bind, Except.bind] at h
      rw [h2] at h
      simp at h
    | ok r =>
      obtain ⟨z', used⟩ := r
      obtain ⟨infos', ab, L, h3, hs⟩ := allocate_shape hwf hi hc h1 h2
      rw [h] at h3
      simp only [Except.ok.injEq] at h3
      subst h3
      exact ⟨_, z', used, ab, L, hs⟩

/-- Sizes when all unfixed vertices need the same number of bits. -/
theorem zones_same (d : Fixed) (a : Nat) : ∀ (ps : List Part) (z : Zones),
    (∀ p ∈ ps, d.get? (ak p) = none → 0 < maxKeys p.outgoing → bitsNeeded (maxKeys p.outgoing) = a) →
    ((z.atoms = a ∧ z.both = z.machine + a) ∨ (z.atoms = 0 ∧ z.machine = 0 ∧ z.both = 0)) →
    (ps.foldl (zoneOne d) z).both = (ps.foldl (zoneOne d) z).machine + (ps.foldl (zoneOne d) z).atoms := by
  intro ps
  induction ps with
  | nil =>
    intro z _ hz
    rw [List.foldl_nil]
    omega
  | cons p ps ih =>
    intro z h hz
    rw [List.foldl_cons]
    refine ih _ (fun q hq => h q (by simp [hq])) ?_
    unfold zoneOne
    split
    · exact hz
    · split
      · rename_i hm
        simp only
        split
        · exact hz
        · rename_i hd
          have hd' : d.get? (ak p) = none := by
            cases hg : d.get? (ak p) with
            | none => rfl
            | some _ => exact absurd (by rw [show d.get? (p.ident, VId.app p.pre) = _ from hg]; rfl) hd
          have := h p (by simp) hd' hm
          left
          simp only [this, Nat.max_def]
          rcases hz with ⟨h1, h2⟩ | ⟨h1, h2, h3⟩
          · rw [h1, h2]
            refine ⟨by simp, ?_⟩
            repeat' split
            all_goals omega
          · rw [h1, h2, h3]
            refine ⟨by simp, ?_⟩
            repeat' split
            all_goals omega
      · exact hz

theorem fst_fun {L : List (Part × Nat)} (hn : (L.map (·.1)).Nodup) {p : Part} {i j : Nat}
    (hp : (p, i) ∈ L) (hq : (p, j) ∈ L) : i = j := by
  induction L with
  | nil => simp at hp
  | cons x L ih =>
    rw [List.map_cons, List.nodup_cons] at hn
    rw [List.mem_cons] at hp hq
    rcases hp with rfl | hp <;> rcases hq with hq | hq
    · simpa using (congrArg (·.2) hq).symm
    · exact absurd (List.mem_map.2 ⟨_, hq, rfl⟩) hn.1
    · subst hq; exact absurd (List.mem_map.2 ⟨_, hp, rfl⟩) hn.1
    · exact ih hn.2 hp hq

theorem Shape.index_fun {flexible : Bool} {ps : List Part} {infos : Infos} {d : Fixed} {z z' : Zones}
    {used : List Nat} {ab : Nat} {L : List (Part × Nat)}
    (hs : Shape flexible ps infos d z z' used ab L) (hwf : WF ps) {p : Part} {i j : Nat}
    (hp : (p, i) ∈ L) (hq : (p, j) ∈ L) : i = j := by
  refine fst_fun ?_ hp hq
  rw [hs.num.parts]
  have := hwf.pairs
  unfold List.Nodup at this ⊢
  rw [List.pairwise_map] at this
  exact (this.imp (fun h heq => h (by rw [heq]))).filter _

theorem findFixed_free : ∀ (ps : List Part) (s : FState),
    (∀ p ∈ ps, p.fixed = none ∧ ∀ v ∈ p.outgoing, v.fixed = none) →
    ∃ f, findFixed s ps = .ok f ∧ f.fixed = s.fixed := by
  have hm : ∀ (p : Part) (vs : List MVertex) (s : FState) (u : Bool), (∀ v ∈ vs, v.fixed = none) →
      ∃ s', findMachine p vs s false u = .ok (s', false) ∧ s'.fixed = s.fixed := by
    intro p vs
    induction vs with
    | nil => intro s u _; exact ⟨s, rfl, rfl⟩
    | cons v vs ih =>
      intro s u h
      rw [findMachine]
      simp only [h v (by simp), Bool.false_eq_true, if_false]
      exact ih { s with vert := some v } true (fun w hw => h w (by simp [hw]))
  intro ps
  induction ps with
  | nil => intro s _; exact ⟨s, rfl, rfl⟩
  | cons p ps ih =>
    intro s h
    obtain ⟨hp, hv⟩ := h p (by simp)
    obtain ⟨s', h1, h2⟩ := hm p p.outgoing s false hv
    have h3 : findOne s p = .ok { s' with allFixed := false } := by
      unfold findOne
      rw [h1, hp]
      rfl
    obtain ⟨f, h4, h5⟩ := ih { s' with allFixed := false } (fun q hq => h q (by simp [hq]))
    refine ⟨f, ?_, by rw [h5]; exact h2⟩
    rw [findFixed, h3]
    exact h4

theorem zones_le (d : Fixed) (b : Nat) : ∀ (ps : List Part) (z : Zones), z.both ≤ b →
    (∀ p ∈ ps, 0 < maxKeys p.outgoing →
      bitsNeeded p.outgoing.length + bitsNeeded (maxKeys p.outgoing) ≤ b) →
    (ps.foldl (zoneOne d) z).both ≤ b := by
  intro ps
  induction ps with
  | nil => intro z hz _; exact hz
  | cons p ps ih =>
    intro z hz h
    rw [List.foldl_cons]
    refine ih _ ?_ (fun q hq => h q (by simp [hq]))
    unfold zoneOne
    split
    · exact hz
    · split
      · rename_i hm
        simp only
        split
        · exact hz
        · exact Nat.max_le.2 ⟨hz, h p (by simp) hm⟩
      · exact hz

theorem findOne_of_findFixed : ∀ (ps : List Part) (s s' : FState), findFixed s ps = .ok s' →
    ∀ p ∈ ps, ∃ t t', findOne t p = .ok t' := by
  intro ps
  induction ps with
  | nil => intro s s' _ p hp; simp at hp
  | cons q ps ih =>
    intro s s' h p hp
    rw [findFixed] at h
    cases h1 : findOne s q with
    | error e => rw [h1] at h; simp [bind, Except.bind] at h
    | ok s1 =>
      rw [h1] at h
      rw [List.mem_cons] at hp
      rcases hp with rfl | hp
      · exact ⟨s, s1, h1⟩
      · exact ih s1 s' h p hp

theorem allocate_single {flexible : Bool} {ps : List Part} {infos : Infos}
    (h : allocate flexible ps = .ok infos) {p : Part} (hn : (p.outgoing.map (·.id)).Nodup) (hp : p ∈ ps)
    {akm : Word × Word} (hf : p.fixed = some akm) {v : MVertex} (hv : v ∈ p.outgoing)
    (hvf : v.fixed = none) : p.outgoing = [v] := by
  cases h1 : findFixed ⟨[], true, none⟩ ps with
  | error e => unfold allocate at h; rw [h1] at h; simp [bind, Except.bind] at h
  | ok f =>
    obtain ⟨t, t', h2⟩ := findOne_of_findFixed ps _ _ h1 p hp
    unfold findOne at h2
    cases hm : findMachine p p.outgoing t false false with
    | error e => rw [hm] at h2; simp [bind, Except.bind] at h2
    | ok r =>
      obtain ⟨s1, f1⟩ := r
      rw [hm, hf] at h2
      simp only [bind, Except.bind, pure, Except.pure] at h2
      obtain ⟨_, _, h3⟩ := findMachine_ok p p.outgoing t s1 false f1 false hn hm
      rcases h3 with ⟨_, _, rfl, _⟩ | ⟨_, _, _, ⟨_, _, k5⟩, _⟩
      · simp only [Bool.false_eq_true, if_false] at h2
        split at h2
        · simp at h2
        · rename_i hlen
          cases ho : p.outgoing with
          | nil => rw [ho] at hv; simp at hv
          | cons a l =>
            rw [ho] at hlen hv
            cases l with
            | nil => rw [List.mem_singleton] at hv; rw [hv]
            | cons b l => simp at hlen
      · obtain ⟨km, h4, _⟩ := k5 v hv
        rw [hvf] at h4
        simp at h4

end Pacman.Alloc
