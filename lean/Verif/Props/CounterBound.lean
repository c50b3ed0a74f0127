import Verif.Props.ChipCounter
import Verif.Props.SplitterChips
/-
C145: how far the chip counter is from the fewest chips possible.
-/

namespace Pacman.Counter

/-- A way of sharing the cores out over chips, in any order whatever: each group goes on one chip. -/
structure Arrangement (cores sdram : Int) (l : List Int) (groups : List (List Int)) : Prop where
  all : groups.flatten.Perm l
  cores : ∀ g ∈ groups, (g.length : Int) ≤ cores
  sdram : ∀ g ∈ groups, g.sum ≤ sdram

theorem groups_length {k : Int} (groups : List (List Int)) (h : ∀ g ∈ groups, (g.length : Int) ≤ k) :
    (groups.flatten.length : Int) ≤ k * groups.length := by
  induction groups with
  | nil => simp
  | cons g gs ih =>
    have h1 := h g List.mem_cons_self
    have h2 := ih (fun x hx => h x (List.mem_cons_of_mem _ hx))
    have e : k * (((g :: gs).length : Nat) : Int) = k * (gs.length : Int) + k := by
      rw [List.length_cons]
      push_cast
      rw [Int.mul_add, Int.mul_one]
    rw [List.flatten_cons, List.length_append, e]
    push_cast
    omega

theorem groups_sum {m : Int} (groups : List (List Int)) (h : ∀ g ∈ groups, g.sum ≤ m) :
    groups.flatten.sum ≤ m * groups.length := by
  induction groups with
  | nil => simp
  | cons g gs ih =>
    have h1 := h g List.mem_cons_self
    have h2 := ih (fun x hx => h x (List.mem_cons_of_mem _ hx))
    have e : m * (((g :: gs).length : Nat) : Int) = m * (gs.length : Int) + m := by
      rw [List.length_cons]
      push_cast
      rw [Int.mul_add, Int.mul_one]
    rw [List.flatten_cons, List.sum_append, e]
    omega

theorem perm_sum {l l' : List Int} (h : l.Perm l') : l.sum = l'.sum := by
  induction h with
  | nil => rfl
  | cons a _ ih => simp [ih]
  | swap a b l => simp; omega
  | trans _ _ i1 i2 => exact i1.trans i2

theorem sum_nonneg (l : List Int) (h : ∀ a ∈ l, 0 ≤ a) : 0 ≤ l.sum := by
  induction l with
  | nil => simp
  | cons a l ih =>
    have h1 := h a List.mem_cons_self
    have h2 := ih (fun b hb => h b (List.mem_cons_of_mem _ hb))
    rw [List.sum_cons]
    omega

/-- After some cores: `full` chips were left because their cores ran out, `tight` ones because the next core did not
fit in the SDRAM left, and one is still open. -/
structure Load (k m : Int) (c : Counter) (n s : Int) (full tight : Nat) : Prop where
  cp : c.coresPer = k
  sp : c.sdramPer = m
  chips : c.nChips = full + tight + 1
  free : 0 ≤ c.coresFree
  used : c.coresFree < k
  count : k * full + tight + (k - c.coresFree) ≤ n
  total : (m + 1) * tight + (m - c.sdramFree) ≤ 2 * s

theorem load_first {k m a : Int} (hk : 0 < k) (h0 : 0 ≤ a) :
    Load k m ((Counter.new k m).add a) 1 a 0 0 := by
  have e : (Counter.new k m).add a = ⟨k, m, k - 1, m - a, 1⟩ := by
    simp [Counter.add, Counter.new, Counter.open]
  rw [e]
  exact ⟨rfl, rfl, rfl, by simp; omega, by simp; omega, by simp; omega, by simp; omega⟩

theorem load_add {k m a : Int} {c : Counter} {n s : Int} {full tight : Nat} (hk : 0 < k) (h0 : 0 ≤ a)
    (hm : c.sdramFree ≤ m) (h : Load k m c n s full tight) :
    ∃ full' tight', Load k m (c.add a) (n + 1) (s + a) full' tight' := by
  obtain ⟨h1, h2, h3, h4, h5, h6, h7⟩ := h
  by_cases hc : c.coresFree = 0
  · refine ⟨full + 1, tight, ?_⟩
    have e : c.add a = ⟨k, m, k - 1, m - a, c.nChips + 1⟩ := by
      simp [Counter.add, Counter.open, hc, h1, h2]
    have e2 : k * ((full + 1 : Nat) : Int) = k * full + k := by
      push_cast
      rw [Int.mul_add, Int.mul_one]
    rw [e]
    refine ⟨rfl, rfl, by dsimp only; omega, by dsimp only; omega, by dsimp only; omega, ?_, by dsimp only; omega⟩
    rw [e2]
    dsimp only
    omega
  · by_cases hs : c.sdramFree < a
    · refine ⟨full, tight + 1, ?_⟩
      have e : c.add a = ⟨k, m, k - 1, m - a, c.nChips + 1⟩ := by
        simp [Counter.add, Counter.open, hs, h1, h2]
      have e2 : (m + 1) * ((tight + 1 : Nat) : Int) = (m + 1) * tight + (m + 1) := by
        push_cast
        rw [Int.mul_add, Int.mul_one]
      rw [e]
      refine ⟨rfl, rfl, by dsimp only; omega, by dsimp only; omega, by dsimp only; omega, ?_, ?_⟩
      · dsimp only
        push_cast
        omega
      · rw [e2]
        dsimp only
        omega
    · refine ⟨full, tight, ?_⟩
      have e : c.add a = { c with coresFree := c.coresFree - 1, sdramFree := c.sdramFree - a } := by
        simp [Counter.add, hc, hs]
      rw [e]
      exact ⟨h1, h2, h3, by dsimp only; omega, by dsimp only; omega, by dsimp only; omega, by dsimp only; omega⟩

theorem add_free_le {m a : Int} {c : Counter} (h0 : 0 ≤ a) (h2 : c.sdramPer = m) (hm : c.sdramFree ≤ m) :
    (c.add a).sdramFree ≤ m := by
  unfold Counter.add
  split
  · simp [Counter.open, h2]
    omega
  · simp
    omega

theorem load_all {k m : Int} (hk : 0 < k) (l : List Int) (hl : ∀ a ∈ l, 0 ≤ a) {c : Counter} {n s : Int}
    {full tight : Nat} (hm : c.sdramFree ≤ m) (h : Load k m c n s full tight) :
    ∃ full' tight', Load k m (c.addAll l) (n + l.length) (s + l.sum) full' tight' ∧ (c.addAll l).sdramFree ≤ m := by
  induction l generalizing c n s full tight with
  | nil => exact ⟨full, tight, by simpa [Counter.addAll] using h, hm⟩
  | cons a l ih =>
    have h0 := hl a List.mem_cons_self
    obtain ⟨f, t, h'⟩ := load_add hk h0 hm h
    obtain ⟨f2, t2, h2, h3⟩ := ih (fun b hb => hl b (List.mem_cons_of_mem _ hb)) (add_free_le h0 h.sp hm) h'
    refine ⟨f2, t2, ?_, h3⟩
    have e1 : n + (((a :: l).length : Nat) : Int) = n + 1 + l.length := by
      rw [List.length_cons]
      push_cast
      omega
    have e2 : s + (a :: l).sum = s + a + l.sum := by
      rw [List.sum_cons]
      omega
    rw [e1, e2]
    exact h2

/-- C145: the chips counted are at most three times those of any way at all of sharing the cores out, in whatever
order, and for chips of few cores fewer: with `k` cores on a chip, at most `3 - 2 / k` times. -/
theorem C145_near {k m : Int} (hk : 0 < k) (l : List Int) (hl : ∀ a ∈ l, 0 ≤ a) (groups : List (List Int))
    (hg : Arrangement k m l groups) :
    k * ((Counter.new k m).addAll l).nChips ≤ (3 * k - 2) * groups.length := by
  cases l with
  | nil =>
    have : 0 ≤ (3 * k - 2) * (groups.length : Int) := Int.mul_nonneg (by omega) (by omega)
    simpa [Counter.addAll, Counter.new] using this
  | cons a l =>
    have h0 := hl a List.mem_cons_self
    have hf : ((Counter.new k m).add a).sdramFree ≤ m := by
      have e : (Counter.new k m).add a = ⟨k, m, k - 1, m - a, 1⟩ := by
        simp [Counter.add, Counter.new, Counter.open]
      rw [e]
      dsimp only
      omega
    obtain ⟨full, tight, h, hle⟩ := load_all hk l (fun b hb => hl b (List.mem_cons_of_mem _ hb)) hf (load_first (m := m) hk h0)
    have hN := groups_length groups hg.cores
    have hS := groups_sum groups hg.sdram
    rw [hg.all.length_eq, List.length_cons] at hN
    rw [perm_sum hg.all, List.sum_cons] at hS
    push_cast at hN
    obtain ⟨_, _, h3, h4, h5, h6, h7⟩ := h
    change k * (((((Counter.new k m).add a).addAll l).nChips : Nat) : Int) ≤ _
    rw [h3]
    generalize (((Counter.new k m).add a).addAll l) = c at *
    generalize hG : (groups.length : Int) = G at *
    have hGpos : 0 < G := by
      have : 0 < k * G := by omega
      exact Int.pos_of_mul_pos_right this (by omega)
    -- fewer than two chips for each group were left for want of SDRAM
    have ht : (tight : Int) + 1 ≤ 2 * G := by
      refine Int.not_lt.1 fun hlt => ?_
      have hm0 : 0 ≤ m := by
        have h8 : 0 ≤ m * G := by
          have := sum_nonneg l (fun b hb => hl b (List.mem_cons_of_mem _ hb))
          omega
        exact Int.nonneg_of_mul_nonneg_left h8 hGpos
      have h8 : (m + 1) * (2 * G) ≤ (m + 1) * tight := Int.mul_le_mul_of_nonneg_left (by omega) (by omega)
      have h9 : (m + 1) * (2 * G) = 2 * (m * G) + 2 * G := by
        rw [Int.add_mul, Int.one_mul]
        rw [Int.mul_left_comm]
      omega
    have h10 : (k - 1) * ((tight : Int) + 1) ≤ (k - 1) * (2 * G) := Int.mul_le_mul_of_nonneg_left ht (by omega)
    have e1 : (k - 1) * ((tight : Int) + 1) = k * tight + k - tight - 1 := by
      rw [Int.sub_mul, Int.mul_add]
      omega
    have e2 : (k - 1) * (2 * G) = 2 * (k * G) - 2 * G := by
      rw [Int.sub_mul, Int.mul_left_comm]
      omega
    have e3 : k * (((full + tight + 1 : Nat)) : Int) = k * full + k * tight + k := by
      push_cast
      rw [Int.mul_add, Int.mul_add, Int.mul_one]
    have e4 : (3 * k - 2) * G = 3 * (k * G) - 2 * G := by
      rw [Int.sub_mul, Int.mul_assoc]
    rw [e3, e4]
    omega

/-- C145: so never more than three times the chips needed. -/
theorem C145_three {k m : Int} (hk : 0 < k) (l : List Int) (hl : ∀ a ∈ l, 0 ≤ a) (groups : List (List Int))
    (hg : Arrangement k m l groups) : ((Counter.new k m).addAll l).nChips ≤ 3 * groups.length := by
  have h := C145_near hk l hl groups hg
  have e : (3 * k - 2) * (groups.length : Int) = k * (3 * groups.length) - 2 * groups.length := by
    rw [Int.sub_mul, Int.mul_assoc, Int.mul_left_comm]
  have h2 : k * (((Counter.new k m).addAll l).nChips : Int) ≤ k * (3 * groups.length) := by omega
  have := Int.le_of_mul_le_mul_left h2 hk
  omega

/-- C145: on chips with one core to use the count is the least possible. -/
theorem C145_one_core {m : Int} (l : List Int) (hl : ∀ a ∈ l, 0 ≤ a) (groups : List (List Int))
    (hg : Arrangement 1 m l groups) : ((Counter.new 1 m).addAll l).nChips ≤ groups.length := by
  have := C145_near (by decide) l hl groups hg
  omega

/-- C145: when all the cores need the same SDRAM the count is the least possible. -/
theorem C145_same {k m a : Int} (h0 : 0 ≤ a) (n : Nat) (groups : List (List Int))
    (hg : Arrangement k m (List.replicate n a) groups) :
    ((Counter.new k m).addAll (List.replicate n a)).nChips ≤ groups.length := by
  have e : groups.flatten = List.replicate n a := List.perm_replicate.1 hg.all
  have h := C53_least (List.replicate n a) (fun b hb => by rw [(List.mem_replicate.1 hb).2]; exact h0)
    (groups.filter (fun g => !g.isEmpty)) (cores := k) (sdram := m)
    ⟨by rw [← e, List.flatten_filter_not_isEmpty],
     fun r hr => by have := (List.mem_filter.1 hr).2; cases r <;> simp_all,
     fun r hr => hg.cores r (List.mem_filter.1 hr).1, fun r hr => hg.sdram r (List.mem_filter.1 hr).1⟩
  exact Nat.le_trans h (List.length_filter_le _ _)

/-- The big and the small cores of the worst order: each needs one unit more than the one before leaves. -/
def big (i : Nat) : Int := i + 1

def small (w i : Nat) : Int := w + 1 - i

/-- An order that does badly: cores without SDRAM, then big and small ones in turn. -/
def badOrder (w z : Nat) : List Int :=
  List.replicate z 0 ++ ((List.range w).flatMap (fun i => [big i, small w i]) ++ [small w w])

def badGroups (k w : Nat) : List (List Int) :=
  [small w 0] :: (List.range w).map (fun i => big i :: small w (i + 1) :: List.replicate (k - 2) 0)

theorem shift_perm (b t : Nat → Int) (n : Nat) :
    ((List.range n).flatMap (fun i => [b i, t i]) ++ [t n]).Perm
      (t 0 :: (List.range n).flatMap (fun i => [b i, t (i + 1)])) := by
  induction n with
  | zero => exact List.Perm.refl _
  | succ n ih =>
    rw [List.range_succ, List.flatMap_append, List.flatMap_append, ← List.cons_append]
    refine List.Perm.trans ?_ (List.Perm.append_right _ ih)
    simp only [List.flatMap_cons, List.flatMap_nil, List.append_nil, List.append_assoc, List.cons_append,
      List.nil_append]
    exact List.Perm.append_left _ (List.Perm.swap _ _ _)

theorem zeros_perm (f : Nat → List Int) (j n : Nat) :
    ((List.range n).flatMap (fun i => f i ++ List.replicate j 0)).Perm
      (List.replicate (n * j) 0 ++ (List.range n).flatMap f) := by
  induction n with
  | zero => simp
  | succ n ih =>
    rw [List.range_succ, List.flatMap_append, List.flatMap_append]
    simp only [List.flatMap_cons, List.flatMap_nil, List.append_nil]
    have e : List.replicate ((n + 1) * j) (0 : Int) = List.replicate (n * j) 0 ++ List.replicate j 0 := by
      rw [List.replicate_append_replicate, Nat.succ_mul]
    rw [e]
    refine (List.Perm.append_right _ ih).trans ?_
    rw [List.append_assoc, List.append_assoc]
    refine List.Perm.append_left _ ?_
    rw [← List.append_assoc]
    exact List.perm_append_comm

theorem bad_arranged (k w : Nat) (hk : 2 ≤ k) : Arrangement k (w + 1) (badOrder w (w * (k - 2))) (badGroups k w) := by
  refine ⟨?_, ?_, ?_⟩
  · unfold badGroups badOrder
    rw [List.flatten_cons, ← List.flatMap_def]
    have h1 := zeros_perm (fun i => [big i, small w (i + 1)]) (k - 2) w
    refine (List.Perm.append_left [small w 0] h1).trans ?_
    rw [← List.append_assoc]
    refine (List.Perm.append_right _ List.perm_append_comm).trans ?_
    rw [List.append_assoc]
    exact List.Perm.append_left _ (shift_perm big (small w) w).symm
  · intro g hg
    rcases List.mem_cons.1 hg with rfl | hg
    · simp
      omega
    · obtain ⟨i, -, rfl⟩ := List.mem_map.1 hg
      simp
      omega
  · intro g hg
    rcases List.mem_cons.1 hg with rfl | hg
    · simp [small]
    · obtain ⟨i, -, rfl⟩ := List.mem_map.1 hg
      simp [small, big]
      omega

theorem addAll_append (c : Counter) (l l' : List Int) : c.addAll (l ++ l') = (c.addAll l).addAll l' := by
  unfold Counter.addAll
  rw [List.foldl_append]

theorem addAll_le (l : List Int) (c : Counter) : c.nChips ≤ (c.addAll l).nChips := by
  induction l generalizing c with
  | nil => exact Nat.le_refl _
  | cons a l ih => exact Nat.le_trans (add_nChips c a).1 (ih (c.add a))

theorem zeros_run (r : Nat) (c : Counter) (h1 : (r : Int) ≤ c.coresFree) (h2 : 0 ≤ c.sdramFree) :
    c.addAll (List.replicate r 0) = { c with coresFree := c.coresFree - r } := by
  induction r generalizing c with
  | zero => simp [Counter.addAll]
  | succ r ih =>
    have hn : ¬ (c.coresFree = 0 ∨ c.sdramFree < 0) := by omega
    have e : c.add 0 = { c with coresFree := c.coresFree - 1 } := by
      unfold Counter.add
      rw [if_neg hn]
      simp
    rw [List.replicate_succ]
    change (c.add 0).addAll _ = _
    rw [e, ih { c with coresFree := c.coresFree - 1 } (by dsimp only; omega) h2]
    simp only [Counter.mk.injEq, and_true, true_and]
    omega

theorem zeros_count (k : Nat) (m : Int) (hk : 0 < k) (hm : 0 ≤ m) (j : Nat) :
    ∀ c : Counter, c.coresPer = k → c.sdramPer = m → c.coresFree = 0 →
      (c.addAll (List.replicate (k * j) 0)).nChips = c.nChips + j ∧
      (c.addAll (List.replicate (k * j) 0)).coresFree = 0 ∧
      (c.addAll (List.replicate (k * j) 0)).coresPer = k ∧ (c.addAll (List.replicate (k * j) 0)).sdramPer = m := by
  induction j with
  | zero => intro c h1 h2 h3; exact ⟨rfl, h3, h1, h2⟩
  | succ j ih =>
    intro c h1 h2 h3
    have e : List.replicate (k * (j + 1)) (0 : Int) = (0 :: List.replicate (k - 1) 0) ++ List.replicate (k * j) 0 := by
      rw [← List.replicate_succ, List.replicate_append_replicate, Nat.mul_succ]
      congr 1
      omega
    have e1 : c.add 0 = ⟨k, m, k - 1, m, c.nChips + 1⟩ := by
      simp [Counter.add, Counter.open, h1, h2, h3]
    have e2 : c.addAll (0 :: List.replicate (k - 1) 0) = ⟨k, m, 0, m, c.nChips + 1⟩ := by
      change (c.add 0).addAll _ = _
      rw [e1, zeros_run _ _ (by dsimp only; omega) hm]
      simp only [Counter.mk.injEq, and_true, true_and]
      omega
    rw [e, addAll_append, e2]
    obtain ⟨i1, i2, i3, i4⟩ := ih ⟨k, m, 0, m, c.nChips + 1⟩ rfl rfl rfl
    exact ⟨by rw [i1]; dsimp only; omega, i2, i3, i4⟩

theorem pairs_count (k w : Nat) (n : Nat) (hn : n ≤ w) :
    ∀ c : Counter, c.coresPer = k → c.sdramPer = w + 1 → c.coresFree = 0 →
      (c.addAll ((List.range n).flatMap (fun i => [big i, small w i]))).nChips = c.nChips + 2 * n ∧
      (c.addAll ((List.range n).flatMap (fun i => [big i, small w i]))).coresPer = k ∧
      (c.addAll ((List.range n).flatMap (fun i => [big i, small w i]))).sdramPer = w + 1 ∧
      ((c.addAll ((List.range n).flatMap (fun i => [big i, small w i]))).coresFree = 0 ∨
        (c.addAll ((List.range n).flatMap (fun i => [big i, small w i]))).sdramFree < big n) := by
  induction n with
  | zero => intro c h1 h2 h3; exact ⟨rfl, h1, h2, Or.inl h3⟩
  | succ n ih =>
    intro c h1 h2 h3
    obtain ⟨i1, i2, i3, i4⟩ := ih (by omega) c h1 h2 h3
    rw [List.range_succ, List.flatMap_append, addAll_append]
    generalize c.addAll ((List.range n).flatMap (fun i => [big i, small w i])) = d at *
    have e1 : d.add (big n) = ⟨k, w + 1, k - 1, w + 1 - big n, d.nChips + 1⟩ := by
      unfold Counter.add
      rw [if_pos i4]
      simp [Counter.open, i2, i3]
    have e2 : (d.add (big n)).add (small w n) = ⟨k, w + 1, k - 1, w + 1 - small w n, d.nChips + 2⟩ := by
      rw [e1]
      unfold Counter.add
      rw [if_pos (Or.inr (by simp only [big, small]; omega))]
      simp [Counter.open]
    have e3 : d.addAll ([n].flatMap (fun i => [big i, small w i])) =
        ⟨k, w + 1, k - 1, w + 1 - small w n, d.nChips + 2⟩ := by
      rw [← e2]
      simp [Counter.addAll]
    rw [e3]
    refine ⟨by dsimp only; omega, rfl, rfl, Or.inr ?_⟩
    simp only [big, small]
    omega

/-- C145: and the bound is met but for one chip: with chips of `k` cores, however many chips are needed, some cores in
some order make the counter count `3 - 2 / k` times as many. -/
theorem C145_tight (k q : Nat) (hk : 2 ≤ k) :
    ∃ (m : Int) (l : List Int) (groups : List (List Int)), Arrangement k m l groups ∧ groups.length = k * q + 1 ∧
      (∀ a ∈ l, 0 ≤ a ∧ a ≤ m) ∧ (3 * k - 2) * q ≤ ((Counter.new k m).addAll l).nChips := by
  refine ⟨((k * q : Nat) : Int) + 1, badOrder (k * q) (k * q * (k - 2)), badGroups k (k * q), bad_arranged k _ hk,
    by simp [badGroups], ?_, ?_⟩
  · intro a ha
    unfold badOrder at ha
    rcases List.mem_append.1 ha with h | h
    · rw [(List.mem_replicate.1 h).2]
      omega
    · rcases List.mem_append.1 h with h | h
      · obtain ⟨i, hi, h⟩ := List.mem_flatMap.1 h
        have hi := List.mem_range.1 hi
        simp only [List.mem_cons, List.not_mem_nil, or_false] at h
        rcases h with rfl | rfl
        · simp only [big]
          omega
        · simp only [small]
          omega
      · rw [List.mem_singleton.1 h]
        simp only [small]
        omega
  · unfold badOrder
    rw [addAll_append, addAll_append, Nat.mul_assoc]
    obtain ⟨z1, z2, z3, z4⟩ := zeros_count k (((k * q : Nat) : Int) + 1) (by omega) (by omega) (q * (k - 2))
      (Counter.new k (((k * q : Nat) : Int) + 1)) rfl rfl rfl
    obtain ⟨p1, -⟩ := pairs_count k (k * q) (k * q) (Nat.le_refl _) _ z3 z4 z2
    refine Nat.le_trans ?_ (addAll_le _ _)
    rw [p1, z1]
    have e : 3 * k - 2 = (k - 2) + 2 * k := by omega
    rw [e, Nat.add_mul, Nat.mul_comm q, Nat.mul_assoc]
    simp only [Counter.new]
    omega

/-- C145: the count is not the worst case it is hoped to be: the same cores taken in another order need more chips, so
a placer that takes them in that order does not get by with the chips counted. -/
theorem C145_worst_case_false : ∃ l l' : List Int, l.Perm l' ∧ (∀ a ∈ l, 0 ≤ a ∧ a ≤ 10) ∧
    ((Counter.new 3 10).addAll l).nChips = 2 ∧ ((Counter.new 3 10).addAll l').nChips = 3 :=
  ⟨[9, 1, 8, 2], [9, 2, 8, 1], by decide, by decide, by decide, by decide⟩

example : Arrangement 3 10 [9, 2, 8, 1] [[1, 9], [2, 8]] ∧ ((Counter.new 3 10).addAll [9, 2, 8, 1]).nChips = 3 :=
  ⟨⟨by decide, by decide, by decide⟩, by decide⟩

example : Arrangement 1 10 [9, 2, 8] [[2], [9], [8]] := ⟨by decide, by decide, by decide⟩

example : Arrangement 4 10 (List.replicate 5 3) [[3, 3], [3, 3, 3]] ∧
    ((Counter.new 4 10).addAll (List.replicate 5 3)).nChips = 2 := ⟨⟨by decide, by decide, by decide⟩, by decide⟩

example : badOrder 4 0 = [1, 5, 2, 4, 3, 3, 4, 2, 1] ∧ ((Counter.new 2 5).addAll (badOrder 4 0)).nChips = 8 ∧
    badGroups 2 4 = [[5], [1, 4], [2, 3], [3, 2], [4, 1]] := by decide

end Pacman.Counter

namespace Pacman.Split

open Pacman.Counter

/-- C145: what the partitioner returns for a graph is at most three times the chips of any way of sharing the machine
vertices of the graph out, under the conditions of `C94_chips_partial`. -/
theorem C145_partitioner {E : Env} {mp : Nat → Option (List Nat)} {mv : Nat → MV} {next : Nat} (hb : Built E mv next)
    {os : List Op} {W W' : World} (h : run E (World.new E mp mv next) os = W) (hL : Linked W) {vs : List Nat}
    (hn : vs.Nodup) {cores sdram : Int} {n : Nat}
    (hp : partition E W cores sdram vs = (W', .ok n)) (hu : ∀ v ∈ vs, Anew E W v)
    (hcores : 0 < cores) (hpos : ∀ v ∈ vs, ∀ m ∈ (W'.app v).machines, 0 ≤ (W'.mv m).sdram)
    (groups : List (List Nat)) (hall : groups.flatten.Perm (vs.flatMap (fun v => (W'.app v).machines)))
    (hc : ∀ g ∈ groups, (g.length : Int) ≤ cores) (hs : ∀ g ∈ groups, (g.map (fun m => (W'.mv m).sdram)).sum ≤ sdram) :
    cores * n ≤ (3 * cores - 2) * groups.length ∧ n ≤ 3 * groups.length := by
  have hW0 : Sound E W := by rw [← h]; exact sound_run os (sound_new hb)
  unfold partition at hp
  split at hp
  · injection hp with _ hp; cases hp
  · rename_i W2 c2 hx
    injection hp with hp hp2
    injection hp2 with hp2
    subst hp
    have he := partitionLoop_load vs hx hn hL hW0 hu
    subst he
    subst hp2
    have hl : ∀ a ∈ vs.flatMap (fun v => (W2.app v).machines.map (fun m => (W2.mv m).sdram)), 0 ≤ a := by
      intro a ha
      obtain ⟨v, hv, ha⟩ := List.mem_flatMap.1 ha
      obtain ⟨m, hm, rfl⟩ := List.mem_map.1 ha
      exact hpos v hv m hm
    have hg : Arrangement cores sdram (vs.flatMap (fun v => (W2.app v).machines.map (fun m => (W2.mv m).sdram)))
        (groups.map (fun g => g.map (fun m => (W2.mv m).sdram))) := by
      refine ⟨?_, ?_, ?_⟩
      · rw [← List.map_flatMap, ← List.map_flatten]
        exact hall.map _
      · intro g hg
        obtain ⟨g', hg', rfl⟩ := List.mem_map.1 hg
        rw [List.length_map]
        exact hc g' hg'
      · intro g hg
        obtain ⟨g', hg', rfl⟩ := List.mem_map.1 hg
        exact hs g' hg'
    have h1 := C145_near hcores _ hl _ hg
    have h2 := C145_three hcores _ hl _ hg
    rw [List.length_map] at h1 h2
    exact ⟨h1, h2⟩

example :
    let W := run demo demoNew [.setSplitter 0 0, .setSplitter 1 2, .setSplitter 3 4, .partition [0]]
    let r := partition demo (resetGraph demo W [0, 1, 3]) 2 10 [0, 1, 3]
    let groups := [[4, 5], [6, 7], [0], [8], [9], [10]]
    r.2 = .ok 6 ∧ groups.flatten.isPerm ([0, 1, 3].flatMap (fun v => (r.1.app v).machines)) ∧
    ∀ g ∈ groups, (g.length : Int) ≤ 2 ∧ (g.map (fun m => (r.1.mv m).sdram)).sum ≤ 10 := by decide +kernel

end Pacman.Split
