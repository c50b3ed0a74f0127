import Verif.Props.AllocatorFits
/-
C147: how many keys may be asked for.
-/

namespace Pacman.Alloc

/-- How many partitions send packets. -/
def senders (ps : List Part) : Nat := (ps.filter (fun p => decide (p.outgoing ≠ []))).length

theorem bitsNeeded_lt {n : Nat} (h : 0 < n) : 2 ^ bitsNeeded n < 2 * n := by
  refine Nat.not_le.1 fun hle => ?_
  cases hb : bitsNeeded n with
  | zero => rw [hb] at hle; omega
  | succ b =>
    rw [hb, Nat.pow_succ] at hle
    have := bitsNeeded_least (n := n) (b := b) (by omega)
    omega

/-- Three numbers of bits, each the least for its number, are at most `32` together if the numbers multiply to at most a
quarter of `2 ^ 32`. -/
theorem bits_quarter {x y z : Nat} (hx : 0 < x) (hy : 0 < y) (hz : 0 < z) (h : x * y * z ≤ 2 ^ 30) :
    bitsNeeded x + bitsNeeded y + bitsNeeded z ≤ 32 := by
  have h1 := bitsNeeded_lt hx
  have h2 := bitsNeeded_lt hy
  have h3 := bitsNeeded_lt hz
  have h4 : 2 ^ (bitsNeeded x + bitsNeeded y + bitsNeeded z) < 2 ^ 33 := by
    rw [Nat.pow_add, Nat.pow_add]
    have h5 : 2 ^ bitsNeeded x * 2 ^ bitsNeeded y < 2 * x * (2 * y) := Nat.mul_lt_mul'' h1 h2
    have h6 : 2 ^ bitsNeeded x * 2 ^ bitsNeeded y * 2 ^ bitsNeeded z < 2 * x * (2 * y) * (2 * z) :=
      Nat.mul_lt_mul'' h5 h3
    have h7 : 2 * x * (2 * y) * (2 * z) = 8 * (x * y * z) := by
      simp only [Nat.mul_assoc, Nat.mul_left_comm, Nat.mul_comm]
    rw [h7] at h6
    omega
  have := (Nat.pow_lt_pow_iff_right (by decide : 1 < 2)).1 h4
  omega

/-- **C147.** A graph without fixed keys gets its keys, in either mode, if for each partition the number of partitions,
times the number of machine vertices of this one, times the keys of any one of them, is at most a quarter of all
keys. -/
theorem C147_quarter {flexible : Bool} {ps : List Part} (hwf : WF ps) (hc : Counted ps)
    (hno : ∀ p ∈ ps, p.fixed = none ∧ ∀ v ∈ p.outgoing, v.fixed = none)
    (hq : ∀ p ∈ ps, ∀ v ∈ p.outgoing, senders ps * p.outgoing.length * max 1 v.nKeys ≤ 2 ^ 30) :
    ∃ infos, allocate flexible ps = .ok infos := by
  refine (C126_iff hwf (fun p hp _ => (hno p hp).1) hc).2 ⟨fun p hp => .inl (hno p hp), 32 - bitsNeeded (senders ps),
    by omega, ?_, [], ?_, ?_⟩
  · intro p hp _
    cases ho : p.outgoing with
    | nil => exact ⟨0, 0, by simp, by simp, Nat.zero_le _⟩
    | cons v0 vs =>
      rw [← ho]
      have hv0 : v0 ∈ p.outgoing := by rw [ho]; exact List.mem_cons_self
      have hn : 0 < p.outgoing.length := by rw [ho]; simp
      have hP : 0 < senders ps :=
        List.length_pos_of_mem (List.mem_filter.2 ⟨hp, by rw [ho]; simp⟩)
      have hk : max 1 (maxKeys p.outgoing) ≤ 2 ^ 30 / (senders ps * p.outgoing.length) := by
        have hpos : 0 < senders ps * p.outgoing.length := Nat.mul_pos hP hn
        refine Nat.max_le.2 ⟨?_, Pipe.maxKeys_le ?_⟩
        · rw [Nat.le_div_iff_mul_le hpos, Nat.mul_comm]
          exact Nat.le_trans (Nat.mul_le_mul_left _ (Nat.le_max_left _ _)) (hq p hp v0 hv0)
        · intro v hv
          rw [Nat.le_div_iff_mul_le hpos, Nat.mul_comm]
          exact Nat.le_trans (Nat.mul_le_mul_left _ (Nat.le_max_right _ _)) (hq p hp v hv)
      have h := bits_quarter hP hn (z := max 1 (maxKeys p.outgoing)) (by omega) (by
        refine Nat.le_trans (Nat.mul_le_mul_left _ hk) ?_
        rw [Nat.mul_comm]
        exact Nat.div_mul_le_self _ _)
      refine ⟨bitsNeeded (max 1 (maxKeys p.outgoing)), bitsNeeded p.outgoing.length, ?_,
        le_two_pow_bitsNeeded _, by omega⟩
      intro v hv
      exact Nat.le_trans (Nat.le_trans (le_maxKeys hv) (Nat.le_max_right _ _)) (le_two_pow_bitsNeeded _)
  · rintro i ⟨km, ⟨p, hp, h | ⟨v, hv, h⟩⟩, -⟩
    · rw [(hno p hp).1] at h; cases h
    · rw [(hno p hp).2 v hv] at h; cases h
  · change senders ps + 0 ≤ _
    have hb : bitsNeeded (senders ps) ≤ 32 := by
      by_cases h0 : senders ps = 0
      · rw [h0]; decide
      · have hpos : 0 < (ps.filter (fun p : Part => decide (p.outgoing ≠ []))).length := by
          change 0 < senders ps
          omega
        obtain ⟨p, hp⟩ := List.exists_mem_of_length_pos hpos
        obtain ⟨hp, hpo⟩ := List.mem_filter.1 hp
        have hpo := of_decide_eq_true hpo
        obtain ⟨v, hv⟩ := List.exists_mem_of_ne_nil _ hpo
        refine bitsNeeded_least (Nat.le_trans ?_ (Nat.le_trans (hq p hp v hv) (by decide)))
        rw [Nat.mul_assoc]
        exact Nat.le_mul_of_pos_right _ (Nat.mul_pos (List.length_pos_iff.2 hpo) (by omega))
    have := le_two_pow_bitsNeeded (senders ps)
    rw [show 32 - (32 - bitsNeeded (senders ps)) = bitsNeeded (senders ps) by omega]
    exact this

/-- As many partitions, machine vertices of each and keys of each of these as one likes. -/
def evenParts (x n k : Nat) : List Part :=
  (List.range x).map (fun i => ⟨i, i, (List.range n).map (fun j => free j k j), none, n⟩)

theorem evenParts_mem {x n k : Nat} {p : Part} (h : p ∈ evenParts x n k) :
    p.fixed = none ∧ p.outgoing = (List.range n).map (fun j => free j k j) := by
  obtain ⟨i, -, rfl⟩ := List.mem_map.1 h
  exact ⟨rfl, rfl⟩

theorem even_free {n k : Nat} {v : MVertex} (h : v ∈ (List.range n).map (fun j => free j k j)) :
    v.fixed = none ∧ v.nKeys = k := by
  obtain ⟨i, -, rfl⟩ := List.mem_map.1 h
  exact ⟨rfl, rfl⟩

theorem evenParts_wf (x n k : Nat) : WF (evenParts x n k) := by
  refine ⟨?_, ?_, ?_, ?_⟩
  · unfold evenParts
    rw [List.map_map]
    refine List.Pairwise.map _ ?_ (List.nodup_range (n := x))
    intro a b hab h
    exact hab (congrArg Prod.fst h)
  · unfold evenParts
    unfold List.Nodup
    rw [List.pairwise_flatMap]
    refine ⟨?_, ?_⟩
    · intro p hp
      obtain ⟨i, -, rfl⟩ := List.mem_map.1 hp
      rw [List.map_map]
      refine List.Pairwise.map _ ?_ (List.nodup_range (n := n))
      intro a b hab h
      simp [mk, free] at h
      exact hab h
    · refine List.Pairwise.map _ ?_ (List.nodup_range (n := x))
      intro a b hab u hu v hv huv
      obtain ⟨u', -, rfl⟩ := List.mem_map.1 hu
      obtain ⟨v', -, rfl⟩ := List.mem_map.1 hv
      simp [mk] at huv
      exact hab huv.1
  · intro p hp akm h
    rw [(evenParts_mem hp).1] at h; cases h
  · intro p hp v hv km h
    rw [(evenParts_mem hp).2] at hv
    rw [(even_free hv).1] at h; cases h

/-- **C147**, exactly, for graphs in which all partitions have as many machine vertices with as many keys. -/
theorem C147_even (flexible : Bool) (x n k : Nat) (hx : 0 < x) (hn : 0 < n) (hk : 0 < k) :
    (∃ infos, allocate flexible (evenParts x n k) = .ok infos) ↔
      ∃ a b c, x ≤ 2 ^ a ∧ n ≤ 2 ^ b ∧ k ≤ 2 ^ c ∧ a + b + c ≤ 32 := by
  have hne : ((List.range n).map (fun j => free j k j)) ≠ [] := by
    intro h
    have := congrArg List.length h
    simp at this
    omega
  have hs : senders (evenParts x n k) = x := by
    unfold senders
    rw [List.filter_eq_self.2]
    · simp [evenParts]
    · intro p hp
      rw [(evenParts_mem hp).2]
      simpa using hne
  have hfirst : (⟨0, 0, (List.range n).map (fun j => free j k j), none, n⟩ : Part) ∈ evenParts x n k :=
    List.mem_map.2 ⟨0, List.mem_range.2 hx, rfl⟩
  have hv0 : free 0 k 0 ∈ (List.range n).map (fun j => free j k j) := List.mem_map.2 ⟨0, List.mem_range.2 hn, rfl⟩
  rw [C126_iff (evenParts_wf x n k) (fun p hp _ => (evenParts_mem hp).1) (by
    intro p hp _ h
    rw [(evenParts_mem hp).2] at h
    have := h _ hv0
    simp only [free] at this
    omega)]
  constructor
  · rintro ⟨-, w, hw, hwide, L, -, hroom⟩
    obtain ⟨c, b, h1, h2, h3⟩ := hwide _ hfirst rfl
    have h1 := h1 _ hv0
    change senders _ + _ ≤ _ at hroom
    rw [hs] at hroom
    refine ⟨32 - w, b, c, by omega, by simpa using h2, h1, by omega⟩
  · rintro ⟨a, b, c, h1, h2, h3, h4⟩
    refine ⟨fun p hp => .inl ⟨(evenParts_mem hp).1, fun v hv => ?_⟩, 32 - a, by omega, ?_, [], ?_, ?_⟩
    · rw [(evenParts_mem hp).2] at hv
      exact (even_free hv).1
    · intro p hp _
      rw [(evenParts_mem hp).2]
      refine ⟨c, b, fun v hv => by rw [(even_free hv).2]; exact h3, by simpa using h2, by omega⟩
    · rintro i ⟨km, ⟨p, hp, h | ⟨v, hv, h⟩⟩, -⟩
      · rw [(evenParts_mem hp).1] at h; cases h
      · rw [(evenParts_mem hp).2] at hv
        rw [(even_free hv).1] at h; cases h
    · change senders _ + 0 ≤ _
      rw [hs, show 32 - (32 - a) = a by omega]
      exact h1

/-- **C147**: a quarter is as much as can be said: with one more than `2 ^ 10` of each, which is hardly more than a quarter
of all keys, nothing is allocated. -/
theorem C147_tight (flexible : Bool) : 1025 * 1025 * 1025 < 2 ^ 30 + 2 ^ 22 ∧
    ¬ ∃ infos, allocate flexible (evenParts 1025 1025 1025) = .ok infos := by
  refine ⟨by decide, ?_⟩
  rw [C147_even flexible _ _ _ (by decide) (by decide) (by decide)]
  rintro ⟨a, b, c, ha, hb, hc, h⟩
  have big : ∀ d, 1025 ≤ 2 ^ d → 11 ≤ d := by
    intro d hd
    refine Nat.not_lt.1 fun hlt => ?_
    have : 2 ^ d ≤ 2 ^ 10 := Nat.pow_le_pow_right (by decide) (by omega)
    omega
  have := big a ha
  have := big b hb
  have := big c hc
  omega

/-- Three partitions of five machine vertices with 150 000 000 keys each are too much, with 13 000 000 they are not. -/
example : (∃ infos, allocate true (evenParts 3 5 13000000) = .ok infos) ∧
    ¬ ∃ infos, allocate true (evenParts 3 5 150000000) = .ok infos := by
  refine ⟨C147_quarter (evenParts_wf _ _ _) ?_ ?_ ?_, ?_⟩
  · intro p hp _ h
    rw [(evenParts_mem hp).2] at h
    exact absurd (h (free 0 13000000 0) (List.mem_map.2 ⟨0, by decide, rfl⟩)) (by simp [free])
  · intro p hp
    refine ⟨(evenParts_mem hp).1, fun v hv => ?_⟩
    rw [(evenParts_mem hp).2] at hv
    exact (even_free hv).1
  · intro p hp v hv
    rw [(evenParts_mem hp).2] at hv ⊢
    rw [(even_free hv).2]
    decide
  · rw [C147_even true _ _ _ (by decide) (by decide) (by decide)]
    rintro ⟨a, b, c, ha, hb, hc, h⟩
    have : 2 ≤ a := Nat.not_lt.1 fun hlt => by
      have : 2 ^ a ≤ 2 ^ 1 := Nat.pow_le_pow_right (by decide) (by omega)
      omega
    have : 3 ≤ b := Nat.not_lt.1 fun hlt => by
      have : 2 ^ b ≤ 2 ^ 2 := Nat.pow_le_pow_right (by decide) (by omega)
      omega
    have : 28 ≤ c := Nat.not_lt.1 fun hlt => by
      have : 2 ^ c ≤ 2 ^ 27 := Nat.pow_le_pow_right (by decide) (by omega)
      omega
    omega

end Pacman.Alloc
