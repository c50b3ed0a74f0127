import Verif.Proofs.Slices
/-
C43 to C46: slices of application vertices.
-/

namespace Pacman.Slices

/-! ### C43 -/

theorem ceilDiv_spec {n t : Nat} (ht : 0 < t) : n ≤ ceilDiv n t * t ∧ (0 < n → (ceilDiv n t - 1) * t < n ∧ 0 < ceilDiv n t) := by
  unfold ceilDiv
  have h1 := Nat.div_add_mod (n + t - 1) t
  have h2 := Nat.mod_lt (n + t - 1) ht
  rw [Nat.mul_comm] at h1
  refine ⟨by omega, ?_⟩
  intro hn
  have h3 : 0 < (n + t - 1) / t := Nat.div_pos (by omega) ht
  refine ⟨?_, h3⟩
  rw [Nat.sub_mul, Nat.one_mul]
  omega

/-- What the loop over one dimension makes. -/
theorem singleLoop_spec {n total : Nat} (ht : 0 < total) (k lo : Nat) (hlo : lo ≤ n) (hk : n ≤ lo + k * total)
    (hk' : k ≠ 0 → lo + (k - 1) * total < n) :
    ∃ ss, singleLoop n total k lo = .ok ss ∧ ss.length = k ∧ Contiguous lo ss ∧
      ss.flatMap rasterIds = List.range' lo (n - lo) ∧ ∀ s ∈ ss, s.n ≤ total ∧ s.dims = none := by
  induction k generalizing lo with
  | zero =>
    refine ⟨[], rfl, rfl, trivial, ?_, by simp⟩
    have : n - lo = 0 := by omega
    rw [this]
    rfl
  | succ k ih =>
    have hlt := hk' (by omega)
    have hnext : k ≠ 0 → min n (lo + total) = lo + total := by
      intro hk0
      rw [Nat.succ_sub_one] at hlt
      have : total ≤ k * total := Nat.le_mul_of_pos_left _ (by omega)
      omega
    obtain ⟨ss, h1, h2, h3, h4, h5⟩ := ih (min n (lo + total)) (by omega) (by
      rcases Nat.eq_zero_or_pos k with h0 | h0
      · subst h0
        rw [Nat.zero_mul]
        rw [Nat.zero_add, Nat.one_mul] at hk
        omega
      · rw [hnext (by omega)]
        rw [Nat.add_mul, Nat.one_mul] at hk
        omega) (by
      intro h0
      rw [hnext h0]
      rw [Nat.succ_sub_one] at hlt
      have : (k - 1) * total + total = k * total := by
        rw [← Nat.succ_mul]
        congr 1
        omega
      omega)
    have hlo' : lo < n := by omega
    refine ⟨⟨lo, min n (lo + total) - lo, none⟩ :: ss, ?_, by simp [h2], ?_, ?_, ?_⟩
    · rw [singleLoop]
      unfold mkSlice
      rw [if_neg (by omega)]
      simp only [h1]
    · refine ⟨rfl, (by change 0 < min n (lo + total) - lo; omega), by simp [rasterIds], ?_⟩
      have : lo + (min n (lo + total) - lo) = min n (lo + total) := by omega
      simp only [this]
      exact h3
    · rw [List.flatMap_cons, h4]
      change List.range' lo (min n (lo + total) - lo) ++ _ = _
      have e1 : min n (lo + total) = lo + 1 * (min n (lo + total) - lo) := by omega
      have e2 : List.range' (min n (lo + total)) (n - min n (lo + total)) =
          List.range' (lo + 1 * (min n (lo + total) - lo)) (n - min n (lo + total)) := by rw [← e1]
      rw [e2, List.range'_append]
      congr 1
      omega
    · intro s hs
      rcases List.mem_cons.1 hs with rfl | hs
      · exact ⟨by change min n (lo + total) - lo ≤ total; omega, rfl⟩
      · exact h5 s hs

/-- C43: the slices of a vertex with one dimension cover the atoms from 0 to n - 1 in order, each exactly once;
they are contiguous and not empty, and none has more atoms than the maximum. -/
theorem C43_slices_tile (n m : Nat) (hn : 0 < n) (hm : 0 < m) :
    ∃ ss, singleSlices ⟨[n], some [m]⟩ = .ok ss ∧ ss.flatMap rasterIds = List.range n ∧
      Contiguous 0 ss ∧ (∀ s ∈ ss, s.n ≤ m ∧ s.dims = none) ∧ (ss.length - 1) * m < n ∧ n ≤ ss.length * m := by
  have hp1 : prod [n] = n := Nat.mul_one n
  have hp2 : prod [m] = m := Nat.mul_one m
  unfold singleSlices
  simp only [maxAtoms, maxPerDim, checkAtoms, Vertex.nAtoms, List.length_singleton, ne_eq, not_true,
    if_false, Nat.lt_irrefl, Except.map, bind, Except.bind, hp1, hp2]
  by_cases h : n < m
  · rw [if_pos h]
    refine ⟨[⟨0, n, none⟩], ?_, ?_, ?_, ?_, ?_, ?_⟩
    · unfold mkSlice
      rw [if_neg (by omega)]
      rfl
    · simp [rasterIds, List.range_eq_range']
    · exact ⟨rfl, hn, by simp [rasterIds], trivial⟩
    · intro s hs
      rw [List.mem_singleton] at hs
      subst hs
      exact ⟨Nat.le_of_lt h, rfl⟩
    · simp
      omega
    · simp
      omega
  · rw [if_neg h]
    have hg : getE [m] 0 = .ok m := rfl
    simp only [hg]
    rw [if_neg (by omega)]
    obtain ⟨hc1, hc2⟩ := ceilDiv_spec (n := n) hm
    have hc3 := hc2 hn
    obtain ⟨ss, h1, h2, h3, h4, h5⟩ := singleLoop_spec (n := n) hm (ceilDiv n m) 0 (by omega)
      (by rw [Nat.zero_add]; exact hc1) (fun _ => by rw [Nat.zero_add]; exact hc3.1)
    refine ⟨ss, h1, ?_, h3, h5, ?_, ?_⟩
    · rw [h4, List.range_eq_range', Nat.sub_zero]
    · rw [h2]
      exact hc3.1
    · rw [h2]
      exact hc1

/-- C43 without a maximum: one slice. -/
theorem C43_no_maximum (n : Nat) (hn : 0 < n) :
    singleSlices ⟨[n], none⟩ = .ok [⟨0, n, none⟩] ∧ rasterIds ⟨0, n, none⟩ = List.range n := by
  have hp1 : prod [n] = n := Nat.mul_one n
  refine ⟨?_, by simp [rasterIds, List.range_eq_range']⟩
  unfold singleSlices
  simp only [maxAtoms, maxPerDim, Vertex.nAtoms, bind, Except.bind, hp1]
  rw [if_neg (Nat.lt_irrefl n)]
  have hg : getE [n] 0 = .ok n := rfl
  simp only [hg]
  rw [if_neg (by omega)]
  have hc : ceilDiv n n = 1 := by
    rw [ceilDiv_dvd hn (Nat.dvd_refl n), Nat.div_self hn]
  rw [hc, singleLoop]
  unfold mkSlice
  have : min n (0 + n) = n := by omega
  rw [this, if_neg (by omega)]
  rfl

/-- C43, failures: no atoms or no atoms per core is an error. -/
theorem C43_fails (n m : Nat) :
    singleSlices ⟨[0], some [m + 1]⟩ = .error .pacmanValueError ∧
    singleSlices ⟨[n], some [0]⟩ = .error .zeroDivision ∧
    singleSlices ⟨[0], none⟩ = .error .zeroDivision := by
  refine ⟨?_, ?_, rfl⟩
  · unfold singleSlices
    simp [maxAtoms, checkAtoms, Vertex.nAtoms, prod, Except.map, bind, Except.bind, mkSlice]
  · unfold singleSlices
    simp [maxAtoms, maxPerDim, checkAtoms, Vertex.nAtoms, prod, Except.map, bind, Except.bind, getE]

example : singleSlices ⟨[10], some [4]⟩ = .ok [⟨0, 4, none⟩, ⟨4, 4, none⟩, ⟨8, 2, none⟩] := by decide +kernel

/-! ### C44 -/

theorem checkDims_ok {m shape : List Nat} (hm : ∀ c ∈ m, 0 < c) (hd : ∀ d ∈ m.zip shape, d.1 ∣ d.2) :
    checkDims (m.zip shape) = .ok () := by
  induction m generalizing shape with
  | nil => rfl
  | cons c m ih =>
    cases shape with
    | nil => rfl
    | cons a shape =>
      rw [List.zip_cons_cons, checkDims]
      have h1 := hm c List.mem_cons_self
      have h2 : c ∣ a := hd (c, a) List.mem_cons_self
      rw [if_neg (by omega), if_neg (by simpa using Nat.mod_eq_zero_of_dvd h2)]
      exact ih (fun c hc => hm c (List.mem_cons_of_mem _ hc))
        (fun d hd' => hd d (by rw [List.zip_cons_cons]; exact List.mem_cons_of_mem _ hd'))

theorem checkAtoms_ok {v : Vertex} (hv : v.Valid) {m : List Nat} (hm : v.maxPer = some m) :
    checkAtoms v.shape m = .ok () := by
  obtain ⟨h1, h2, h3⟩ := hv.2 m hm
  unfold checkAtoms
  rw [if_neg (by simpa using h1)]
  by_cases h : 1 < v.shape.length
  · rw [if_pos h]
    exact checkDims_ok h2 (h3 (by omega))
  · rw [if_neg h]

theorem maxPerDim_ok {v : Vertex} (hv : v.Valid) : maxPerDim v = .ok v.per := by
  unfold maxPerDim Vertex.per
  cases hm : v.maxPer with
  | none => rfl
  | some m =>
    simp only [checkAtoms_ok hv hm]
    rfl

theorem maxAtoms_ok {v : Vertex} (hv : v.Valid) : maxAtoms v = .ok (prod v.per) := by
  unfold maxAtoms Vertex.per Vertex.nAtoms
  cases hm : v.maxPer with
  | none => rfl
  | some m =>
    simp only [checkAtoms_ok hv hm]
    rfl

theorem per_length {v : Vertex} (hv : v.Valid) : v.per.length = v.shape.length := by
  unfold Vertex.per
  cases hm : v.maxPer with
  | none => rfl
  | some m => exact (hv.2 m hm).1

theorem divides_of_valid {v : Vertex} (hv : v.Valid) (hl : v.shape.length ≠ 1) :
    Divides (v.per.zip v.shape) := by
  intro d hd
  have hshape := hv.1 d.2 (List.of_mem_zip hd).2
  cases hm : v.maxPer with
  | none =>
    have : v.per = v.shape := by unfold Vertex.per; rw [hm]; rfl
    rw [this] at hd
    have heq : d.1 = d.2 := by
      obtain ⟨i, hi, rfl⟩ := List.getElem_of_mem hd
      rw [List.getElem_zip]
    rw [heq]
    exact ⟨hshape, Nat.dvd_refl _, hshape⟩
  | some m =>
    have : v.per = m := by unfold Vertex.per; rw [hm]; rfl
    rw [this] at hd
    obtain ⟨_, h2, h3⟩ := hv.2 m hm
    exact ⟨h2 d.1 (List.of_mem_zip hd).1, h3 hl d hd, hshape⟩

theorem zip_fst {a b : List Nat} (h : a.length = b.length) : (a.zip b).map (fun d => d.1) = a := by
  exact List.map_fst_zip (Nat.le_of_eq h)

theorem zip_snd {a b : List Nat} (h : a.length = b.length) : (a.zip b).map (fun d => d.2) = b := by
  exact List.map_snd_zip (Nat.le_of_eq h.symm)

theorem nCores_pos {ds : List (Nat × Nat)} (h : Divides ds) : 0 < nCores ds := by
  refine prod_pos ?_
  intro c hc
  obtain ⟨d, hd, rfl⟩ := List.mem_map.1 hc
  obtain ⟨h1, h2, h3⟩ := h d hd
  exact Nat.div_pos (Nat.le_of_dvd h3 h2) h1

theorem nPer_pos {ds : List (Nat × Nat)} (h : Divides ds) : 0 < nPer ds := by
  refine prod_pos ?_
  intro c hc
  obtain ⟨d, hd, rfl⟩ := List.mem_map.1 hc
  exact (h d hd).1

theorem prod_eq_one {l : List Nat} (h : prod l = 1) : ∀ a ∈ l, a = 1 := by
  induction l with
  | nil => simp
  | cons b l ih =>
    have h' : b = 1 ∧ prod l = 1 := by
      have e : b * prod l = 1 := h
      exact ⟨Nat.eq_one_of_mul_eq_one_right e, Nat.eq_one_of_mul_eq_one_left e⟩
    intro a ha
    rcases List.mem_cons.1 ha with rfl | ha
    · exact h'.1
    · exact ih h'.2 a ha

theorem pl_whole {per shape : List Nat} (hlen : per.length = shape.length)
    (h : ∀ d ∈ per.zip shape, 0 < d.1 ∧ d.2 / d.1 = 1 ∧ d.1 ∣ d.2) (v : Nat) (hv : v = 0) :
    pl (per.zip shape) v = shape.map (fun a => (0, a, a)) := by
  induction per generalizing shape v with
  | nil =>
    cases shape with
    | nil => rfl
    | cons _ _ => simp at hlen
  | cons c per ih =>
    cases shape with
    | nil => simp at hlen
    | cons a shape =>
      subst hv
      obtain ⟨h1, h2, h3⟩ := h (c, a) List.mem_cons_self
      have hca : c = a := by
        have := Nat.div_mul_cancel h3
        rw [h2] at this
        omega
      rw [List.zip_cons_cons, pl, Nat.zero_mod, Nat.zero_mul, List.map_cons, hca]
      congr 1
      exact ih (by simpa using hlen)
        (fun d hd => h d (by rw [List.zip_cons_cons]; exact List.mem_cons_of_mem _ hd)) _ (Nat.zero_div _)

/-- The slices in more than one dimension. -/
theorem multiSlices_eq {v : Vertex} (hv : v.Valid) (hl : v.shape.length ≠ 1) :
    multiSlices v = .ok ((List.range (nCores (v.per.zip v.shape))).map
      (fun i => ⟨i * prod v.per, prod v.per, some (pl (v.per.zip v.shape) i)⟩)) := by
  have hd := divides_of_valid hv hl
  have hlen := per_length hv
  have hnp : nPer (v.per.zip v.shape) = prod v.per := by unfold nPer; rw [zip_fst hlen]
  have hna : nAll (v.per.zip v.shape) = prod v.shape := by unfold nAll; rw [zip_snd hlen]
  have hmul := nCores_mul hd
  have hcp := nCores_pos hd
  have hpp := nPer_pos hd
  unfold multiSlices
  simp only [maxPerDim_ok hv, maxAtoms_ok hv, bind, Except.bind]
  rw [if_neg (by simpa using hlen), if_neg hl]
  by_cases h : v.nAtoms ≤ prod v.per
  · rw [if_pos h]
    unfold Vertex.nAtoms at *
    rw [hnp, hna] at hmul
    rw [hnp] at hpp
    have hone : nCores (v.per.zip v.shape) = 1 := by
      refine Classical.byContradiction fun hne => ?_
      have h2 : 2 ≤ nCores (v.per.zip v.shape) := by omega
      have := Nat.mul_le_mul_right (prod v.per) h2
      omega
    have hall := prod_eq_one hone
    rw [hone]
    have hn : prod v.shape = prod v.per := by rw [← hmul, hone, Nat.one_mul]
    unfold mkSlice
    rw [hn, if_neg (by omega), pl_whole hlen (v := 0) (by
      intro d hd'
      obtain ⟨h1, h2, _⟩ := hd d hd'
      exact ⟨h1, hall _ (List.mem_map.2 ⟨d, hd', rfl⟩), h2⟩) rfl |>.symm]
    simp only [Except.map, List.range_one, List.map_cons, List.map_nil, Nat.zero_mul, Nat.sub_zero]
  · rw [if_neg h]
    have := multiLoop_eq hd (nCores (v.per.zip v.shape)) 0 (by omega)
    rw [Nat.zero_mul, hnp] at this
    simp only [numerators_snd hd, Nat.one_mul]
    rw [List.range_eq_range', this]

theorem ids_eq {ds : List (Nat × Nat)} (h : Divides ds) :
    ((List.range (nCores ds)).map (fun i => (⟨i * nPer ds, nPer ds, some (pl ds i)⟩ : Slice))).flatMap rasterIds =
      (List.range (nAll ds)).map (fun i => od ds (i / nPer ds) (i % nPer ds)) := by
  have hp := nPer_pos h
  rw [List.flatMap_map, ← nCores_mul h, range_mul, List.map_flatMap]
  congr 1
  funext q
  simp only [rasterIds]
  rw [mdIds_eq (fits_pl h q), size_pl, List.map_map]
  apply List.map_congr_left
  intro j hj
  have hj : j < nPer ds := List.mem_range.1 hj
  simp only [Function.comp_apply]
  rw [ras_pl, Nat.mul_comm q, Nat.mul_add_div hp, Nat.div_eq_of_lt hj, Nat.add_zero, Nat.mul_add_mod,
    Nat.mod_eq_of_lt hj]

theorem perm_range {n : Nat} {f : Nat → Nat} (hlt : ∀ i, i < n → f i < n)
    (hinj : ∀ i j, i < n → j < n → f i = f j → i = j) : ((List.range n).map f).Perm (List.range n) := by
  have hnd : ((List.range n).map f).Nodup := by
    rw [List.nodup_iff_pairwise_ne, List.pairwise_map]
    refine List.Pairwise.imp_of_mem ?_ List.nodup_range
    intro a b ha hb hab he
    exact hab (hinj a b (List.mem_range.1 ha) (List.mem_range.1 hb) he)
  have hsub : (List.range n).map f ⊆ List.range n := by
    intro x hx
    obtain ⟨i, hi, rfl⟩ := List.mem_map.1 hx
    exact List.mem_range.2 (hlt i (List.mem_range.1 hi))
  rw [List.perm_ext_iff_of_nodup hnd List.nodup_range]
  intro a
  constructor
  · intro h; exact hsub h
  · intro ha
    refine Classical.byContradiction fun hna => ?_
    have hnd' : (a :: (List.range n).map f).Nodup := List.nodup_cons.2 ⟨hna, hnd⟩
    have := List.Nodup.length_le_of_subset hnd' (l₂ := List.range n) (by
      intro x hx
      rcases List.mem_cons.1 hx with rfl | hx
      · exact ha
      · exact hsub hx)
    simp at this
    omega

theorem contiguous_map {ds : List (Nat × Nat)} (h : Divides ds) (k v : Nat) :
    Contiguous (v * nPer ds) ((List.range' v k).map (fun i => ⟨i * nPer ds, nPer ds, some (pl ds i)⟩)) := by
  induction k generalizing v with
  | zero => trivial
  | succ k ih =>
    rw [List.range'_succ, List.map_cons]
    refine ⟨rfl, nPer_pos h, ?_, ?_⟩
    · simp only [rasterIds]
      rw [mdIds_eq (fits_pl h v), List.length_map, List.length_range, size_pl]
    · have := ih (v + 1)
      rw [Nat.add_mul, Nat.one_mul] at this
      exact this

theorem pl_within (per shape : List Nat) (hlen : per.length = shape.length) (v : Nat) :
    (pl (per.zip shape) v).length = per.length ∧ ∀ q ∈ (pl (per.zip shape) v).zip per, q.1.2.1 ≤ q.2 := by
  induction per generalizing shape v with
  | nil => simp [pl]
  | cons c per ih =>
    cases shape with
    | nil => simp at hlen
    | cons a shape =>
      obtain ⟨h1, h2⟩ := ih shape (by simpa using hlen) (v / (a / c))
      rw [List.zip_cons_cons, pl]
      refine ⟨by simp [h1], ?_⟩
      intro q hq
      rw [List.zip_cons_cons] at hq
      rcases List.mem_cons.1 hq with rfl | hq
      · exact Nat.le_refl _
      · exact h2 q hq

/-- C44: the slices of a valid vertex with several dimensions cover every atom exactly once; their atom ranges
are contiguous and not empty; none exceeds the limit, in number or in any dimension; and each lies within the
vertex. -/
theorem C44_slices_tile {v : Vertex} (hv : v.Valid) (hl : v.shape.length ≠ 1) :
    ∃ ss, multiSlices v = .ok ss ∧ (ss.flatMap rasterIds).Perm (List.range v.nAtoms) ∧
      Contiguous 0 ss ∧ (∀ s ∈ ss, Within v.per s ∧ s.Proper) ∧ ss.length * prod v.per = v.nAtoms := by
  have hd := divides_of_valid hv hl
  have hlen := per_length hv
  have hnp : nPer (v.per.zip v.shape) = prod v.per := by unfold nPer; rw [zip_fst hlen]
  have hna : nAll (v.per.zip v.shape) = prod v.shape := by unfold nAll; rw [zip_snd hlen]
  have hpp := nPer_pos hd
  refine ⟨_, multiSlices_eq hv hl, ?_, ?_, ?_, ?_⟩
  · rw [← hnp, ids_eq hd]
    unfold Vertex.nAtoms
    rw [← hna]
    refine perm_range (fun i _ => od_lt hd _ _) ?_
    intro i j hi hj he
    rw [← nCores_mul hd, Nat.mul_comm] at hi hj
    have h1 := key_od hd (Nat.div_lt_of_lt_mul hi) (Nat.mod_lt i hpp)
    have h2 := key_od hd (Nat.div_lt_of_lt_mul hj) (Nat.mod_lt j hpp)
    rw [he] at h1
    have e1 := h1.1.symm.trans h2.1
    have e2 := h1.2.symm.trans h2.2
    have := Nat.div_add_mod i (nPer (v.per.zip v.shape))
    have := Nat.div_add_mod j (nPer (v.per.zip v.shape))
    rw [e1, e2] at *
    omega
  · have := contiguous_map hd (nCores (v.per.zip v.shape)) 0
    rw [Nat.zero_mul, hnp] at this
    rw [List.range_eq_range']
    exact this
  · intro s hs
    obtain ⟨i, _, rfl⟩ := List.mem_map.1 hs
    refine ⟨⟨Nat.le_refl _, ?_⟩, ?_⟩
    · intro ds hds
      cases hds
      exact pl_within _ _ hlen i
    · intro ds hds
      cases hds
      exact ⟨by rw [← hnp]; exact (size_pl _ i).symm, fits_pl hd i⟩
  · rw [List.length_map, List.length_range]
    have := nCores_mul hd
    rw [hnp, hna] at this
    exact this

theorem prod_zero {l : List Nat} (h : ¬ ∀ a ∈ l, 0 < a) : prod l = 0 := by
  induction l with
  | nil => simp at h
  | cons a l ih =>
    by_cases ha : 0 < a
    · have : ¬ ∀ a ∈ l, 0 < a := by
        intro hh
        exact h (by
          intro b hb
          rcases List.mem_cons.1 hb with rfl | hb
          · exact ha
          · exact hh b hb)
      rw [prod, ih this, Nat.mul_zero]
    · have : a = 0 := by omega
      rw [prod, this, Nat.zero_mul]

theorem checkDims_spec {m shape : List Nat} (hl : m.length = shape.length)
    (h : checkDims (m.zip shape) = .ok ()) : (∀ c ∈ m, 0 < c) ∧ ∀ d ∈ m.zip shape, d.1 ∣ d.2 := by
  induction m generalizing shape with
  | nil => simp
  | cons c m ih =>
    cases shape with
    | nil => simp at hl
    | cons a shape =>
      rw [List.zip_cons_cons, checkDims] at h
      by_cases h1 : c = 0
      · rw [if_pos h1] at h; cases h
      · rw [if_neg h1] at h
        by_cases h2 : a % c ≠ 0
        · rw [if_pos h2] at h; cases h
        · rw [if_neg h2] at h
          obtain ⟨h3, h4⟩ := ih (by simpa using hl) h
          refine ⟨?_, ?_⟩
          · intro x hx
            rcases List.mem_cons.1 hx with rfl | hx
            · omega
            · exact h3 x hx
          · intro d hd
            rw [List.zip_cons_cons] at hd
            rcases List.mem_cons.1 hd with rfl | hd
            · exact Nat.dvd_of_mod_eq_zero (by simpa using h2)
            · exact h4 d hd

/-- C44, failures: slicing succeeds only for valid vertices. -/
theorem C44_only_valid {v : Vertex} {ss : List Slice} (h : multiSlices v = .ok ss) : v.Valid := by
  have hshape : ∀ {m : Nat}, (maxAtoms v = .ok m → m = prod v.per) := by
    intro m hm
    unfold maxAtoms Vertex.nAtoms at hm
    unfold Vertex.per
    cases hp : v.maxPer with
    | none => rw [hp] at hm; cases hm; rfl
    | some l =>
      rw [hp] at hm
      simp only at hm
      cases hc : checkAtoms v.shape l with
      | error e => rw [hc] at hm; cases hm
      | ok u => rw [hc] at hm; cases hm; rfl
  unfold multiSlices at h
  simp only [bind, Except.bind] at h
  cases hper : maxPerDim v with
  | error e => rw [hper] at h; cases h
  | ok per =>
    rw [hper] at h
    have hcheck : ∀ m, v.maxPer = some m → checkAtoms v.shape m = .ok () ∧ per = m := by
      intro m hm
      unfold maxPerDim at hper
      rw [hm] at hper
      simp only at hper
      cases hc : checkAtoms v.shape m with
      | error e => rw [hc] at hper; cases hper
      | ok u => rw [hc] at hper; cases hper; exact ⟨rfl, rfl⟩
    have hnone : v.maxPer = none → per = v.shape := by
      intro hm
      unfold maxPerDim at hper
      rw [hm] at hper
      cases hper
      rfl
    simp only at h
    by_cases hlen : per.length ≠ v.shape.length
    · rw [if_pos hlen] at h; cases h
    · rw [if_neg hlen] at h
      have hlen : per.length = v.shape.length := by omega
      by_cases hl : v.shape.length = 1
      · rw [if_pos hl] at h
        unfold singleSlices at h
        simp only [bind, Except.bind] at h
        cases hma : maxAtoms v with
        | error e => rw [hma] at h; cases h
        | ok m =>
          rw [hma] at h
          simp only at h
          have hmp := hshape hma
          have hpos : 0 < v.nAtoms ∧ ∀ c ∈ per, 0 < c := by
            by_cases hlt : v.nAtoms < m
            · rw [if_pos hlt] at h
              unfold mkSlice at h
              by_cases h0 : v.nAtoms ≤ 0
              · rw [if_pos h0] at h; cases h
              · refine ⟨by omega, ?_⟩
                cases hm : v.maxPer with
                | none =>
                  exfalso
                  unfold Vertex.per at hmp
                  rw [hm] at hmp
                  unfold Vertex.nAtoms at hlt
                  rw [hmp] at hlt
                  exact Nat.lt_irrefl _ hlt
                | some l =>
                  have := (hcheck l hm).2
                  subst this
                  refine Classical.byContradiction fun hn => ?_
                  unfold Vertex.per at hmp
                  rw [hm] at hmp
                  have := prod_zero hn
                  simp only [Option.getD_some] at hmp
                  omega
            · rw [if_neg hlt, hper] at h
              simp only at h
              cases hp : per with
              | nil => rw [hp] at hlen; simp at hlen; omega
              | cons c l =>
                rw [hp] at h hlen
                have hl0 : l = [] := by
                  rw [hl] at hlen
                  simpa using hlen
                subst hl0
                have hg : getE [c] 0 = .ok c := rfl
                rw [hg] at h
                simp only at h
                by_cases hc : c = 0
                · rw [if_pos hc] at h; cases h
                · rw [if_neg hc] at h
                  refine ⟨?_, by simp; omega⟩
                  refine Nat.pos_of_ne_zero ?_
                  intro h0
                  have hm0 : m = 0 := by omega
                  rw [hmp] at hm0
                  cases hm : v.maxPer with
                  | none =>
                    have := hnone hm
                    unfold Vertex.nAtoms at h0
                    rw [← this, hp] at h0
                    simp [prod] at h0
                    exact hc h0
                  | some l =>
                    have := (hcheck l hm).2
                    unfold Vertex.per at hm0
                    rw [hm, ← this, hp] at hm0
                    simp [prod] at hm0
                    exact hc hm0
          refine ⟨?_, ?_⟩
          · refine Classical.byContradiction fun hn => ?_
            have := prod_zero hn
            have := hpos.1
            unfold Vertex.nAtoms at this
            omega
          · intro l hm
            have := (hcheck l hm).2
            subst this
            exact ⟨hlen, hpos.2, fun hne => absurd hl hne⟩
      · rw [if_neg hl] at h
        cases hma : maxAtoms v with
        | error e => rw [hma] at h; cases h
        | ok m =>
          rw [hma] at h
          simp only at h
          have hmp := hshape hma
          refine ⟨?_, ?_⟩
          · refine Classical.byContradiction fun hn => ?_
            have h0 : v.nAtoms = 0 := prod_zero hn
            rw [h0, if_pos (Nat.zero_le _)] at h
            simp [mkSlice, Except.map] at h
          · intro l hm
            obtain ⟨h1, h2⟩ := hcheck l hm
            subst h2
            refine ⟨hlen, ?_⟩
            unfold checkAtoms at h1
            rw [if_neg (by simpa using hlen)] at h1
            by_cases hgt : 1 < v.shape.length
            · rw [if_pos hgt] at h1
              obtain ⟨h3, h4⟩ := checkDims_spec hlen h1
              exact ⟨h3, fun _ => h4⟩
            · have h0 : v.shape.length = 0 := by omega
              have hp0 : per = [] := by
                rw [h0] at hlen
                exact List.length_eq_zero_iff.1 hlen
              subst hp0
              simp

/-- A vertex of six by four atoms with three by two atoms per core. -/
def exampleVertex : Vertex := ⟨[6, 4], some [3, 2]⟩

example : exampleVertex.Valid ∧ exampleVertex.shape.length ≠ 1 ∧ multiSlices exampleVertex =
    .ok [⟨0, 6, some [(0, 3, 6), (0, 2, 4)]⟩, ⟨6, 6, some [(3, 3, 6), (0, 2, 4)]⟩,
         ⟨12, 6, some [(0, 3, 6), (2, 2, 4)]⟩, ⟨18, 6, some [(3, 3, 6), (2, 2, 4)]⟩] ∧
    rasterIds ⟨6, 6, some [(3, 3, 6), (0, 2, 4)]⟩ = [3, 4, 5, 9, 10, 11] := by
  refine ⟨⟨by decide, ?_⟩, by decide, by decide +kernel, by decide +kernel⟩
  intro m hm
  cases hm
  exact ⟨rfl, by decide, fun _ => by decide⟩

/-! ### C45 -/

/-- C45: on the atoms of a proper slice the conversions between indices relative to the slice and raster indices
are inverse to each other, and the raster IDs are listed in the order of the relative indices. -/
theorem C45_inverse {s : Slice} (hs : s.Proper) :
    rasterIds s = (List.range s.n).map (rasterIndex s) ∧
    (∀ i, i < s.n → relIndex s (rasterIndex s i) = i) ∧
    (∀ x ∈ rasterIds s, ∃ i, i < s.n ∧ relIndex s x = i ∧ rasterIndex s i = x) ∧
    (rasterIds s).Nodup := by
  have main : rasterIds s = (List.range s.n).map (rasterIndex s) ∧
      ∀ i, i < s.n → relIndex s (rasterIndex s i) = i := by
    unfold rasterIds rasterIndex relIndex
    cases hd : s.dims with
    | none =>
      simp only
      refine ⟨?_, fun i _ => by omega⟩
      rw [List.range'_eq_map_range]
      apply List.map_congr_left
      intro a _
      exact Nat.add_comm _ _
    | some ds =>
      obtain ⟨h1, h2⟩ := hs ds hd
      simp only
      rw [h1]
      refine ⟨?_, ?_⟩
      · rw [mdIds_eq h2]
        apply List.map_congr_left
        intro i _
        rw [rasterLoop_eq, Nat.zero_add, Nat.one_mul]
      · intro i hi
        rw [rasterLoop_eq, Nat.zero_add, Nat.one_mul, relLoop_eq, rel_ras h2 hi]
        simp
  refine ⟨main.1, main.2, ?_, ?_⟩
  · intro x hx
    rw [main.1] at hx
    obtain ⟨i, hi, rfl⟩ := List.mem_map.1 hx
    have hi := List.mem_range.1 hi
    exact ⟨i, hi, main.2 i hi, rfl⟩
  · rw [main.1, List.nodup_iff_pairwise_ne, List.pairwise_map]
    refine List.Pairwise.imp_of_mem ?_ List.nodup_range
    intro a b ha hb hab he
    have h1 := main.2 a (List.mem_range.1 ha)
    have h2 := main.2 b (List.mem_range.1 hb)
    rw [he] at h1
    omega

example : (⟨6, 6, some [(3, 3, 6), (0, 2, 4)]⟩ : Slice).Proper ∧
    rasterIndex ⟨6, 6, some [(3, 3, 6), (0, 2, 4)]⟩ 4 = 10 ∧
    relIndex ⟨6, 6, some [(3, 3, 6), (0, 2, 4)]⟩ 10 = 4 := by
  refine ⟨?_, by decide +kernel, by decide +kernel⟩
  intro ds hds
  cases hds
  exact ⟨by decide, by decide⟩

/-! ### C46 -/

/-- C46: for a valid vertex the conversions between raster order and key order are inverse permutations of the
atoms, and the key order is the order of the atoms in the slices. -/
theorem C46_inverse {v : Vertex} (hv : v.Valid) :
    (∀ x, x < v.nAtoms → ∃ k, keyIndex v x = .ok k ∧ k < v.nAtoms ∧ orderIndex v k = .ok x) ∧
    (∀ k, k < v.nAtoms → ∃ x, orderIndex v k = .ok x ∧ x < v.nAtoms ∧ keyIndex v x = .ok k) ∧
    (∀ ss, multiSlices v = .ok ss → ∀ x, x < v.nAtoms → ∃ k, keyIndex v x = .ok k ∧
      (ss.flatMap rasterIds)[k]? = some x) := by
  by_cases hl : v.shape.length = 1
  · unfold keyIndex orderIndex
    simp only [if_pos hl]
    refine ⟨fun x hx => ⟨x, rfl, hx, rfl⟩, fun x hx => ⟨x, rfl, hx, rfl⟩, ?_⟩
    intro ss hss x hx
    refine ⟨x, rfl, ?_⟩
    obtain ⟨n, hn⟩ : ∃ n, v.shape = [n] := by
      cases h : v.shape with
      | nil => rw [h] at hl; simp at hl
      | cons n l =>
        rw [h] at hl
        have : l = [] := by simpa using hl
        exact ⟨n, by rw [this]⟩
    have hnp : 0 < n := hv.1 n (by rw [hn]; simp)
    have hprod : v.nAtoms = n := by
      unfold Vertex.nAtoms
      rw [hn]
      exact Nat.mul_one n
    have hss' : singleSlices v = .ok ss := by
      unfold multiSlices at hss
      simp only [maxPerDim_ok hv, bind, Except.bind] at hss
      rw [if_neg (by simpa using per_length hv), if_pos hl] at hss
      exact hss
    have hids : ss.flatMap rasterIds = List.range n := by
      cases hm : v.maxPer with
      | none =>
        have : v = ⟨[n], none⟩ := by
          obtain ⟨a, b⟩ := v
          simp only at hn hm
          rw [hn, hm]
        rw [this, (C43_no_maximum n hnp).1] at hss'
        cases hss'
        rw [List.flatMap_cons, List.flatMap_nil, List.append_nil]
        exact (C43_no_maximum n hnp).2
      | some m =>
        obtain ⟨h1, h2, _⟩ := hv.2 m hm
        obtain ⟨c, hc⟩ : ∃ c, m = [c] := by
          cases h : m with
          | nil => rw [h, hn] at h1; simp at h1
          | cons c l =>
            rw [h, hn] at h1
            have : l = [] := by simpa using h1
            exact ⟨c, by rw [this]⟩
        have : v = ⟨[n], some [c]⟩ := by
          obtain ⟨a, b⟩ := v
          simp only at hn hm
          rw [hn, hm, hc]
        obtain ⟨ss', e1, e2, _⟩ := C43_slices_tile n c hnp (h2 c (by rw [hc]; simp))
        rw [this, e1] at hss'
        cases hss'
        exact e2
    rw [hids]
    rw [hprod] at hx
    rw [List.getElem?_range hx]
  · have hd := divides_of_valid hv hl
    have hlen := per_length hv
    have hnp : nPer (v.per.zip v.shape) = prod v.per := by unfold nPer; rw [zip_fst hlen]
    have hna : nAll (v.per.zip v.shape) = v.nAtoms := by unfold nAll Vertex.nAtoms; rw [zip_snd hlen]
    have hpp := nPer_pos hd
    have hmul := nCores_mul hd
    have hkey : ∀ x, keyIndex v x = .ok (kc (v.per.zip v.shape) x * prod v.per + ka (v.per.zip v.shape) x) := by
      intro x
      unfold keyIndex
      rw [if_neg hl]
      simp only [maxPerDim_ok hv, maxAtoms_ok hv, bind, Except.bind, pure, Except.pure, keyLoop_eq,
        Nat.zero_add, Nat.one_mul]
    have hord : ∀ i, orderIndex v i = .ok (od (v.per.zip v.shape) (i / prod v.per) (i % prod v.per)) := by
      intro i
      unfold orderIndex
      rw [if_neg hl]
      simp only [maxPerDim_ok hv, maxAtoms_ok hv, bind, Except.bind, pure, Except.pure, orderLoop_eq,
        Nat.zero_add, Nat.one_mul]
    have hback : ∀ x, x < v.nAtoms → kc (v.per.zip v.shape) x * prod v.per + ka (v.per.zip v.shape) x < v.nAtoms ∧
        (kc (v.per.zip v.shape) x * prod v.per + ka (v.per.zip v.shape) x) / prod v.per = kc (v.per.zip v.shape) x ∧
        (kc (v.per.zip v.shape) x * prod v.per + ka (v.per.zip v.shape) x) % prod v.per = ka (v.per.zip v.shape) x := by
      intro x hx
      rw [← hna] at hx ⊢
      have h1 := kc_lt hd hx
      have h2 := ka_lt hd x
      rw [hnp] at h2 hpp hmul
      refine ⟨?_, ?_, ?_⟩
      · rw [← hmul]
        have := Nat.mul_le_mul_right (prod v.per) h1
        rw [Nat.succ_mul] at this
        omega
      · rw [Nat.mul_comm, Nat.mul_add_div hpp, Nat.div_eq_of_lt h2, Nat.add_zero]
      · rw [Nat.mul_comm, Nat.mul_add_mod, Nat.mod_eq_of_lt h2]
    refine ⟨?_, ?_, ?_⟩
    · intro x hx
      obtain ⟨h1, h2, h3⟩ := hback x hx
      refine ⟨_, hkey x, h1, ?_⟩
      rw [hord, h2, h3, od_key hd (by rw [hna]; exact hx)]
    · intro k hk
      refine ⟨_, hord k, by rw [← hna]; exact od_lt hd _ _, ?_⟩
      have hk' := hk
      rw [← hna, ← hmul, Nat.mul_comm] at hk'
      rw [hnp] at hk' hpp
      obtain ⟨h1, h2⟩ := key_od hd (Nat.div_lt_of_lt_mul hk') (j := k % prod v.per)
        (by rw [hnp]; exact Nat.mod_lt k hpp)
      rw [hkey, h1, h2, Nat.mul_comm, Nat.div_add_mod]
    · intro ss hss x hx
      obtain ⟨h1, h2, h3⟩ := hback x hx
      refine ⟨_, hkey x, ?_⟩
      rw [multiSlices_eq hv hl] at hss
      cases hss
      rw [← hnp, ids_eq hd, hnp, hna, List.getElem?_map, List.getElem?_range h1]
      simp only [Option.map_some]
      rw [h2, h3, od_key hd (by rw [hna]; exact hx)]

example : keyIndex exampleVertex 10 = .ok 10 ∧ keyIndex exampleVertex 3 = .ok 6 ∧
    orderIndex exampleVertex 6 = .ok 3 := by decide +kernel

end Pacman.Slices
