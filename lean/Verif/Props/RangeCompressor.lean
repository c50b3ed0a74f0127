import Verif.Proofs.RangeCompressor
/-
Properties of the range compressor.  `compressTable fuel asFar target t` models
`RangeCompressor().compress_table` with at most `fuel` rounds of the merge loop.
-/

namespace Pacman.Range

open Pacman.Pair (routeOf_some_mem)

/-- All ones followed by `n` zeros: the keys matched are consecutive. -/
def Contiguous (mask : Word) : Prop := ∃ n ≤ 32, mask = BitVec.ofNat 32 (2 ^ 32 - 2 ^ n)

/-- No key is matched by two entries at different positions. -/
def NoOverlap (t : List Entry) : Prop := t.Pairwise (fun a b => ¬ a.Meets b)

theorem blocks_of (es : List Entry) (hv : AllValid es) (hc : ∀ e ∈ es, Contiguous e.mask) :
    ∃ K P : Nat → Nat, ∀ i (h : i < es.length), K i = es[i].key.toNat ∧ IsBlock es[i] (K i) (P i) := by
  have : ∀ i : Nat, ∃ kp : Nat × Nat, ∀ h : i < es.length,
      kp.1 = es[i].key.toNat ∧ IsBlock es[i] kp.1 kp.2 := by
    intro i
    by_cases h : i < es.length
    · obtain ⟨n, hn, hm⟩ := hc _ (List.getElem_mem h)
      exact ⟨(es[i].key.toNat, n), fun _ => ⟨rfl, isBlock_of_valid (hv _ (List.getElem_mem h)) hn hm⟩⟩
    · exact ⟨(0, 0), fun h' => absurd h' h⟩
  exact ⟨fun i => (Classical.choose (this i)).1, fun i => (Classical.choose (this i)).2,
    fun i h => Classical.choose_spec (this i) h⟩

/-- The interesting part of `compressTable`: after sorting. -/
theorem compress_cases (fuel : Nat) (asFar : Bool) (target : Nat) (t : List Entry)
    (hv : AllValid t) (hc : ∀ e ∈ t, Contiguous e.mask) (hne : t ≠ [])
    (hfuel : t.length ≤ fuel) :
    compressTable fuel asFar target t = .ok t ∨
    (NoOverlap t ∧ ∃ es K P t', es.Perm t ∧ Blocks es K P ∧ (∀ i (h : i < es.length), K i = es[i].key.toNat) ∧
      compressTable fuel asFar target t = .ok t' ∧ Inv es K P t' es.length) := by
  unfold compressTable
  by_cases h0 : asFar = false ∧ t.length < target
  · left; rw [if_pos h0]
  · rw [if_neg h0]
    have hp := stableSort_perm (fun a b : Entry => decide (a.key.toNat ≤ b.key.toNat)) t
    generalize hes : stableSort (fun a b : Entry => decide (a.key.toNat ≤ b.key.toNat)) t = es at hp
    simp only
    obtain ⟨K, P, hKP⟩ := blocks_of es (fun e he => hv e (hp.mem_iff.1 he))
      (fun e he => hc e (hp.mem_iff.1 he))
    obtain ⟨b, hb1, hb2⟩ := validate_spec (fun i h => (hKP i h).2) es.length 0 (by omega)
    rw [hb1]
    cases b with
    | false => left; rfl
    | true =>
      right
      have hB : Blocks es K P := ⟨fun i h => (hKP i h).2, fun i h => hb2.1 rfl i (by omega) h⟩
      have hpos : 0 < es.length := by
        rw [hp.length_eq]; exact List.length_pos_iff.2 hne
      have hdis : NoOverlap es := by
        unfold NoOverlap
        rw [List.pairwise_iff_getElem]
        rintro i j hi hj hij ⟨k, h1, h2⟩
        have a1 := ((hB.block i hi).matches k).1 h1
        have a2 := ((hB.block j hj).matches k).1 h2
        have := hB.mono i j hij hj
        omega
      refine ⟨?_, es, K, P, ?_⟩
      · unfold NoOverlap at *
        exact hp.pairwise hdis (fun h hm => h hm.symm)
      · have hg : getE es 0 = .ok es[0] := by simp [getE, hpos]
        have hinit : Inv es K P [] 0 := by
          constructor
          · intro i h hi; omega
          · intro v hv; simp at hv
          · simp
          · intro v hv; simp at hv
          · intro v hv; simp at hv
          · intro _; exact List.Pairwise.nil
          · exact List.Pairwise.nil
        obtain ⟨t', h1, h2⟩ := ranges_spec hB fuel (by rw [hp.length_eq]; exact hfuel) es.length 0 0 []
          hpos (by omega) (Nat.le_refl _) (by omega) (by intro j h h3 h4; omega) hinit
        exact ⟨t', hp, hB, fun i h => (hKP i h).1, by simp only [hg, bind, Except.bind]; exact h1, h2⟩

/-- **C06.** On every non-empty table of entries with contiguous masks the range compressor ends
with a table that sends every key of the given table where it went before, is not longer, and
uses only its routes. -/
theorem C06_range_preserves_routing (fuel : Nat) (asFar : Bool) (target : Nat) (t : List Entry)
    (hv : AllValid t) (hc : ∀ e ∈ t, Contiguous e.mask) (hne : t ≠ [])
    (hfuel : t.length ≤ fuel) :
    ∃ t', compressTable fuel asFar target t = .ok t' ∧ RoutesSame t t' ∧
      t'.length ≤ t.length ∧ AllValid t' ∧ ∀ w ∈ t', ∃ e ∈ t, w.route = e.route := by
  rcases compress_cases fuel asFar target t hv hc hne hfuel with h | ⟨_, es, K, P, t', hp, hB, -, h, hi⟩
  · exact ⟨t, h, fun _ _ => rfl, Nat.le_refl _, hv, fun w hw => ⟨w, hw, rfl⟩⟩
  · refine ⟨t', h, ?_, ?_, ?_, ?_⟩
    · intro k hk
      cases hr : routeOf t k with
      | none => exact absurd hr hk
      | some r =>
        obtain ⟨e, he, hm, her⟩ := routeOf_some_mem hr
        obtain ⟨i, hi', rfl⟩ := List.getElem_of_mem (hp.mem_iff.2 he)
        rw [← her]
        exact hi.done i hi' hi' k hm
    · rw [← hp.length_eq]; exact hi.len
    · intro v hv'
      obtain ⟨l, p, hb, _⟩ := hi.blocks v hv'
      exact hb.valid
    · intro w hw
      obtain ⟨i, h', e⟩ := hi.origin w hw
      exact ⟨es[i], hp.mem_iff.1 (List.getElem_mem h'), e⟩

/-- A table of four entries of two routes: the last three become one entry. -/
def demo : List Entry :=
  [⟨4, 0xFFFFFFFF, 1, false⟩, ⟨5, 0xFFFFFFFF, 2, false⟩,
   ⟨6, 0xFFFFFFFF, 2, false⟩, ⟨7, 0xFFFFFFFF, 2, false⟩]

theorem demo_valid : AllValid demo := by unfold AllValid demo; decide

theorem demo_contiguous : ∀ e ∈ demo, Contiguous e.mask := by
  intro e he
  refine ⟨0, by omega, ?_⟩
  revert e; unfold demo; decide

example : AllValid demo ∧ (∀ e ∈ demo, Contiguous e.mask) ∧ demo ≠ [] ∧
    compressTable 4 true 1023 demo =
      .ok [⟨4, 0xFFFFFFFF, 1, false⟩, ⟨4, 0xFFFFFFFC, 2, false⟩] :=
  ⟨demo_valid, demo_contiguous, by decide, by decide +kernel⟩

/-- **C06**, second part: a table with overlapping entries is returned unchanged. -/
theorem C06_overlap_unchanged (fuel : Nat) (asFar : Bool) (target : Nat) (t : List Entry)
    (hv : AllValid t) (hc : ∀ e ∈ t, Contiguous e.mask) (hfuel : t.length ≤ fuel)
    (ho : ¬ NoOverlap t) : compressTable fuel asFar target t = .ok t := by
  have hne : t ≠ [] := by rintro rfl; exact ho List.Pairwise.nil
  rcases compress_cases fuel asFar target t hv hc hne hfuel with h | ⟨h, _⟩
  · exact h
  · exact absurd h ho

example : ¬ NoOverlap [⟨4, 0xFFFFFFFC, 1, false⟩, ⟨5, 0xFFFFFFFF, 2, false⟩] := by
  intro h
  have := (List.pairwise_cons.1 h).1 ⟨5, 0xFFFFFFFF, 2, false⟩ (by simp)
  exact this ⟨5, by decide, by decide⟩

/-- **C06**, third part: a table that is short enough and not to be compressed as far as possible
is returned unchanged. -/
theorem C06_short_unchanged (fuel target : Nat) (t : List Entry) (h : t.length < target) :
    compressTable fuel false target t = .ok t := by
  unfold compressTable; rw [if_pos ⟨rfl, h⟩]

/-- An empty table that has to be compressed makes the compressor fail with an `IndexError`
(ranged_compressor.py:108). -/
theorem C06_empty_table_fails (fuel target : Nat) :
    compressTable fuel true target [] = .error .indexError := by
  unfold compressTable; simp [stableSort, validate, getE, bind, Except.bind]

/-- A table with a hole in one mask: that entry matches keys 3 and 7. -/
def holeT : List Entry :=
  [⟨1, 0xFFFFFFFF, 1, false⟩, ⟨3, 0xFFFFFFFB, 2, false⟩, ⟨8, 0xFFFFFFFF, 2, false⟩]

theorem holeT_loop : ∀ fuel acc, mergeRange holeT fuel 1 3 acc = .error .outOfFuel := by
  intro fuel
  induction fuel with
  | zero => intro acc; rfl
  | succ fuel ih =>
    intro acc
    unfold mergeRange
    have h1 : getKey holeT 1 = .ok 3 := by decide
    have h2 : getEndpoint holeT 3 = .ok 8 := by decide
    have h3 : getEndpoint holeT 1 = .ok 1 := by decide
    have h4 : getKey holeT 3 = .ok maxsize := by decide
    have h5 : shrink 3 1 maxsize (startPower 3 8) = 1 := by decide +kernel
    have h6 : reduceLast holeT (lowCut 3 1 + 2 ^ 1) 3 = .ok 1 := by decide
    have h7 : getE holeT 1 = .ok ⟨3, 0xFFFFFFFB, 2, false⟩ := by decide
    simp only [h1, h2, h3, h4, h5, h6, h7, bind, Except.bind]
    simp only [show ¬ (1 + 1 = 3) by decide, show ¬ (3 = 1) by decide, if_false]
    exact ih _

/-- Contiguity cannot be dropped: with a hole in a mask the compressor can run forever. Keys 3 and
7 share an entry with a hole; key 1, routed elsewhere, keeps the merge from growing downwards. -/
theorem C06_hole_never_ends :
    AllValid holeT ∧ NoOverlap holeT ∧
    ∀ fuel, compressTable fuel true 1023 holeT = .error .outOfFuel := by
  have hv : AllValid holeT := by unfold AllValid holeT; decide
  refine ⟨hv, ?_, ?_⟩
  · have : List.Pairwise (fun a b : Entry => ¬ a.key &&& b.mask = b.key &&& a.mask) holeT := by
      unfold holeT; decide
    refine List.Pairwise.imp_of_mem ?_ this
    intro a b ha hb h
    rwa [Entry.meets_iff (hv a ha) (hv b hb)]
  · intro fuel
    have hs : stableSort (fun a b : Entry => decide (a.key.toNat ≤ b.key.toNat)) holeT = holeT := by
      decide
    have hval : validate holeT holeT.length 0 = .ok true := by decide
    have g0 : getE holeT 0 = .ok ⟨1, 0xFFFFFFFF, 1, false⟩ := by decide
    have g1 : getE holeT 1 = .ok ⟨3, 0xFFFFFFFB, 2, false⟩ := by decide
    have g2 : getE holeT 2 = .ok ⟨8, 0xFFFFFFFF, 2, false⟩ := by decide
    unfold compressTable
    rw [if_neg (by simp)]
    simp only [hs, hval, g0, bind, Except.bind]
    have hl : holeT.length = 3 := rfl
    rw [hl]
    simp only [ranges, g0, g1, g2, bind, Except.bind]
    cases fuel with
    | zero => simp [mergeRange]
    | succ fuel =>
      have m : mergeRange holeT (fuel + 1) 0 1 [] = .ok [⟨1, 0xFFFFFFFF, 1, false⟩] := by
        simp [mergeRange, g0, bind, Except.bind, pure, Except.pure]
      simp [m, holeT_loop]

/-- **C07 is false of the code.** A table of contiguous, non-overlapping entries whose range
compressed table has intersecting entries with different routes, and for which the pair
compressor, run on that result, misroutes a key (key 4 goes to route 2 instead of 1). The cause is
`low_cut < pre_point` at ranged_compressor.py:189, which lets a block start on the last key of the
entry before. -/
theorem C07_range_then_pair_misroutes :
    AllValid demo ∧ (∀ e ∈ demo, Contiguous e.mask) ∧ NoOverlap demo ∧
    ∃ t' t'', compressTable 4 true 1023 demo = .ok t' ∧ ¬ RouteDisjoint t' ∧
      Pair.compressTable true false 1023 t' = .ok t'' ∧ ¬ RoutesSame demo t'' := by
  refine ⟨demo_valid, demo_contiguous, ?_, [⟨4, 0xFFFFFFFF, 1, false⟩, ⟨4, 0xFFFFFFFC, 2, false⟩],
    [⟨4, 0xFFFFFFFC, 2, false⟩, ⟨4, 0xFFFFFFFF, 1, false⟩], by decide +kernel, ?_,
    by decide +kernel, ?_⟩
  · have : List.Pairwise (fun a b : Entry => ¬ a.key &&& b.mask = b.key &&& a.mask) demo := by
      unfold demo; decide
    refine List.Pairwise.imp_of_mem ?_ this
    intro a b ha hb h
    rwa [Entry.meets_iff (demo_valid a ha) (demo_valid b hb)]
  · intro h
    exact h ⟨4, 0xFFFFFFFF, 1, false⟩ (by simp) ⟨4, 0xFFFFFFFC, 2, false⟩ (by simp) (by decide)
      ⟨4, by decide, by decide⟩
  · intro h
    have := h 4 (by decide)
    revert this; decide

/-- No two entries at different positions match the same key, so none with different routes do. -/
theorem disjoint_of_orthogonal {t : List Entry} (h : Orthogonal t) : RouteDisjoint t := by
  intro a ha b hb hne
  obtain ⟨i, hi, rfl⟩ := List.getElem_of_mem ha
  obtain ⟨j, hj, rfl⟩ := List.getElem_of_mem hb
  have hpw := List.pairwise_iff_getElem.1 h
  rcases Nat.lt_trichotomy i j with hij | hij | hij
  · exact hpw i j hi hj hij
  · subst hij; exact absurd rfl hne
  · intro hm; exact hpw j i hj hi hij hm.symm

/-- An entry for a single key has an odd one. -/
def OddSingles (t : List Entry) : Prop := ∀ e ∈ t, e.mask = 0xFFFFFFFF#32 → e.key.toNat % 2 = 1

/-- **C07, partial.** If no entry of the table is for a single even key, no key is matched by two entries of the
result (so it may be fed to the pair compressor, by C03, and to ordered covering, by C08). What is said to be
defaultable in the result was so in the table.
Missing: tables with entries for single even keys, for which the claim is false (see above). -/
theorem C07_range_output_disjoint_partial (fuel : Nat) (asFar : Bool) (target : Nat)
    (t t' : List Entry) (hv : AllValid t) (hc : ∀ e ∈ t, Contiguous e.mask) (hne : t ≠ [])
    (hfuel : t.length ≤ fuel) (hd : NoOverlap t) (h2 : OddSingles t)
    (h : compressTable fuel asFar target t = .ok t') :
    RouteDisjoint t' ∧ Orthogonal t' ∧ ∀ e ∈ t', e.defaultable = true → e ∈ t := by
  have key : Orthogonal t' ∧ ∀ e ∈ t', e.defaultable = true → e ∈ t := by
    rcases compress_cases fuel asFar target t hv hc hne hfuel with h' | ⟨_, es, K, P, t1, hp, hB, hK, h', hi⟩
    · rw [h'] at h; cases h
      exact ⟨hd, fun e he _ => he⟩
    · rw [h'] at h; cases h
      refine ⟨hi.disj (fun i hil hP => ?_), fun e he hf => ?_⟩
      · have hb := hB.block i hil
        rw [hK i hil]
        refine h2 es[i] (hp.mem_iff.1 (List.getElem_mem hil)) ?_
        rw [hb.mask, hP]; decide
      · rcases hi.kept e he with h3 | h3
        · exact hp.mem_iff.1 h3
        · rw [hf] at h3; cases h3
  exact ⟨disjoint_of_orthogonal key.1, key⟩

/-- **C134.** Without that: where a key is matched by two entries of the result, the later one looks at no more bits (so
it may always be fed to ordered covering, by C08). -/
theorem C134_range_narrow_first (fuel : Nat) (asFar : Bool) (target : Nat)
    (t t' : List Entry) (hv : AllValid t) (hc : ∀ e ∈ t, Contiguous e.mask) (hne : t ≠ [])
    (hfuel : t.length ≤ fuel) (hd : NoOverlap t) (h : compressTable fuel asFar target t = .ok t') :
    NarrowFirst t' ∧ ∀ e ∈ t', e.defaultable = true → e ∈ t := by
  rcases compress_cases fuel asFar target t hv hc hne hfuel with h' | ⟨_, es, K, P, t1, hp, hB, hK, h', hi⟩
  · rw [h'] at h; cases h
    exact ⟨narrow_of_orthogonal hv hd, fun e he _ => he⟩
  · rw [h'] at h; cases h
    refine ⟨hi.nest, fun e he hf => ?_⟩
    rcases hi.kept e he with h3 | h3
    · exact hp.mem_iff.1 h3
    · rw [hf] at h3; cases h3

/-- Range compression followed by (ordered or unordered) pair compression then routes all keys
right. Same missing part as above. -/
theorem C07_range_then_pair_partial (fuel : Nat) (asFar ordered useC : Bool) (target n : Nat)
    (t t' t'' : List Entry) (hv : AllValid t) (hc : ∀ e ∈ t, Contiguous e.mask) (hne : t ≠ [])
    (hfuel : t.length ≤ fuel) (hd : NoOverlap t) (h2 : OddSingles t)
    (h : compressTable fuel asFar target t = .ok t')
    (hp : Pair.compressTable ordered useC n t' = .ok t'') : RoutesSame t t'' := by
  obtain ⟨t1, h1, hs, _, hv', _⟩ := C06_range_preserves_routing fuel asFar target t hv hc hne hfuel
  rw [h] at h1; cases h1
  have hd' := (C07_range_output_disjoint_partial fuel asFar target t t' hv hc hne hfuel hd h2 h).1
  obtain ⟨es, hperm, hi⟩ := Pair.compressTable_spec ordered useC n t' hv' hd' t'' hp
  intro k hk
  have e1 := hs k hk
  cases hr : routeOf t k with
  | none => exact absurd hr hk
  | some r =>
    rw [hr] at e1
    obtain ⟨e, he, hm, her⟩ := routeOf_some_mem e1
    rw [← her]
    exact hi.done e (hperm.mem_iff.2 he) k hm

/-- A table meeting the hypotheses of both, which does get smaller. The first entry is for a single key. -/
def demo2 : List Entry :=
  [⟨7, 0xFFFFFFFF, 3, false⟩, ⟨8, 0xFFFFFFFE, 1, false⟩, ⟨10, 0xFFFFFFFE, 2, false⟩,
   ⟨12, 0xFFFFFFFE, 2, false⟩, ⟨14, 0xFFFFFFFE, 2, false⟩]

example : AllValid demo2 ∧ (∀ e ∈ demo2, Contiguous e.mask) ∧ demo2 ≠ [] ∧ OddSingles demo2 ∧
    compressTable 5 true 1023 demo2 = .ok [⟨7, 0xFFFFFFFF, 3, false⟩, ⟨8, 0xFFFFFFFE, 1, false⟩,
      ⟨10, 0xFFFFFFFE, 2, false⟩, ⟨12, 0xFFFFFFFC, 2, false⟩] := by
  refine ⟨by unfold AllValid demo2; decide, ?_, by decide, by unfold OddSingles demo2; decide, by decide +kernel⟩
  intro e he
  have : ∀ e ∈ demo2, e.mask = BitVec.ofNat 32 (2 ^ 32 - 2 ^ 1) ∨ e.mask = BitVec.ofNat 32 (2 ^ 32 - 2 ^ 0) := by
    unfold demo2; decide
  rcases this e he with h | h
  · exact ⟨1, by omega, h⟩
  · exact ⟨0, by omega, h⟩

end Pacman.Range
