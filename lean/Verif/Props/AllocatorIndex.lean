import Verif.Proofs.Allocator
import Verif.Proofs.MergeEntries
import Verif.Spec.AllocatorIndex
import Verif.Props.Allocator
/-
C125: the indices and sizes in the infos of a partition.
-/

namespace Pacman.Alloc

/-! ### Lemmas -/

theorem allocFixed_from {ps : List Part} {z : Zones} : ∀ (fs : Fixed) (s s' : Infos),
    allocFixed ps z fs s = .ok s' → ∀ i ∈ s', i ∈ s ∨ ∃ f ∈ fs, fixedInfo ps z f = .ok i := by
  intro fs
  induction fs with
  | nil =>
    intro s s' h i hi
    simp only [allocFixed, Except.ok.injEq] at h
    subst h
    exact .inl hi
  | cons f fs ih =>
    intro s s' h i hi
    rw [allocFixed] at h
    cases h1 : fixedInfo ps z f with
    | error e => rw [h1] at h; simp [bind, Except.bind] at h
    | ok j =>
      rw [h1] at h
      simp only [bind, Except.bind] at h
      cases h2 : addInfo s j with
      | error e => rw [h2] at h; simp at h
      | ok t =>
        rw [h2] at h
        simp only at h
        have ht : t = s ++ [j] := by
          unfold addInfo at h2
          split at h2
          · cases h2
          · simpa using h2.symm
        subst ht
        rcases ih _ _ h i hi with hm | ⟨g, hg, hgi⟩
        · rcases List.mem_append.1 hm with hm | hm
          · exact .inl hm
          · rw [List.mem_singleton.1 hm]
            exact .inr ⟨f, List.mem_cons_self, h1⟩
        · exact .inr ⟨g, List.mem_cons_of_mem _ hg, hgi⟩

/-- The position of a vertex in the order of the slices is its index. -/
theorem Shape.position {flexible : Bool} {ps : List Part} {infos : Infos} {d : Fixed} {z z' : Zones}
    {used : List Nat} {ab : Nat} {L : List (Part × Nat)} (hs : Shape flexible ps infos d z z' used ab L)
    (hu : ∃ p ∈ ps, p.fixed = none) {p : Part} (hp : p ∈ ps) {v : MVertex} (hv : v ∈ p.outgoing) :
    ∃ i : Nat, (sortMachine p.outgoing)[i]? = some v ∧
      (∃ k m, .mach p.ident v.id k m i ∈ infos) ∧
      ∀ k m j, .mach p.ident v.id k m j ∈ infos → j = i := by
  obtain ⟨ap, hap⟩ := hs.number hp (fun h => by rw [h] at hv; simp at hv)
  obtain ⟨i, hi⟩ := List.mem_iff_getElem?.1 ((sortMachine_perm _).mem_iff.2 hv)
  have hmem := machInfos_at (fixed := d) (ap := ap) (a := (bitsOf flexible z' p).1)
    (m := (bitsOf flexible z' p).2.toNat) (ident := p.ident) (sortMachine p.outgoing) 0 i hi
  rw [Nat.zero_add] at hmem
  have hin := hs.mem (x := .mach p.ident v.id _ _ i) hu hap (List.mem_append.2 (.inl hmem))
  refine ⟨i, hi, ⟨_, _, hin⟩, ?_⟩
  intro k m j hj
  have := info_unique hs.nodup hj hin rfl
  simp only [Info.mach.injEq] at this
  exact this.2.2.2.2

theorem sortMachine_lt {vs : List MVertex} {v w : MVertex} {i j : Nat}
    (hi : (sortMachine vs)[i]? = some v) (hj : (sortMachine vs)[j]? = some w) (h : v.loAtom < w.loAtom) :
    i < j := by
  have hs := stableSort_sorted (fun a b : MVertex => decide (a.loAtom ≤ b.loAtom))
    (by intro a b; simp; omega) (by intro a b c; simp; omega) vs
  apply Classical.byContradiction
  intro hn
  by_cases he : i = j
  · subst he
    rw [hi] at hj
    simp only [Option.some.injEq] at hj
    subst hj
    omega
  · obtain ⟨h1, h1'⟩ := List.getElem?_eq_some_iff.1 hi
    obtain ⟨h2, h2'⟩ := List.getElem?_eq_some_iff.1 hj
    have := List.pairwise_iff_getElem.1 hs j i h2 h1 (by omega)
    unfold sortMachine at h1' h2'
    rw [h1', h2'] at this
    simp at this
    omega

/-! ### C125 -/

/-- **C125 (part).** If some partition has no fixed key, the indices of the vertices of each partition number them
from 0 in the order of their slices, and `max_machine_index` is the last of these. What is missing: fixed keys in all
partitions, see `C125_index_moves`. -/
theorem C125_index_partial {flexible : Bool} {ps : List Part} {infos : Infos} (hwf : WF ps)
    (hi : NoIdleFixed ps) (hc : Counted ps) (h : allocate flexible ps = .ok infos)
    (hu : ∃ p ∈ ps, p.fixed = none) {p : Part} (hp : p ∈ ps) (hne : p.outgoing ≠ []) : Ordered infos p := by
  obtain ⟨d, z', used, ab, L, hs⟩ := allocate_ok hwf hi hc h
  have hlen : (sortMachine p.outgoing).length = p.outgoing.length := (sortMachine_perm _).length_eq
  refine ⟨?_, ?_, ?_, ?_, ?_⟩
  · intro v hv
    obtain ⟨i, _, ⟨k, m, hm⟩, _⟩ := hs.position hu hp hv
    exact ⟨k, m, i, hm⟩
  · intro v hv k m i hm
    obtain ⟨j, hj, _, heq⟩ := hs.position hu hp hv
    rw [heq k m i hm, ← hlen]
    exact (List.getElem?_eq_some_iff.1 hj).1
  · intro v hv w hw k m k' m' i h1 h2
    obtain ⟨j, hj, _, heq⟩ := hs.position hu hp hv
    obtain ⟨j', hj', _, heq'⟩ := hs.position hu hp hw
    rw [← heq k m i h1] at hj
    rw [← heq' k' m' i h2, hj] at hj'
    simpa using hj'
  · intro v hv w hw k m i k' m' j h1 h2 hlt
    obtain ⟨a, ha, _, heq⟩ := hs.position hu hp hv
    obtain ⟨b, hb, _, heq'⟩ := hs.position hu hp hw
    rw [heq k m i h1, heq' k' m' j h2]
    exact sortMachine_lt ha hb hlt
  · intro K M mm nb mi hm
    obtain ⟨ap, hap⟩ := hs.number hp hne
    have hin : _ ∈ infos := hs.mem hu hap (List.mem_append.2 (.inr (List.mem_singleton.2 rfl)))
    have := info_unique hs.nodup hm hin rfl
    simp only [Info.app.injEq] at this
    rw [this.2.2.2.2.2.2, hlen]

/-- **C125 (part).** The info of an application vertex without a fixed key describes the keys and masks of its machine
vertices. What is missing: fixed keys, see `C125_fixed_not_described`. -/
theorem C125_described_partial {flexible : Bool} {ps : List Part} {infos : Infos} (hwf : WF ps)
    (hi : NoIdleFixed ps) (hc : Counted ps) (h : allocate flexible ps = .ok infos) {p : Part} (hp : p ∈ ps)
    (hf : p.fixed = none) : Described infos p := by
  obtain ⟨d, z', used, ab, L, hs⟩ := allocate_ok hwf hi hc h
  intro K M mm nb mi hm
  by_cases hne : p.outgoing = []
  · exfalso
    rw [hs.loop ⟨p, hp, hf⟩, List.mem_flatMap] at hm
    obtain ⟨⟨q, ap⟩, hq, hmem⟩ := hm
    have hk : (p.ident, VId.app p.pre) ∈ keysOf q := by
      rw [← infosOf_of flexible d z' (q, ap)]
      exact List.mem_map.2 ⟨_, hmem, rfl⟩
    unfold keysOf at hk
    rw [List.mem_append, List.mem_map, List.mem_singleton] at hk
    rcases hk with ⟨v, _, hv⟩ | hk
    · simp [mk] at hv
    · have hq1 : q ∈ L.map (·.1) := List.mem_map.2 ⟨_, hq, rfl⟩
      rw [hs.num.parts, List.mem_filter] at hq1
      have hpq : p = q := by
        have hpr : (p.pre, p.ident) = (q.pre, q.ident) := by
          simp only [ak, Prod.mk.injEq, VId.app.injEq] at hk
          rw [hk.1, hk.2]
        have hnd := hwf.pairs
        have aux : ∀ (l : List Part), (l.map (fun p => (p.pre, p.ident))).Nodup → p ∈ l → q ∈ l → p = q := by
          intro l
          induction l with
          | nil => intro _ h; simp at h
          | cons a l ih =>
            intro hnd h1 h2
            rw [List.map_cons, List.nodup_cons] at hnd
            rw [List.mem_cons] at h1 h2
            rcases h1 with rfl | h1 <;> rcases h2 with rfl | h2
            · rfl
            · exact absurd (List.mem_map.2 ⟨q, h2, hpr.symm⟩) hnd.1
            · exact absurd (List.mem_map.2 ⟨p, h1, hpr⟩) hnd.1
            · exact ih hnd.2 h1 h2
        exact aux ps hnd hp hq1.1
      subst hpq
      simp [hne] at hq1
  · obtain ⟨ap, hap⟩ := hs.number hp hne
    have hin : _ ∈ infos := hs.mem ⟨p, hp, hf⟩ hap (List.mem_append.2 (.inr (List.mem_singleton.2 rfl)))
    have heq := info_unique hs.nodup hm hin rfl
    simp only [Info.app.injEq, true_and] at heq
    obtain ⟨hK, hM, hmm, hnb, _⟩ := heq
    have hnone := (hs.all.none p hp hf).1
    have hKv : K = ap * 2 ^ z'.both := by
      rw [hK]; unfold appKmOf; rw [hnone]
    have h32 := hs.both_le
    obtain ⟨r1, r2, r3, r4⟩ := ready_of hs.inv hs.checked hp hnone (hc p hp hf ∘ maxKeys_zero)
    refine ⟨?_, ?_⟩
    · rw [hmm, hnb]
      unfold maskOf
      have h1 : 2 ^ (bitsOf flexible z' p).1 ≤ 2 ^ 32 := Nat.pow_le_pow_right (by omega) (by omega)
      have h2 := Nat.two_pow_pos (bitsOf flexible z' p).1
      have h3 : (2 : Nat) ^ 32 = 0xFFFFFFFF + 1 := by decide
      omega
    · intro v hv k m i hvm
      obtain ⟨ap', j, a, n, hap', _, hjn, han, _, ha, hmem⟩ := hs.free_mach hc hp hf hv
      have heq2 := info_unique hs.nodup hvm hmem rfl
      simp only [Info.mach.injEq, true_and] at heq2
      obtain ⟨hk, hmk, hij⟩ := heq2
      have hapeq : ap = ap' := hs.index_fun hwf hap hap'
      subst hapeq
      refine ⟨?_, ?_⟩
      · rw [hk, hij, hKv, hnb, ← ha, ← han, Nat.pow_add, Nat.add_mul, Nat.mul_assoc, Nat.mul_comm (2 ^ n)]
      · rw [hmk, hmm, ha]

/-- **C125 (part).** With fixed keys in all partitions the index is that of the machine vertex in its application
vertex, and `max_machine_index` is the last of all its machine vertices, whether they send or not. -/
theorem C125_all_fixed_partial {flexible : Bool} {ps : List Part} {infos : Infos} (hwf : WF ps)
    (hi : NoIdleFixed ps) (hsame : Same ps) (h : allocate flexible ps = .ok infos)
    (hf : ∀ p ∈ ps, p.fixed ≠ none) {p : Part} (hp : p ∈ ps) :
    (∀ v ∈ p.outgoing, ∀ k m i, .mach p.ident v.id k m i ∈ infos → i = v.index) ∧
    (∀ K M mm nb mi, .app p.ident p.pre K M mm nb mi ∈ infos → mi = (p.nMachine : Int) - 1) := by
  cases h1 : findFixed ⟨[], true, none⟩ ps with
  | error e => unfold allocate at h; rw [h1] at h; simp [bind, Except.bind] at h
  | ok f =>
    obtain ⟨_, hall, _⟩ := findFixed_ok ps _ f hwf hi (fun _ _ => ⟨rfl, fun _ _ => rfl⟩) h1
    have htrue : f.allFixed = true := by
      rw [hall]
      simp only [Bool.true_and, List.all_eq_true]
      intro q hq
      cases hqf : q.fixed with
      | none => exact absurd hqf (hf q hq)
      | some _ => rfl
    unfold allocate at h
    rw [h1] at h
    simp only [bind, Except.bind] at h
    cases h2 : checkZones flexible f.fixed (calculateZones f.fixed ps) with
    | error e => rw [h2] at h; simp at h
    | ok r =>
      obtain ⟨z', used⟩ := r
      rw [h2] at h
      simp only [htrue, if_true] at h
      have hfrom := allocFixed_from f.fixed [] infos h
      refine ⟨?_, ?_⟩
      · intro v hv k m i hm
        rcases hfrom _ hm with h0 | ⟨g, _, hg⟩
        · cases h0
        · unfold fixedInfo at hg
          split at hg
          · split at hg <;> simp at hg
          · split at hg
            · rename_i u _ w hw
              simp only [Except.ok.injEq, Info.mach.injEq] at hg
              have hmem := List.mem_of_find?_eq_some hw
              have hid := List.find?_some hw
              simp only [decide_eq_true_eq] at hid
              obtain ⟨q, hq, hwq⟩ := List.mem_flatMap.1 hmem
              rw [← hg.2.2.2.2]
              exact hsame.index q hq p hp w hwq v hv (by rw [hid, hg.2.1])
            · simp at hg
      · intro K M mm nb mi hm
        rcases hfrom _ hm with h0 | ⟨g, _, hg⟩
        · cases h0
        · unfold fixedInfo at hg
          split at hg
          · split at hg
            · rename_i u _ _ bits q hb hq
              simp only [Except.ok.injEq, Info.app.injEq] at hg
              have hmem := List.mem_of_find?_eq_some hq
              have hid := List.find?_some hq
              simp only [decide_eq_true_eq] at hid
              rw [← hg.2.2.2.2.2.2, hsame.count q hmem p hp (by rw [hid, hg.2.1])]
            · simp at hg
          · split at hg <;> simp at hg

/-- **C125 (part).** With fixed keys in all partitions `n_bits_atoms` is the least number of bits with enough keys for
each machine vertex that sends, whatever the fixed masks are; `machine_mask` has that many zeros. -/
theorem C125_all_fixed_bits_partial {flexible : Bool} {ps : List Part} {infos : Infos} (hwf : WF ps)
    (hi : NoIdleFixed ps) (h : allocate flexible ps = .ok infos) (hf : ∀ p ∈ ps, p.fixed ≠ none) {p : Part}
    (hp : p ∈ ps) (hne : p.outgoing ≠ []) {K M mm nb : Nat} {mi : Int}
    (hm : .app p.ident p.pre K M mm nb mi ∈ infos) :
    (∀ v ∈ p.outgoing, v.nKeys ≤ 2 ^ nb) ∧ (∀ b, (∀ v ∈ p.outgoing, v.nKeys ≤ 2 ^ b) → nb ≤ b) ∧
      (nb ≤ 32 → mm + 2 ^ nb = 2 ^ 32) := by
  cases h1 : findFixed ⟨[], true, none⟩ ps with
  | error e => unfold allocate at h; rw [h1] at h; simp [bind, Except.bind] at h
  | ok f =>
    obtain ⟨_, hall, _⟩ := findFixed_ok ps _ f hwf hi (fun _ _ => ⟨rfl, fun _ _ => rfl⟩) h1
    have htrue : f.allFixed = true := by
      rw [hall]
      simp only [Bool.true_and, List.all_eq_true]
      intro q hq
      cases hqf : q.fixed with
      | none => exact absurd hqf (hf q hq)
      | some _ => rfl
    unfold allocate at h
    rw [h1] at h
    simp only [bind, Except.bind] at h
    cases h2 : checkZones flexible f.fixed (calculateZones f.fixed ps) with
    | error e => rw [h2] at h; simp at h
    | ok r =>
      obtain ⟨z', used⟩ := r
      rw [h2] at h
      simp only [htrue, if_true] at h
      obtain ⟨hle1, hle2⟩ := calculateZones_le f.fixed ps hwf.pairs
      have hch := checkZones_ok hle1 h2 hle2
      have hbits := (calculateZones_inv f.fixed ps hwf.pairs).bits p hp hne
      rcases allocFixed_from f.fixed [] infos h _ hm with h0 | ⟨g, _, hg⟩
      · cases h0
      · unfold fixedInfo at hg
        split at hg
        · split at hg
          · rename_i u hu _ bits q hb hq
            simp only [Except.ok.injEq, Info.app.injEq] at hg
            obtain ⟨g1, g2, _, _, g5, g6, _⟩ := hg
            rw [hch.perPart, g1, g2, hbits] at hb
            simp only [Option.some.injEq] at hb
            subst g5 g6 hb
            refine ⟨?_, ?_, ?_⟩
            · intro v hv
              exact Nat.le_trans (le_maxKeys hv) (le_two_pow_bitsNeeded _)
            · intro b hle
              have hmax : ∀ l : List MVertex, (∀ v ∈ l, v.nKeys ≤ 2 ^ b) → maxKeys l ≤ 2 ^ b := by
                intro l
                induction l with
                | nil => intro _; exact Nat.zero_le _
                | cons v l ih =>
                  intro h
                  exact Nat.max_le.2 ⟨h v List.mem_cons_self, ih (fun u hu => h u (List.mem_cons_of_mem _ hu))⟩
              unfold bitsNeeded
              split
              · exact Nat.zero_le _
              · exact Gen.clog2_le (hmax _ hle)
            · intro h32
              unfold maskOf
              have h3 : 2 ^ bitsNeeded (maxKeys p.outgoing) ≤ 2 ^ 32 := Nat.pow_le_pow_right (by omega) h32
              have h4 := Nat.two_pow_pos (bitsNeeded (maxKeys p.outgoing))
              have h5 : (2 : Nat) ^ 32 = 0xFFFFFFFF + 1 := by decide
              omega
          · simp at hg
        · split at hg <;> simp at hg

/-- **C125 (part).** Where all machine vertices send, and were made in the order of their slices, the indices are in
that order with fixed keys in all partitions too. -/
theorem C125_natural_partial {flexible : Bool} {ps : List Part} {infos : Infos} (hwf : WF ps)
    (hi : NoIdleFixed ps) (hc : Counted ps) (hsame : Same ps) (h : allocate flexible ps = .ok infos) {p : Part}
    (hp : p ∈ ps) (hne : p.outgoing ≠ []) (hn : Natural p) : Ordered infos p := by
  by_cases hu : ∃ p ∈ ps, p.fixed = none
  · exact C125_index_partial hwf hi hc h hu hp hne
  · have hf : ∀ p ∈ ps, p.fixed ≠ none := fun q hq h0 => hu ⟨q, hq, h0⟩
    obtain ⟨h1, h2⟩ := C125_all_fixed_partial hwf hi hsame h hf hp
    obtain ⟨d, z', used, ab, L, hs⟩ := allocate_ok hwf hi hc h
    refine ⟨?_, ?_, ?_, ?_, ?_⟩
    · intro v hv
      cases hpf : p.fixed with
      | none => exact absurd hpf (hf p hp)
      | some akm =>
        obtain ⟨i, hm⟩ := hs.fixed_mach hp hpf hv
        exact ⟨_, _, i, hm⟩
    · intro v hv k m i hm
      rw [h1 v hv k m i hm]
      exact hn.index v hv
    · intro v hv w hw k m k' m' i a b
      exact hn.inj v hv w hw (by rw [← h1 v hv k m i a, ← h1 w hw k' m' i b])
    · intro v hv w hw k m i k' m' j a b hlt
      rw [h1 v hv k m i a, h1 w hw k' m' j b]
      exact hn.mono v hv w hw hlt
    · intro K M mm nb mi hm
      rw [h2 K M mm nb mi hm, hn.count]

/-! ### Examples -/

example : Ordered mixedInfos mixed[0] :=
  C125_index_partial mixed_wf.1 mixed_wf.2.1 mixed_wf.2.2 mixed_ok ⟨mixed[0], by decide, by decide⟩ (by decide)
    (by decide)

example : Described mixedInfos mixed[0] :=
  C125_described_partial mixed_wf.1 mixed_wf.2.1 mixed_wf.2.2 mixed_ok (by decide) (by decide)

/-- **C125 is false with a fixed key**: the machine vertex has the mask it was given, the info of its application
vertex says another. -/
theorem C125_fixed_not_described : ¬ Described mixedInfos mixed[1] := by
  intro h
  obtain ⟨_, h2⟩ := h 0x100 0xFFFFFFF0 0xFFFFFFFF 0 0 (by decide)
  have := (h2 (free 20 1 0) (by decide) 0x100 0xFFFFFFF0 0 (by decide)).2
  omega

/-- Two vertices with fixed keys that send, of three machine vertices. -/
def sending : Part :=
  ⟨1, 0, [⟨11, 16, 16, some (0x110, 0xFFFFFFF0), 2⟩, ⟨12, 16, 0, some (0x100, 0xFFFFFFF0), 1⟩],
    some (0x100, 0xFFFFFFC0), 3⟩

/-- Two vertices with fixed keys that are all the machine vertices. -/
def natural : Part :=
  ⟨1, 0, [⟨11, 16, 16, some (0x110, 0xFFFFFFF0), 1⟩, ⟨12, 16, 0, some (0x100, 0xFFFFFFF0), 0⟩],
    some (0x100, 0xFFFFFFC0), 2⟩

theorem one_wf {p : Part} (h : p = sending ∨ p = natural) : WF [p] ∧ NoIdleFixed [p] ∧ Counted [p] ∧ Same [p] := by
  refine ⟨⟨?_, ?_, ?_, ?_⟩, ?_, ?_, ?_, ?_⟩
  · rcases h with rfl | rfl <;> decide
  · rcases h with rfl | rfl <;> decide
  · intro q hq akm ha
    rw [List.mem_singleton.1 hq] at ha
    rcases h with rfl | rfl <;> cases ha <;> decide
  · intro q hq v hv km hk
    rw [List.mem_singleton.1 hq] at hv
    rcases h with rfl | rfl
    all_goals
      simp only [sending, natural, List.mem_cons, List.not_mem_nil, or_false] at hv
      rcases hv with rfl | rfl <;> cases hk <;> decide
  · intro q hq hq0
    rw [List.mem_singleton.1 hq] at hq0
    rcases h with rfl | rfl <;> cases hq0
  · intro q hq hq0
    rw [List.mem_singleton.1 hq] at hq0
    rcases h with rfl | rfl <;> cases hq0
  · intro q hq r hr v hv w hw hid
    rw [List.mem_singleton.1 hq] at hv
    rw [List.mem_singleton.1 hr] at hw
    rcases h with rfl | rfl
    all_goals
      simp only [sending, natural, List.mem_cons, List.not_mem_nil, or_false] at hv hw
      rcases hv with rfl | rfl <;> rcases hw with rfl | rfl <;> first | rfl | exact absurd hid (by decide)
  · intro q hq r hr _
    rw [List.mem_singleton.1 hq, List.mem_singleton.1 hr]

/-- What the vertices of `natural` get. -/
def naturalInfos : Infos :=
  [.mach 0 11 0x110 0xFFFFFFF0 1, .mach 0 12 0x100 0xFFFFFFF0 0, .app 0 1 0x100 0xFFFFFFC0 0xFFFFFFF0 4 1]

example : Ordered naturalInfos natural := by
  obtain ⟨h1, h2, h3, h4⟩ := one_wf (.inr rfl)
  refine C125_natural_partial (flexible := true) h1 h2 h3 h4 (by decide +kernel) (p := natural) (by decide) (by decide)
    ⟨rfl, ?_, ?_, ?_⟩
  · intro v hv
    simp only [natural, List.mem_cons, List.not_mem_nil, or_false] at hv
    rcases hv with rfl | rfl <;> decide
  · intro v hv w hw h
    simp only [natural, List.mem_cons, List.not_mem_nil, or_false] at hv hw
    rcases hv with rfl | rfl <;> rcases hw with rfl | rfl <;> first | rfl | exact absurd h (by decide)
  · intro v hv w hw h
    simp only [natural, List.mem_cons, List.not_mem_nil, or_false] at hv hw
    rcases hv with rfl | rfl <;> rcases hw with rfl | rfl <;> revert h <;> decide

/-- **C125 is false with fixed keys in all partitions**: the index of a vertex is another one than with a partition of
another vertex beside it, and the last index is not that of the last vertex that sends. -/
theorem C125_index_moves :
    allocate true [sending] = .ok [.mach 0 11 0x110 0xFFFFFFF0 2, .mach 0 12 0x100 0xFFFFFFF0 1,
      .app 0 1 0x100 0xFFFFFFC0 0xFFFFFFF0 4 2] ∧
    allocate true [sending, ⟨2, 0, [free 20 1 0], none, 1⟩] = .ok [.mach 0 12 0x100 0xFFFFFFF0 0,
      .mach 0 11 0x110 0xFFFFFFF0 1, .app 0 1 0x100 0xFFFFFFC0 0xFFFFFFF0 4 1,
      .mach 0 20 1 0xFFFFFFFF 0, .app 0 2 1 0xFFFFFFFF 0xFFFFFFFF 0 0] := by
  constructor <;> decide +kernel

example : ∀ v ∈ sending.outgoing, ∀ k m i,
    .mach 0 v.id k m i ∈ [Info.mach 0 11 0x110 0xFFFFFFF0 2, .mach 0 12 0x100 0xFFFFFFF0 1,
      .app 0 1 0x100 0xFFFFFFC0 0xFFFFFFF0 4 2] → i = v.index := by
  obtain ⟨h1, h2, _, h4⟩ := one_wf (.inl rfl)
  refine (C125_all_fixed_partial (flexible := true) h1 h2 h4 C125_index_moves.1 ?_ (p := sending) (by decide)).1
  intro p hp
  rw [List.mem_singleton.1 hp]
  decide

example : (∀ v ∈ sending.outgoing, v.nKeys ≤ 2 ^ 4) ∧
    (∀ b, (∀ v ∈ sending.outgoing, v.nKeys ≤ 2 ^ b) → 4 ≤ b) ∧ (4 ≤ 32 → 0xFFFFFFF0 + 2 ^ 4 = 2 ^ 32) := by
  obtain ⟨h1, h2, _, _⟩ := one_wf (.inl rfl)
  refine C125_all_fixed_bits_partial (flexible := true) h1 h2 C125_index_moves.1 ?_ (p := sending) (by decide)
    (by decide) (K := 0x100) (M := 0xFFFFFFC0) (mi := 2) (by decide)
  intro p hp
  rw [List.mem_singleton.1 hp]
  decide

end Pacman.Alloc
