import Verif.Proofs.Allocator
/-
C17 - C20: the zoned allocator of routing keys.
-/

namespace Pacman.Alloc

/-! ### Examples used below -/

/-- A machine vertex without a fixed key. -/
def free (id n lo : Nat) : MVertex := ⟨id, n, lo, none, 0⟩

/-- Two partitions to be allocated and one with a fixed key: 3 vertices of 5, 2 and 9 keys, one vertex of
200 keys, and a fixed block of 16 keys in the middle of where they would go. -/
def mixed : List Part :=
  [⟨1, 0, [free 10 5 0, free 11 2 8, free 12 9 4], none, 3⟩,
   ⟨2, 0, [free 20 1 0], some (0x100, 0xFFFFFFF0), 1⟩,
   ⟨3, 1, [free 30 200 0], none, 1⟩]

theorem mixed_wf : WF mixed ∧ NoIdleFixed mixed ∧ Counted mixed := by
  refine ⟨⟨by decide, by decide, ?_, ?_⟩, by unfold NoIdleFixed; decide, ?_⟩
  · intro p hp akm h
    simp only [mixed, List.mem_cons, List.not_mem_nil, or_false] at hp
    rcases hp with rfl | rfl | rfl <;> simp at h
    subst h; decide
  · intro p hp v hv km h
    simp only [mixed, List.mem_cons, List.not_mem_nil, or_false] at hp
    rcases hp with rfl | rfl | rfl <;> simp at hv
    · rcases hv with rfl | rfl | rfl <;> simp [free] at h
    · subst hv; simp [free] at h
    · subst hv; simp [free] at h
  · intro p hp hf h
    simp only [mixed, List.mem_cons, List.not_mem_nil, or_false] at hp
    rcases hp with rfl | rfl | rfl <;> simp [free] at h ⊢

/-- What they get. -/
def mixedInfos : Infos :=
    [.mach 0 10 0 0xFFFFFFF0 0, .mach 0 12 0x10 0xFFFFFFF0 1, .mach 0 11 0x20 0xFFFFFFF0 2,
     .app 0 1 0 0xFFFFFF00 0xFFFFFFF0 4 2,
     .mach 0 20 0x100 0xFFFFFFF0 0, .app 0 2 0x100 0xFFFFFFF0 0xFFFFFFFF 0 0,
     .mach 1 30 0x300 0xFFFFFF00 0, .app 1 3 0x300 0xFFFFFF00 0xFFFFFF00 8 0]

theorem mixed_ok : allocate true mixed = .ok mixedInfos := by decide +kernel

/-! ### C17 -/

/-- **C17.** Flexible allocation: the block of a machine vertex without a fixed key has no word in common
with the block of any other vertex or partition, fixed or not. -/
theorem C17_flexible_disjoint {ps : List Part} {infos : Infos} (hwf : WF ps) (hi : NoIdleFixed ps)
    (hc : Counted ps) (h : allocate true ps = .ok infos) {p q : Part} (hp : p ∈ ps) (hq : q ∈ ps)
    (hpf : p.fixed = none) {v w : MVertex} (hv : v ∈ p.outgoing) (hw : w ∈ q.outgoing)
    (hne : (p.ident, v.id) ≠ (q.ident, w.id)) {k1 m1 i1 k2 m2 i2 : Nat}
    (h1 : .mach p.ident v.id k1 m1 i1 ∈ infos) (h2 : .mach q.ident w.id k2 m2 i2 ∈ infos) (x : Word) :
    ¬ (Covers k1 m1 x ∧ Covers k2 m2 x) := by
  obtain ⟨d, z', used, ab, L, hs⟩ := allocate_ok hwf hi hc h
  exact hs.mach_disjoint hwf hc hp hq hpf hv hw hne h1 h2
    (.inr (by rw [hs.checked.flex rfl])) x

/-- **C17.** The same for whole application vertices: the block of an application vertex without a fixed
key has no word in common with that of another application vertex, nor with the blocks of the machine
vertices of another application vertex. -/
theorem C17_flexible_app_disjoint {ps : List Part} {infos : Infos} (hwf : WF ps) (hi : NoIdleFixed ps)
    (hc : Counted ps) (h : allocate true ps = .ok infos) {p q : Part} (hp : p ∈ ps) (hq : q ∈ ps)
    (hpf : p.fixed = none) (hne : (p.pre, p.ident) ≠ (q.pre, q.ident)) (hpo : p.outgoing ≠ [])
    {k1 m1 mm1 nb1 : Nat} {mi1 : Int}
    (h1 : .app p.ident p.pre k1 m1 mm1 nb1 mi1 ∈ infos) (x : Word) (hx : Covers k1 m1 x) :
    (∀ k2 m2 mm2 nb2 mi2, q.outgoing ≠ [] → .app q.ident q.pre k2 m2 mm2 nb2 mi2 ∈ infos →
      ¬ Covers k2 m2 x) ∧
    (∀ w ∈ q.outgoing, ∀ k2 m2 i2, .mach q.ident w.id k2 m2 i2 ∈ infos → ¬ Covers k2 m2 x) := by
  obtain ⟨d, z', used, ab, L, hs⟩ := allocate_ok hwf hi hc h
  exact hs.app_disjoint hwf hc hp hq hpf hne hpo h1 (.inr (by rw [hs.checked.flex rfl])) x hx

/-- The hypotheses hold for an allocation with and without fixed keys. -/
example : ∀ x : Word, ¬ (Covers 0x20 0xFFFFFFF0 x ∧ Covers 0x100 0xFFFFFFF0 x) :=
  C17_flexible_disjoint mixed_wf.1 mixed_wf.2.1 mixed_wf.2.2 mixed_ok (p := mixed[0]) (q := mixed[1])
    (v := free 11 2 8) (w := free 20 1 0) (by decide) (by decide) (by decide) (by decide) (by decide)
    (by decide) (i1 := 2) (i2 := 0) (by decide) (by decide)

example : ∀ w ∈ (mixed[2]).outgoing, ∀ k2 m2 i2, .mach 1 w.id k2 m2 i2 ∈ mixedInfos → ¬ Covers k2 m2 0x2F :=
  (C17_flexible_app_disjoint mixed_wf.1 mixed_wf.2.1 mixed_wf.2.2 mixed_ok (p := mixed[0])
    (q := mixed[2]) (by decide) (by decide) (by decide) (by decide) (by decide)
    (k1 := 0) (m1 := 0xFFFFFF00) (mm1 := 0xFFFFFFF0) (nb1 := 4) (mi1 := 2) (by decide) 0x2F
    (by unfold Covers; decide)).2

/-- **C17, what fails without `Counted`.** Two vertices that ask for no keys are numbered 0 and 1 in a
block of one key, and the second number is also the block of the next partition. -/
theorem C17_zero_keys_clash :
    allocate true [⟨1, 0, [free 10 0 0, free 11 0 1], none, 2⟩, ⟨2, 0, [free 20 1 0], none, 1⟩] = .ok
      [.mach 0 10 0 0xFFFFFFFF 0, .mach 0 11 1 0xFFFFFFFF 1, .app 0 1 0 0xFFFFFFFF 0xFFFFFFFF 0 1,
       .mach 0 20 1 0xFFFFFFFF 0, .app 0 2 1 0xFFFFFFFF 0xFFFFFFFF 0 0] ∧
    Covers 1 0xFFFFFFFF 1 := by
  refine ⟨by decide +kernel, ?_⟩
  unfold Covers; decide

/-! ### C18 -/

/-- Three partitions for the global mode: one vertex of 256 keys, 16 vertices of one key, and a fixed
block of 256 keys at `0x1000`. -/
def globalMixed : List Part :=
  [⟨1, 0, [free 10 256 0], none, 1⟩,
   ⟨2, 0, (List.range 16).map (fun i => free (20 + i) 1 i), none, 16⟩,
   ⟨3, 0, [free 50 1 0], some (0x1000, 0xFFFFFF00), 1⟩]

theorem globalMixed_wf : WF globalMixed ∧ NoIdleFixed globalMixed ∧ Counted globalMixed := by
  refine ⟨⟨by decide, by decide, ?_, ?_⟩, by unfold NoIdleFixed; decide, ?_⟩
  · intro p hp akm h
    simp only [globalMixed, List.mem_cons, List.not_mem_nil, or_false] at hp
    rcases hp with rfl | rfl | rfl <;> simp at h
    subst h; decide
  · intro p hp v hv km h
    simp only [globalMixed, List.mem_cons, List.not_mem_nil, or_false] at hp
    rcases hp with rfl | rfl | rfl <;> simp at hv
    · subst hv; simp [free] at h
    · obtain ⟨i, _, rfl⟩ := hv; simp [free] at h
    · subst hv; simp [free] at h
  · intro p hp hf h
    simp only [globalMixed, List.mem_cons, List.not_mem_nil, or_false] at hp
    rcases hp with rfl | rfl | rfl
    · simp [free] at h
    · have := h (free 20 1 0) (by decide)
      simp [free] at this
    · simp at hf

/-- **C18 is false.** With global zones the blocked indices are computed for the smaller blocks of the
flexible mode: the block of the second partition is laid over the fixed block. -/
theorem C18_global_clash : WF globalMixed ∧ NoIdleFixed globalMixed ∧ Counted globalMixed ∧
    ∃ infos, allocate false globalMixed = .ok infos ∧
      .mach 0 20 0x1000 0xFFFFFF00 0 ∈ infos ∧ .mach 0 50 0x1000 0xFFFFFF00 0 ∈ infos := by
  have h : .mach 0 20 0x1000 0xFFFFFF00 0 ∈ (allocate false globalMixed).toOption.getD [] ∧
      .mach 0 50 0x1000 0xFFFFFF00 0 ∈ (allocate false globalMixed).toOption.getD [] := by
    decide +kernel
  refine ⟨globalMixed_wf.1, globalMixed_wf.2.1, globalMixed_wf.2.2, ?_⟩
  cases ha : allocate false globalMixed with
  | error e =>
    rw [ha] at h
    have := h.1
    simp [Except.toOption] at this
  | ok infos =>
    rw [ha] at h
    exact ⟨infos, rfl, h⟩

/-- **C18 (part).** Global allocation: blocks of vertices without fixed keys never meet. What is missing
is disjointness from fixed keys, which `C18_global_clash` refutes. -/
theorem C18_global_unfixed_disjoint_partial {ps : List Part} {infos : Infos} (hwf : WF ps)
    (hi : NoIdleFixed ps) (hc : Counted ps) (h : allocate false ps = .ok infos) {p q : Part}
    (hp : p ∈ ps) (hq : q ∈ ps) (hpf : p.fixed = none) (hqf : q.fixed = none) {v w : MVertex}
    (hv : v ∈ p.outgoing) (hw : w ∈ q.outgoing) (hne : (p.ident, v.id) ≠ (q.ident, w.id))
    {k1 m1 i1 k2 m2 i2 : Nat} (h1 : .mach p.ident v.id k1 m1 i1 ∈ infos)
    (h2 : .mach q.ident w.id k2 m2 i2 ∈ infos) (x : Word) : ¬ (Covers k1 m1 x ∧ Covers k2 m2 x) := by
  obtain ⟨d, z', used, ab, L, hs⟩ := allocate_ok hwf hi hc h
  exact hs.mach_disjoint hwf hc hp hq hpf hv hw hne h1 h2 (.inl hqf) x

/-- **C18 (part).** Global allocation where all vertices without fixed keys need the same number of key
bits: then the blocks are disjoint from the fixed ones too. -/
theorem C18_global_same_size_partial {ps : List Part} {infos : Infos} (hwf : WF ps)
    (hi : NoIdleFixed ps) (hc : Counted ps) (h : allocate false ps = .ok infos) (a : Nat)
    (hsame : ∀ p ∈ ps, p.fixed = none → 0 < maxKeys p.outgoing → bitsNeeded (maxKeys p.outgoing) = a)
    {p q : Part} (hp : p ∈ ps) (hq : q ∈ ps) (hpf : p.fixed = none) {v w : MVertex}
    (hv : v ∈ p.outgoing) (hw : w ∈ q.outgoing) (hne : (p.ident, v.id) ≠ (q.ident, w.id))
    {k1 m1 i1 k2 m2 i2 : Nat} (h1 : .mach p.ident v.id k1 m1 i1 ∈ infos)
    (h2 : .mach q.ident w.id k2 m2 i2 ∈ infos) (x : Word) : ¬ (Covers k1 m1 x ∧ Covers k2 m2 x) := by
  obtain ⟨d, z', used, ab, L, hs⟩ := allocate_ok hwf hi hc h
  refine hs.mach_disjoint hwf hc hp hq hpf hv hw hne h1 h2 (.inr ?_) x
  have hz := zones_same d a ps ⟨0, 0, 0, []⟩ (by
    intro q hq hd
    apply hsame q hq
    cases hqf : q.fixed with
    | none => rfl
    | some akm => rw [hs.all.app q hq akm hqf] at hd; simp at hd) (.inr ⟨rfl, rfl, rfl⟩)
  exact hs.checked.same hz

/-- The hypotheses hold: two partitions of 8 and 6 keys per vertex and a fixed key. -/
example : ∃ infos, allocate false [⟨1, 0, [free 10 8 0, free 11 1 1], none, 2⟩,
    ⟨2, 0, [free 20 6 0], none, 1⟩, ⟨3, 0, [free 50 1 0], some (0x10, 0xFFFFFFF0), 1⟩] = .ok infos ∧
    .mach 0 11 8 0xFFFFFFF8 1 ∈ infos ∧ .mach 0 20 0x20 0xFFFFFFF8 0 ∈ infos ∧
    bitsNeeded 8 = 3 ∧ bitsNeeded 6 = 3 := by
  refine ⟨[.mach 0 10 0 0xFFFFFFF8 0, .mach 0 11 8 0xFFFFFFF8 1, .app 0 1 0 0xFFFFFFF0 0xFFFFFFF8 3 1,
    .mach 0 20 0x20 0xFFFFFFF8 0, .app 0 2 0x20 0xFFFFFFF0 0xFFFFFFF8 3 0,
    .mach 0 50 0x10 0xFFFFFFF0 0, .app 0 3 0x10 0xFFFFFFF0 0xFFFFFFF8 3 0], ?_⟩
  decide +kernel

theorem maxKeys_max {l : List MVertex} {b : Nat} (h : ∀ v ∈ l, v.nKeys ≤ b) : maxKeys l ≤ b := by
  induction l with
  | nil => exact Nat.zero_le _
  | cons v l ih =>
    exact Nat.max_le.2 ⟨h v List.mem_cons_self, ih (fun u hu => h u (List.mem_cons_of_mem _ hu))⟩

theorem bitsNeeded_least {n b : Nat} (h : n ≤ 2 ^ b) : bitsNeeded n ≤ b := by
  unfold bitsNeeded clog2
  split
  · exact Nat.zero_le _
  · split
    · exact Nat.zero_le _
    · have : (n - 1).log2 < b := (Nat.log2_lt (by omega)).2 (by omega)
      omega

/-- No zone is larger than needed. -/
theorem zones_within (d : Fixed) (A M : Nat) : ∀ (ps : List Part) (z : Zones),
    (∀ p ∈ ps, d.get? (ak p) = none → 0 < maxKeys p.outgoing →
      bitsNeeded (maxKeys p.outgoing) ≤ A ∧ bitsNeeded p.outgoing.length ≤ M) →
    z.atoms ≤ A → z.machine ≤ M →
    (ps.foldl (zoneOne d) z).atoms ≤ A ∧ (ps.foldl (zoneOne d) z).machine ≤ M := by
  intro ps
  induction ps with
  | nil => exact fun z _ ha hm => ⟨ha, hm⟩
  | cons p ps ih =>
    intro z h ha hm
    rw [List.foldl_cons]
    have : (zoneOne d z p).atoms ≤ A ∧ (zoneOne d z p).machine ≤ M := by
      unfold zoneOne
      split
      · exact ⟨ha, hm⟩
      · split
        · rename_i hk
          simp only
          split
          · exact ⟨ha, hm⟩
          · rename_i hd
            have hd' : d.get? (ak p) = none := by
              cases hg : d.get? (ak p) with
              | none => rfl
              | some _ => exact absurd (by rw [show d.get? (p.ident, VId.app p.pre) = _ from hg]; rfl) hd
            have := h p List.mem_cons_self hd' hk
            exact ⟨Nat.max_le.2 ⟨ha, this.1⟩, Nat.max_le.2 ⟨hm, this.2⟩⟩
        · exact ⟨ha, hm⟩
    exact ih _ (fun q hq => h q (List.mem_cons_of_mem _ hq)) this.1 this.2

/-- Where blocks keep clear of fixed keys, the blocks looked at are those handed out. -/
theorem Clear.sizes {fl : Bool} {ps : List Part} {infos : Infos} (hcl : Clear fl ps) (hwf : WF ps)
    (hc : Counted ps) {d : Fixed} {z' : Zones} {used : List Nat} {ab : Nat} {L : List (Part × Nat)}
    (hs : Shape fl ps infos d (calculateZones d ps) z' used ab L) {q : Part} (hq : q ∈ ps) :
    q.fixed = none ∨ z'.both = (calculateZones d ps).both := by
  rcases hcl with rfl | h | ⟨p, hp, hpf, h⟩
  · right; rw [hs.checked.flex rfl]
  · exact .inl (h q hq)
  · right
    apply hs.checked.same
    have hle := calculateZones_le d ps hwf.pairs
    have hfree : ∀ r ∈ ps, d.get? (ak r) = none → r.fixed = none := by
      intro r hr hd
      cases hrf : r.fixed with
      | none => rfl
      | some akm => rw [hs.all.app r hr akm hrf] at hd; simp at hd
    have hup : ∀ A M : Nat, (∀ v ∈ p.outgoing, v.nKeys ≤ 2 ^ A) → p.outgoing.length ≤ 2 ^ M →
        (calculateZones d ps).atoms ≤ A ∧ (calculateZones d ps).machine ≤ M := by
      intro A M hA hM
      refine zones_within d A M ps _ (fun r hr hd _ => ?_) (Nat.zero_le _) (Nat.zero_le _)
      have := h r hr (hfree r hr hd)
      exact ⟨bitsNeeded_least (maxKeys_max (this.1 A hA)), bitsNeeded_least (this.2 M hM)⟩
    by_cases hk : 0 < maxKeys p.outgoing
    · have hf := (calculateZones_inv d ps hwf.pairs).fits p hp (hs.all.none p hp hpf).1 hk
      have := hup _ _ (fun v hv => Nat.le_trans (le_maxKeys hv) (le_two_pow_bitsNeeded _))
        (le_two_pow_bitsNeeded _)
      have := hf.both
      omega
    · have h0 := maxKeys_zero (Nat.eq_zero_of_not_pos hk)
      have := hup 0 0 (fun v hv => by rw [h0 v hv]; exact Nat.zero_le _) (hc p hp hpf h0)
      omega

/-- **C18 (part).** In either mode, where some partition without a fixed key needs as large a block for each vertex and as many
of them as any, or no key is fixed: a block that is not fixed meets no other. -/
theorem C18_clear_disjoint_partial {fl : Bool} {ps : List Part} {infos : Infos} (hwf : WF ps) (hi : NoIdleFixed ps)
    (hc : Counted ps) (hcl : Clear fl ps) (h : allocate fl ps = .ok infos) {p q : Part} (hp : p ∈ ps) (hq : q ∈ ps)
    (hpf : p.fixed = none) {v w : MVertex} (hv : v ∈ p.outgoing) (hw : w ∈ q.outgoing)
    (hne : (p.ident, v.id) ≠ (q.ident, w.id)) {k1 m1 i1 k2 m2 i2 : Nat}
    (h1 : .mach p.ident v.id k1 m1 i1 ∈ infos) (h2 : .mach q.ident w.id k2 m2 i2 ∈ infos) (x : Word) :
    ¬ (Covers k1 m1 x ∧ Covers k2 m2 x) := by
  obtain ⟨d, z', used, ab, L, hs⟩ := allocate_ok hwf hi hc h
  exact hs.mach_disjoint hwf hc hp hq hpf hv hw hne h1 h2 (hcl.sizes hwf hc hs hq) x

/-- **C18 (part).** The same for the blocks of application vertices. -/
theorem C18_clear_app_disjoint_partial {fl : Bool} {ps : List Part} {infos : Infos} (hwf : WF ps) (hi : NoIdleFixed ps)
    (hc : Counted ps) (hcl : Clear fl ps) (h : allocate fl ps = .ok infos) {p q : Part} (hp : p ∈ ps) (hq : q ∈ ps)
    (hpf : p.fixed = none) (hne : (p.pre, p.ident) ≠ (q.pre, q.ident)) (hpo : p.outgoing ≠ [])
    {k1 m1 mm1 nb1 : Nat} {mi1 : Int}
    (h1 : .app p.ident p.pre k1 m1 mm1 nb1 mi1 ∈ infos) (x : Word) (hx : Covers k1 m1 x) :
    (∀ k2 m2 mm2 nb2 mi2, q.outgoing ≠ [] → .app q.ident q.pre k2 m2 mm2 nb2 mi2 ∈ infos →
      ¬ Covers k2 m2 x) ∧
    (∀ w ∈ q.outgoing, ∀ k2 m2 i2, .mach q.ident w.id k2 m2 i2 ∈ infos → ¬ Covers k2 m2 x) := by
  obtain ⟨d, z', used, ab, L, hs⟩ := allocate_ok hwf hi hc h
  exact hs.app_disjoint hwf hc hp hq hpf hne hpo h1 (hcl.sizes hwf hc hs hq) x hx

/-- Two vertices of 8 keys, one of 2 keys, and a fixed key, in the global mode: the first partition needs most. -/
def clearMixed : List Part :=
  [⟨1, 0, [free 10 8 0, free 11 1 1], none, 2⟩, ⟨2, 0, [free 20 2 0], none, 1⟩,
   ⟨3, 0, [free 50 1 0], some (0x10, 0xFFFFFFF0), 1⟩]

theorem clearMixed_wf : WF clearMixed ∧ NoIdleFixed clearMixed ∧ Counted clearMixed ∧ Clear false clearMixed := by
  refine ⟨⟨by decide, by decide, ?_, ?_⟩, by unfold NoIdleFixed; decide, ?_, .inr (.inr ⟨clearMixed[0], by decide, rfl, ?_⟩)⟩
  · intro p hp akm h
    simp only [clearMixed, List.mem_cons, List.not_mem_nil, or_false] at hp
    rcases hp with rfl | rfl | rfl <;> simp at h
    subst h; decide
  · intro p hp v hv km h
    simp only [clearMixed, List.mem_cons, List.not_mem_nil, or_false] at hp
    rcases hp with rfl | rfl | rfl <;> simp at hv
    · rcases hv with rfl | rfl <;> simp [free] at h
    · subst hv; simp [free] at h
    · subst hv; simp [free] at h
  · intro p hp hf h
    simp only [clearMixed, List.mem_cons, List.not_mem_nil, or_false] at hp
    rcases hp with rfl | rfl | rfl
    · have := h (free 10 8 0) (by decide)
      simp [free] at this
    · decide
    · simp at hf
  · intro q hq hf
    simp only [clearMixed, List.mem_cons, List.not_mem_nil, or_false] at hq
    rcases hq with rfl | rfl | rfl
    · exact ⟨fun _ h => h, fun _ h => h⟩
    · refine ⟨fun a h v hv => ?_, fun m _ => Nat.one_le_two_pow⟩
      have h8 : 8 ≤ 2 ^ a := h (free 10 8 0) (by decide)
      rw [List.mem_singleton.1 hv]
      exact Nat.le_trans (by decide) h8
    · exact absurd hf (by decide)

/-- The hypotheses hold. -/
example : ∃ infos, allocate false clearMixed = .ok infos ∧ .mach 0 11 8 0xFFFFFFF8 1 ∈ infos ∧
    .mach 0 20 0x20 0xFFFFFFF8 0 ∈ infos ∧ .app 0 2 0x20 0xFFFFFFF0 0xFFFFFFF8 3 0 ∈ infos := by
  refine ⟨[.mach 0 10 0 0xFFFFFFF8 0, .mach 0 11 8 0xFFFFFFF8 1, .app 0 1 0 0xFFFFFFF0 0xFFFFFFF8 3 1,
    .mach 0 20 0x20 0xFFFFFFF8 0, .app 0 2 0x20 0xFFFFFFF0 0xFFFFFFF8 3 0,
    .mach 0 50 0x10 0xFFFFFFF0 0, .app 0 3 0x10 0xFFFFFFF0 0xFFFFFFF8 3 0], ?_⟩
  decide +kernel

/-! ### C19 -/

/-- **C19.** In both modes a machine vertex without a fixed key gets one info; its block is a range of
32-bit words, of a power of two that is at least the number of keys asked for, and it lies inside the
block of its application vertex, which is one range too. -/
theorem C19_block_fits {flexible : Bool} {ps : List Part} {infos : Infos} (hwf : WF ps)
    (hi : NoIdleFixed ps) (hc : Counted ps) (h : allocate flexible ps = .ok infos) {p : Part}
    (hp : p ∈ ps) (hpf : p.fixed = none) {v : MVertex} (hv : v ∈ p.outgoing) :
    ∃ k m i n K M mm nb mi, .mach p.ident v.id k m i ∈ infos ∧
      .app p.ident p.pre K M mm nb mi ∈ infos ∧
      (∀ j ∈ infos, j.of = (p.ident, .mach v.id) → j = .mach p.ident v.id k m i) ∧
      (∀ j ∈ infos, j.of = (p.ident, .app p.pre) → j = .app p.ident p.pre K M mm nb mi) ∧
      v.nKeys ≤ 2 ^ n ∧ k + 2 ^ n ≤ 2 ^ 32 ∧
      (∀ x : Word, Covers k m x ↔ k ≤ x.toNat ∧ x.toNat < k + 2 ^ n) ∧
      (∀ x : Word, Covers k m x → Covers K M x) := by
  obtain ⟨d, z', used, ab, L, hs⟩ := allocate_ok hwf hi hc h
  obtain ⟨ap, i, a, m, hap, _, him, ham, hn, _, hmem⟩ := hs.free_mach hc hp hpf hv
  obtain ⟨ap', mm, nb, mi, hap', hmem'⟩ := hs.free_app hp hpf (fun h => by rw [h] at hv; simp at hv)
  have h32 := hs.both_le
  have hapeq : ap = ap' := hs.index_fun hwf hap hap'
  subst hapeq
  have hlt : (ap + 1) * 2 ^ z'.both ≤ 2 ^ 32 := block_lt (hs.num.lt _ hap) hs.room
  have hblk := (@mach_block ap a m i him).2
  rw [ham] at hblk
  have hpos := Nat.two_pow_pos a
  refine ⟨_, _, i, a, _, _, mm, nb, mi, hmem, hmem', fun j hj hjo => info_unique hs.nodup hj hmem hjo,
    fun j hj hjo => info_unique hs.nodup hj hmem' hjo, hn, by omega, ?_, ?_⟩
  · intro x
    rw [covers_maskOf (by omega)]
    generalize ap * 2 ^ m + i = y
    constructor
    · intro h
      subst h
      have h1 := Nat.div_add_mod x.toNat (2 ^ a)
      have h2 := Nat.mod_lt x.toNat hpos
      rw [Nat.mul_comm] at h1
      omega
    · rintro ⟨h1, h2⟩
      rw [Nat.div_eq_iff hpos]
      omega
  · intro x hx
    rw [covers_maskOf (by omega)] at hx
    rw [covers_maskOf h32]
    exact div_block him ham hx

example : ∃ k m i n, .mach 0 12 k m i ∈ mixedInfos ∧ 9 ≤ 2 ^ n ∧
    ∀ x : Word, Covers k m x ↔ k ≤ x.toNat ∧ x.toNat < k + 2 ^ n := by
  obtain ⟨k, m, i, n, _, _, _, _, _, h1, _, _, _, h2, _, h3, _⟩ :=
    C19_block_fits mixed_wf.1 mixed_wf.2.1 mixed_wf.2.2 mixed_ok (p := mixed[0]) (v := free 12 9 4)
      (by decide) (by decide) (by decide)
  exact ⟨k, m, i, n, h1, h2, h3⟩

/-- **C19.** If keys cannot be handed out the allocator raises `PacmanRouteInfoAllocationException` and
nothing else. -/
theorem C19_fails_only_with_allocation_error {flexible : Bool} {ps : List Part} {e : PyErr} (hwf : WF ps)
    (hi : NoIdleFixed ps) (hc : Counted ps) (h : allocate flexible ps = .error e) :
    e = .routeInfoAllocation := by
  cases h1 : findFixed ⟨[], true, none⟩ ps with
  | error e' =>
    unfold allocate at h
    rw [h1] at h
    simp only [bind, Except.bind, Except.error.injEq] at h
    rw [← h]
    exact findFixed_error ps _ _ hwf hi h1
  | ok f =>
    cases h2 : checkZones flexible f.fixed (calculateZones f.fixed ps) with
    | error e' =>
      unfold allocate at h
      rw [h1] at h
      simp only [bind, Except.bind] at h
      rw [h2] at h
      simp only [Except.error.injEq] at h
      rw [← h]
      exact checkZones_error h2
    | ok r =>
      obtain ⟨z', used⟩ := r
      obtain ⟨infos', ab, L, h3, hs⟩ := allocate_shape hwf hi hc h1 h2
      rw [h] at h3
      simp at h3

/-- **C19.** It does not fail without need: without fixed keys flexible allocation succeeds whenever the
bits for the number of partitions and for the largest partition fit in a key. -/
theorem C19_flexible_succeeds {ps : List Part} (hwf : WF ps) (hc : Counted ps)
    (hf : ∀ p ∈ ps, p.fixed = none ∧ ∀ v ∈ p.outgoing, v.fixed = none) (b : Nat)
    (hb : ∀ p ∈ ps, 0 < maxKeys p.outgoing →
      bitsNeeded p.outgoing.length + bitsNeeded (maxKeys p.outgoing) ≤ b)
    (hfit : bitsNeeded (ps.filter (fun p => decide (p.outgoing ≠ []))).length + b ≤ 32) :
    ∃ infos, allocate true ps = .ok infos := by
  obtain ⟨f, h1, h1'⟩ := findFixed_free ps ⟨[], true, none⟩ hf
  have hz := calculateZones_inv [] ps hwf.pairs
  have hlen := hz.length
  simp only [List.length_nil, Nat.zero_add] at hlen
  have hle := zones_le [] b ps ⟨0, 0, 0, []⟩ (Nat.zero_le _) (fun p hp h => hb p hp h)
  have hle' : (calculateZones [] ps).both ≤ b := hle
  have h2 : checkZones true [] (calculateZones [] ps) = .ok (calculateZones [] ps, []) := by
    have hu : fixedUsed (calculateZones [] ps).both [] = [] := rfl
    unfold checkZones
    simp only [hu, List.length_nil, Nat.add_zero]
    have hlen' : List.length (calculateZones [] ps).perPart = _ := hlen
    rw [hlen']
    have hk : ¬ bitsNeeded (ps.filter (fun p => decide (p.outgoing ≠ []))).length +
        (calculateZones [] ps).both > bitsInKey := by
      have : bitsInKey = 32 := rfl
      omega
    simp only [if_neg hk, if_true]
  obtain ⟨infos, _, _, h3, _⟩ := allocate_shape (flexible := true) hwf
    (fun p hp _ => (hf p hp).1) hc h1 (by rw [h1']; exact h2)
  exact ⟨infos, h3⟩

example : ∃ infos, allocate true [⟨1, 0, [free 10 (2 ^ 30) 0, free 11 7 1], none, 2⟩,
    ⟨2, 0, [], none, 0⟩, ⟨2, 5, [free 20 0 0], none, 1⟩] = .ok infos := by
  refine C19_flexible_succeeds ⟨by decide, by decide, ?_, ?_⟩ ?_ ?_ 31 ?_ (by decide +kernel)
  · intro p hp akm h; simp at hp; rcases hp with rfl | rfl | rfl <;> simp at h
  · intro p hp v hv km h; simp at hp; rcases hp with rfl | rfl | rfl <;> simp [free] at hv
    · rcases hv with rfl | rfl <;> simp at h
    · subst hv; simp at h
  · intro p hp hf h; simp at hp; rcases hp with rfl | rfl | rfl <;> simp [free] at h ⊢
  · intro p hp; simp at hp
    rcases hp with rfl | rfl | rfl <;> simp [free]
  · intro p hp _; simp at hp
    rcases hp with rfl | rfl | rfl <;> decide +kernel

/-- A case that fails: one key too many bits. -/
example : allocate true [⟨1, 0, [free 10 (2 ^ 31) 0, free 11 7 1], none, 2⟩,
    ⟨2, 5, [free 20 1 0], none, 1⟩] = .error .routeInfoAllocation := by decide +kernel

/-! ### C20 -/

/-- **C20 (part).** Fixed keys are used as given: for the application vertex, for each of its machine
vertices with a fixed key, and for its only machine vertex if that has none; each machine key lies in the
application key. What is missing: partitions with a fixed key but without outgoing vertices, where
`C20_idle_fixed_key_moves` shows another vertex losing its key. -/
theorem C20_fixed_honoured_partial {flexible : Bool} {ps : List Part} {infos : Infos} (hwf : WF ps)
    (hi : NoIdleFixed ps) (hc : Counted ps) (h : allocate flexible ps = .ok infos) {p : Part}
    (hp : p ∈ ps) {akm : Word × Word} (hf : p.fixed = some akm) :
    (∀ j ∈ infos, j.of = (p.ident, .app p.pre) → j.km = (akm.1.toNat, akm.2.toNat)) ∧
    (∃ j ∈ infos, j.of = (p.ident, .app p.pre)) ∧
    ∀ v ∈ p.outgoing,
      (∃ j ∈ infos, j.of = (p.ident, .mach v.id)) ∧
      (∀ j ∈ infos, j.of = (p.ident, .mach v.id) →
        j.km = ((v.fixed.getD akm).1.toNat, (v.fixed.getD akm).2.toNat)) ∧
      (v.fixed = none → p.outgoing = [v]) ∧
      (v.fixed.getD akm).1 &&& akm.2 = akm.1 := by
  obtain ⟨d, z', used, ab, L, hs⟩ := allocate_ok hwf hi hc h
  have hne : p.outgoing ≠ [] := fun h0 => by rw [hi p hp h0] at hf; simp at hf
  obtain ⟨mm, nb, mi, hmem⟩ := hs.fixed_app hp hf hne
  refine ⟨?_, ⟨_, hmem, rfl⟩, ?_⟩
  · intro j hj hjo
    rw [info_unique hs.nodup hj hmem hjo]
    rfl
  · intro v hv
    obtain ⟨i, hm⟩ := hs.fixed_mach hp hf hv
    refine ⟨⟨_, hm, rfl⟩, ?_, ?_, (hs.all.mach p hp akm hf v hv).2⟩
    · intro j hj hjo
      rw [info_unique hs.nodup hj hm hjo]
      rfl
    · intro hvf
      exact allocate_single h (hwf.ids hp) hp hf hv hvf

example : ∀ j ∈ mixedInfos,
    j.of = (0, .app 2) → j.km = (0x100, 0xFFFFFFF0) :=
  (C20_fixed_honoured_partial mixed_wf.1 mixed_wf.2.1 mixed_wf.2.2 mixed_ok (p := mixed[1])
    (akm := (0x100, 0xFFFFFFF0)) (by decide) rfl).1

/-- **C20 is false in general.** The machine vertex 10 has the fixed key `0x100` of its application vertex;
the next partition has a fixed key `0x200` and no outgoing vertices. The local variable `vert` still names
vertex 10, whose key becomes `0x200`. -/
theorem C20_idle_fixed_key_moves :
    let ps : List Part := [⟨1, 0, [free 10 1 0], some (0x100, 0xFFFFFFFF), 1⟩,
      ⟨2, 0, [], some (0x200, 0xFFFFFFFF), 0⟩, ⟨3, 0, [free 30 1 0], none, 1⟩]
    allocate true ps = .ok
      [.mach 0 10 0x200 0xFFFFFFFF 0, .app 0 1 0x100 0xFFFFFFFF 0xFFFFFFFF 0 0,
       .mach 0 30 1 0xFFFFFFFF 0, .app 0 3 1 0xFFFFFFFF 0xFFFFFFFF 0 0] := by decide +kernel

/-- **C20 / C17.** Likewise a vertex without a fixed key loses the key of its block. -/
theorem C20_idle_fixed_key_given_away :
    let ps : List Part := [⟨1, 0, [free 10 1 0], none, 1⟩, ⟨2, 0, [], some (0x200, 0xFFFFFFFF), 0⟩]
    allocate true ps = .ok
      [.mach 0 10 0x200 0xFFFFFFFF 0, .app 0 1 0 0xFFFFFFFF 0xFFFFFFFF 0 0] := by decide +kernel

/-- **C20.** And with no machine vertex seen before, the call ends in an `UnboundLocalError`. -/
theorem C20_idle_fixed_key_unbound :
    allocate true [⟨2, 0, [], some (0x200, 0xFFFFFFFF), 0⟩] = .error .unboundLocal := by decide +kernel

end Pacman.Alloc
