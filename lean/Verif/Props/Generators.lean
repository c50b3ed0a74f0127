import Verif.Proofs.GeneratorsAllocated
/-
C23 and C24: the basic and the merged generator of routing tables.
-/

namespace Pacman.Gen

open Alloc (VId Part Infos WF NoIdleFixed Counted)
open Tables (UTable)
open ByPart (REntry)

/-- **C23.** For sources with disjoint keys, those of mergeable machine vertices zoned, both generators
succeed on any chip; both tables have disjoint entries and send each key of each source where its entry
says. -/
theorem C23_generators_agree (same : Entry → Entry → Bool) {w : World} {items : List Item}
    (hr : Ready w (items.map (·.1))) (x y : Nat) :
    ∃ tb tm, createBasic same w x y items = .ok tb ∧ createMerged same w x y items = .ok tm ∧
      Orthogonal tb.values ∧ Orthogonal tm.values ∧ AllValid tb.values ∧ AllValid tm.values ∧
      ∀ it ∈ items, ∀ k, w.Owns it.1 k →
        routeOf tb.values k = some it.2.route ∧ routeOf tm.values k = some it.2.route := by
  obtain ⟨tb, h1, -, -, hb⟩ := basicLoop_ok same items [] [] (UTable.empty x y) (by simpa using hr)
    (by intro km src h; simp at h) (Tables.uinv_empty x y) Served.nil
  obtain ⟨tm, h2, -, -, hm⟩ := mergedLoop_ok same hr (items.length + 1) items [] [] (UTable.empty x y)
    (by omega) rfl (by intro km src h; simp at h) (Tables.uinv_empty x y) Served.nil
  refine ⟨tb, tm, h1, h2, hb.orth, hm.orth, hb.valid, hm.valid, ?_⟩
  intro it hit k hk
  obtain ⟨e, he, hek, her, -⟩ := hb.reach it (by simpa using hit) k hk
  obtain ⟨e', he', hek', her', -⟩ := hm.reach it hit k hk
  unfold routeOf
  rw [lookup_orth hb.orth he hek, lookup_orth hm.orth he' hek']
  simp only [Option.map_some, her, her', and_self]

/-- **C23, for what the allocator returns.** Allocation of any partitions where fixed keys do not overlap and, if several machine
vertices of one application vertex have fixed keys, these have holes in the masks or lie in line; on a chip any distinct
sources, never an application vertex together with its own machine vertices in one partition.  Then both generators succeed
and send every key of every source where its entry says.  What is missing is fixed machine keys in other places, see
`C23_fixed_keys_differ`. -/
theorem C23_allocated_partial (same : Entry → Entry → Bool) {ps : List Part} {infos : Infos} (hwf : WF ps)
    (hi : NoIdleFixed ps) (hc : Counted ps) (h : Alloc.Given ps infos)
    {appOf : Nat → Option Nat} (happ : ∀ q ∈ ps, ∀ v ∈ q.outgoing, appOf v.id = some q.pre)
    {items : List Item} (hn : (items.map (·.1)).Nodup)
    (hfrom : ∀ s ∈ items.map (·.1), ∃ q ∈ ps, q.outgoing ≠ [] ∧ FromPart q s)
    (hmix : ∀ q ∈ ps, (.app q.pre, q.ident) ∈ items.map (·.1) →
      ∀ v ∈ q.outgoing, (.mach v.id, q.ident) ∉ items.map (·.1))
    (hsingle : ∀ q ∈ ps, q.fixed ≠ none → FixedWell ps q)
    (hfix : ∀ q ∈ ps, ∀ q' ∈ ps, q.fixed ≠ none → q'.fixed ≠ none → q ≠ q' →
      ∀ s t, FromPart q s → FromPart q' t →
      ∀ x, ¬ ((ofInfos infos appOf).Owns s x ∧ (ofInfos infos appOf).Owns t x)) (x y : Nat) :
    ∃ tb tm, createBasic same (ofInfos infos appOf) x y items = .ok tb ∧
      createMerged same (ofInfos infos appOf) x y items = .ok tm ∧
      ∀ it ∈ items, ∀ k, (ofInfos infos appOf).Owns it.1 k →
        routeOf tb.values k = some it.2.route ∧ routeOf tm.values k = some it.2.route := by
  obtain ⟨tb, tm, h1, h2, -, -, -, -, h3⟩ :=
    C23_generators_agree same (allocated_ready hwf hi hc h happ hn hfrom hmix hsingle hfix) x y
  exact ⟨tb, tm, h1, h2, h3⟩

/-- Application vertices of the machine vertices in `Alloc.mixed`. -/
def mixedApp (v : Nat) : Option Nat := some (v / 10)

/-- Sources on a chip: two machine vertices with equal routes that are neighbours, another vertex with a
fixed key, and an application vertex. -/
def mixedItems : List Item :=
  [((.mach 12, 0), ⟨6, false⟩), ((.mach 11, 0), ⟨6, true⟩), ((.mach 20, 0), ⟨6, false⟩),
   ((.app 3, 1), ⟨1, true⟩)]

theorem mixed_fixed : ∀ q ∈ Alloc.mixed, q.fixed ≠ none → q = Alloc.mixed[1] := by
  intro q hq hf
  simp only [Alloc.mixed, List.mem_cons, List.not_mem_nil, or_false] at hq
  rcases hq with rfl | rfl | rfl
  · exact absurd rfl hf
  · rfl
  · exact absurd rfl hf

theorem mixed_ready : Ready (ofInfos Alloc.mixedInfos mixedApp) (mixedItems.map (·.1)) := by
  refine allocated_ready Alloc.mixed_wf.1 Alloc.mixed_wf.2.1 Alloc.mixed_wf.2.2 (.flexible Alloc.mixed_ok)
    (by decide) (by decide) ?_ (by decide) ?_ ?_
  · intro s hs
    simp only [mixedItems, List.map_cons, List.map_nil, List.mem_cons, List.not_mem_nil, or_false] at hs
    rcases hs with rfl | rfl | rfl | rfl
    · exact ⟨Alloc.mixed[0], by decide, by decide, .inr ⟨Alloc.free 12 9 4, by decide, rfl⟩⟩
    · exact ⟨Alloc.mixed[0], by decide, by decide, .inr ⟨Alloc.free 11 2 8, by decide, rfl⟩⟩
    · exact ⟨Alloc.mixed[1], by decide, by decide, .inr ⟨Alloc.free 20 1 0, by decide, rfl⟩⟩
    · exact ⟨Alloc.mixed[2], by decide, by decide, .inl rfl⟩
  · intro q hq hf
    rw [mixed_fixed q hq hf]
    exact .one (by decide)
  · intro q hq q' hq' hf hf' hne
    exact absurd ((mixed_fixed q hq hf).trans (mixed_fixed q' hq' hf').symm) hne

/-- The hypotheses hold, and the two machine vertices at `0x10` and `0x20`, of index 1 and 2, are merged
as far as their alignment allows. -/
example : (∃ tb tm, createBasic (fun _ _ => false) (ofInfos Alloc.mixedInfos mixedApp) 1 2 mixedItems = .ok tb ∧
      createMerged (fun _ _ => false) (ofInfos Alloc.mixedInfos mixedApp) 1 2 mixedItems = .ok tm ∧
      routeOf tb.values 0x25 = some 6 ∧ routeOf tm.values 0x25 = some 6) ∧
    (createMerged (fun _ _ => false) (ofInfos Alloc.mixedInfos mixedApp) 1 2 mixedItems).map (·.values) =
      .ok [⟨0x10, 0xFFFFFFF0, 6, false⟩, ⟨0x20, 0xFFFFFFE0, 6, true⟩, ⟨0x100, 0xFFFFFFF0, 6, false⟩,
        ⟨0x300, 0xFFFFFF00, 1, true⟩] := by
  refine ⟨?_, by decide +kernel⟩
  obtain ⟨tb, tm, h1, h2, -, -, -, -, h3⟩ := C23_generators_agree (fun _ _ => false) mixed_ready 1 2
  obtain ⟨h4, h5⟩ := h3 ((.mach 11, 0), ⟨6, true⟩) (by decide) 0x25
    ⟨⟨0x20, 0xFFFFFFF0, 2⟩, by decide, by unfold MInfo.Owns; decide⟩
  exact ⟨tb, tm, h1, h2, h4, h5⟩

/-- Two machine vertices with fixed keys in line; all keys are fixed. -/
def lineParts : List Part :=
  [⟨1, 0, [⟨10, 10, 0, some (0x100, 0xFFFFFFF0), 0⟩, ⟨11, 10, 16, some (0x110, 0xFFFFFFF0), 1⟩], some (0x100, 0xFFFFFFE0), 2⟩]

/-- What is allocated for them. -/
def lineFixed : Infos :=
  [.mach 0 10 0x100 0xFFFFFFF0 0, .mach 0 11 0x110 0xFFFFFFF0 1, .app 0 1 0x100 0xFFFFFFE0 0xFFFFFFF0 4 1]

/-- Both send the same way, and are merged. -/
def lineItems : List Item := [((.mach 10, 0), ⟨6, false⟩), ((.mach 11, 0), ⟨6, false⟩)]

example : (∃ tb tm, createBasic (fun _ _ => false) (ofInfos lineFixed mixedApp) 0 0 lineItems = .ok tb ∧
      createMerged (fun _ _ => false) (ofInfos lineFixed mixedApp) 0 0 lineItems = .ok tm ∧
      routeOf tb.values 0x115 = some 6 ∧ routeOf tm.values 0x115 = some 6) ∧
    (createMerged (fun _ _ => false) (ofInfos lineFixed mixedApp) 0 0 lineItems).map (·.values) =
      .ok [⟨0x100, 0xFFFFFFE0, 6, false⟩] := by
  refine ⟨?_, by decide +kernel⟩
  have hwf : WF lineParts := by
    refine ⟨by decide, by decide, ?_, ?_⟩ <;> simp [lineParts]
  obtain ⟨tb, tm, h1, h2, h3⟩ := C23_allocated_partial (fun _ _ => false) (infos := lineFixed) (appOf := mixedApp)
    (items := lineItems) hwf (by unfold Alloc.NoIdleFixed; decide) (by unfold Alloc.Counted; simp [lineParts])
    (.flexible (by decide +kernel)) (by decide) (by decide) (by
      intro s hs
      refine ⟨lineParts[0], by decide, by decide, ?_⟩
      simp only [lineItems, List.map_cons, List.map_nil, List.mem_cons, List.not_mem_nil, or_false] at hs
      rcases hs with rfl | rfl
      · exact .inr ⟨⟨10, 10, 0, some (0x100, 0xFFFFFFF0), 0⟩, by decide, rfl⟩
      · exact .inr ⟨⟨11, 10, 16, some (0x110, 0xFFFFFFF0), 1⟩, by decide, rfl⟩) (by decide) (by
      intro q hq _
      simp only [lineParts, List.mem_singleton] at hq
      subst hq
      refine .line _ 4 1 rfl ⟨by decide, by decide, by decide, by decide, ?_⟩ (by decide) (by decide)
      intro i v hv
      match i, hv with
      | 0, hv => cases hv; exact ⟨rfl, _, rfl, by decide, by decide⟩
      | 1, hv => cases hv; exact ⟨rfl, _, rfl, by decide, by decide⟩) (by
      intro q hq q' hq' _ _ hne
      simp only [lineParts, List.mem_singleton] at hq hq'
      exact absurd (hq.trans hq'.symm) hne) 0 0
  obtain ⟨h4, h5⟩ := h3 ((.mach 11, 0), ⟨6, false⟩) (by decide) 0x115
    ⟨⟨0x110, 0xFFFFFFF0, 1⟩, by decide, by unfold MInfo.Owns; decide⟩
  exact ⟨tb, tm, h1, h2, h4, h5⟩

/-- Two machine vertices of one application vertex with neighbouring indices and masks with a hole. -/
def holes : World :=
  ⟨fun _ => some 1, fun v _ => if v = 10 then some ⟨0x1, 0xFFFFFF0F, 0⟩ else some ⟨0x2, 0xFFFFFF0F, 1⟩,
    fun _ _ => some ⟨0, 0xFFFFFF00, 0xFFFFFF0F, 4, 1⟩⟩

/-- Both send the same way. -/
def holesItems : List Item := [((.mach 10, 0), ⟨6, false⟩), ((.mach 11, 0), ⟨6, false⟩)]

theorem holes_ready : Ready holes (holesItems.map (·.1)) := by
  have hp : ¬ Prefix 0xFFFFFF0F#32 := by
    rintro ⟨n, hn⟩
    have h1 : 2 ^ n = 0xF1 := by
      have : (0xFFFFFF0F#32).toNat = 0xFFFFFF0F := rfl
      omega
    have h2 : n < 8 := by
      apply Classical.byContradiction
      intro h
      have := Nat.pow_le_pow_right (n := 2) (by omega) (show 8 ≤ n by omega)
      omega
    have h3 : ∀ k < 8, 2 ^ k ≠ 0xF1 := by decide
    exact h3 n h2 h1
  refine ⟨by decide, ?_, ?_, ?_⟩
  · intro s hs
    simp only [holesItems, List.map_cons, List.map_nil, List.mem_cons, List.not_mem_nil, or_false] at hs
    rcases hs with rfl | rfl
    · exact ⟨⟨⟨0x1, 0xFFFFFF0F, 0⟩, rfl, by decide⟩, fun a _ => ⟨_, rfl⟩⟩
    · exact ⟨⟨⟨0x2, 0xFFFFFF0F, 1⟩, rfl, by decide⟩, fun a _ => ⟨_, rfl⟩⟩
  · intro s hs t ht hne x hx
    have ho : ∀ v, holes.Owns (.mach v, 0) x → x &&& 0xFFFFFF0F#32 = if v = 10 then 0x1#32 else 0x2#32 := by
      rintro v ⟨i, hi, hi'⟩
      have hi : (if v = 10 then some ⟨0x1, 0xFFFFFF0F, 0⟩ else some ⟨0x2, 0xFFFFFF0F, 1⟩ : Option MInfo) = some i := hi
      unfold MInfo.Owns at hi'
      split at hi <;> cases hi <;> simp_all
    simp only [holesItems, List.map_cons, List.map_nil, List.mem_cons, List.not_mem_nil, or_false] at hs ht
    rcases hs with rfl | rfl <;> rcases ht with rfl | rfl
    · exact hne rfl
    · have h1 := ho 10 hx.1
      have h2 := ho 11 hx.2
      rw [h1] at h2
      exact absurd h2 (by decide)
    · have h1 := ho 11 hx.1
      have h2 := ho 10 hx.2
      rw [h1] at h2
      exact absurd h2 (by decide)
    · exact hne rfl
  · intro a p A hA
    left
    intro v v' _ _ _ _ i i' _ _ hm hpre
    have hA : some (⟨0, 0xFFFFFF00, 0xFFFFFF0F, 4, 1⟩ : AppInfo) = some A := hA
    cases hA
    rw [hm] at hpre
    exact absurd hpre hp

/-- Masks with holes are not merged. -/
example : ∃ tb tm, createBasic (fun _ _ => false) holes 0 0 holesItems = .ok tb ∧
    createMerged (fun _ _ => false) holes 0 0 holesItems = .ok tm ∧
    routeOf tm.values 0x52 = some 6 ∧ tm.values = [⟨0x1, 0xFFFFFF0F, 6, false⟩, ⟨0x2, 0xFFFFFF0F, 6, false⟩] := by
  obtain ⟨tb, tm, h1, h2, -, -, -, -, h3⟩ := C23_generators_agree (fun _ _ => false) holes_ready 0 0
  obtain ⟨-, h5⟩ := h3 ((.mach 11, 0), ⟨6, false⟩) (by decide) 0x52
    ⟨⟨0x2, 0xFFFFFF0F, 1⟩, by decide, by unfold MInfo.Owns; decide⟩
  refine ⟨tb, tm, h1, h2, h5, ?_⟩
  have h6 : (createMerged (fun _ _ => false) holes 0 0 holesItems).map (·.values) =
      .ok [⟨0x1, 0xFFFFFF0F, 6, false⟩, ⟨0x2, 0xFFFFFF0F, 6, false⟩] := by decide +kernel
  rw [h2] at h6
  exact Except.ok.inj h6

/-- The infos of `C22_fixed_keys_lost`. -/
def fixedInfos : Infos :=
  [.mach 0 10 0 0xFFFFFF00 0, .mach 0 11 0x200 0xFFFFFF00 1, .app 0 1 0 0xFFFFF000 0xFFFFFF00 8 1,
   .mach 0 20 0x2000 0xFFFFF000 0, .app 0 2 0x2000 0xFFFFF000 0xFFFFF000 12 0]

/-- **C23 is false for fixed keys.** The two machine vertices of `C22_fixed_keys_lost` have distinct
blocks.  The basic table routes the key `0x200`, the merged table does not. -/
theorem C23_fixed_keys_differ :
    (createBasic (fun _ _ => false) (ofInfos fixedInfos mixedApp) 0 0
        [((.mach 10, 0), ⟨3, false⟩), ((.mach 11, 0), ⟨3, false⟩)]).map (fun t => routeOf t.values 0x200) =
      .ok (some 3) ∧
    (createMerged (fun _ _ => false) (ofInfos fixedInfos mixedApp) 0 0
        [((.mach 10, 0), ⟨3, false⟩), ((.mach 11, 0), ⟨3, false⟩)]).map (fun t => routeOf t.values 0x200) =
      .ok none := by
  refine ⟨by decide +kernel, by decide +kernel⟩

/-! ### C24 -/

/-- **C24 (part).** If entries of a chip with equal routes agree on being defaultable, a key of a source
meets an entry in the merged table that is defaultable exactly if the source's entry is.  What is missing
is neighbouring entries with equal routes that differ, see `C24_defaultable_neighbour`. -/
theorem C24_uniform_partial (same : Entry → Entry → Bool) {w : World} {items : List Item}
    (hr : Ready w (items.map (·.1)))
    (hu : ∀ a ∈ items, ∀ b ∈ items, a.2.route = b.2.route → a.2.defaultable = b.2.defaultable)
    {x y : Nat} {tm : UTable} (h : createMerged same w x y items = .ok tm) :
    ∀ it ∈ items, ∀ k, w.Owns it.1 k → ∃ e, lookup tm.values k = some e ∧ e.route = it.2.route ∧
      e.defaultable = it.2.defaultable := by
  obtain ⟨tm', h2, -, -, hm⟩ := mergedLoop_ok same hr (items.length + 1) items [] [] (UTable.empty x y)
    (by omega) rfl (by intro km src h; simp at h) (Tables.uinv_empty x y) Served.nil
  have : tm' = tm := by
    unfold createMerged at h
    rw [h2] at h
    exact Except.ok.inj h
  subst this
  intro it hit k hk
  obtain ⟨e, he, hek, her, ⟨it', hit', hr', hd'⟩, -⟩ := hm.reach it hit k hk
  exact ⟨e, lookup_orth hm.orth he hek, her, by rw [← hd']; exact hu it' hit' it hit (by rw [hr', her])⟩

/-- The basic generator keeps the flag of every source. -/
theorem C24_basic (same : Entry → Entry → Bool) {w : World} {items : List Item}
    (hr : Ready w (items.map (·.1))) {x y : Nat} {tb : UTable}
    (h : createBasic same w x y items = .ok tb) :
    ∀ it ∈ items, ∀ k, w.Owns it.1 k → ∃ e, lookup tb.values k = some e ∧ e.route = it.2.route ∧
      e.defaultable = it.2.defaultable := by
  obtain ⟨tb', h1, -, -, hb⟩ := basicLoop_ok same items [] [] (UTable.empty x y) (by simpa using hr)
    (by intro km src h; simp at h) (Tables.uinv_empty x y) Served.nil
  have : tb' = tb := by
    unfold createBasic at h
    rw [h1] at h
    exact Except.ok.inj h
  subst this
  intro it hit k hk
  obtain ⟨e, he, hek, her, hd, -⟩ := hb.reach it (by simpa using hit) k hk
  exact ⟨e, lookup_orth hb.orth he hek, her, hd⟩

example : ∃ tb, createBasic (fun _ _ => false) (ofInfos Alloc.mixedInfos mixedApp) 1 2 mixedItems = .ok tb ∧
    ∃ e, lookup tb.values 0x25 = some e ∧ e.defaultable = true := by
  obtain ⟨tb, tm, h1, -⟩ := C23_generators_agree (fun _ _ => false) mixed_ready 1 2
  obtain ⟨e, h2, -, h3⟩ := C24_basic (fun _ _ => false) mixed_ready h1 ((.mach 11, 0), ⟨6, true⟩)
    (by decide) 0x25 ⟨⟨0x20, 0xFFFFFFF0, 2⟩, by decide, by unfold MInfo.Owns; decide⟩
  exact ⟨tb, h1, e, h2, h3⟩

/-- The sources of `mixedItems` with equal routes made equally defaultable. -/
def uniformItems : List Item :=
  [((.mach 12, 0), ⟨6, false⟩), ((.mach 11, 0), ⟨6, false⟩), ((.mach 20, 0), ⟨6, false⟩),
   ((.app 3, 1), ⟨1, true⟩)]

example : ∃ tm, createMerged (fun _ _ => false) (ofInfos Alloc.mixedInfos mixedApp) 1 2 uniformItems = .ok tm ∧
    ∃ e, lookup tm.values 0x25 = some e ∧ e.defaultable = false := by
  obtain ⟨tb, tm, -, h1, -⟩ := C23_generators_agree (items := uniformItems) (fun _ _ => false) mixed_ready 1 2
  obtain ⟨e, h2, -, h3⟩ := C24_uniform_partial (items := uniformItems) (fun _ _ => false) mixed_ready
    (by decide) h1 ((.mach 11, 0), ⟨6, false⟩)
    (by decide) 0x25 ⟨⟨0x20, 0xFFFFFFF0, 2⟩, by decide, by unfold MInfo.Owns; decide⟩
  exact ⟨tm, h1, e, h2, h3⟩

/-- **C24 is false.** Machine vertices 10 and 12 of `Alloc.mixed`, of index 0 and 1, send the same way; only
the first entry is defaultable.  The merged table has one defaultable entry for both, so the key `0x10` of
the second is matched by a defaultable entry although its own entry is not. -/
theorem C24_defaultable_neighbour :
    (createMerged (fun _ _ => false) (ofInfos Alloc.mixedInfos mixedApp) 0 0
        [((.mach 10, 0), ⟨6, true⟩), ((.mach 12, 0), ⟨6, false⟩)]).map (fun t => lookup t.values 0x10) =
      .ok (some ⟨0, 0xFFFFFFE0, 6, true⟩) := by decide +kernel

/-! ### C60 -/

theorem checkSource_noted {s s' : Sources} {km : Word × Word} {src : VId × Nat} (h : checkSource s km src = .ok s') :
    s'.get? km = some src ∧ ∀ km' o, s.get? km' = some o → s'.get? km' = some o := by
  unfold checkSource at h
  cases hg : s.get? km with
  | none =>
    simp only [hg] at h
    cases h
    refine ⟨Dict.get?_set_self .., ?_⟩
    intro km' o ho
    rw [Dict.get?_set_ne]
    · exact ho
    · intro he
      rw [← he, hg] at ho
      cases ho
  | some o =>
    simp only [hg] at h
    by_cases hne : o ≠ src
    · rw [if_pos hne] at h
      cases h
    · rw [if_neg hne] at h
      cases h
      refine ⟨?_, fun _ _ h => h⟩
      rw [hg, Classical.not_not.1 hne]

theorem basicLoop_sources (same : Entry → Entry → Bool) {w : World} (items : List Item) :
    ∀ {s : Sources} {t t' : UTable}, basicLoop same w items s t = .ok t' →
      ∃ s' : Sources, (∀ km o, s.get? km = some o → s'.get? km = some o) ∧
        ∀ it ∈ items, ∃ km, w.keyMask it.1.1 it.1.2 = .ok km ∧ s'.get? km = some it.1 := by
  induction items with
  | nil => exact fun _ => ⟨_, fun _ _ h => h, by simp⟩
  | cons it items ih =>
    obtain ⟨src, e⟩ := it
    intro s t t' h
    rw [basicLoop] at h
    simp only [bind, Except.bind] at h
    cases hk : w.keyMask src.1 src.2 with
    | error x => simp only [hk] at h; cases h
    | ok km =>
      simp only [hk] at h
      cases hs : checkSource s km src with
      | error x => simp only [hs] at h; cases h
      | ok s1 =>
        simp only [hs] at h
        cases hm : mkEntry km.1 km.2 e with
        | error x => simp only [hm] at h; cases h
        | ok en =>
          simp only [hm] at h
          cases ht : t.add same en with
          | error x => simp only [ht] at h; cases h
          | ok t1 =>
            simp only [ht] at h
            obtain ⟨s', h1, h2⟩ := ih h
            obtain ⟨h3, h4⟩ := checkSource_noted hs
            refine ⟨s', fun km o ho => h1 _ _ (h4 _ _ ho), ?_⟩
            intro it hit
            rcases List.mem_cons.1 hit with rfl | hit
            · exact ⟨km, hk, h1 _ _ h3⟩
            · exact h2 it hit

/-- **C60, basic generator.** A table is only made if no two different sources on the chip have the same key
and mask. -/
theorem C60_basic_rejects (same : Entry → Entry → Bool) {w : World} {items : List Item} {x y : Nat} {t : UTable}
    (h : createBasic same w x y items = .ok t) :
    ∀ a ∈ items, ∀ b ∈ items, w.keyMask a.1.1 a.1.2 = w.keyMask b.1.1 b.1.2 → a.1 = b.1 := by
  obtain ⟨s', -, h2⟩ := basicLoop_sources same items h
  intro a ha b hb hab
  obtain ⟨km, h3, h4⟩ := h2 a ha
  obtain ⟨km', h5, h6⟩ := h2 b hb
  rw [h3, h5] at hab
  cases hab
  rw [h4] at h6
  exact Option.some.inj h6

/-- A source that is never merged: an application vertex, or a machine vertex without one. -/
def Alone (w : World) (src : VId × Nat) : Prop :=
  match src.1 with
  | .app _ => True
  | .mach v => w.appOf v = none

theorem matchNext_app {w : World} {v p : Nat} {info : MInfo} {e : REntry} {app : AppInfo} {nv np : Nat} {ne : REntry}
    {items : List Item} (h : matchNext w v p info e app (((.mach nv, np), ne) :: items) = .ok true) :
    w.appOf nv = w.appOf v := by
  unfold matchNext at h
  simp only at h
  split at h
  · cases h
  · split at h
    · cases h
    · split at h
      · cases h
      · simp only [bind, Except.bind] at h
        split at h
        · cases h
        · split at h
          · cases h
          · simp only [pure, Except.pure, Except.ok.injEq, Bool.and_eq_true, decide_eq_true_eq] at h
            exact h.1

/-- Items that are never merged are left over. -/
theorem takeRun_alone {w : World} {app : AppInfo} (items : List Item) :
    ∀ {v p : Nat} {info : MInfo} {e : REntry} {es : List (REntry × MInfo)} {rest : List Item},
      w.appOf v ≠ none → takeRun w app v p info e items = .ok (es, rest) →
      rest.length ≤ items.length ∧ ∀ it ∈ items, Alone w it.1 → it ∈ rest := by
  induction items with
  | nil =>
    intro v p info e es rest _ h
    rw [takeRun] at h
    cases h
    exact ⟨Nat.le_refl _, fun _ h _ => h⟩
  | cons it items ih =>
    obtain ⟨⟨next, np⟩, ne⟩ := it
    intro v p info e es rest hv h
    rw [takeRun] at h
    simp only [bind, Except.bind] at h
    cases hm : matchNext w v p info e app (((next, np), ne) :: items) with
    | error x => simp only [hm] at h; cases h
    | ok b =>
      simp only [hm] at h
      cases b with
      | false =>
        simp only [pure, Except.pure, Except.ok.injEq, Prod.mk.injEq] at h
        obtain ⟨-, rfl⟩ := h
        exact ⟨Nat.le_refl _, fun _ h _ => h⟩
      | true =>
        cases next with
        | app a =>
          simp only [pure, Except.pure, Except.ok.injEq, Prod.mk.injEq] at h
          obtain ⟨-, rfl⟩ := h
          exact ⟨Nat.le_refl _, fun _ h _ => h⟩
        | mach nv =>
          simp only at h
          have happ := matchNext_app hm
          cases hn : w.mach nv np with
          | error x => simp only [hn] at h; cases h
          | ok ninfo =>
            simp only [hn] at h
            cases hr : takeRun w app nv np ninfo ne items with
            | error x => simp only [hr] at h; cases h
            | ok q =>
              obtain ⟨es', rest'⟩ := q
              simp only [hr, pure, Except.pure, Except.ok.injEq, Prod.mk.injEq] at h
              obtain ⟨-, rfl⟩ := h
              obtain ⟨h1, h2⟩ := ih (by rw [happ]; exact hv) hr
              refine ⟨Nat.le_succ_of_le h1, ?_⟩
              intro it hit hal
              rcases List.mem_cons.1 hit with rfl | hit
              · exact absurd (happ ▸ hal) hv
              · exact h2 it hit hal

theorem mergedRound_alone {w : World} {src : VId × Nat} {e : REntry} {items rest : List Item} {xs : List Entry}
    (h : mergedRound w src e items = .ok (xs, rest)) :
    rest.length ≤ items.length ∧ ∀ it ∈ items, Alone w it.1 → it ∈ rest := by
  unfold mergedRound at h
  simp only [bind, Except.bind, pure, Except.pure] at h
  cases hsrc : src.1 with
  | app a =>
    simp only [hsrc] at h
    split at h
    · cases h
    · split at h
      · cases h
      · cases h
        exact ⟨Nat.le_refl _, fun _ h _ => h⟩
  | mach v =>
    simp only [hsrc] at h
    split at h
    · cases h
    · cases ho : w.appOf v with
      | none =>
        simp only [ho] at h
        split at h
        · cases h
        · cases h
          exact ⟨Nat.le_refl _, fun _ h _ => h⟩
      | some a =>
        simp only [ho] at h
        split at h
        · cases h
        · split at h
          · cases h
          · next hr =>
            split at h
            · cases h
            · cases h
              exact takeRun_alone items (by rw [ho]; exact Option.some_ne_none _) hr

theorem mergedLoop_sources (same : Entry → Entry → Bool) {w : World} (fuel : Nat) :
    ∀ {items : List Item} {s : Sources} {t t' : UTable}, mergedLoop same w fuel items s t = .ok t' →
      ∃ s' : Sources, (∀ km o, s.get? km = some o → s'.get? km = some o) ∧
        ∀ it ∈ items, Alone w it.1 → ∃ km, w.keyMask it.1.1 it.1.2 = .ok km ∧ s'.get? km = some it.1 := by
  induction fuel with
  | zero => intro items s t t' h; rw [mergedLoop] at h; cases h
  | succ fuel ih =>
    intro items s t t' h
    cases items with
    | nil => exact ⟨_, fun _ _ h => h, by simp⟩
    | cons it items =>
      obtain ⟨src, e⟩ := it
      rw [mergedLoop] at h
      simp only [bind, Except.bind] at h
      cases hk : w.keyMask src.1 src.2 with
      | error x => simp only [hk] at h; cases h
      | ok km =>
        simp only [hk] at h
        cases hs : checkSource s km src with
        | error x => simp only [hs] at h; cases h
        | ok s1 =>
          simp only [hs] at h
          cases hm : mergedRound w src e items with
          | error x => simp only [hm] at h; cases h
          | ok q =>
            obtain ⟨xs, rest⟩ := q
            simp only [hm] at h
            cases ht : UTable.addAll same t xs with
            | error x => simp only [ht] at h; cases h
            | ok t1 =>
              simp only [ht] at h
              obtain ⟨s', h1, h2⟩ := ih h
              obtain ⟨h3, h4⟩ := checkSource_noted hs
              refine ⟨s', fun km o ho => h1 _ _ (h4 _ _ ho), ?_⟩
              intro it hit hal
              rcases List.mem_cons.1 hit with rfl | hit
              · exact ⟨km, hk, h1 _ _ h3⟩
              · exact h2 it ((mergedRound_alone hm).2 it hit hal) hal

/-- **C60, merged generator (part).** A table is only made if no two different sources that are not merged
(application vertices, machine vertices without one) have the same key and mask.  What is missing is machine
vertices of application vertices, see `C60_merged_accepts`. -/
theorem C60_merged_rejects_partial (same : Entry → Entry → Bool) {w : World} {items : List Item} {x y : Nat}
    {t : UTable} (h : createMerged same w x y items = .ok t) :
    ∀ a ∈ items, ∀ b ∈ items, Alone w a.1 → Alone w b.1 →
      w.keyMask a.1.1 a.1.2 = w.keyMask b.1.1 b.1.2 → a.1 = b.1 := by
  obtain ⟨s', -, h2⟩ := mergedLoop_sources same _ h
  intro a ha b hb hal hbl hab
  obtain ⟨km, h3, h4⟩ := h2 a ha hal
  obtain ⟨km', h5, h6⟩ := h2 b hb hbl
  rw [h3, h5] at hab
  cases hab
  rw [h4] at h6
  exact Option.some.inj h6

/-- Machine vertices 10 and 12 of application vertex 1, and machine vertex 99, which has none and the key and mask
of 12. -/
def clashWorld : World where
  appOf v := if v = 99 then none else some 1
  machInfo v _ := if v = 10 then some ⟨0, 0xFFFFFFF0, 0⟩ else some ⟨0x10, 0xFFFFFFF0, 1⟩
  appInfo _ _ := some ⟨0, 0xFFFFFFE0, 0xFFFFFFF0, 4, 1⟩

/-- **C60 is false for the merged generator.** Vertices 12 and 99 have the same key and mask.  The basic generator
raises `KeyError`.  The merged one puts 10 and 12 into one entry without noting the key of 12, makes a table, and
the packets of 99 go where those of 12 do. -/
theorem C60_merged_accepts :
    clashWorld.keyMask (.mach 12) 0 = clashWorld.keyMask (.mach 99) 0 ∧
    (createBasic (fun _ _ => false) clashWorld 0 0
        [((.mach 10, 0), ⟨6, false⟩), ((.mach 12, 0), ⟨6, false⟩), ((.mach 99, 0), ⟨1, false⟩)]) = .error .keyError ∧
    (createMerged (fun _ _ => false) clashWorld 0 0
        [((.mach 10, 0), ⟨6, false⟩), ((.mach 12, 0), ⟨6, false⟩), ((.mach 99, 0), ⟨1, false⟩)]).map
          (fun t => routeOf t.values 0x10) = .ok (some 6) := by
  refine ⟨by decide +kernel, by decide +kernel, by decide +kernel⟩

/-- Both theorems apply to the tables of `mixedItems`; two application vertices with one key are refused. -/
example : (∃ tb tm, createBasic (fun _ _ => false) (ofInfos Alloc.mixedInfos mixedApp) 1 2 mixedItems = .ok tb ∧
      createMerged (fun _ _ => false) (ofInfos Alloc.mixedInfos mixedApp) 1 2 mixedItems = .ok tm) ∧
    createMerged (fun _ _ => true) clashWorld 0 0 [((.app 1, 0), ⟨6, false⟩), ((.app 2, 0), ⟨6, false⟩)] =
      .error .keyError := by
  obtain ⟨tb, tm, h1, h2, -⟩ := C23_generators_agree (fun _ _ => false) mixed_ready 1 2
  exact ⟨⟨tb, tm, h1, h2⟩, by decide +kernel⟩

end Pacman.Gen
