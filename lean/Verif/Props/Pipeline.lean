import Verif.Proofs.PipelineTables
/-
C83: from a graph to routing tables that deliver its packets (false; partial).
-/

namespace Pacman.Pipe

open Alloc (VId Part Infos)
open Router (Net Leaves NetContract NoReturns NetAllSend NetOutside NetWants NetSends NetAsked lineN lineNS)
open RPath (XY)
open Tables (TablesMap)
open Gen (ofInfos)

/-- C83: if the graph is routed and keys are allocated, then either generator makes tables, and under
these every packet gets to every vertex that it should get to. -/
def C83_full : Prop := ∀ (N : Net) (K : Keys) (fuel : Nat) (S : ByPart.State) (infos : Infos)
  (g : Generator) (same : Entry → Entry → Bool), NetContract N → Positive N.base.T →
  Router.routeGraph N fuel = .ok S → Allocated N K infos →
  ∃ tm, generate g same (ofInfos infos N.base.appOf) S = .ok tm ∧
    ∀ a ident m t k, NetWants N a ident m t → HasKey infos m ident k →
      Arrives N (sceneOf N.base.T tm) k (N.base.locate m).1 t

/-! Keys for the graph of the examples of C79. -/

/-- Ten keys for each vertex and identifier. -/
def lineK : Keys := ⟨fun _ _ => none, fun _ _ => 10, fun _ _ => none, fun m => m, fun m => m, []⟩

theorem line_positive (out : List Nat) : Positive (lineN out).base.T := by
  intro c hc
  have : ∀ c ∈ (lineN []).base.T.chips, 0 ≤ c.1 ∧ 0 ≤ c.2 := by decide
  exact this c hc

/-- C83 is false: the vertices that send within an application vertex are not asked of the splitter when
keys are allocated. If one of them is not in `get_out_going_vertices`, it has entries but no key, and
both generators raise a `KeyError`. -/
theorem C83_internal_keyError :
    ∃ S infos, Router.routeGraph (lineN [0]) 20 = .ok S ∧ allocateFor true (lineN [0]) lineK = .ok infos ∧
      ∀ g same, generate g same (ofInfos infos (lineN [0]).base.appOf) S = .error .keyError := by
  refine ⟨
      [((0, 0), [((.mach 0, 0), ⟨5, false⟩), ((.app 1, 0), ⟨128, false⟩), ((.mach 0, 1), ⟨1, false⟩),
         ((.mach 1, 1), ⟨128, false⟩)]),
       ((0, 1), [((.app 0, 0), ⟨128, false⟩)]),
       ((1, 0), [((.mach 0, 0), ⟨128, false⟩), ((.app 1, 0), ⟨136, false⟩),
         ((.mach 0, 1), ⟨128, false⟩), ((.mach 1, 1), ⟨8, false⟩)]),
       ((2, 0), [((.mach 2, 0), ⟨136, false⟩)])],
      [.mach 0 0 0 4294967280 0, .app 0 0 0 4294967280 4294967280 4 0,
       .mach 0 2 16 4294967280 0, .app 0 1 16 4294967280 4294967280 4 0,
       .mach 1 0 32 4294967280 0, .app 1 0 32 4294967280 4294967280 4 0],
      by decide +kernel, by decide +kernel, ?_⟩
  intro g same
  cases g <;> rfl

theorem C83_false : ¬ C83_full := by
  intro h
  obtain ⟨S, infos, h1, h2, h3⟩ := C83_internal_keyError
  obtain ⟨tm, h4, _⟩ := h (lineN [0]) lineK 20 S infos .basic (fun _ _ => true)
    (Router.line_net (by decide)) (line_positive _) h1 (.flexible h2)
  rw [h3] at h4
  cases h4

/-- What is allocated for the graph of the examples if both machine vertices of application vertex 0
send. -/
def lineInfos : Infos :=
  [.mach 0 0 0 4294967280 0, .mach 0 1 16 4294967280 1, .app 0 0 0 4294967264 4294967280 4 1,
   .mach 0 2 32 4294967280 0, .app 0 1 32 4294967264 4294967280 4 0,
   .mach 1 0 64 4294967280 0, .mach 1 1 80 4294967280 1, .app 1 0 64 4294967264 4294967280 4 1]

theorem line_allocated : Allocated (lineN [0, 1]) lineK lineInfos := .flexible (by decide +kernel)

theorem line_keys : KeyContract (lineN [0, 1]) lineK := by
  refine ⟨?_, (by intro _ _ _ h; cases h), (by intro _ _ _ h; cases h), (fun _ _ _ _ => rfl), ?_,
    (fun _ _ _ _ _ h => absurd rfl h), (by intro _ _ _ _ _ _ _ _ h; cases h),
    (by intro _ _ _ _ _ _ _ _ _ h; cases h), ?_⟩
  · intro ident a ms h
    simp only [lineN] at h
    split at h
    · cases h; decide
    · split at h <;> cases h <;> decide
  · intro a ident ms _ h1 _ h2
    cases ms with
    | nil => exact Nat.zero_le _
    | cons m ms => have := h2 m List.mem_cons_self; cases this
  · intro a is h i hi
    simp only [lineN] at h
    split at h
    · rename_i h0
      cases h
      rw [h0]
      simp only [List.mem_cons, List.not_mem_nil, or_false] at hi
      rcases hi with rfl | rfl | rfl <;> exact ⟨[0, 1], rfl, by decide⟩
    · cases h
      cases hi

theorem wants_sends {N : Net} (hN : NetContract N) {a ident m t : Nat} (hw : NetWants N a ident m t) :
    Leaves N a ident ∧ NetSends N a ident m := by
  rcases hw with ⟨q, hq, h1, h2, d, hd, v, hv, h3, s, hs, h4 | ⟨_, h4⟩⟩ | ⟨hv, is, hi, i, h1, h2, h3, h4⟩
  · have := hN.sources q hq d hd v (by rw [h1, h2]; exact hv) s hs
    rcases this with h5 | ⟨l, k, h5, h6, h7⟩
    · rw [h4] at h5; cases h5
    · rw [h4] at h7
      cases h7
      rw [h1, h2] at h5
      exact ⟨Or.inl ⟨q, hq, h1, h2⟩, Or.inl ⟨l, h5, h6⟩⟩
  · exact ⟨Or.inl ⟨q, hq, h1, h2⟩, Or.inl h4⟩
  · exact ⟨Or.inr ⟨hv, is, hi, i, h1, h2⟩, Or.inr ⟨is, hi, i, h1, h2, h3⟩⟩

/-- C83, the tables: for a routed graph with keys, either generator makes a table for each chip that has
entries, and no others; no two entries of a table match the same key. -/
theorem C83_tables_made_partial {N : Net} {K : Keys} (hN : NetContract N) (hn : NoReturns N.base)
    (hK : KeyContract N K) (hp : Positive N.base.T) {fuel : Nat} {S : ByPart.State} {infos : Infos}
    (h : Router.routeGraph N fuel = .ok S) (ha : Allocated N K infos) (g : Generator)
    (same : Entry → Entry → Bool) :
    ∃ tm, generate g same (ofInfos infos N.base.appOf) S = .ok tm ∧
      Dict.keys tm = S.map (fun x => (x.1.1.toNat, x.1.2.toNat)) ∧ Driver.OnePerChip tm ∧
      ∀ t ∈ Tables.tablesOf tm, AllValid t.entries ∧ Orthogonal t.entries := by
  obtain ⟨tm, h1, h2, h3⟩ := generate_ok g same hN hn hK hp h ha
  exact ⟨tm, h1, h3, h2.once, h2.good⟩

/-- C83, the keys: every machine vertex that sends has keys. -/
theorem C83_keys {N : Net} {K : Keys} (hN : NetContract N) (hK : KeyContract N K) {infos : Infos}
    (ha : Allocated N K infos) {a ident m : Nat} (hl : Leaves N a ident)
    (hs : NetSends N a ident m) : ∃ k, HasKey infos m ident k := by
  obtain ⟨ps, hps, hG⟩ := allocated_ok ha
  obtain ⟨fl, -, hal⟩ := id hG
  obtain ⟨q, hq, rfl, rfl⟩ := (vertexParts_ok hps).2.2 a ident (Or.inl hl)
  obtain ⟨ms, k1, k2⟩ := ((vertexParts_ok hps).2.1 q hq).1.out
  obtain ⟨ms', j1, j2⟩ := sends_outgoing hK hs
  rw [k1] at j1
  cases j1
  have hv : K.vertex q.ident m ∈ q.outgoing := by rw [k2]; exact List.mem_map.mpr ⟨m, j2, rfl⟩
  have hne : q.outgoing ≠ [] := fun h0 => by rw [h0] at hv; cases hv
  obtain ⟨kk, mm, ⟨j, hj, hof, hkm⟩, h3, h4, h5⟩ := Gen.good_of (parts_wf hN hK hps) (parts_idle hK hps)
    (parts_counted hK hps) hal hq hne (Or.inr ⟨_, hv, rfl⟩ : Gen.FromPart q (.mach m, q.ident))
  cases j with
  | app => simp [Alloc.Info.of] at hof
  | mach a1 a2 a3 a4 a5 =>
    simp only [Alloc.Info.of, Prod.mk.injEq, VId.mach.injEq] at hof
    simp only [Alloc.Info.km, Prod.mk.injEq] at hkm
    obtain ⟨rfl, rfl⟩ := hof
    obtain ⟨rfl, rfl⟩ := hkm
    refine ⟨BitVec.ofNat 32 a3, a3, a4, a5, hj, ?_⟩
    rw [BitVec.toNat_ofNat, Nat.mod_eq_of_lt h3]
    exact h5

/-- C83, the keys: no key is that of two machine vertices, or of one with two identifiers. -/
theorem C83_keys_apart_partial {N : Net} {K : Keys} (hN : NetContract N) (hK : KeyContract N K)
    {infos : Infos} (ha : Allocated N K infos) {a ident m a' ident' m' : Nat}
    (hl : Leaves N a ident) (hs : NetSends N a ident m) (hl' : Leaves N a' ident')
    (hs' : NetSends N a' ident' m') {k : Word} (hk : HasKey infos m ident k)
    (hk' : HasKey infos m' ident' k) : m = m' ∧ ident = ident' := by
  obtain ⟨ps, hps, hal⟩ := allocated_ok ha
  obtain ⟨q, hq, rfl, rfl, hne, hf, ho⟩ := hasKey_owns hN hK hps hal hl hs hk
  obtain ⟨q', hq', rfl, rfl, hne', hf', ho'⟩ := hasKey_owns hN hK hps hal hl' hs' hk'
  by_cases he : (VId.mach m, q.ident) = (VId.mach m', q'.ident)
  · injection he with e1 e2
    injection e1 with e1
    exact ⟨e1, e2⟩
  · exfalso
    have hr := parts_ready hN hK hps hal (srcs := [(.mach m, q.ident), (.mach m', q'.ident)])
      (by simpa using he) (by
        intro s hs
        simp only [List.mem_cons, List.not_mem_nil, or_false] at hs
        rcases hs with rfl | rfl
        · exact ⟨q, hq, hne, hf⟩
        · exact ⟨q', hq', hne', hf'⟩) (by
        intro p _ h0
        simp at h0)
    exact hr.disjoint _ (by simp) _ (by simp) he k ⟨ho, ho'⟩

/-- C83, the part that holds: for a routed graph with keys, under the tables of either generator each
packet of a machine vertex gets to each vertex that it should get to.
Missing: chips of a source where nothing sends, returning ways (both as in `C79_delivered_partial`),
what `KeyContract` asks, see `C83_internal_keyError` and `C83_wide_machine_key`. -/
theorem C83_delivered_partial {N : Net} {K : Keys} (hN : NetContract N) (hn : NoReturns N.base)
    (hs : NetAllSend N) (hK : KeyContract N K) (hp : Positive N.base.T) {fuel : Nat} {S : ByPart.State}
    {infos : Infos} (h : Router.routeGraph N fuel = .ok S) (ha : Allocated N K infos)
    {g : Generator} {same : Entry → Entry → Bool} {tm : TablesMap}
    (hg : generate g same (ofInfos infos N.base.appOf) S = .ok tm) {a ident m t : Nat} {k : Word}
    (hw : NetWants N a ident m t) (hk : HasKey infos m ident k) :
    Arrives N (sceneOf N.base.T tm) k (N.base.locate m).1 t := by
  obtain ⟨tm', h1, h2, _⟩ := generate_ok g same hN hn hK hp h ha
  rw [hg] at h1
  cases h1
  have ht := Router.routeGraph_tidy hN hn h
  obtain ⟨hl, hsend⟩ := wants_sends hN hw
  exact arrives_of_delivered ht (made_carries hN hK hp ht ha h2 hl hsend hk)
    (Router.C79_delivered_partial hN hn hs h hw)

/-- C83, nothing else: a core that a packet of a machine vertex gets to is that of a target of its
application vertex and identifier.
Missing: as in `C79_met_partial`, and what `KeyContract` asks. -/
theorem C83_only_partial {N : Net} {K : Keys} (hN : NetContract N) (hn : NoReturns N.base)
    (ho : NetOutside N) (hK : KeyContract N K) (hp : Positive N.base.T) {fuel : Nat} {S : ByPart.State}
    {infos : Infos} (h : Router.routeGraph N fuel = .ok S) (ha : Allocated N K infos)
    {g : Generator} {same : Entry → Entry → Bool} {tm : TablesMap}
    (hg : generate g same (ofInfos infos N.base.appOf) S = .ok tm) {a ident m : Nat} {k : Word}
    (hl : Leaves N a ident) (hs : NetSends N a ident m) (hk : HasKey infos m ident k) {c : XY} {p : Nat}
    (hr : Valid.Reaches (sceneOf N.base.T tm) k (N.base.locate m).1 c p) :
    ∃ t, NetAsked N a ident t ∧ (N.base.locate t).1 = c ∧
      ((N.base.locate t).2.1 = some p ∨ (N.base.locate t).2.2 = some (6 + p)) := by
  obtain ⟨tm', h1, h2, _⟩ := generate_ok g same hN hn hK hp h ha
  rw [hg] at h1
  cases h1
  have ht := Router.routeGraph_tidy hN hn h
  have hc := made_carries hN hK hp ht ha h2 hl hs hk
  obtain ⟨ms, j1, j2⟩ := sends_outgoing hK hs
  have hmet := fun c => Router.C79_met_partial hN hn ho h hl j1 j2 (c := c)
  obtain ⟨w, e, hw, he, hb⟩ := hr
  have hcm := comes_of_way hp ht hc hmet hw
  cases hre : Router.entryFor (N.ctx ident) S ident m c with
  | none => have := hmet c hcm; rw [hre] at this; cases this
  | some re =>
    obtain ⟨v, hv, hon, hvm⟩ := entryFor_present hre
    obtain ⟨e', e1, e2⟩ := hc c (present_chip ht hv) re hre
    rw [e1] at he
    cases he
    obtain ⟨a', b1, b2, t, b3, b4, b5⟩ := Router.C79_cores hN h (ident := ident) (v := v) (c := c) (p := p)
      ⟨re, hon, by rw [← e2]; exact hb⟩
    have hma : N.base.appOf m = some a := hN.sends _ _ ms m j1 j2
    have haa : a' = a := by
      rcases hvm with rfl | ⟨x, hx, rfl⟩
      · rcases b2 with b2 | ⟨m', b2, b6⟩
        · cases b2
        · cases b2
          obtain ⟨ms', q1, q2⟩ := sends_outgoing hK b6
          have := hN.sends _ _ ms' m q1 q2
          rw [hma] at this
          exact (Option.some.inj this).symm
      · have hx' : N.base.appOf m = some x := hx
        rw [hma] at hx'
        cases hx'
        rcases b2 with b2 | ⟨m', b2, b6⟩
        · cases b2; rfl
        · cases b2
    subst haa
    exact ⟨t, b3, b4, b5⟩

/-- The packets with key 21 of machine vertex 1 get to machine vertex 2, three hops away, and to no core
but those of targets of application vertex 0. -/
example (g : Generator) (same : Entry → Entry → Bool) :
    ∃ tm, generate g same (ofInfos lineInfos (lineN [0, 1]).base.appOf) lineNS = .ok tm ∧
      Arrives (lineN [0, 1]) (sceneOf (lineN [0, 1]).base.T tm) 21 (1, 0) 2 ∧
      ∀ c p, Valid.Reaches (sceneOf (lineN [0, 1]).base.T tm) 21 (1, 0) c p →
        ∃ t, NetAsked (lineN [0, 1]) 0 0 t ∧ ((lineN [0, 1]).base.locate t).1 = c ∧
          (((lineN [0, 1]).base.locate t).2.1 = some p ∨ ((lineN [0, 1]).base.locate t).2.2 = some (6 + p)) := by
  have hN := Router.line_net (out := [0, 1]) (by decide)
  obtain ⟨tm, h1, _⟩ := C83_tables_made_partial hN (Router.line_noReturns _) line_keys
    (line_positive _) Router.lineN_routed line_allocated g same
  have hk : HasKey lineInfos 1 0 21 := ⟨16, 4294967280, 1, by decide, by decide⟩
  refine ⟨tm, h1, ?_, ?_⟩
  · exact C83_delivered_partial (a := 0) hN (Router.line_noReturns _) Router.lineN_allSend line_keys
      (line_positive _) Router.lineN_routed line_allocated h1
      (Or.inl ⟨⟨0, 0, [1, 2]⟩, by simp [lineN], rfl, rfl, 1, by simp, (2, [.app 0]), by simp [lineN], rfl,
        .app 0, by simp, Or.inr ⟨rfl, [0, 1], rfl, by simp⟩⟩) hk
  · intro c p hr
    exact C83_only_partial hN (Router.line_noReturns _) (Router.lineN_outside _) line_keys
      (line_positive _) Router.lineN_routed line_allocated h1
      (Or.inl ⟨⟨0, 0, [1, 2]⟩, by simp [lineN], rfl, rfl⟩) (Or.inl ⟨[0, 1], rfl, by simp⟩) hk hr

example : ∃ k, HasKey lineInfos 1 1 k :=
  C83_keys (a := 0) (Router.line_net (by decide)) line_keys line_allocated
    (Or.inr ⟨by simp [lineN], _, rfl, (1, 1, [0]), by simp, rfl⟩)
    (Or.inr ⟨_, rfl, (1, 1, [0]), by simp, rfl, rfl⟩)

/-- Key 21 with identifier 0 is that of machine vertex 1 and of no other vertex that sends. -/
example (m : Nat) (hs : NetSends (lineN [0, 1]) 0 0 m) (hk : HasKey lineInfos m 0 21) : 1 = m :=
  have hl : Leaves (lineN [0, 1]) 0 0 := Or.inl ⟨⟨0, 0, [1, 2]⟩, by simp [lineN], rfl, rfl⟩
  (C83_keys_apart_partial (Router.line_net (by decide)) line_keys line_allocated hl
    (Or.inl ⟨[0, 1], rfl, by simp⟩) hl hs ⟨16, 4294967280, 1, by decide, by decide⟩ hk).1

/-! Several machine vertices with fixed keys. -/

/-- The machine vertices 0 and 1 of application vertex 0 have fixed keys: with identifier 0 blocks of 16 keys from 0x100, in line;
with identifier 1 keys that end in 1 or in 2, with a hole in the masks. -/
def severalK : Keys := { lineK with
  fixed := fun a ident => if a = 0 ∧ ident = 0 then some (0x100, 0xFFFFFFE0) else
    if a = 0 ∧ ident = 1 then some (0x1000, 0xFFFFF000) else none
  machFixed := fun m ident => if m = 2 then none else if ident = 0 then some (if m = 0 then 0x100 else 0x110, 0xFFFFFFF0) else
    some (if m = 0 then 0x1001 else 0x1002, 0xFFFFF00F) }

/-- What is allocated for them; vertex 2 has keys from a block besides. -/
def severalInfos : Infos :=
  [.mach 0 0 0x100 0xFFFFFFF0 0, .mach 0 1 0x110 0xFFFFFFF0 1, .app 0 0 0x100 0xFFFFFFE0 0xFFFFFFF0 4 1,
   .mach 0 2 16 0xFFFFFFF0 0, .app 0 1 16 0xFFFFFFF0 0xFFFFFFF0 4 0,
   .mach 1 0 0x1001 0xFFFFF00F 0, .mach 1 1 0x1002 0xFFFFF00F 1, .app 1 0 0x1000 0xFFFFF000 0xFFFFFFF0 4 1]

theorem several_allocated : Allocated (lineN [0, 1]) severalK severalInfos := .flexible (by decide +kernel)

theorem several_some {a ident : Nat} {km : Word × Word} (h : severalK.fixed a ident = some km) :
    a = 0 ∧ (ident = 0 ∧ km = (0x100, 0xFFFFFFE0) ∨ ident = 1 ∧ km = (0x1000, 0xFFFFF000)) := by
  unfold severalK at h
  simp only at h
  split at h
  · rename_i h0
    exact ⟨h0.1, .inl ⟨h0.2, (Option.some.inj h).symm⟩⟩
  · split at h
    · rename_i h0
      exact ⟨h0.1, .inr ⟨h0.2, (Option.some.inj h).symm⟩⟩
    · cases h

theorem several_keys : KeyContract (lineN [0, 1]) severalK := by
  refine ⟨line_keys.once, ?_, ?_, ?_, ?_, ?_, ?_, ?_, line_keys.internal⟩
  · intro a ident km h
    rcases (several_some h).2 with ⟨-, rfl⟩ | ⟨-, rfl⟩ <;> decide
  · intro m ident km h
    unfold severalK at h
    simp only at h
    split at h
    · cases h
    · split at h <;> cases h <;> split <;> decide
  · intro a ident _ h
    cases hf : severalK.fixed a ident with
    | none => rfl
    | some km =>
      rw [(several_some hf).1] at h
      cases h
  · intro a ident ms _ h1 _ h2
    cases ms with
    | nil => exact Nat.zero_le _
    | cons m ms => have := h2 m List.mem_cons_self; cases this
  · intro a ident ms _ h1 h2
    obtain ⟨km, h⟩ := Option.ne_none_iff_exists'.1 h2
    obtain ⟨rfl, h3⟩ := several_some h
    cases h1
    rcases h3 with ⟨rfl, rfl⟩ | ⟨rfl, rfl⟩
    · refine .inr (.inr ⟨_, 4, 1, h, by decide, by decide, by decide, by decide, ?_⟩)
      intro i v hv
      match i, hv with
      | 0, hv => cases hv; exact ⟨rfl, _, rfl, by decide, by decide⟩
      | 1, hv => cases hv; exact ⟨rfl, _, rfl, by decide, by decide⟩
    · have hp : ¬ Gen.Prefix 0xFFFFF00F#32 := Gen.not_prefix (by decide)
      refine .inr (.inl ⟨?_, ?_⟩)
      · intro v hv
        simp only [List.mem_cons, List.not_mem_nil, or_false] at hv
        rcases hv with rfl | rfl <;> exact ⟨_, rfl, hp⟩
      · intro v hv v' hv' hne k k' hk hk' x ⟨h1, h2⟩
        simp only [List.mem_cons, List.not_mem_nil, or_false] at hv hv'
        rcases hv with rfl | rfl <;> rcases hv' with rfl | rfl <;> cases hk <;> cases hk'
        · exact hne rfl
        · exact absurd (h1.symm.trans h2) (by decide)
        · exact absurd (h1.symm.trans h2) (by decide)
        · exact hne rfl
  · intro a ident ms akm m km _ h1 h2 h3 h4
    obtain ⟨rfl, h5⟩ := several_some h2
    cases h1
    simp only [List.mem_cons, List.not_mem_nil, or_false] at h3
    rcases h5 with ⟨rfl, rfl⟩ | ⟨rfl, rfl⟩ <;> rcases h3 with rfl | rfl <;> cases h4 <;> decide
  · intro a ident b ident' _ _ hne x y h1 h2 k ⟨h3, h4⟩
    obtain ⟨rfl, h5⟩ := several_some h1
    obtain ⟨rfl, h6⟩ := several_some h2
    have hh : ∀ k : Word, k &&& 0xFFFFFFE0 = 0x100 → k &&& 0xFFFFF000 = 0x1000 → False := by
      intro k h1 h2
      have h3 : k &&& 0xFFFFFFE0 &&& 0xFFFFF000 = k &&& 0xFFFFF000 := by
        rw [BitVec.and_assoc]; rfl
      rw [h1, h2] at h3
      exact absurd h3 (by decide)
    rcases h5 with ⟨rfl, rfl⟩ | ⟨rfl, rfl⟩ <;> rcases h6 with ⟨rfl, rfl⟩ | ⟨rfl, rfl⟩
    · exact hne rfl
    · exact hh k h3 h4
    · exact hh k h4 h3
    · exact hne rfl

/-- Key 0x115 is fixed for machine vertex 1; its packets get to vertex 2. -/
example (g : Generator) (same : Entry → Entry → Bool) :
    ∃ tm, generate g same (ofInfos severalInfos (lineN [0, 1]).base.appOf) lineNS = .ok tm ∧
      Arrives (lineN [0, 1]) (sceneOf (lineN [0, 1]).base.T tm) 0x115 (1, 0) 2 ∧ HasKey severalInfos 1 1 0x10F2 ∧
      ∀ c p, Valid.Reaches (sceneOf (lineN [0, 1]).base.T tm) 0x10F2 (1, 0) c p →
        ∃ t, NetAsked (lineN [0, 1]) 0 1 t ∧ ((lineN [0, 1]).base.locate t).1 = c ∧
          (((lineN [0, 1]).base.locate t).2.1 = some p ∨ ((lineN [0, 1]).base.locate t).2.2 = some (6 + p)) := by
  have hN := Router.line_net (out := [0, 1]) (by decide)
  obtain ⟨tm, h1, _⟩ := C83_tables_made_partial hN (Router.line_noReturns _) several_keys
    (line_positive _) Router.lineN_routed several_allocated g same
  have hk : HasKey severalInfos 1 0 0x115 := ⟨0x110, 0xFFFFFFF0, 1, by decide, by decide⟩
  have hk' : HasKey severalInfos 1 1 0x10F2 := ⟨0x1002, 0xFFFFF00F, 1, by decide, by decide⟩
  refine ⟨tm, h1, ?_, hk', ?_⟩
  · exact C83_delivered_partial (a := 0) hN (Router.line_noReturns _) Router.lineN_allSend several_keys
      (line_positive _) Router.lineN_routed several_allocated h1
      (Or.inl ⟨⟨0, 0, [1, 2]⟩, by simp [lineN], rfl, rfl, 1, by simp, (2, [.app 0]), by simp [lineN], rfl,
        .app 0, by simp, Or.inr ⟨rfl, [0, 1], rfl, by simp⟩⟩) hk
  · intro c p hr
    exact C83_only_partial hN (Router.line_noReturns _) (Router.lineN_outside _) several_keys
      (line_positive _) Router.lineN_routed several_allocated h1
      (Or.inr ⟨by simp [lineN], _, rfl, (1, 1, [0]), by simp, rfl⟩) (Or.inl ⟨[0, 1], rfl, by simp⟩) hk' hr

/-! A fixed machine key that is wider than the fixed key of the application vertex. -/

/-- Application vertex 1 has keys 0 to 15, its machine vertex 2 keys 0 to 255. -/
def wideK : Keys := { lineK with
  fixed := fun a _ => if a = 1 then some (0, 0xFFFFFFF0) else none
  machFixed := fun m _ => if m = 2 then some (0, 0xFFFFFF00) else none }

/-- A table from keys, masks and routes. -/
def wideTable (x y : Nat) (es : List (Word × Word × Nat)) : Tables.Table :=
  .u ⟨x, y, es.map (fun e => ((e.1, e.2.1), ⟨e.1, e.2.1, e.2.2, false⟩)), 0⟩

/-- The tables of the basic generator. -/
def wideTables : TablesMap :=
  [((1, 0), wideTable 1 0 [(0x100, 0xFFFFFFF0, 129), (0x110, 0xFFFFFFF0, 9), (0x0, 0xFFFFFFF0, 136), (0x140, 0xFFFFFFF0, 128), (0x150, 0xFFFFFFF0, 8)]),
   ((2, 0), wideTable 2 0 [(0x100, 0xFFFFFFE0, 128), (0x0, 0xFFFFFF00, 136)]),
   ((0, 0), wideTable 0 0 [(0x100, 0xFFFFFFF0, 5), (0x110, 0xFFFFFFF0, 4), (0x0, 0xFFFFFFF0, 128), (0x140, 0xFFFFFFF0, 1), (0x150, 0xFFFFFFF0, 128)]),
   ((0, 1), wideTable 0 1 [(0x100, 0xFFFFFFE0, 128)])]

/-- C83 is false also for a machine vertex whose fixed mask is less strict than that of its application
vertex: the allocator compares only the keys. Then the machine vertex has keys that are lost on chips
where the entry is that of the application vertex. -/
theorem C83_wide_machine_key : ∃ infos tm, allocateFor true (lineN [0, 1]) wideK = .ok infos ∧
    generate .basic (fun _ _ => true) (ofInfos infos (lineN [0, 1]).base.appOf) lineNS = .ok tm ∧
    HasKey infos 2 0 32 ∧ NetWants (lineN [0, 1]) 1 0 2 0 ∧
    ¬ Arrives (lineN [0, 1]) (sceneOf (lineN [0, 1]).base.T tm) 32 (2, 0) 0 := by
  refine ⟨[.mach 0 0 256 4294967280 0, .mach 0 1 272 4294967280 1, .app 0 0 256 4294967264 4294967280 4 1,
    .mach 0 2 0 4294967040 0, .app 0 1 0 4294967280 4294967280 4 0, .mach 1 0 320 4294967280 0,
    .mach 1 1 336 4294967280 1, .app 1 0 320 4294967264 4294967280 4 1], wideTables,
    by decide +kernel, by decide +kernel, ⟨0, 4294967040, 0, by decide, by decide⟩, ?_, ?_⟩
  · exact Or.inl ⟨⟨1, 0, [0, 1]⟩, by simp [lineN], rfl, rfl, 0, by simp, (0, [.app 1]), by simp [lineN], rfl,
      .app 1, by simp, Or.inr ⟨rfl, [2], rfl, by simp⟩⟩
  · rintro ⟨_, h, _⟩
    obtain ⟨w, e, _, he, _⟩ := h 1 rfl
    have : lookup ((sceneOf (lineN [0, 1]).base.T wideTables).entries (0, 0)) 32 = none := by decide +kernel
    have he' : lookup ((sceneOf (lineN [0, 1]).base.T wideTables).entries (0, 0)) 32 = some e := he
    rw [this] at he'
    cases he'

end Pacman.Pipe
