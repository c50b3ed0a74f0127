import Verif.Spec.MappingGraph
import Verif.Props.MappingShared
import Verif.Props.PartitionSucceeds
/-
C111 from the graph alone: partitioning, placing, routing, allocating keys and making tables all succeed.
-/

namespace Pacman.Split

open Slices (Slice)
open RPath (Intact ShortVector spin5)
open Router (Ctx AppPart Merges)
open Pipe (Keys Generator HasKey sceneOf Positive allocateFor generate)
open Gen (ofInfos)
open Plc (Store)
open Placer (given)

section
variable {E : Env} {mp : Nat → Option (List Nat)} {mv : Nat → MV} {next : Nat} {os : List Op} {W : World}
  {vs : List Nat} {k a i j c : Nat} {sdram : Int} {fuel : Nat} {C : Ctx} {parts : List AppPart} {K : Keys}
  {M : Placer.Machine} {links : Nat → RPath.XY × Nat} {fixedApp : Nat → Bool} {fl : Bool}

/-- The number of machine vertices is the quotient rounded up. -/
theorem count_eq {l p n : Nat} (h0 : 0 < l) (h1 : (l - 1) * p < n) (h2 : n ≤ l * p) : l = (n + p - 1) / p := by
  have hp : 0 < p := by
    refine Nat.pos_of_ne_zero fun h => ?_
    subst h
    rw [Nat.mul_zero] at h1 h2
    omega
  have h3 : l * p = (l - 1) * p + p := by
    rw [← Nat.succ_mul]
    congr 1
    omega
  refine ((Nat.div_eq_iff hp).2 ⟨?_, ?_⟩).symm <;> omega

theorem all_reset (hall : ∀ v s, (W.app v).splitter = some s → v ∈ vs) (v s : Nat)
    (h : ((resetGraph E W vs).app v).splitter = some s) : v ∈ vs :=
  hall v s (((keeps_resetGraph E W vs).1 v).symm.trans h)

/-- The keys fit if each vertex sends from as many machine vertices as reckoned with. -/
theorem keys_after {W' : World} {cnt : Nat → Nat} (hK : Modest fl cnt vs parts K i j c) (hbits : i + j + c ≤ 32)
    (hcnt : ∀ x ∈ pairs parts K, 0 < cnt x.1 ∧ cnt x.1 ≤ 2 ^ i) (hsend : ∀ x ∈ pairs parts K, ∃ ms, Sends E W' x ms)
    (houts : ∀ x ∈ pairs parts K, ∀ ms, Sends E W' x ms → ms.length = cnt x.1) :
    KeysFit E W' parts K ∧ KeysClear fl E W' parts K := by
  have hsome : ∀ x ∈ pairs parts K, ∀ ms, Sends E W' x ms → ms ≠ [] := by
    intro x hx ms hms h0
    have h1 := houts x hx ms hms
    have h2 := (hcnt x hx).1
    rw [h0] at h1
    exact absurd h1.symm (Nat.ne_of_gt h2)
  have hfit : KeysFit E W' parts K := by
    refine ⟨hK.valid, ?_, ?_, ?_, ?_, ?_, hK.apart, ?_⟩
    · intro m ident km h0; rw [hK.freeM] at h0; cases h0
    · exact fun x hx => hsend x (List.mem_append_right _ hx)
    · exact fun x _ _ _ _ m _ => hK.freeM m x.2
    · intro x hx _ ms _ h0
      cases ms with
      | nil => exact Nat.zero_le _
      | cons m ms =>
        have h1 := h0 m List.mem_cons_self
        have h2 := hK.some_ m x.2
        omega
    · intro x hx akm h0 ms hms
      refine ⟨hsome x hx ms hms, .inl ?_, fun m _ km h1 => (by rw [hK.freeM] at h1; cases h1)⟩
      rw [houts x hx ms hms, hK.one x hx (by rw [h0]; exact Option.some_ne_none _)]
      exact Nat.le_refl _
    · obtain ⟨L, h1, h2⟩ := hK.room
      refine ⟨i + j, L, by omega, Nat.le_trans h1 (Nat.pow_le_pow_right (by decide) (by omega)), h2, ?_⟩
      intro x hx _ ms hms
      refine ⟨i, j, Nat.le_refl _, ?_, fun m _ => hK.most m x.2⟩
      rw [houts x hx ms hms]
      exact (hcnt x hx).2
  have hcl : KeysClear fl E W' parts K := by
    rcases hK.clear with h0 | h0 | ⟨x, hx, hf, h0⟩
    · exact .inl h0
    · exact .inr (.inl h0)
    · obtain ⟨ms, hms⟩ := hsend x hx
      refine .inr (.inr ⟨x, hx, hf, ms, hms, fun y hy hfy ms' hms' => ⟨fun e he m' hm' => ?_, fun e he => ?_⟩⟩)
      · obtain ⟨m, hm⟩ := List.exists_mem_of_ne_nil ms (hsome x hx ms hms)
        exact Nat.le_trans ((h0 y hy hfy).2 m m') (he m hm)
      · rw [houts y hy ms' hms']
        rw [houts x hx ms hms] at he
        exact Nat.le_trans (h0 y hy hfy).1 he
  exact ⟨hfit, hcl⟩

/-- What holds once a graph of plain vertices has been partitioned. -/
theorem plain_after (hb : Built E mv next) (h : run E (World.new E mp mv next) os = W) (hL : Linked W)
    (hn : vs.Nodup) (hall : ∀ v s, (W.app v).splitter = some s → v ∈ vs) (hdev : ∀ m, (W.mv m).dev = none)
    (hplain : ∀ v ∈ vs, Plain E W k a sdram v) (hS : Site M C W links)
    (hin : ∀ p ∈ parts, p.pre ∈ vs) (hK : Modest fl (coresFor E W) vs parts K i j c) (hbits : i + j + c ≤ 32) (hi : a ≤ 2 ^ i)
    {W' : World} {n : Nat} (hp : partition E (resetGraph E W vs) k sdram vs = (W', .ok n)) :
    (∀ v ∈ vs, Anew E (resetGraph E W vs) v) ∧ (∀ m, (W'.mv m).dev = none) ∧
    (∀ v ∈ vs, ∀ t, (W'.app v).splitter = some t → E.kind t = .fixed) ∧
    (∀ v ∈ vs, ∀ m, (Sender E W' v m ↔ m ∈ (W'.app v).machines) ∧ (Receiver E W' v m ↔ m ∈ (W'.app v).machines)) ∧
    (∀ v ∈ vs, (W'.app v).machines.length = coresFor E W v ∧ 0 < coresFor E W v ∧ coresFor E W v ≤ a) ∧
    Site M C W' links ∧ KeysFit E W' parts K ∧ KeysClear fl E W' parts K := by
  have hu : ∀ v ∈ vs, Anew E (resetGraph E W vs) v := by
    intro v hv
    refine anew_reset hv (fun s hs => ?_)
    obtain ⟨t, h1, h2⟩ := (hplain v hv).splitter
    rw [h1] at hs
    injection hs with hs
    subst hs
    rw [h2]
    exact ⟨(by intro h0; cases h0), fun h0 => absurd (hplain v hv).many h0⟩
  have hW0 : Sound E W := by rw [← h]; exact sound_run os (sound_new hb)
  have hd := done_after (sound_resetGraph hW0 vs) ((keeps_resetGraph E W vs).linked hL) hn hp hu (all_reset hall)
  have hdev' : ∀ m, (W'.mv m).dev = none := by
    have := partitionLoop_dev (P := (· = none)) rfl (E := E) (c := Counter.Counter.new k sdram) vs (W := resetGraph E W vs)
      (by rw [(resetGraph_mv E vs W).1]; exact hdev)
    rw [← partition_world, hp] at this
    exact this
  have hkinds : ∀ v ∈ vs, ∀ t, (W'.app v).splitter = some t → E.kind t = .fixed := by
    intro v hv t ht
    obtain ⟨t', h1, h2⟩ := (hplain v hv).splitter
    have h3 := (keeps_partition E (resetGraph E W vs) k sdram vs).1 v
    rw [hp, (keeps_resetGraph E W vs).1 v, h1] at h3
    rw [show (W'.app v).splitter = some t' from h3] at ht
    injection ht with ht
    rw [← ht]; exact h2
  have hboth : ∀ v ∈ vs, ∀ m, (Sender E W' v m ↔ m ∈ (W'.app v).machines) ∧ (Receiver E W' v m ↔ m ∈ (W'.app v).machines) := by
    intro v hv m
    obtain ⟨t, ht⟩ := hd.some_ v hv
    rcases hd.shares v t ht with ⟨h1, h2⟩ | ⟨h1, -⟩
    · exact ⟨⟨fun h => sender_known hd h, fun h => ⟨t, _, ht, h1, h⟩⟩,
        ⟨fun h => receiver_known hd h, fun h => ⟨t, _, ht, h2, h⟩⟩⟩
    · rw [hkinds v hv t ht] at h1; cases h1
  have hsite : Site M C W' links := { hS with links := by intro m i b h0; rw [hdev' m] at h0; cases h0 }
  have hcount : ∀ v ∈ vs, (W'.app v).machines.length = coresFor E W v ∧ 0 < coresFor E W v ∧ coresFor E W v ≤ a := by
    intro v hv
    obtain ⟨t, h1, h2⟩ := (hplain v hv).splitter
    obtain ⟨e0, e1, e2⟩ := C90_count hb (run_resetGraph h vs) ((keeps_resetGraph E W vs).linked hL) hn hp hv
      (((keeps_resetGraph E W vs).1 _).trans h1) h2 (hu v hv)
    rw [resetGraph_maxPer] at e1 e2
    have e3 : (W'.app v).machines.length = coresFor E W v := count_eq e0 e1 e2
    refine ⟨e3, e3 ▸ e0, e3 ▸ Nat.le_of_not_lt fun hlt => ?_⟩
    have h3 := Nat.mul_le_mul_right (perCore E W v) (Nat.le_sub_one_of_lt hlt)
    exact absurd (Nat.lt_of_le_of_lt h3 e1) (Nat.not_lt.2 (hplain v hv).few)
  have hpv : ∀ x ∈ pairs parts K, x.1 ∈ vs := by
    intro x hx
    rcases List.mem_append.1 hx with hx | hx
    · obtain ⟨p, hpp, rfl⟩ := List.mem_map.1 hx
      exact hin p hpp
    · exact hK.asked x hx
  have houts : ∀ x ∈ pairs parts K, ∀ ms, Sends E W' x ms → ms.length = coresFor E W x.1 := by
    rintro x hx ms ⟨t, ht, hms⟩
    have hL' := linked_after ((keeps_resetGraph E W vs).linked hL) hp
    unfold outVerts governedOf at hms
    rw [hkinds _ (hpv x hx) t ht, (hL' _ t).1 ht] at hms
    injection hms with hms
    rw [← hms]
    exact (hcount _ (hpv x hx)).1
  have hsend : ∀ x ∈ pairs parts K, ∃ ms, Sends E W' x ms := by
    intro x hx
    obtain ⟨t, ht⟩ := hd.some_ x.1 (hpv x hx)
    rcases hd.shares x.1 t ht with ⟨h1, -⟩ | ⟨h1, -⟩
    · exact ⟨_, t, ht, h1⟩
    · rw [hkinds _ (hpv x hx) t ht] at h1; cases h1
  obtain ⟨hfit, hcl⟩ := keys_after hK hbits
    (fun x hx => ⟨(hcount _ (hpv x hx)).2.1, Nat.le_trans (hcount _ (hpv x hx)).2.2 hi⟩) hsend houts
  exact ⟨hu, hdev', hkinds, hboth, hcount, hsite, hfit, hcl⟩

/-- C111 from the graph alone. A graph without devices, all of whose vertices have a `SplitterFixedLegacy` and need at most `a` cores,
is reset and mapped onto a machine on which ways are found, of which all chips have `k` cores and the SDRAM that the partitioner
reckons with. If however those before lie the cores that the atoms of a vertex need are left on chips that can be reached from one another, and
bits for the vertices of a source, for their keys and for the sources are together at most 32, then partitioning, placing, routing,
allocating keys and making tables succeed, each vertex is on the fewest cores, each machine vertex that sends has keys, no other
vertex has them, and packets with them get to exactly the cores of the vertices that receive.
Missing: what `C111_shared_partial` leaves out. -/
theorem C111_graph_partial (hb : Built E mv next) (h : run E (World.new E mp mv next) os = W) (hL : Linked W)
    (hn : vs.Nodup) (hall : ∀ v s, (W.app v).splitter = some s → v ∈ vs) (hdev : ∀ m, (W.mv m).dev = none)
    (hplain : ∀ v ∈ vs, Plain E W k a sdram v) (hS : Site M C W links) (hk : 0 < k)
    (hE : Even M k sdram) (hf : M.chips.length < fuel) (hfree : ∀ v ∈ vs, fixedApp v = false)
    (hroom : Placer.AllFind M k 0 (vs.map (coresFor E W))) (hA : SameLinks M C.T) (hT : Passable C)
    (hm : Merges C) (hpos : Positive C.T)
    (hdis : (parts.map (fun p => (p.pre, p.ident))).Nodup) (hne : ∀ p ∈ parts, p.edges ≠ [])
    (hin : ∀ p ∈ parts, p.pre ∈ vs ∧ ∀ d ∈ p.edges, d ∈ vs) (hK : Modest fl (coresFor E W) vs parts K i j c)
    (hbits : i + j + c ≤ 32) (hi : a ≤ 2 ^ i) :
    ∃ W' n, partition E (resetGraph E W vs) k sdram vs = (W', .ok n) ∧
    (∀ v ∈ vs, (W'.app v).machines.length = coresFor E W v) ∧
    ∃ s, placeFor M W' fixedApp vs fuel (given []) = .ok s ∧
    ∃ k, ∀ fuel', k ≤ fuel' → ∃ S infos, routePlaced E W' C s links parts vs fuel' = .ok S ∧
      allocateFor fl (netOf E W' (located C W' s links) parts vs) K = .ok infos ∧
      ∀ (g : Generator) (same : Entry → Entry → Bool), ∃ tm,
        generate g same (ofInfos infos (netOf E W' (located C W' s links) parts vs).base.appOf) S = .ok tm ∧
        ∀ p ∈ parts, ∀ m ∈ (W'.app p.pre).machines, (∃ k, HasKey infos m p.ident k) ∧ ∀ k, HasKey infos m p.ident k →
          (∀ p' ∈ parts, ∀ m' ∈ (W'.app p'.pre).machines, HasKey infos m' p'.ident k → m' = m ∧ p'.ident = p.ident) ∧
          ∃ b ∈ Plc.placements s, b.vertex = m ∧
            (∀ a ∈ Plc.placements s, Valid.Reaches (sceneOf C.T tm) k ((b.x : Int), (b.y : Int)) ((a.x : Int), (a.y : Int)) a.p ↔
              ∃ d ∈ p.edges, a.vertex ∈ (W'.app d).machines) ∧
            (∀ c' q', Valid.Reaches (sceneOf C.T tm) k ((b.x : Int), (b.y : Int)) c' q' →
              ∃ a ∈ Plc.placements s, c' = ((a.x : Int), (a.y : Int)) ∧ q' = a.p) := by
  obtain ⟨W', n, hp⟩ := (C112_returns_iff hb h hL hn k sdram).2 (fun v hv => by
    obtain ⟨t, h1, h2⟩ := (hplain v hv).splitter
    refine ⟨t, h1, ?_⟩
    rw [h2]
    exact ⟨(hplain v hv).many, (hplain v hv).valid⟩)
  obtain ⟨hu, hdev', hkinds, -, hcount, hsite, hfit, hcl⟩ := plain_after hb h hL hn hall hdev hplain hS (fun p hp => (hin p hp).1)
    hK hbits hi hp
  have hrun := run_resetGraph h vs
  have hL0 := (keeps_resetGraph E W vs).linked hL
  have hsome : ∀ v ∈ vs, 0 < (W'.app v).machines.length := by
    intro v hv
    rw [(hcount v hv).1]
    exact (hcount v hv).2.1
  have hshare : ∀ v ∈ vs, ∀ m ∈ (W'.app v).machines, (W'.mv m).dev = none ∧ 0 ≤ (W'.mv m).sdram ∧
      (W'.mv m).sdram * k ≤ sdram := by
    intro v hv m hm
    obtain ⟨t, h1, h2⟩ := (hplain v hv).splitter
    obtain ⟨-, e1, e2, -⟩ := C90_atoms_partial hb hrun hL0 hn hp hv (((keeps_resetGraph E W vs).1 _).trans h1) h2 (hu v hv)
    rw [resetGraph_maxPer] at e1
    rw [(e2 m hm).1]
    exact ⟨hdev' m, (hplain v hv).share _ (e1 m hm)⟩
  have hroom' : Placer.AllFind M k 0 (vs.map (fun v => (W'.app v).machines.length)) := by
    rw [List.map_congr_left (fun v hv => (hcount v hv).1)]
    exact hroom
  obtain ⟨s, hpl, hrest⟩ := C111_shared_partial (fixedApp := fixedApp) (links := links) hb hrun hL0 hn hp hu (all_reset hall) hsite hk hE hf
    hfree hsome hshare hroom' (fun v hv t ht h0 => by rw [hkinds v hv t ht] at h0; cases h0) hA hT hm hpos hdis hne hin hfit
    hcl
  exact ⟨W', n, hp, fun v hv => (hcount v hv).1, s, hpl, hrest⟩

end

/-! ### Two vertices of two atoms, of which one is split, on a board with 48 chips -/

theorem room32_plain : ∀ v ∈ [3, 2], Plain roomE (roomW [3, 2]) 2 2 100 v := by
  intro v hv
  simp only [List.mem_cons, List.not_mem_nil, or_false] at hv
  rcases hv with rfl | rfl
  · exact ⟨⟨3, by decide +kernel, rfl⟩, rfl, ⟨by decide, by
      intro m hm
      have : m = [2] := by
        have h0 : ((roomW [3, 2]).app 3).maxPer = some [2] := by decide +kernel
        rw [h0] at hm
        exact (Option.some.inj hm).symm
      subst this
      exact ⟨rfl, by decide, fun h => absurd rfl h⟩⟩, by decide +kernel, fun sl _ => ⟨Int.le_refl 0, (by decide : (0 : Int) * 2 ≤ 100)⟩⟩
  · exact ⟨⟨2, by decide +kernel, rfl⟩, rfl, ⟨by decide, by
      intro m hm
      have : m = [1] := by
        have h0 : ((roomW [3, 2]).app 2).maxPer = some [1] := by decide +kernel
        rw [h0] at hm
        exact (Option.some.inj hm).symm
      subst this
      exact ⟨rfl, by decide, fun h => absurd rfl h⟩⟩, by decide +kernel, fun sl _ => ⟨Int.le_refl 0, (by decide : (0 : Int) * 2 ≤ 100)⟩⟩

theorem room_noDev (vs : List Nat) (h : (roomW vs).mv = roomMv) (m : Nat) : ((roomW vs).mv m).dev = none := by
  rw [h]; rfl

theorem split_site : Site fullM fullC (roomW [3, 2]) devLinks :=
  { full_site with links := by intro m i b h; rw [room_noDev _ rfl] at h; cases h }

def splitP : List AppPart := [⟨3, 0, [2]⟩, ⟨2, 5, [3, 2]⟩]

theorem split_modest {fl : Bool} : Modest fl (coresFor roomE (roomW [3, 2])) [3, 2] splitP Pipe.lineK 1 4 1 where
  valid := fun _ _ _ h => by cases h
  freeM := fun _ _ => rfl
  asked := fun _ h => by cases h
  some_ := fun _ _ => (by decide : 1 ≤ 10)
  most := fun _ _ => (by decide : 10 ≤ 2 ^ 4)
  one := fun _ _ h => absurd rfl h
  apart := fun _ _ _ _ _ _ _ h => by cases h
  room := ⟨[], by decide, fun _ _ _ h => by cases h⟩
  clear := .inr (.inl (fun _ _ => rfl))

example : ∃ W' n, partition roomE (resetGraph roomE (roomW [3, 2]) [3, 2]) (2 : Nat) 100 [3, 2] = (W', .ok n) ∧
    (W'.app 2).machines.length = 2 ∧ ∃ s, placeFor fullM W' (fun _ => false) [3, 2] 50 (given []) = .ok s ∧
    ∃ k, ∀ fuel', k ≤ fuel' → ∃ S, routePlaced roomE W' fullC s devLinks splitP [3, 2] fuel' = .ok S := by
  obtain ⟨W', n, h1, h2, s, h3, k, hk⟩ := C111_graph_partial (fl := true) (k := 2) (a := 2) (i := 1) (j := 4) (c := 1) (sdram := 100) (fuel := 50)
    (parts := splitP) (links := devLinks) (fixedApp := fun _ => false) (C := fullC) (K := Pipe.lineK)
    (os := [3, 2].map (fun v => .setSplitter v v)) (W := roomW [3, 2])
    room_built rfl (room_linked rfl) (by decide) room_all32 (room_noDev _ rfl) room32_plain split_site (by decide)
    full_even (by decide +kernel) (fun _ _ => rfl) (Placer.allFind_few (a := 2) (by decide) _ 0 (by decide +kernel) (by decide +kernel)) full_links full_passable (fun a b => ⟨_, rfl⟩) full_positive (by decide)
    (by decide) (by decide) split_modest (by decide) (by decide)
  refine ⟨W', n, h1, (h2 2 (by decide)).trans (by decide +kernel), s, h3, k, fun fuel' hf => ?_⟩
  obtain ⟨S, -, h4, -⟩ := hk fuel' hf
  exact ⟨S, h4⟩

/-! ### The same on a machine with faults: of two rows of three chips, two chips are missing -/

theorem line_links : ∀ c l, devBase.T.linkAt c l = true → c ∈ devBase.T.chips ∧ l < 6 ∧
    ∃ l', l' < 6 ∧ devBase.T.linkAt (devBase.T.over c l) l' = true ∧ devBase.T.over (devBase.T.over c l) l' = c := by
  intro c l h
  have h : (c, l) ∈ [(((0, 0) : RPath.XY), 0), ((1, 0), 3), ((1, 0), 0), ((2, 0), 3), ((0, 0), 2), ((0, 1), 5)] :=
    of_decide_eq_true h
  simp only [List.mem_cons, Prod.mk.injEq, List.not_mem_nil, or_false] at h
  rcases h with ⟨rfl, rfl⟩ | ⟨rfl, rfl⟩ | ⟨rfl, rfl⟩ | ⟨rfl, rfl⟩ | ⟨rfl, rfl⟩ | ⟨rfl, rfl⟩
  · exact ⟨by decide, by decide, 3, by decide, by decide, by decide⟩
  · exact ⟨by decide, by decide, 0, by decide, by decide, by decide⟩
  · exact ⟨by decide, by decide, 3, by decide, by decide, by decide⟩
  · exact ⟨by decide, by decide, 0, by decide, by decide, by decide⟩
  · exact ⟨by decide, by decide, 5, by decide, by decide, by decide⟩
  · exact ⟨by decide, by decide, 2, by decide, by decide, by decide⟩

theorem line_passable : Passable devBase :=
  .faulty Router.line_connected (fun c l _ _ h _ => (line_links c l h).2.2)
    (Pipe.mini_noReturns false (T := devBase.T) (by decide +kernel) (0, 0) [] [] [])

theorem line_same : SameLinks devM devBase.T := by
  intro c hc
  have hc : c ∈ [((0, 0) : Nat × Nat), (1, 0), (2, 0), (0, 1)] := of_decide_eq_true hc
  simp only [List.mem_cons, List.not_mem_nil, or_false] at hc
  rcases hc with rfl | rfl | rfl | rfl <;> decide

theorem line_even : Even devM 2 100 where
  order := fun l => List.Perm.refl l
  grid := dev_site.grid
  links := by
    intro c hc
    have hc : c ∈ [((0, 0) : Nat × Nat), (1, 0), (2, 0), (0, 1)] := of_decide_eq_true hc
    simp only [List.mem_cons, List.not_mem_nil, or_false] at hc
    rcases hc with rfl | rfl | rfl | rfl <;> decide
  distinct := fun _ => (by decide : [1, 2].Nodup)
  cores := fun _ _ => rfl
  sdram := fun _ _ => Int.le_refl _
  maxCores := rfl
  maxSdram := rfl

theorem line_site : Site devM devBase (roomW [3, 2]) devLinks :=
  { dev_site with links := by intro m i b h; rw [room_noDev _ rfl] at h; cases h }

/-- The way from the chip in the second row to the end of the first one has to be repaired. -/
example : ∃ W' n, partition roomE (resetGraph roomE (roomW [3, 2]) [3, 2]) (2 : Nat) 100 [3, 2] = (W', .ok n) ∧
    ∃ s, placeFor devM W' (fun _ => false) [3, 2] 5 (given []) = .ok s ∧
    ∃ k, ∀ fuel', k ≤ fuel' → ∃ S infos, routePlaced roomE W' devBase s devLinks splitP [3, 2] fuel' = .ok S ∧
      ∀ (g : Generator) (same : Entry → Entry → Bool), ∃ tm, generate g same
        (ofInfos infos (netOf roomE W' (located devBase W' s devLinks) splitP [3, 2]).base.appOf) S = .ok tm ∧
        ∀ m ∈ (W'.app 2).machines, ∀ k, HasKey infos m 5 k → ∃ b ∈ Plc.placements s, b.vertex = m ∧
          ∀ a ∈ Plc.placements s, (Valid.Reaches (sceneOf devBase.T tm) k ((b.x : Int), (b.y : Int))
            ((a.x : Int), (a.y : Int)) a.p ↔ ∃ d ∈ [3, 2], a.vertex ∈ (W'.app d).machines) := by
  obtain ⟨W', n, h1, -, s, h3, k, hk⟩ := C111_graph_partial (fl := false) (k := 2) (a := 2) (i := 1) (j := 4) (c := 1) (sdram := 100) (fuel := 5)
    (parts := splitP) (links := devLinks) (fixedApp := fun _ => false) (C := devBase) (K := Pipe.lineK)
    (os := [3, 2].map (fun v => .setSplitter v v)) (W := roomW [3, 2])
    room_built rfl (room_linked rfl) (by decide) room_all32 (room_noDev _ rfl) room32_plain line_site (by decide)
    line_even (by decide +kernel) (fun _ _ => rfl) (Placer.allFind_few (a := 2) (by decide) _ 0 (by decide +kernel) (by decide +kernel)) line_same line_passable (fun a b => ⟨_, rfl⟩)
    (by intro c hc; revert c; decide) (by decide)
    (by decide) (by decide) split_modest (by decide) (by decide)
  refine ⟨W', n, h1, s, h3, k, fun fuel' hf => ?_⟩
  obtain ⟨S, infos, h4, -, h5⟩ := hk fuel' hf
  refine ⟨S, infos, h4, fun g same => ?_⟩
  obtain ⟨tm, h6, h7⟩ := h5 g same
  refine ⟨tm, h6, fun m hm key hkey => ?_⟩
  obtain ⟨-, b, h8, h9, h10, -⟩ := (h7 ⟨2, 5, [3, 2]⟩ (by decide) m hm).2 key hkey
  exact ⟨b, h8, h9, h10⟩

/-! ### The same where keys 0x100 to 0x10F are fixed for vertex 3, which asks for more keys -/

def moreK : Keys := { fixedK with extra := [(3, 7)] }

theorem more_some {a ident : Nat} {km : Word × Word} (h : moreK.fixed a ident = some km) :
    (a, ident) = (3, 0) ∧ km = (0x100, 0xFFFFFFF0) := fixed_some h

theorem more_modest {fl : Bool} : Modest fl (coresFor roomE (roomW [3, 2])) [3, 2] splitP moreK 1 4 2 where
  valid := by
    intro a ident km h
    rw [(more_some h).2]
    decide
  freeM := fun _ _ => rfl
  asked := by decide
  some_ := fun _ _ => (by decide : 1 ≤ 10)
  most := fun _ _ => (by decide : 10 ≤ 2 ^ 4)
  one := by decide +kernel
  apart := by
    intro x _ y _ hne a b h1 h2
    exact absurd ((more_some h1).1.trans (more_some h2).1.symm) hne
  room := by
    refine ⟨[8], by decide, ?_⟩
    intro x _ km h k hk
    rw [(more_some h).2] at hk
    have h4 := (Alloc.covers_maskOf (y := 16) (a := 4) (by decide) k).1 (by
      have := congrArg BitVec.toNat hk
      rw [BitVec.toNat_and] at this
      exact this)
    have h5 : k.toNat / 2 ^ 5 = 8 := by omega
    exact List.mem_singleton.2 h5
  clear := .inr (.inr ⟨(2, 5), by decide, by decide, fun y hy _ => ⟨by revert y; decide +kernel, fun _ _ => Nat.le_refl _⟩⟩)

example : ∃ W' n, partition roomE (resetGraph roomE (roomW [3, 2]) [3, 2]) (2 : Nat) 100 [3, 2] = (W', .ok n) ∧
    ∃ s, placeFor devM W' (fun _ => false) [3, 2] 5 (given []) = .ok s ∧
    ∃ k, ∀ fuel', k ≤ fuel' → ∃ S infos, routePlaced roomE W' devBase s devLinks splitP [3, 2] fuel' = .ok S ∧
      ∀ (g : Generator) (same : Entry → Entry → Bool), ∃ tm, generate g same
        (ofInfos infos (netOf roomE W' (located devBase W' s devLinks) splitP [3, 2]).base.appOf) S = .ok tm ∧
        ∀ m ∈ (W'.app 3).machines, ∀ k, HasKey infos m 0 k → ∃ b ∈ Plc.placements s, b.vertex = m ∧
          ∀ a ∈ Plc.placements s, (Valid.Reaches (sceneOf devBase.T tm) k ((b.x : Int), (b.y : Int))
            ((a.x : Int), (a.y : Int)) a.p ↔ ∃ d ∈ [2], a.vertex ∈ (W'.app d).machines) := by
  obtain ⟨W', n, h1, -, s, h3, k, hk⟩ := C111_graph_partial (fl := false) (k := 2) (a := 2) (i := 1) (j := 4) (c := 2) (sdram := 100) (fuel := 5)
    (parts := splitP) (links := devLinks) (fixedApp := fun _ => false) (C := devBase) (K := moreK)
    (os := [3, 2].map (fun v => .setSplitter v v)) (W := roomW [3, 2])
    room_built rfl (room_linked rfl) (by decide) room_all32 (room_noDev _ rfl) room32_plain line_site (by decide)
    line_even (by decide +kernel) (fun _ _ => rfl) (Placer.allFind_few (a := 2) (by decide) _ 0 (by decide +kernel) (by decide +kernel)) line_same line_passable (fun a b => ⟨_, rfl⟩)
    (by intro c hc; revert c; decide) (by decide)
    (by decide) (by decide) more_modest (by decide) (by decide)
  refine ⟨W', n, h1, s, h3, k, fun fuel' hf => ?_⟩
  obtain ⟨S, infos, h4, -, h5⟩ := hk fuel' hf
  refine ⟨S, infos, h4, fun g same => ?_⟩
  obtain ⟨tm, h6, h7⟩ := h5 g same
  refine ⟨tm, h6, fun m hm key hkey => ?_⟩
  obtain ⟨-, b, h8, h9, h10, -⟩ := (h7 ⟨3, 0, [2]⟩ (by decide) m hm).2 key hkey
  exact ⟨b, h8, h9, h10⟩

/-! ### A vertex of 70 cores on the board with 48 chips of two cores each, and one of one core -/

def wideE : Env where
  app := fun v => ⟨if v = 0 then [70] else [2], true, fun _ => 0, none, none⟩
  kind := fun _ => .fixed

def wideW : World :=
  run wideE (World.new wideE (fun v => if v = 0 then some [1] else some [2]) roomMv 0) [.setSplitter 0 0, .setSplitter 3 3]

theorem wide_linked : Linked wideW :=
  linked_runOk (E := wideE) [.setSplitter 0 0, .setSplitter 3 3] (linked_new wideE (fun v => if v = 0 then some [1] else some [2]) roomMv 0) rfl

theorem wide_built : Built wideE roomMv 0 := by
  refine ⟨?_, ?_, ?_⟩ <;> intro v m h <;> cases h

theorem wide_all (v s : Nat) (h : (wideW.app v).splitter = some s) : v ∈ [0, 3] := by
  match v with
  | 0 => decide
  | 3 => decide
  | 1 => have : (wideW.app 1).splitter = none := rfl
         rw [this] at h; cases h
  | 2 => have : (wideW.app 2).splitter = none := rfl
         rw [this] at h; cases h
  | v + 4 =>
    have : (wideW.app (v + 4)).splitter = none := rfl
    rw [this] at h
    cases h

theorem wide_plain : ∀ v ∈ [0, 3], Plain wideE wideW 2 70 100 v := by
  intro v hv
  simp only [List.mem_cons, List.not_mem_nil, or_false] at hv
  rcases hv with rfl | rfl
  · exact ⟨⟨0, by decide +kernel, rfl⟩, rfl, ⟨by decide, by
      intro m hm
      have : m = [1] := by
        have h0 : (wideW.app 0).maxPer = some [1] := by decide +kernel
        rw [h0] at hm
        exact (Option.some.inj hm).symm
      subst this
      exact ⟨rfl, by decide, fun h => absurd rfl h⟩⟩, by decide +kernel, fun sl _ => ⟨Int.le_refl 0, (by decide : (0 : Int) * 2 ≤ 100)⟩⟩
  · exact ⟨⟨3, by decide +kernel, rfl⟩, rfl, ⟨by decide, by
      intro m hm
      have : m = [2] := by
        have h0 : (wideW.app 3).maxPer = some [2] := by decide +kernel
        rw [h0] at hm
        exact (Option.some.inj hm).symm
      subst this
      exact ⟨rfl, by decide, fun h => absurd rfl h⟩⟩, by decide +kernel, fun sl _ => ⟨Int.le_refl 0, (by decide : (0 : Int) * 2 ≤ 100)⟩⟩

theorem wide_noDev (m : Nat) : (wideW.mv m).dev = none := by
  have : wideW.mv = roomMv := rfl
  rw [this]; rfl

theorem wide_site : Site fullM fullC wideW devLinks :=
  { full_site with links := by intro m i b h; rw [wide_noDev] at h; cases h }

def wideP : List AppPart := [⟨0, 0, [3]⟩, ⟨3, 5, [0, 3]⟩]

theorem wide_modest {fl : Bool} : Modest fl (coresFor wideE wideW) [0, 3] wideP Pipe.lineK 7 4 1 where
  valid := fun _ _ _ h => by cases h
  freeM := fun _ _ => rfl
  asked := fun _ h => by cases h
  some_ := fun _ _ => (by decide : 1 ≤ 10)
  most := fun _ _ => (by decide : 10 ≤ 2 ^ 4)
  one := fun _ _ h => absurd rfl h
  apart := fun _ _ _ _ _ _ _ h => by cases h
  room := ⟨[], by decide, fun _ _ _ h => by cases h⟩
  clear := .inr (.inl (fun _ _ => rfl))

theorem full_ways : ∀ c ∈ fullM.chips, Placer.Way fullM (fun d => fullM.has d = true) (0, 0) c := by
  have h0 : Placer.Way fullM (fun d => fullM.has d = true) (0, 0) (0, 0) := .here (by decide +kernel)
  have h1 : fullM.chips = (0, 0) :: fullM.chips.tail := by decide +kernel
  have h2 := Placer.ways_each (M := fullM) (cs := fullM.chips.tail) (seen := [(0, 0)]) (s := (0, 0))
    (by intro c hc; obtain rfl := List.mem_singleton.1 hc; exact h0)
    (by decide +kernel)
  intro c hc
  rw [h1] at hc
  rcases List.mem_cons.1 hc with rfl | hc
  · exact h0
  · exact h2 c hc

theorem wide_room : Placer.AllFind fullM 2 0 ([0, 3].map (coresFor wideE wideW)) := by
  have : [0, 3].map (coresFor wideE wideW) = [70, 1] := by decide +kernel
  rw [this]
  exact ⟨Placer.finds_connected full_ways full_site.grid (by decide) (by decide +kernel),
    Placer.finds_chip (by decide) (by decide +kernel), trivial⟩

example : ∃ W' n, partition wideE (resetGraph wideE wideW [0, 3]) (2 : Nat) 100 [0, 3] = (W', .ok n) ∧
    (W'.app 0).machines.length = 70 ∧ ∃ s, placeFor fullM W' (fun _ => false) [0, 3] 50 (given []) = .ok s ∧
    ∃ k, ∀ fuel', k ≤ fuel' → ∃ S infos, routePlaced wideE W' fullC s devLinks wideP [0, 3] fuel' = .ok S ∧
      ∀ (g : Generator) (same : Entry → Entry → Bool), ∃ tm, generate g same
        (ofInfos infos (netOf wideE W' (located fullC W' s devLinks) wideP [0, 3]).base.appOf) S = .ok tm ∧
        ∀ m ∈ (W'.app 0).machines, ∀ k, HasKey infos m 0 k → ∃ b ∈ Plc.placements s, b.vertex = m ∧
          ∀ a ∈ Plc.placements s, (Valid.Reaches (sceneOf fullC.T tm) k ((b.x : Int), (b.y : Int))
            ((a.x : Int), (a.y : Int)) a.p ↔ ∃ d ∈ [3], a.vertex ∈ (W'.app d).machines) := by
  obtain ⟨W', n, h1, h2, s, h3, k, hk⟩ := C111_graph_partial (fl := true) (k := 2) (a := 70) (i := 7) (j := 4) (c := 1) (sdram := 100) (fuel := 50)
    (parts := wideP) (links := devLinks) (fixedApp := fun _ => false) (C := fullC) (K := Pipe.lineK)
    (os := [.setSplitter 0 0, .setSplitter 3 3]) (W := wideW)
    wide_built rfl wide_linked (by decide) wide_all wide_noDev wide_plain wide_site (by decide)
    full_even (by decide +kernel) (fun _ _ => rfl) wide_room full_links full_passable (fun a b => ⟨_, rfl⟩) full_positive (by decide)
    (by decide) (by decide) wide_modest (by decide) (by decide)
  refine ⟨W', n, h1, (h2 0 (by decide)).trans (by decide +kernel), s, h3, k, fun fuel' hf => ?_⟩
  obtain ⟨S, infos, h4, -, h5⟩ := hk fuel' hf
  refine ⟨S, infos, h4, fun g same => ?_⟩
  obtain ⟨tm, h6, h7⟩ := h5 g same
  refine ⟨tm, h6, fun m hm key hkey => ?_⟩
  obtain ⟨-, b, h8, h9, h10, -⟩ := (h7 ⟨0, 0, [3]⟩ (by decide) m hm).2 key hkey
  exact ⟨b, h8, h9, h10⟩

end Pacman.Split
