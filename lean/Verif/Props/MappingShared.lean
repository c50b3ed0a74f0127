import Verif.Proofs.PlacerShared
import Verif.Props.MappingSucceeds
/-
C101 and C111 for vertices with several machine vertices.
-/

namespace Pacman.Split

open Counter (Packing)
open RPath (Intact ShortVector spin5 spin5_intact spin5_board hexVector_short)
open Router (Ctx AppPart Net NoReturns Merges)
open Pipe (Keys Generator HasKey Leads sceneOf Positive allocateFor generate)
open Gen (ofInfos)
open Plc (Store)
open Placer (given AppV allVerts)

/-- The groups that the splitters give: one for each machine vertex. -/
theorem appsOf_groups {W : World} {fixedApp : Nat → Bool} (hL : Linked W) : ∀ {vs : List Nat},
    (∀ v ∈ vs, ∃ s, (W.app v).splitter = some s) → (∀ v ∈ vs, fixedApp v = false) →
    ∃ as, appsOf W fixedApp vs = .ok as ∧ as.map (·.groups) = vs.map (fun v => (W.app v).machines.map (fun m => ([m], (W.mv m).sdram.toNat))) ∧
      ∀ a ∈ as, a.isFixed = false ∧ ∃ v ∈ vs, a.groups = (W.app v).machines.map (fun m => ([m], (W.mv m).sdram.toNat)) := by
  intro vs
  induction vs with
  | nil => intro _ _; exact ⟨[], rfl, rfl, by intro a ha; cases ha⟩
  | cons v vs ih =>
    intro h1 h2
    obtain ⟨as, e1, e2, e3⟩ := ih (fun u hu => h1 u (List.mem_cons_of_mem _ hu)) (fun u hu => h2 u (List.mem_cons_of_mem _ hu))
    obtain ⟨s, hs⟩ := h1 v (by simp)
    have hg : groups W s = .ok ((W.app v).machines.map (fun m => ([m], (W.mv m).sdram))) := by
      unfold groups governedOf
      rw [(hL v s).1 hs]
      simp only [Except.map]
    refine ⟨⟨(W.app v).machines.map (fun m => ([m], (W.mv m).sdram.toNat)), fixedApp v⟩ :: as, ?_, ?_, ?_⟩
    · unfold appsOf
      rw [hs]
      simp only [hg, e1, List.map_map]
      rfl
    · rw [List.map_cons, List.map_cons, e2]
    · intro a ha
      rcases List.mem_cons.1 ha with rfl | ha
      · exact ⟨h2 v (by simp), v, by simp, rfl⟩
      · obtain ⟨k1, u, k2, k3⟩ := e3 a ha
        exact ⟨k1, u, List.mem_cons_of_mem _ k2, k3⟩

section
variable {E : Env} {mp : Nat → Option (List Nat)} {mv : Nat → MV} {next : Nat} {os : List Op} {W W' : World}
  {vs : List Nat} {k a : Nat} {sdram : Int} {n fuel : Nat} {C : Ctx} {parts : List AppPart} {K : Keys}
  {M : Placer.Machine} {links : Nat → RPath.XY × Nat} {fixedApp : Nat → Bool} {fl : Bool}

/-- C101 for graphs with devices, and vertices with any number of machine vertices, each of which needs at most the share of a core of
the SDRAM of a chip. If however the vertices before lie there are as many cores left as the vertex has machine vertices, on chips that
can be reached from one another, then the graph is placed; devices need no cores.
Missing: as for `C101_room_partial`, and graphs for which it depends on where the vertices before lie (`C101_apart`). -/
theorem C101_remote_partial (hb : Built E mv next) (h : run E (World.new E mp mv next) os = W) (hL : Linked W)
    (hn : vs.Nodup) (hp : partition E W k sdram vs = (W', .ok n)) (hu : ∀ v ∈ vs, Anew E W v)
    (hall : ∀ v s, (W.app v).splitter = some s → v ∈ vs) (hk : 0 < k) (hE : Even M k sdram)
    (hf : M.chips.length < fuel) (hfree : ∀ v ∈ vs, fixedApp v = false)
    (hshare : ∀ v ∈ vs, (0 < (W'.app v).machines.length ∧ ∀ m ∈ (W'.app v).machines, (W'.mv m).dev = none ∧
      0 ≤ (W'.mv m).sdram ∧ (W'.mv m).sdram * k ≤ sdram) ∨ ∀ m ∈ (W'.app v).machines, (W'.mv m).dev ≠ none)
    (hroom : Placer.AllFind M k 0
      (vs.map (fun v => ((W'.app v).machines.filter (fun m => decide ((W'.mv m).dev = none))).length))) :
    ∃ s, placeFor M W' fixedApp vs fuel (given []) = .ok s := by
  have hW0 : Sound E W := by rw [← h]; exact sound_run os (sound_new hb)
  have hd := done_after hW0 hL hn hp hu hall
  have hL' := linked_after hL hp
  obtain ⟨as, e1, e2, e3⟩ := appsOf_groups (fixedApp := fixedApp) hL' hd.some_ hfree
  unfold placeFor
  rw [e1]
  have hverts := appsOf_verts hL' e1
  have hn' : (allVerts as).Nodup := by
    rw [hverts]
    have hs := hd.sound
    clear e1 e2 e3 hp hu hall hfree hd hshare hroom hverts
    induction vs with
    | nil => exact List.nodup_nil
    | cons v vs ih =>
      rw [List.nodup_cons] at hn
      rw [List.flatMap_cons]
      refine List.nodup_append.2 ⟨hs.nodup v, ih hn.2, ?_⟩
      intro a ha b hb hab
      obtain ⟨u, hu, hb⟩ := List.mem_flatMap.1 hb
      have h1 := hs.owner v a ha
      rw [hab, hs.owner u b hb] at h1
      exact hn.1 (h1 ▸ hu)
  have hcount : as.map (Placer.onCores (machineFor M W')) =
      vs.map (fun v => ((W'.app v).machines.filter (fun m => decide ((W'.mv m).dev = none))).length) := by
    have h0 := congrArg (List.map (fun gs : List (List Nat × Nat) =>
      ((gs.flatMap (·.1)).filter (fun u => !(machineFor M W').virtual u)).length)) e2
    rw [List.map_map, List.map_map] at h0
    refine h0.trans (List.map_congr_left fun v _ => ?_)
    simp only [Function.comp]
    rw [List.flatMap_map]
    congr 1
    have h1 : (W'.app v).machines.flatMap (fun m => [m]) = (W'.app v).machines := by
      induction (W'.app v).machines with
      | nil => rfl
      | cons m ms ih => rw [List.flatMap_cons, ih]; rfl
    rw [h1]
    refine List.filter_congr fun m _ => ?_
    show (!(W'.mv m).dev.isSome) = _
    cases (W'.mv m).dev <;> rfl
  exact Placer.modest_placed (M := machineFor M W') (fuel := fuel) (k := k) rfl hE.order hE.grid hf hE.links hE.distinct
    hE.cores hE.maxCores hk (fun c hc => by show M.maxSdram ≤ _; rw [hE.maxSdram]; exact hE.sdram c hc) as [] (by
      intro b hb'
      obtain ⟨h1, v, hv, h3⟩ := e3 b hb'
      rcases hshare v hv with ⟨h4, h5⟩ | h4
      · refine .inl ⟨h1, ?_, ?_, ?_⟩
        · rw [h3]
          refine List.length_pos_iff.1 ?_
          rw [List.length_map]; exact h4
        · intro g hg
          rw [h3] at hg
          obtain ⟨m, hm, rfl⟩ := List.mem_map.1 hg
          refine ⟨m, rfl, ?_, Nat.le_refl _⟩
          show (W'.mv m).dev.isSome = false
          rw [(h5 m hm).1]; rfl
        · intro g hg
          rw [h3] at hg
          obtain ⟨m, hm, rfl⟩ := List.mem_map.1 hg
          obtain ⟨-, h6, h7⟩ := h5 m hm
          show ((W'.mv m).sdram.toNat * k : Int) ≤ M.maxSdram
          rw [Int.toNat_of_nonneg h6, hE.maxSdram]
          exact h7
      · refine .inr ⟨h1, ?_⟩
        intro g hg
        rw [h3] at hg
        obtain ⟨m, hm, rfl⟩ := List.mem_map.1 hg
        refine ⟨m, rfl, ?_⟩
        show (W'.mv m).dev.isSome = true
        exact Option.isSome_iff_ne_none.2 (h4 m hm)) hn' (by
      rw [hcount]
      exact Placer.AllFind.other (M := M) (M' := machineFor M W') rfl rfl rfl rfl hroom)
    ⟨given [], by
      have h0 : ¬ (machineFor M W').maxCores = 0 := by
        show ¬ M.maxCores = 0
        rw [hE.maxCores]; omega
      unfold Placer.place Placer.initial
      rw [if_neg h0]
      rfl, by intro b hb; cases hb⟩

/-- The same without devices. -/
theorem C101_shared_partial (hb : Built E mv next) (h : run E (World.new E mp mv next) os = W) (hL : Linked W)
    (hn : vs.Nodup) (hp : partition E W k sdram vs = (W', .ok n)) (hu : ∀ v ∈ vs, Anew E W v)
    (hall : ∀ v s, (W.app v).splitter = some s → v ∈ vs) (hk : 0 < k) (hE : Even M k sdram)
    (hf : M.chips.length < fuel) (hfree : ∀ v ∈ vs, fixedApp v = false)
    (hsome : ∀ v ∈ vs, 0 < (W'.app v).machines.length)
    (hshare : ∀ v ∈ vs, ∀ m ∈ (W'.app v).machines, (W'.mv m).dev = none ∧ 0 ≤ (W'.mv m).sdram ∧
      (W'.mv m).sdram * k ≤ sdram)
    (hroom : Placer.AllFind M k 0 (vs.map (fun v => (W'.app v).machines.length))) :
    ∃ s, placeFor M W' fixedApp vs fuel (given []) = .ok s := by
  refine C101_remote_partial hb h hL hn hp hu hall hk hE hf hfree (fun v hv => .inl ⟨hsome v hv, hshare v hv⟩) ?_
  rw [List.map_congr_left (g := fun v => (W'.app v).machines.length)]
  · exact hroom
  · intro v hv
    rw [List.filter_eq_self.2]
    exact fun m hm => decide_eq_true (hshare v hv m hm).1

/-- The same in terms of the chips that the partitioner counted, for vertices with at most `a` machine vertices each: the cores of
these chips are at most those of the machine when `a - 1` cores of each chip are not counted. -/
theorem C101_counted_partial (hb : Built E mv next) (h : run E (World.new E mp mv next) os = W) (hL : Linked W)
    (hn : vs.Nodup) (hp : partition E W k sdram vs = (W', .ok n)) (hu : ∀ v ∈ vs, Anew E W v)
    (hall : ∀ v s, (W.app v).splitter = some s → v ∈ vs) (hk : 0 < k) (ha : a ≤ k) (hE : Even M k sdram)
    (hf : M.chips.length < fuel) (hfree : ∀ v ∈ vs, fixedApp v = false)
    (hfew : ∀ v ∈ vs, 0 < (W'.app v).machines.length ∧ (W'.app v).machines.length ≤ a)
    (hshare : ∀ v ∈ vs, ∀ m ∈ (W'.app v).machines, (W'.mv m).dev = none ∧ 0 ≤ (W'.mv m).sdram ∧
      (W'.mv m).sdram * k ≤ sdram)
    (hchips : n * k ≤ M.chips.length * (k + 1 - a)) :
    ∃ s, placeFor M W' fixedApp vs fuel (given []) = .ok s := by
  refine C101_shared_partial hb h hL hn hp hu hall hk hE hf hfree (fun v hv => (hfew v hv).1) hshare
    (Placer.allFind_few ha _ 0 (fun x hx => by
      obtain ⟨v, hv, rfl⟩ := List.mem_map.1 hx
      exact hfew v hv) (Nat.le_trans ?_ hchips))
  rw [Nat.zero_add]
  have hkk : (1 : Int) ≤ (k : Int) := by omega
  obtain ⟨runs, hr1, hr2, -⟩ := C94_chips_partial hb h hL hn hp hu (by omega) (by
    intro v hv m hm
    obtain ⟨-, h2, h3⟩ := hshare v hv m hm
    have : (W'.mv m).sdram * 1 ≤ (W'.mv m).sdram * k := Int.mul_le_mul_of_nonneg_left hkk h2
    omega)
  have hlen := packing_length hr1
  rw [List.length_flatMap, ← hr2] at hlen
  simp only [List.length_map] at hlen
  exact_mod_cast hlen

/-- C111 once the graph is placed, where no vertex is a device. -/
theorem deliver_placed {s : Store} (hb : Built E mv next) (h : run E (World.new E mp mv next) os = W) (hL : Linked W)
    (hn : vs.Nodup) (hp : partition E W k sdram vs = (W', .ok n)) (hu : ∀ v ∈ vs, Anew E W v)
    (hall : ∀ v s, (W.app v).splitter = some s → v ∈ vs) (hS : Site M C W' links)
    (hf : M.chips.length < fuel) (hfree : ∀ v ∈ vs, fixedApp v = false)
    (hsome : ∀ v ∈ vs, ∃ m, m ∈ (W'.app v).machines)
    (hdev : ∀ v ∈ vs, ∀ m ∈ (W'.app v).machines, (W'.mv m).dev = none)
    (hkind : ∀ v ∈ vs, ∀ t, (W'.app v).splitter = some t → E.kind t ≠ .external)
    (hpl : placeFor M W' fixedApp vs fuel (given []) = .ok s) (hA : SameLinks M C.T) (hT : Passable C)
    (hm : Merges C) (hpos : Positive C.T)
    (hdis : (parts.map (fun p => (p.pre, p.ident))).Nodup) (hne : ∀ p ∈ parts, p.edges ≠ [])
    (hin : ∀ p ∈ parts, p.pre ∈ vs ∧ ∀ d ∈ p.edges, d ∈ vs) (hK : KeysFit E W' parts K)
    (hcl : KeysClear fl E W' parts K) :
    ∃ k, ∀ fuel', k ≤ fuel' → ∃ S infos, routePlaced E W' C s links parts vs fuel' = .ok S ∧
      allocateFor fl (netOf E W' (located C W' s links) parts vs) K = .ok infos ∧
      ∀ (g : Generator) (same : Entry → Entry → Bool), ∃ tm,
        generate g same (ofInfos infos (netOf E W' (located C W' s links) parts vs).base.appOf) S = .ok tm ∧
        ∀ p ∈ parts, ∀ m ∈ (W'.app p.pre).machines, (∃ k, HasKey infos m p.ident k) ∧ ∀ k, HasKey infos m p.ident k →
          (∀ p' ∈ parts, ∀ m' ∈ (W'.app p'.pre).machines, HasKey infos m' p'.ident k → m' = m ∧ p'.ident = p.ident) ∧
          ∃ b ∈ Plc.placements s, b.vertex = m ∧
            (∀ a ∈ Plc.placements s, Valid.Reaches (sceneOf C.T tm) k ((b.x : Int), (b.y : Int)) ((a.x : Int), (a.y : Int)) a.p ↔
              ∃ d ∈ p.edges, a.vertex ∈ (W'.app d).machines) ∧
            (∀ c' q', Valid.Reaches (sceneOf C.T tm) k ((b.x : Int), (b.y : Int)) c' q' →
              ∃ a ∈ Plc.placements s, c' = ((a.x : Int), (a.y : Int)) ∧ q' = a.p) := by
  have hW0 : Sound E W := by rw [← h]; exact sound_run os (sound_new hb)
  have hd := done_after hW0 hL hn hp hu hall
  have hset : ∀ v ∈ vs, Settled E W' (Plc.placements s) links fixedApp v :=
    fun v hv => Or.inl ⟨hfree v hv, hkind v hv, hdev v hv⟩
  have hboth : ∀ v ∈ vs, ∀ m, (Sender E W' v m ↔ m ∈ (W'.app v).machines) ∧ (Receiver E W' v m ↔ m ∈ (W'.app v).machines) := by
    intro v hv m
    obtain ⟨t, ht⟩ := hd.some_ v hv
    rcases hd.shares v t ht with ⟨h1, h2⟩ | ⟨h1, -⟩
    · exact ⟨⟨fun h => sender_known hd h, fun h => ⟨t, _, ht, h1, h⟩⟩,
        ⟨fun h => receiver_known hd h, fun h => ⟨t, _, ht, h2, h⟩⟩⟩
    · exact absurd h1 (hkind v hv t ht)
  obtain ⟨k, hk⟩ := C111_placed_partial (links := links) (fixedApp := fixedApp) (sys := []) hb h hL hn hp hu hall hS hf
    (by intro a ha; cases ha) (by intro a ha; cases ha) hpl hA hT hm hpos hdis hne
    (fun p hp => by
      obtain ⟨m, hm⟩ := hsome _ (hin p hp).1
      exact ⟨m, (hboth _ (hin p hp).1 m).1.2 hm⟩)
    (fun p hp d hdd => by
      obtain ⟨m, hm⟩ := hsome _ ((hin p hp).2 d hdd)
      exact ⟨m, (hboth _ ((hin p hp).2 d hdd) m).2.2 hm⟩)
    (fun p hp => hset _ (hin p hp).1) (fun p hp d hdd => Or.inl (hset _ ((hin p hp).2 d hdd))) hK hcl
  refine ⟨k, fun fuel' hf' => ?_⟩
  obtain ⟨S, infos, h1, h2, h3⟩ := hk fuel' hf'
  refine ⟨S, infos, h1, h2, fun g same => ?_⟩
  obtain ⟨tm, h4, h5⟩ := h3 g same
  refine ⟨tm, h4, fun p hpp m hmm => ?_⟩
  obtain ⟨h6, h7⟩ := h5 p hpp m ((hboth _ (hin p hpp).1 m).1.2 hmm)
  refine ⟨h6, fun key hkey => ?_⟩
  obtain ⟨h8, c, q, l, h9, h10, h11, -⟩ := h7 key hkey
  refine ⟨fun p' hpp' m' hm' hk' => h8 p' hpp' m' ((hboth _ (hin p' hpp').1 m').1.2 hm') hk', ?_⟩
  cases h9 with
  | link h0 => rw [hdev _ (hin p hpp).1 m hmm] at h0; cases h0
  | core h0 hb' hbv =>
    rename_i b
    refine ⟨b, hb', hbv, fun a ha => ?_, h11⟩
    rw [h10 a ha]
    constructor
    · rintro ⟨-, d, e1, e2⟩
      exact ⟨d, e1, (hboth d ((hin p hpp).2 d e1) _).2.1 e2⟩
    · rintro ⟨d, e1, e2⟩
      exact ⟨hdev d ((hin p hpp).2 d e1) _ e2, d, e1, (hboth d ((hin p hpp).2 d e1) _).2.2 e2⟩

/-- C111 for vertices with any number of machine vertices, on machines with cores enough as in `C101_shared_partial`. -/
theorem C111_shared_partial (hb : Built E mv next) (h : run E (World.new E mp mv next) os = W) (hL : Linked W)
    (hn : vs.Nodup) (hp : partition E W k sdram vs = (W', .ok n)) (hu : ∀ v ∈ vs, Anew E W v)
    (hall : ∀ v s, (W.app v).splitter = some s → v ∈ vs) (hS : Site M C W' links) (hk : 0 < k)
    (hE : Even M k sdram) (hf : M.chips.length < fuel) (hfree : ∀ v ∈ vs, fixedApp v = false)
    (hsome : ∀ v ∈ vs, 0 < (W'.app v).machines.length)
    (hshare : ∀ v ∈ vs, ∀ m ∈ (W'.app v).machines, (W'.mv m).dev = none ∧ 0 ≤ (W'.mv m).sdram ∧
      (W'.mv m).sdram * k ≤ sdram)
    (hroom : Placer.AllFind M k 0 (vs.map (fun v => (W'.app v).machines.length)))
    (hkind : ∀ v ∈ vs, ∀ t, (W'.app v).splitter = some t → E.kind t ≠ .external)
    (hA : SameLinks M C.T) (hT : Passable C)
    (hm : Merges C) (hpos : Positive C.T)
    (hdis : (parts.map (fun p => (p.pre, p.ident))).Nodup) (hne : ∀ p ∈ parts, p.edges ≠ [])
    (hin : ∀ p ∈ parts, p.pre ∈ vs ∧ ∀ d ∈ p.edges, d ∈ vs) (hK : KeysFit E W' parts K)
    (hcl : KeysClear fl E W' parts K) :
    ∃ s, placeFor M W' fixedApp vs fuel (given []) = .ok s ∧
    ∃ k, ∀ fuel', k ≤ fuel' → ∃ S infos, routePlaced E W' C s links parts vs fuel' = .ok S ∧
      allocateFor fl (netOf E W' (located C W' s links) parts vs) K = .ok infos ∧
      ∀ (g : Generator) (same : Entry → Entry → Bool), ∃ tm,
        generate g same (ofInfos infos (netOf E W' (located C W' s links) parts vs).base.appOf) S = .ok tm ∧
        ∀ p ∈ parts, ∀ m ∈ (W'.app p.pre).machines, (∃ k, HasKey infos m p.ident k) ∧ ∀ k, HasKey infos m p.ident k →
          (∀ p' ∈ parts, ∀ m' ∈ (W'.app p'.pre).machines, HasKey infos m' p'.ident k → m' = m ∧ p'.ident = p.ident) ∧
          ∃ b ∈ Plc.placements s, b.vertex = m ∧
            (∀ a ∈ Plc.placements s, Valid.Reaches (sceneOf C.T tm) k ((b.x : Int), (b.y : Int)) ((a.x : Int), (a.y : Int)) a.p ↔
              ∃ d ∈ p.edges, a.vertex ∈ (W'.app d).machines) ∧
            (∀ c' q', Valid.Reaches (sceneOf C.T tm) k ((b.x : Int), (b.y : Int)) c' q' →
              ∃ a ∈ Plc.placements s, c' = ((a.x : Int), (a.y : Int)) ∧ q' = a.p) := by
  obtain ⟨s, hpl⟩ := C101_shared_partial (fixedApp := fixedApp) hb h hL hn hp hu hall hk hE hf hfree hsome hshare hroom
  exact ⟨s, hpl, deliver_placed hb h hL hn hp hu hall hS hf hfree
    (fun v hv => List.exists_mem_of_length_pos (hsome v hv)) (fun v hv m hm => (hshare v hv m hm).1) hkind hpl hA hT hm hpos
    hdis hne hin hK hcl⟩

end

/-! ### The hypotheses hold for vertex 3 with one machine vertex and vertex 2 with two, on a board with 48 chips -/

theorem room32_few : ∀ v ∈ [3, 2], 0 < ((roomD [3, 2] 2).app v).machines.length ∧ ((roomD [3, 2] 2).app v).machines.length ≤ 2 := by
  decide +kernel

theorem room32_share : ∀ v ∈ [3, 2], ∀ m ∈ ((roomD [3, 2] 2).app v).machines, ((roomD [3, 2] 2).mv m).dev = none ∧
    0 ≤ ((roomD [3, 2] 2).mv m).sdram ∧ ((roomD [3, 2] 2).mv m).sdram * (2 : Nat) ≤ 100 := by
  decide +kernel

example : ∃ s, placeFor (roomM [(0, 0), (1, 0), (0, 1)] 2) (roomD [3, 2] 2) (fun _ => false) [3, 2] 5 (given []) = .ok s :=
  C101_shared_partial (n := 2) (k := 2) (sdram := 100) (os := roomOps [3, 2])
    (W := resetGraph roomE (roomW [3, 2]) [3, 2])
    room_built (room_run _) (room_linkedR rfl) (by decide) (room_done (by decide +kernel)) (room_anew _) (room_allR room_all32)
    (by decide) (room_even _ _ (by decide)) (by decide +kernel) (fun _ _ => rfl) (fun v hv => (room32_few v hv).1) room32_share
    (Placer.allFind_few (a := 2) (by decide) _ 0 (by decide +kernel) (by decide +kernel))

example : ∃ s, placeFor fullM (roomD [3, 2] 2) (fun _ => false) [3, 2] 50 (given []) = .ok s :=
  C101_counted_partial (n := 2) (k := 2) (a := 2) (sdram := 100) (os := roomOps [3, 2])
    (W := resetGraph roomE (roomW [3, 2]) [3, 2])
    room_built (room_run _) (room_linkedR rfl) (by decide) (room_done (by decide +kernel)) (room_anew _) (room_allR room_all32)
    (by decide) (by decide) full_even (by decide +kernel) (fun _ _ => rfl) room32_few room32_share
    (by decide +kernel)

end Pacman.Split
