import Verif.Proofs.MappingSucceeds
import Verif.Props.MappingRoutes
import Verif.Props.MappingRoom
/-
C111: the whole of the mapping succeeds, and its tables deliver.
-/

namespace Pacman.Split

open RPath (Intact ShortVector hexVector spin5 spin5_intact spin5_board hexVector_short)
open Router (Ctx AppPart Net NoReturns Merges Mutual Reaches)
open Pipe (Keys Generator HasKey Leads sceneOf Positive allocateFor generate)
open Gen (ofInfos)
open Tables (TablesMap)
open Plc (Store)
open Placer (given)

theorem Passable.clean {C : Ctx} : Passable C → NoReturns C
  | .whole hT hv => C109_noReturns hT hv
  | .faulty _ _ hr => hr

theorem Passable.mutual {C : Ctx} : Passable C → Mutual C.T
  | .whole hT _ => Router.intact_mutual hT
  | .faulty _ hM _ => hM

theorem Passable.reaches {C : Ctx} {M : Placer.Machine} {W : World} {links : Nat → RPath.XY × Nat} (hS : Site M C W links) :
    Passable C → Reaches C
  | .whole hT hv => Router.intact_reaches hT hv
  | .faulty hT _ hr => fun a b ha hb => RPath.withoutErrors_reaches hT.owned hT.reach (hS.vector a b ha hb) ha hb
      (fun ms h => hr a b ms ha hb h)

section
variable {E : Env} {mp : Nat → Option (List Nat)} {mv : Nat → MV} {next : Nat} {os : List Op} {W W' : World}
  {vs : List Nat} {cores sdram : Int} {n : Nat} {C : Ctx} {parts : List AppPart} {K : Keys} {fuel : Nat}
  {M : Placer.Machine} {links : Nat → RPath.XY × Nat} {fixedApp : Nat → Bool} {sys : List Plc.Op} {s : Store} {fl : Bool}

/-- C111 for placed graphs: a graph that is `Anew` is partitioned and placed on a machine on which ways are found, each source and each target
is no device and has no fixed location, or is on one chip, something sends and something receives for each edge, and the
keys asked for fit, with those that are fixed. Then the graph is routed, keys are allocated, both generators make tables, each vertex that
sends has keys, no other vertex has them, and its packets get to exactly those placed vertices that receive for the targets,
to no other core, and to the links of the devices that receive.
Missing: `SplitterOneToOneLegacy` after a reset (`C89_forgotten`); ways that return (C68); fixed keys of vertices that send from several machine vertices (C22); devices and fixed locations on several chips. -/
theorem C111_placed_partial (hb : Built E mv next) (h : run E (World.new E mp mv next) os = W) (hL : Linked W)
    (hn : vs.Nodup) (hp : partition E W cores sdram vs = (W', .ok n)) (hu : ∀ v ∈ vs, Anew E W v)
    (hall : ∀ v s, (W.app v).splitter = some s → v ∈ vs) (hS : Site M C W' links) (hf : M.chips.length < fuel)
    (hsys : ∀ a ∈ Plc.placements (given sys), M.has (a.x, a.y) = true)
    (hap : ∀ a ∈ Plc.placements (given sys), ∀ v ∈ vs, a.vertex ∉ (W'.app v).machines)
    (hpl : placeFor M W' fixedApp vs fuel (given sys) = .ok s) (hA : SameLinks M C.T) (hT : Passable C)
    (hm : Merges C) (hpos : Positive C.T)
    (hdis : (parts.map (fun p => (p.pre, p.ident))).Nodup) (hne : ∀ p ∈ parts, p.edges ≠ [])
    (hout : ∀ p ∈ parts, ∃ m, Sender E W' p.pre m) (hrec : ∀ p ∈ parts, ∀ d ∈ p.edges, ∃ t, Receiver E W' d t)
    (hsrc : ∀ p ∈ parts, Settled E W' (Plc.placements s) links fixedApp p.pre)
    (htgt : ∀ p ∈ parts, ∀ d ∈ p.edges, Settled E W' (Plc.placements s) links fixedApp d ∨
      ∃ t, (W'.app d).splitter = some t ∧ E.kind t = .external)
    (hK : KeysFit E W' parts K)
    (hcl : KeysClear fl E W' parts K) :
    ∃ k, ∀ fuel', k ≤ fuel' → ∃ S infos, routePlaced E W' C s links parts vs fuel' = .ok S ∧
      allocateFor fl (netOf E W' (located C W' s links) parts vs) K = .ok infos ∧
      ∀ (g : Generator) (same : Entry → Entry → Bool), ∃ tm,
        generate g same (ofInfos infos (netOf E W' (located C W' s links) parts vs).base.appOf) S = .ok tm ∧
        ∀ p ∈ parts, ∀ m, Sender E W' p.pre m → (∃ k, HasKey infos m p.ident k) ∧ ∀ k, HasKey infos m p.ident k →
          (∀ p' ∈ parts, ∀ m', Sender E W' p'.pre m' → HasKey infos m' p'.ident k → m' = m ∧ p'.ident = p.ident) ∧
          ∃ c q l, Sits W' (Plc.placements s) links m c q l ∧
            (∀ a ∈ Plc.placements s, Valid.Reaches (sceneOf C.T tm) k c ((a.x : Int), (a.y : Int)) a.p ↔
              (W'.mv a.vertex).dev = none ∧ ∃ d ∈ p.edges, Receiver E W' d a.vertex) ∧
            (∀ c' q', Valid.Reaches (sceneOf C.T tm) k c c' q' →
              ∃ a ∈ Plc.placements s, c' = ((a.x : Int), (a.y : Int)) ∧ q' = a.p) ∧
            (∀ d ∈ p.edges, ∀ t, Receiver E W' d t → ∀ c' q' l', Sits W' (Plc.placements s) links t c' q' (some l') →
              Leads (sceneOf C.T tm) k c c' l') := by
  have hW0 : Sound E W := by rw [← h]; exact sound_run os (sound_new hb)
  have hd := done_after hW0 hL hn hp hu hall
  have hL' := linked_after hL hp
  have hP := put_after (vs := vs) hS hL' hf hpl
  have hG := ground_after (vs := vs) hS hP hsys
  have hN := net_contract (parts := parts) (C := located C W' s links) hG hd hdis
  have hKT := net_terms (C := located C W' s links) (vs := vs) hK
  have hKC := net_keys (C := located C W' s links) hd hKT
  have hnr : NoReturns C := hT.clean
  have hin : ∀ p ∈ parts, p.pre ∈ vs := by
    intro p hpp
    obtain ⟨m, t, ms, h1, -⟩ := hout p hpp
    exact hd.only _ t h1
  have hnear : ∀ p ∈ parts, ∀ t, E.kind t = .external → (W'.app p.pre).splitter = some t → ∀ m, Receiver E W' p.pre m →
      ∀ c q l, Sits W' (Plc.placements s) links m c q l →
      ∃ m', Sender E W' p.pre m' ∧ ∃ q' l', Sits W' (Plc.placements s) links m' c q' l' := by
    intro p hpp t hk ht m hmr c q l hsit
    rcases hsrc p hpp with ⟨-, h1, -⟩ | ⟨c', h1⟩
    · exact absurd hk (h1 t ht)
    · obtain ⟨m', h2⟩ := hout p hpp
      obtain ⟨q1, l1, h3⟩ := h1 m (receiver_known hd hmr)
      obtain ⟨q2, l2, h4⟩ := h1 m' (sender_known hd h2)
      have h5 := locate_sits (C := C) hP hsit
      have h6 := locate_sits (C := C) hP h3
      rw [h5] at h6
      injection h6 with h6
      subst h6
      exact ⟨m', h2, q2, l2, h4⟩
  obtain ⟨k, hk⟩ := mapping_routed (fixedApp := fixedApp) hb h hL hn hp hu hall hS hf hsys hap hpl hA hT.mutual hnr
    (hT.reaches hS) hm hdis hne hout hrec hsrc htgt
  obtain ⟨infos, hal⟩ := net_allocated (fl := fl) hd hN hout hK
  have ha : Pipe.Allocated (netOf E W' (located C W' s links) parts vs) K infos := ⟨fl, net_clear hcl, hal⟩
  refine ⟨k, fun fuel' hf' => ?_⟩
  obtain ⟨S, hroute⟩ := hk fuel' hf'
  refine ⟨S, infos, hroute, hal, fun g same => ?_⟩
  have hroute' := hroute
  rw [(C99_placed_partial (parts := parts) (fuel' := fuel') hb h hL hn hp hu hall hS hf hpl hin).2.2] at hroute'
  have hrg : Router.routeGraph (netOf E W' (located C W' s links) parts vs) fuel' = .ok S := by
    unfold routeFor at hroute'
    rw [askAll_good hout hrec] at hroute'
    exact hroute'
  obtain ⟨tm, hg, -⟩ := Pipe.C83_tables_made_partial hN hnr hKC hpos hrg ha g same
  refine ⟨tm, hg, fun p hpp m hms => ⟨?_, fun k hk => ⟨?_, ?_⟩⟩⟩
  · exact Pipe.C83_keys hN hKC ha (Or.inl ⟨p, hpp, rfl, rfl⟩ : Router.Leaves _ p.pre p.ident) (net_sends.2 hms)
  · intro p' hpp' m' hms' hk'
    exact Pipe.C83_keys_apart_partial hN hKC ha (Or.inl ⟨p', hpp', rfl, rfl⟩ : Router.Leaves _ p'.pre p'.ident)
      (net_sends.2 hms') (Or.inl ⟨p, hpp, rfl, rfl⟩ : Router.Leaves _ p.pre p.ident) (net_sends.2 hms) hk' hk
  · exact C99_exact_partial hb h hL hn hp hu hall hS hf hsys hpl hnr hpos hdis hin hnear hKT hroute ha hg hpp hms hk

/-- C111: on a machine on which ways are found, with as many chips as the partitioner counted, of which all have the cores and the SDRAM
that the partitioner reckons with, a graph of vertices with one machine vertex each, which needs at most the share of a core of
the SDRAM of a chip, is placed, routed, given keys and tables; and packets get to exactly the vertices that receive.
Missing: what `C111_placed_partial` leaves out; vertices with more machine vertices or with more SDRAM (C101). -/
theorem C111_whole_partial {k : Nat} (hb : Built E mv next) (h : run E (World.new E mp mv next) os = W) (hL : Linked W)
    (hn : vs.Nodup) (hp : partition E W k sdram vs = (W', .ok n)) (hu : ∀ v ∈ vs, Anew E W v)
    (hall : ∀ v s, (W.app v).splitter = some s → v ∈ vs) (hS : Site M C W' links) (hk : 0 < k) (hE : Even M k sdram)
    (hf : M.chips.length < fuel) (hfree : ∀ v ∈ vs, fixedApp v = false)
    (hone : ∀ v ∈ vs, ∃ m, (W'.app v).machines = [m] ∧ (W'.mv m).dev = none ∧ 0 ≤ (W'.mv m).sdram ∧
      (W'.mv m).sdram * k ≤ sdram)
    (hkind : ∀ v ∈ vs, ∀ t, (W'.app v).splitter = some t → E.kind t ≠ .external)
    (hchips : n ≤ M.chips.length) (hA : SameLinks M C.T) (hT : Passable C)
    (hm : Merges C) (hpos : Positive C.T)
    (hdis : (parts.map (fun p => (p.pre, p.ident))).Nodup) (hne : ∀ p ∈ parts, p.edges ≠ [])
    (hin : ∀ p ∈ parts, p.pre ∈ vs ∧ ∀ d ∈ p.edges, d ∈ vs) (hK : KeysFit E W' parts K)
    (hcl : KeysClear fl E W' parts K) :
    ∃ s, placeFor M W' fixedApp vs fuel (given []) = .ok s ∧
    ∃ k, ∀ fuel', k ≤ fuel' → ∃ S infos, routePlaced E W' C s links parts vs fuel' = .ok S ∧
      allocateFor fl (netOf E W' (located C W' s links) parts vs) K = .ok infos ∧
      ∀ (g : Generator) (same : Entry → Entry → Bool), ∃ tm,
        generate g same (ofInfos infos (netOf E W' (located C W' s links) parts vs).base.appOf) S = .ok tm ∧
        ∀ p ∈ parts, ∀ m ∈ (W'.app p.pre).machines, (∃ k, HasKey infos m p.ident k) ∧ ∀ k, HasKey infos m p.ident k →
          (∀ p' ∈ parts, ∀ m' ∈ (W'.app p'.pre).machines, HasKey infos m' p'.ident k → m' = m ∧ p'.ident = p.ident) ∧
          ∃ b ∈ Plc.placements s, b.vertex = m ∧
            (∀ a ∈ Plc.placements s, Valid.Reaches (sceneOf C.T tm) k ((b.x : Int), (b.y : Int)) ((a.x : Int), (a.y : Int)) a.p ↔
              ∃ d ∈ p.edges, a.vertex ∈ (W'.app d).machines) ∧
            (∀ c' q', Valid.Reaches (sceneOf C.T tm) k ((b.x : Int), (b.y : Int)) c' q' →
              ∃ a ∈ Plc.placements s, c' = ((a.x : Int), (a.y : Int)) ∧ q' = a.p) := by
  have hW0 : Sound E W := by rw [← h]; exact sound_run os (sound_new hb)
  have hd := done_after hW0 hL hn hp hu hall
  obtain ⟨s, hpl⟩ := C101_room_partial (fixedApp := fixedApp) hb h hL hn hp hu hall hk hE hf hfree hone hchips
  have hset : ∀ v ∈ vs, Settled E W' (Plc.placements s) links fixedApp v := by
    intro v hv
    refine Or.inl ⟨hfree v hv, hkind v hv, ?_⟩
    intro m hm
    obtain ⟨m', h1, h2, -⟩ := hone v hv
    rw [h1, List.mem_singleton] at hm
    subst hm
    exact h2
  have hboth : ∀ v ∈ vs, ∀ m, (Sender E W' v m ↔ m ∈ (W'.app v).machines) ∧ (Receiver E W' v m ↔ m ∈ (W'.app v).machines) := by
    intro v hv m
    obtain ⟨t, ht⟩ := hd.some_ v hv
    rcases hd.shares v t ht with ⟨h1, h2⟩ | ⟨h1, -⟩
    · exact ⟨⟨fun h => sender_known hd h, fun h => ⟨t, _, ht, h1, h⟩⟩,
        ⟨fun h => receiver_known hd h, fun h => ⟨t, _, ht, h2, h⟩⟩⟩
    · exact absurd h1 (hkind v hv t ht)
  have hsome : ∀ v ∈ vs, ∃ m, m ∈ (W'.app v).machines := by
    intro v hv
    obtain ⟨m, h1, -⟩ := hone v hv
    exact ⟨m, by rw [h1]; exact List.mem_singleton.2 rfl⟩
  obtain ⟨k, hk⟩ := C111_placed_partial (links := links) (fixedApp := fixedApp) (sys := []) hb h hL hn hp hu hall hS hf
    (by intro a ha; cases ha) (by intro a ha; cases ha) hpl hA hT hm hpos hdis hne
    (fun p hp => by
      obtain ⟨m, hm⟩ := hsome _ (hin p hp).1
      exact ⟨m, (hboth _ (hin p hp).1 m).1.2 hm⟩)
    (fun p hp d hdd => by
      obtain ⟨m, hm⟩ := hsome _ ((hin p hp).2 d hdd)
      exact ⟨m, (hboth _ ((hin p hp).2 d hdd) m).2.2 hm⟩)
    (fun p hp => hset _ (hin p hp).1) (fun p hp d hdd => Or.inl (hset _ ((hin p hp).2 d hdd))) hK hcl
  refine ⟨s, hpl, k, fun fuel' hf' => ?_⟩
  obtain ⟨S, infos, h1, h2, h3⟩ := hk fuel' hf'
  refine ⟨S, infos, h1, h2, fun g same => ?_⟩
  obtain ⟨tm, h4, h5⟩ := h3 g same
  refine ⟨tm, h4, fun p hpp m hmm => ?_⟩
  obtain ⟨h6, h7⟩ := h5 p hpp m ((hboth _ (hin p hpp).1 m).1.2 hmm)
  refine ⟨h6, fun key hkey => ?_⟩
  obtain ⟨h8, c, q, l, h9, h10, h11, -⟩ := h7 key hkey
  refine ⟨fun p' hpp' m' hm' hk' => h8 p' hpp' m' ((hboth _ (hin p' hpp').1 m').1.2 hm') hk', ?_⟩
  have hdev : ∀ v ∈ vs, ∀ m ∈ (W'.app v).machines, (W'.mv m).dev = none := by
    intro v hv m hm
    obtain ⟨m', e1, e2, -⟩ := hone v hv
    rw [e1, List.mem_singleton] at hm
    subst hm
    exact e2
  cases h9 with
  | link h0 => rw [hdev _ (hin p hpp).1 m hmm] at h0; cases h0
  | core h0 hb' hbv =>
    rename_i b
    refine ⟨b, hb', hbv, fun a ha => ?_, h11⟩
    rw [h10 a ha]
    constructor
    · rintro ⟨-, d, e1, e2⟩
      exact ⟨d, e1, (hboth d ((hin p hpp).2 d e1) _).2.1 e2⟩
    · rintro ⟨d, e1, e2⟩
      exact ⟨hdev d ((hin p hpp).2 d e1) _ e2, d, e1, (hboth d ((hin p hpp).2 d e1) _).2.2 e2⟩

end

/-! ### The hypotheses hold for the device and the vertices of C98 on a board with 48 chips -/

theorem full_positive : Positive spin5 := by
  intro c hc
  have h2 := (spin5_board.all c).1 hc
  simp only at h2
  omega

theorem full_passable : Passable fullC :=
  .whole RPath.spin5_intact (fun a b _ _ => RPath.hexVector_short RPath.spin5_board.grid a b)

/-- Each vertex that sends asks for ten keys: these fit. -/
theorem full_fit : KeysFit devE devD devP Pipe.lineK := by
  refine KeysFit.of_free (fun _ _ => rfl) (fun _ _ => rfl) (by intro x hx; cases hx) ?_ ?_
  · intro x _ t ms _ _ h
    cases ms with
    | nil => exact Nat.zero_le _
    | cons m ms => have := h m List.mem_cons_self; cases this
  · refine ⟨5, 1, by decide, by decide, ?_⟩
    intro x hx t ms h1 h2
    refine ⟨1, 4, by decide, ?_, fun m _ => (by decide : (10 : Nat) ≤ 2 ^ 4)⟩
    have hx' : x = (0, 0) ∨ x = (1, 0) := by
      simpa [devP, Pipe.lineK] using hx
    rcases hx' with rfl | rfl
    · have h3 : (devD.app 0).splitter = some 0 := by decide +kernel
      rw [h3] at h1
      cases h1
      have h4 : outVerts devE devD 0 = .ok [0] := by decide +kernel
      rw [h4] at h2
      cases h2
      decide
    · have h3 : (devD.app 1).splitter = some 1 := by decide +kernel
      rw [h3] at h1
      cases h1
      have h4 : outVerts devE devD 1 = .ok [2] := by decide +kernel
      rw [h4] at h2
      cases h2
      decide

/-- The device and two vertices: both generators make tables, by which the packets of machine vertex 2 get to machine vertex 3
and to the link of the device. -/
example : ∃ k, ∀ fuel', k ≤ fuel' → ∃ S infos, routePlaced devE devD fullC fullStore devLinks devP [0, 1, 2] fuel' = .ok S ∧
    allocateFor true (netOf devE devD (located fullC devD fullStore devLinks) devP [0, 1, 2]) Pipe.lineK = .ok infos ∧
    ∀ (g : Generator) (same : Entry → Entry → Bool), ∃ tm, generate g same (ofInfos infos fullNet.base.appOf) S = .ok tm ∧
      ∃ k, HasKey infos 2 0 k := by
  have hr : ∀ d ∈ [0, 1, 2], ∃ t, Receiver devE devD d t := by
    intro d hd
    simp only [List.mem_cons, List.not_mem_nil, or_false] at hd
    rcases hd with rfl | rfl | rfl
    · exact ⟨1, 0, [1], by decide +kernel, by decide +kernel, by decide⟩
    · exact ⟨2, 1, [2], by decide +kernel, by decide +kernel, by decide⟩
    · exact ⟨3, 2, [3], by decide +kernel, by decide +kernel, by decide⟩
  have he : ∀ p ∈ devP, p.pre ∈ [0, 1, 2] ∧ ∀ d ∈ p.edges, d ∈ [0, 1, 2] := by decide
  obtain ⟨k, hk⟩ := C111_placed_partial (C := fullC) (os := [.setSplitter 0 0, .setSplitter 1 1, .setSplitter 2 2]) (W := devW)
    (n := 1) (fuel := 50) (cores := 17) (sdram := 100) (sys := devSys) (fixedApp := fun _ => false)
    dev_built rfl dev_linked (by decide) dev_done dev_anew
    dev_all full_site (by decide +kernel) (by decide +kernel) (by decide +kernel) full_store full_links full_passable (fun a b => ⟨_, rfl⟩) full_positive (by decide)
    (by decide)
    (by
      intro p hp
      simp only [devP, List.mem_cons, List.not_mem_nil, or_false] at hp
      rcases hp with rfl | rfl
      · exact ⟨0, 0, [0], by decide +kernel, by decide +kernel, by decide⟩
      · exact ⟨2, 1, [2], by decide +kernel, by decide +kernel, by decide⟩)
    (fun p hp d hd => hr d ((he p hp).2 d hd)) (fun p hp => full_settled _ (he p hp).1)
    (fun p hp d hd => Or.inl (full_settled d ((he p hp).2 d hd))) full_fit (.inl rfl)
  refine ⟨k, fun fuel' hf' => ?_⟩
  obtain ⟨S, infos, h1, h2, h3⟩ := hk fuel' hf'
  refine ⟨S, infos, h1, h2, fun g same => ?_⟩
  obtain ⟨tm, h4, h5⟩ := h3 g same
  exact ⟨tm, h4, (h5 ⟨1, 0, [0, 2]⟩ (by decide) 2 ⟨1, [2], by decide +kernel, by decide +kernel, by decide⟩).1⟩

/-! ### Two vertices with one machine vertex each, on the same board -/

theorem full_even : Even fullM 2 100 where
  order := fun l => List.Perm.refl l
  grid := full_site.grid
  links := by
    intro c hc d hd
    obtain ⟨l, hl, h0, h1⟩ := full_links c hc d hd
    refine decide_eq_true ?_
    have h2 : RPath.spin5.over ((c.1 : Int), (c.2 : Int)) l ∈ RPath.spin5.chips := of_decide_eq_true h0
    rw [h1] at h2
    exact h2
  distinct := fun _ => (by decide : [1, 2].Nodup)
  cores := fun _ _ => rfl
  sdram := fun _ _ => Int.le_refl _
  maxCores := rfl
  maxSdram := rfl

def pairP : List AppPart := [⟨3, 0, [1]⟩, ⟨1, 5, [3, 1]⟩]

theorem room_dev (m : Nat) : ((roomD [3, 1] 2).mv m).dev = none := by
  match m with
  | 0 => decide +kernel
  | 1 => decide +kernel
  | m + 2 => rfl

theorem pair_site : Site fullM fullC (roomD [3, 1] 2) devLinks :=
  { full_site with links := by intro m i b h; rw [room_dev] at h; cases h }

theorem pair_fit : KeysFit roomE (roomD [3, 1] 2) pairP Pipe.lineK := by
  refine KeysFit.of_free (fun _ _ => rfl) (fun _ _ => rfl) (by intro x hx; cases hx) ?_ ?_
  · intro x _ t ms _ _ h
    cases ms with
    | nil => exact Nat.zero_le _
    | cons m ms => have := h m List.mem_cons_self; cases this
  · refine ⟨4, 1, by decide, by decide, ?_⟩
    intro x hx t ms h1 h2
    refine ⟨0, 4, by decide, ?_, fun m _ => (by decide : (10 : Nat) ≤ 2 ^ 4)⟩
    have hx' : x = (3, 0) ∨ x = (1, 5) := by
      simpa [pairP, Pipe.lineK] using hx
    rcases hx' with rfl | rfl
    · have h3 : ((roomD [3, 1] 2).app 3).splitter = some 3 := by decide +kernel
      rw [h3] at h1
      cases h1
      have h4 : outVerts roomE (roomD [3, 1] 2) 3 = .ok [0] := by decide +kernel
      rw [h4] at h2
      cases h2
      decide
    · have h3 : ((roomD [3, 1] 2).app 1).splitter = some 1 := by decide +kernel
      rw [h3] at h1
      cases h1
      have h4 : outVerts roomE (roomD [3, 1] 2) 1 = .ok [1] := by decide +kernel
      rw [h4] at h2
      cases h2
      decide

example : ∃ s, placeFor fullM (roomD [3, 1] 2) (fun _ => false) [3, 1] 50 (given []) = .ok s ∧
    ∃ k, ∀ fuel', k ≤ fuel' → ∃ S infos, routePlaced roomE (roomD [3, 1] 2) fullC s devLinks pairP [3, 1] fuel' = .ok S ∧
      ∀ (g : Generator) (same : Entry → Entry → Bool), ∃ tm,
        generate g same (ofInfos infos (netOf roomE (roomD [3, 1] 2) (located fullC (roomD [3, 1] 2) s devLinks) pairP
          [3, 1]).base.appOf) S = .ok tm ∧ (∃ k, HasKey infos 1 5 k) ∧ ∀ k, HasKey infos 1 5 k →
        ∃ b ∈ Plc.placements s, b.vertex = 1 ∧ ∀ a ∈ Plc.placements s, a.vertex = 0 →
          Valid.Reaches (sceneOf spin5 tm) k ((b.x : Int), (b.y : Int)) ((a.x : Int), (a.y : Int)) a.p := by
  obtain ⟨s, h1, k, hk⟩ := C111_whole_partial (n := 1) (k := 2) (sdram := 100) (fuel := 50) (parts := pairP) (links := devLinks)
    (fixedApp := fun _ => false) (C := fullC) (os := roomOps [3, 1])
    (W := resetGraph roomE (roomW [3, 1]) [3, 1])
    room_built (room_run _) (room_linkedR rfl) (by decide) (room_done (by decide +kernel)) (room_anew _) (room_allR room_all31)
    pair_site (by decide) full_even (by decide +kernel) (fun _ _ => rfl) (by
      intro v hv
      simp only [List.mem_cons, List.not_mem_nil, or_false] at hv
      rcases hv with rfl | rfl
      · exact ⟨0, by decide +kernel, by decide +kernel, by decide +kernel, by decide +kernel⟩
      · exact ⟨1, by decide +kernel, by decide +kernel, by decide +kernel, by decide +kernel⟩)
    (by intro v _ t _ h; cases h) (by decide +kernel) full_links full_passable (fun a b => ⟨_, rfl⟩) full_positive (by decide)
    (by decide) (by decide) pair_fit (fl := false) (.inr (.inl (fun _ _ => rfl)))
  refine ⟨s, h1, k, fun fuel' hf' => ?_⟩
  obtain ⟨S, infos, h2, -, h3⟩ := hk fuel' hf'
  refine ⟨S, infos, h2, fun g same => ?_⟩
  obtain ⟨tm, h4, h5⟩ := h3 g same
  obtain ⟨h6, h7⟩ := h5 ⟨1, 5, [3, 1]⟩ (by decide) 1 (by decide +kernel)
  refine ⟨tm, h4, h6, fun k hk => ?_⟩
  obtain ⟨-, b, hb, hbv, h8, -⟩ := h7 k hk
  refine ⟨b, hb, hbv, fun a ha hav => (h8 a ha).2 ⟨3, by decide, ?_⟩⟩
  rw [hav]
  decide +kernel

/-- The same with the keys of vertex 3 fixed: 16 keys from 0x100. -/
def fixedK : Keys := { Pipe.lineK with fixed := fun a ident => if (a, ident) = (3, 0) then some (0x100, 0xFFFFFFF0) else none }

theorem fixed_some {a ident : Nat} {km : Word × Word} (h : fixedK.fixed a ident = some km) :
    (a, ident) = (3, 0) ∧ km = (0x100, 0xFFFFFFF0) := by
  unfold fixedK at h
  simp only at h
  split at h
  · rename_i h1
    exact ⟨h1, (Option.some.inj h).symm⟩
  · cases h

theorem fixed_sends {x : Nat × Nat} (hx : x ∈ pairs pairP fixedK) {ms : List Nat} (h : Sends roomE (roomD [3, 1] 2) x ms) :
    ∃ m, ms = [m] := by
  obtain ⟨t, h1, h2⟩ := h
  have hx' : x = (3, 0) ∨ x = (1, 5) := by
    simpa [pairP, pairs, fixedK, Pipe.lineK] using hx
  rcases hx' with rfl | rfl
  · have h3 : ((roomD [3, 1] 2).app 3).splitter = some 3 := by decide +kernel
    rw [h3] at h1
    cases h1
    have h4 : outVerts roomE (roomD [3, 1] 2) 3 = .ok [0] := by decide +kernel
    rw [h4] at h2
    cases h2
    exact ⟨_, rfl⟩
  · have h3 : ((roomD [3, 1] 2).app 1).splitter = some 1 := by decide +kernel
    rw [h3] at h1
    cases h1
    have h4 : outVerts roomE (roomD [3, 1] 2) 1 = .ok [1] := by decide +kernel
    rw [h4] at h2
    cases h2
    exact ⟨_, rfl⟩

theorem pair_fit_fixed : KeysFit roomE (roomD [3, 1] 2) pairP fixedK where
  valid := by
    intro a ident km h
    rw [(fixed_some h).2]
    decide
  validM := fun _ _ _ h => by cases h
  asked := by intro x hx; cases hx
  freeM := fun _ _ _ _ _ _ _ => rfl
  counted := by
    intro x hx _ ms h _
    obtain ⟨m, rfl⟩ := fixed_sends hx h
    exact Nat.le_refl _
  single := by
    intro x hx akm _ ms h
    obtain ⟨m, rfl⟩ := fixed_sends hx h
    exact ⟨by simp, .inl (Nat.le_refl _), fun m _ km h => by cases h⟩
  apart := by
    intro x _ y _ hne a b h1 h2
    exact absurd ((fixed_some h1).1.trans (fixed_some h2).1.symm) hne
  room := by
    refine ⟨4, [16], by decide, by decide, ?_, ?_⟩
    · intro x _ km h k hk
      rw [(fixed_some h).2] at hk
      have h4 := (Alloc.covers_maskOf (y := 16) (a := 4) (by decide) k).1 (by
        have := congrArg BitVec.toNat hk
        rw [BitVec.toNat_and] at this
        exact this)
      rw [h4]
      exact List.mem_singleton.2 rfl
    · intro x hx _ ms h
      obtain ⟨m, rfl⟩ := fixed_sends hx h
      exact ⟨0, 4, by decide, Nat.le_refl _, fun m _ => (by decide : (10 : Nat) ≤ 2 ^ 4)⟩

/-- In the global mode too the block of vertex 1 keeps clear of the fixed keys. -/
theorem pair_clear_fixed : KeysClear false roomE (roomD [3, 1] 2) pairP fixedK := by
  refine .inr (.inr ⟨(1, 5), by decide, rfl, [1], ⟨1, by decide +kernel, by decide +kernel⟩, ?_⟩)
  intro y hy hf ms' hs
  obtain ⟨m, rfl⟩ := fixed_sends hy hs
  exact ⟨fun e he _ _ => he 1 (by decide), fun e he => he⟩

/-- Packets of vertex 3, whose keys are fixed, get to vertex 1, with global zones. -/
example : ∃ s, placeFor fullM (roomD [3, 1] 2) (fun _ => false) [3, 1] 50 (given []) = .ok s ∧
    ∃ k, ∀ fuel', k ≤ fuel' → ∃ S infos, routePlaced roomE (roomD [3, 1] 2) fullC s devLinks pairP [3, 1] fuel' = .ok S ∧
      ∀ (g : Generator) (same : Entry → Entry → Bool), ∃ tm,
        generate g same (ofInfos infos (netOf roomE (roomD [3, 1] 2) (located fullC (roomD [3, 1] 2) s devLinks) pairP
          [3, 1]).base.appOf) S = .ok tm ∧ (∃ k, HasKey infos 0 0 k) ∧ ∀ k, HasKey infos 0 0 k →
        ∃ b ∈ Plc.placements s, b.vertex = 0 ∧ ∀ a ∈ Plc.placements s, a.vertex = 1 →
          Valid.Reaches (sceneOf spin5 tm) k ((b.x : Int), (b.y : Int)) ((a.x : Int), (a.y : Int)) a.p := by
  obtain ⟨s, h1, k, hk⟩ := C111_whole_partial (n := 1) (k := 2) (sdram := 100) (fuel := 50) (parts := pairP) (links := devLinks)
    (fixedApp := fun _ => false) (C := fullC) (os := roomOps [3, 1])
    (W := resetGraph roomE (roomW [3, 1]) [3, 1])
    room_built (room_run _) (room_linkedR rfl) (by decide) (room_done (by decide +kernel)) (room_anew _) (room_allR room_all31)
    pair_site (by decide) full_even (by decide +kernel) (fun _ _ => rfl) (by
      intro v hv
      simp only [List.mem_cons, List.not_mem_nil, or_false] at hv
      rcases hv with rfl | rfl
      · exact ⟨0, by decide +kernel, by decide +kernel, by decide +kernel, by decide +kernel⟩
      · exact ⟨1, by decide +kernel, by decide +kernel, by decide +kernel, by decide +kernel⟩)
    (by intro v _ t _ h; cases h) (by decide +kernel) full_links full_passable (fun a b => ⟨_, rfl⟩) full_positive (by decide)
    (by decide) (by decide) pair_fit_fixed (fl := false) pair_clear_fixed
  refine ⟨s, h1, k, fun fuel' hf' => ?_⟩
  obtain ⟨S, infos, h2, -, h3⟩ := hk fuel' hf'
  refine ⟨S, infos, h2, fun g same => ?_⟩
  obtain ⟨tm, h4, h5⟩ := h3 g same
  obtain ⟨h6, h7⟩ := h5 ⟨3, 0, [1]⟩ (by decide) 0 (by decide +kernel)
  refine ⟨tm, h4, h6, fun k hk => ?_⟩
  obtain ⟨-, b, hb, hbv, h8, -⟩ := h7 k hk
  refine ⟨b, hb, hbv, fun a ha hav => (h8 a ha).2 ⟨1, by decide, ?_⟩⟩
  rw [hav]
  decide +kernel

end Pacman.Split
