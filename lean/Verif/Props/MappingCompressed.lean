import Verif.Props.CompressedFits
import Verif.Props.MappingGraph
/-
C118 for whole mappings: the compressed tables of a mapped graph deliver.
-/

namespace Pacman.Split

open Slices (Slice)
open RPath (Intact ShortVector)
open Router (Ctx AppPart Net NoReturns Merges KeepsFlag heading)
open Pipe (Keys Generator HasKey Leads sceneOf Positive allocateFor generate Lands Delivers Compressed FixedBlocks AsBefore)
open Gen (ofInfos)
open Tables (TablesMap)
open Plc (Store)
open Placer (given)

section
variable {E : Env} {mp : Nat → Option (List Nat)} {mv : Nat → MV} {next : Nat} {os : List Op} {W W' : World}
  {vs : List Nat} {cores sdram : Int} {n : Nat} {C : Ctx} {parts : List AppPart} {K : Keys} {fuel fuel' : Nat}
  {S : ByPart.State} {infos : Alloc.Infos} {g : Generator} {same : Entry → Entry → Bool} {tm tm' : TablesMap}
  {M : Placer.Machine} {links : Nat → RPath.XY × Nat} {fixedApp : Nat → Bool} {sys : List Plc.Op} {s : Store}
  {env : Driver.Env}

/-- C118 for mapped graphs: a graph that is `Anew` is partitioned, placed, routed, given keys, tables are made, and a compressor
returns. Then, with the compressed tables in the routers, which send packets without an entry straight on, a packet of a
machine vertex that sends for the source of a partition gets to exactly those placed vertices that receive for a target,
to no other core, and to the links of the devices that receive; by one way, with fewer hops than there are chips.
Missing: as in `C99_exact_partial`; ordered covering after the merged generator, the range compressor with fixed keys whose masks are not ones followed by zeros. -/
theorem C118_mapped_partial (hb : Built E mv next) (h : run E (World.new E mp mv next) os = W) (hL : Linked W)
    (hn : vs.Nodup) (hp : partition E W cores sdram vs = (W', .ok n)) (hu : ∀ v ∈ vs, Anew E W v)
    (hall : ∀ v s, (W.app v).splitter = some s → v ∈ vs) (hS : Site M C W' links) (hf : M.chips.length < fuel)
    (hsys : ∀ a ∈ Plc.placements (given sys), M.has (a.x, a.y) = true)
    (hpl : placeFor M W' fixedApp vs fuel (given sys) = .ok s) (hr : NoReturns C) (hflag : KeepsFlag C)
    (hpos : Positive C.T) (hdis : (parts.map (fun p => (p.pre, p.ident))).Nodup) (hin : ∀ p ∈ parts, p.pre ∈ vs)
    (hnear : ∀ p ∈ parts, ∀ t, E.kind t = .external → (W'.app p.pre).splitter = some t → ∀ m, Receiver E W' p.pre m →
      ∀ c q l, Sits W' (Plc.placements s) links m c q l →
      ∃ m', Sender E W' p.pre m' ∧ ∃ q' l', Sits W' (Plc.placements s) links m' c q' l')
    (hK : KeyTerms (netOf E W' (located C W' s links) parts vs) K)
    (hroute : routePlaced E W' C s links parts vs fuel' = .ok S)
    (ha : Pipe.Allocated (netOf E W' (located C W' s links) parts vs) K infos)
    (hg : generate g same (ofInfos infos (netOf E W' (located C W' s links) parts vs).base.appOf) S = .ok tm)
    (hc : Compressed env g (FixedBlocks K) tm tm')
    {p : AppPart} (hpp : p ∈ parts) {m : Nat} (hm : Sender E W' p.pre m) {k : Word} (hk : HasKey infos m p.ident k) :
    ∃ c q l, Sits W' (Plc.placements s) links m c q l ∧
      Delivers (sceneOf C.T tm') C.T.chips.length k c (heading (c, q, l)) (Plc.placements s)
        (fun v => (W'.mv v).dev = none ∧ ∃ d ∈ p.edges, Receiver E W' d v) ∧
      (∀ d ∈ p.edges, ∀ t, Receiver E W' d t → ∀ c' q' l', Sits W' (Plc.placements s) links t c' q' (some l') →
        ∃ w, Lands (sceneOf C.T tm') k c (heading (c, q, l)) w c' l') := by
  obtain ⟨c, q, l, h1, h2, h3, h4⟩ := C99_exact_partial hb h hL hn hp hu hall hS hf hsys hpl hr hpos hdis hin hnear hK
    hroute ha hg hpp hm hk
  have hW0 : Sound E W := by rw [← h]; exact sound_run os (sound_new hb)
  have hd := done_after hW0 hL hn hp hu hall
  have hP := put_after (vs := vs) hS (linked_after hL hp) hf hpl
  have hG := ground_after (vs := vs) hS hP hsys
  obtain ⟨hone, -, hplaced⟩ := C99_placed_partial (parts := parts) (fuel' := fuel') hb h hL hn hp hu hall hS hf hpl hin
  rw [hplaced] at hroute
  have hnear' : ∀ p ∈ parts, Near E W' (located C W' s links) p.pre := by
    intro p hpp t ht hk m hm
    obtain ⟨c, q, l, h1, -⟩ := hone p.pre m (Or.inr (Or.inr hm))
    obtain ⟨m', h2, q', l', h3⟩ := hnear p hpp t hk ht m hm c q l h1
    refine ⟨m', h2, ?_⟩
    rw [locate_sits (C := C) hP h1, locate_sits (C := C) hP h3]
  have hN := net_contract (C := located C W' s links) hG hd hdis
  unfold routeFor at hroute
  split at hroute
  · cases hroute
  · rename_i hask
    have hs := net_allSend (vs := vs) hd hask hnear'
    have hAs := Pipe.C118_leads_partial hN hr hs (net_outside hG) hflag (net_keys hd hK) hpos hroute ha hg hc
      (Or.inl ⟨p, hpp, rfl, rfl⟩ : Router.Leaves _ p.pre p.ident) (net_sends.2 hm) hk
    have hloc : (netOf E W' (located C W' s links) parts vs).base.locate m = (c, q, l) := locate_sits (C := C) hP h1
    rw [hloc] at hAs
    refine ⟨c, q, l, h1, ⟨fun a haa => ?_, fun c' q' hw => ?_, hAs.once, hAs.ends⟩, fun d hdd t ht c' q' l' hsit => ?_⟩
    · exact (hAs.leads _ _).trans (h2 a haa)
    · exact h3 c' q' ((hAs.leads _ _).1 hw)
    · exact (hAs.leads _ _).2 (h4 d hdd t ht c' q' l' hsit)

end

section
variable {E : Env} {mp : Nat → Option (List Nat)} {mv : Nat → MV} {next : Nat} {os : List Op} {W : World}
  {vs : List Nat} {k a i j c : Nat} {sdram : Int} {fuel : Nat} {C : Ctx} {parts : List AppPart} {K : Keys}
  {M : Placer.Machine} {links : Nat → RPath.XY × Nat} {fixedApp : Nat → Bool} {fl : Bool}

/-- C118 from the graph alone: as in `C111_graph_partial` a graph is mapped onto a machine on which ways are found. Whatever one of
the compressors returns for the tables, each machine vertex that sends has keys, and packets with them get to exactly the
cores of the vertices that receive.
Missing: what `C111_graph_partial` leaves out; ordered covering after the merged generator, the range compressor with such fixed keys. -/
theorem C118_graph_partial (hb : Built E mv next) (h : run E (World.new E mp mv next) os = W) (hL : Linked W)
    (hn : vs.Nodup) (hall : ∀ v s, (W.app v).splitter = some s → v ∈ vs) (hdev : ∀ m, (W.mv m).dev = none)
    (hplain : ∀ v ∈ vs, Plain E W k a sdram v) (hS : Site M C W links) (hk : 0 < k)
    (hE : Even M k sdram) (hf : M.chips.length < fuel) (hfree : ∀ v ∈ vs, fixedApp v = false)
    (hroom : Placer.AllFind M k 0 (vs.map (coresFor E W))) (hA : SameLinks M C.T) (hT : Passable C)
    (hm : Merges C)
    (hflag : KeepsFlag C) (hpos : Positive C.T)
    (hdis : (parts.map (fun p => (p.pre, p.ident))).Nodup) (hne : ∀ p ∈ parts, p.edges ≠ [])
    (hin : ∀ p ∈ parts, p.pre ∈ vs ∧ ∀ d ∈ p.edges, d ∈ vs) (hK : Modest fl (coresFor E W) vs parts K i j c)
    (hbits : i + j + c ≤ 32) (hi : a ≤ 2 ^ i) :
    ∃ W' n, partition E (resetGraph E W vs) k sdram vs = (W', .ok n) ∧
    (∀ v ∈ vs, (W'.app v).machines.length = coresFor E W v) ∧
    ∃ s, placeFor M W' fixedApp vs fuel (given []) = .ok s ∧
    ∃ k, ∀ fuel', k ≤ fuel' → ∃ S infos, routePlaced E W' C s links parts vs fuel' = .ok S ∧
      allocateFor fl (netOf E W' (located C W' s links) parts vs) K = .ok infos ∧
      ∀ (g : Generator) (same : Entry → Entry → Bool), ∃ tm,
        generate g same (ofInfos infos (netOf E W' (located C W' s links) parts vs).base.appOf) S = .ok tm ∧
        ∀ env tm', Compressed env g (FixedBlocks K) tm tm' →
        ∀ p ∈ parts, ∀ m ∈ (W'.app p.pre).machines, (∃ k, HasKey infos m p.ident k) ∧ ∀ k, HasKey infos m p.ident k →
          ∃ b ∈ Plc.placements s, b.vertex = m ∧
            Delivers (sceneOf C.T tm') C.T.chips.length k ((b.x : Int), (b.y : Int)) none (Plc.placements s)
              (fun v => ∃ d ∈ p.edges, v ∈ (W'.app d).machines) := by
  obtain ⟨W', n, hp, hcount, s, hpl, k0, hk0⟩ := C111_graph_partial (fl := fl) (fixedApp := fixedApp) (links := links) hb h hL hn
    hall hdev hplain hS hk hE hf hfree hroom hA hT hm hpos hdis hne hin hK hbits hi
  refine ⟨W', n, hp, hcount, s, hpl, k0, fun fuel' hf' => ?_⟩
  obtain ⟨S, infos, h1, h2, h3⟩ := hk0 fuel' hf'
  refine ⟨S, infos, h1, h2, fun g same => ?_⟩
  obtain ⟨tm, h4, h5⟩ := h3 g same
  refine ⟨tm, h4, fun env tm' hcomp p hpp m hmm => ?_⟩
  obtain ⟨h6, h7⟩ := h5 p hpp m hmm
  refine ⟨h6, fun key hkey => ?_⟩
  obtain ⟨hu, hdev', hkinds, hboth, -, hsite, hfit, hcl⟩ := plain_after (C := C) (parts := parts) hb h hL hn hall hdev hplain hS
    (fun p hp => (hin p hp).1) hK hbits hi hp
  have hterms := net_terms (C := located C W' s links) (vs := vs) hfit
  obtain ⟨cc, q, l, h8, h9, -⟩ := C118_mapped_partial (links := links) (fixedApp := fixedApp) (sys := []) hb (run_resetGraph h vs) ((keeps_resetGraph E W vs).linked hL)
    hn hp hu (all_reset hall) hsite hf (by intro a ha; cases ha) hpl hT.clean hflag hpos hdis (fun p hp => (hin p hp).1)
    (by intro p hp t h0 ht; rw [hkinds _ (hin p hp).1 t ht] at h0; cases h0) hterms
    h1 ⟨fl, net_clear hcl, h2⟩ h4 hcomp hpp ((hboth _ (hin p hpp).1 m).1.2 hmm) hkey
  cases h8 with
  | link h0 => rw [hdev' m] at h0; cases h0
  | core h0 hb' hbv =>
    rename_i b
    refine ⟨b, hb', hbv, ⟨fun a haa => ?_, h9.only, h9.once, h9.ends⟩⟩
    refine (h9.cores a haa).trans ⟨?_, ?_⟩
    · rintro ⟨-, d, e1, e2⟩
      exact ⟨d, e1, (hboth d ((hin p hpp).2 d e1) _).2.1 e2⟩
    · rintro ⟨d, e1, e2⟩
      exact ⟨hdev' _, d, e1, (hboth d ((hin p hpp).2 d e1) _).2.2 e2⟩

/-- C119 from the graph alone: if, as in `C111_graph_partial`, a graph is mapped onto a machine on which ways are found, whose
routers take as many entries as there are machine vertices that send, then the tables fit, and each of the compressors, in
each of its modes, returns tables that fit. What it returns delivers as `C118_graph_partial` says.
Missing: as in `C118_graph_partial`. -/
theorem C119_graph_partial (hb : Built E mv next) (h : run E (World.new E mp mv next) os = W) (hL : Linked W)
    (hn : vs.Nodup) (hall : ∀ v s, (W.app v).splitter = some s → v ∈ vs) (hdev : ∀ m, (W.mv m).dev = none)
    (hplain : ∀ v ∈ vs, Plain E W k a sdram v) (hS : Site M C W links) (hk : 0 < k)
    (hE : Even M k sdram) (hf : M.chips.length < fuel) (hfree : ∀ v ∈ vs, fixedApp v = false)
    (hroom : Placer.AllFind M k 0 (vs.map (coresFor E W))) (hA : SameLinks M C.T) (hT : Passable C)
    (hm : Merges C)
    (hflag : KeepsFlag C) (hpos : Positive C.T)
    (hdis : (parts.map (fun p => (p.pre, p.ident))).Nodup) (hne : ∀ p ∈ parts, p.edges ≠ [])
    (hin : ∀ p ∈ parts, p.pre ∈ vs ∧ ∀ d ∈ p.edges, d ∈ vs) (hK : Modest fl (coresFor E W) vs parts K i j c)
    (hbits : i + j + c ≤ 32) (hi : a ≤ 2 ^ i) {env : Driver.Env}
    (henv : ∀ d ∈ C.T.chips, ∃ n, env.target (Pipe.place d) = some n ∧ (parts.map (fun p => coresFor E W p.pre)).sum ≤ n) :
    ∃ W' n, partition E (resetGraph E W vs) k sdram vs = (W', .ok n) ∧
    ∃ s, placeFor M W' fixedApp vs fuel (given []) = .ok s ∧
    ∃ k, ∀ fuel', k ≤ fuel' → ∃ S infos, routePlaced E W' C s links parts vs fuel' = .ok S ∧
      allocateFor fl (netOf E W' (located C W' s links) parts vs) K = .ok infos ∧
      ∀ (g : Generator) (same : Entry → Entry → Bool), ∃ tm,
        generate g same (ofInfos infos (netOf E W' (located C W' s links) parts vs).base.appOf) S = .ok tm ∧
        Driver.Fit env tm ∧ Pipe.AllReturn env (FixedBlocks K) tm ∧ ∀ tm', Compressed env g (FixedBlocks K) tm tm' →
        ∀ p ∈ parts, ∀ m ∈ (W'.app p.pre).machines, (∃ k, HasKey infos m p.ident k) ∧ ∀ k, HasKey infos m p.ident k →
          ∃ b ∈ Plc.placements s, b.vertex = m ∧
            Delivers (sceneOf C.T tm') C.T.chips.length k ((b.x : Int), (b.y : Int)) none (Plc.placements s)
              (fun v => ∃ d ∈ p.edges, v ∈ (W'.app d).machines) := by
  obtain ⟨W', n, hp, hcount, s, hpl, k0, hk0⟩ := C118_graph_partial (fl := fl) (fixedApp := fixedApp) (links := links) hb h hL hn
    hall hdev hplain hS hk hE hf hfree hroom hA hT hm hflag hpos hdis hne hin hK hbits hi
  refine ⟨W', n, hp, s, hpl, k0, fun fuel' hf' => ?_⟩
  obtain ⟨S, infos, h1, h2, h3⟩ := hk0 fuel' hf'
  refine ⟨S, infos, h1, h2, fun g same => ?_⟩
  obtain ⟨tm, h4, h5⟩ := h3 g same
  obtain ⟨hu, hdev', hkinds, hboth, -, hsite, hfit, hcl⟩ := plain_after (C := C) (parts := parts) hb h hL hn hall hdev hplain hS
    (fun p hp => (hin p hp).1) hK hbits hi hp
  have hterms := net_terms (C := located C W' s links) (vs := vs) hfit
  have hW0 : Sound E W := by rw [← h]; exact sound_run os (sound_new hb)
  have hd := done_after (sound_resetGraph hW0 vs) ((keeps_resetGraph E W vs).linked hL) hn hp hu (all_reset hall)
  have hP := put_after (vs := vs) hsite (linked_after ((keeps_resetGraph E W vs).linked hL) hp) hf hpl
  have hG := ground_after (vs := vs) hsite hP (by intro a ha; cases ha)
  have hN := net_contract (C := located C W' s links) hG hd hdis
  obtain ⟨-, -, hplaced⟩ := C99_placed_partial (parts := parts) (fuel' := fuel') (links := links) hb (run_resetGraph h vs) ((keeps_resetGraph E W vs).linked hL) hn hp hu
    (all_reset hall)
    hsite hf hpl (fun p hp => (hin p hp).1)
  rw [hplaced] at h1
  unfold routeFor at h1
  split at h1
  · cases h1
  · obtain ⟨h6, h7⟩ := Pipe.C119_few_partial (env := env)
      (L := parts.flatMap (fun p => (W'.app p.pre).machines.map (fun m => (m, p.ident)))) hN
      hT.clean (net_keys hd hterms)
      hpos h1 ⟨fl, net_clear hcl, h2⟩ h4 (by
        intro a ident m hl hs
        rcases hl with ⟨p, hpp, rfl, rfl⟩ | ⟨-, is, his, i, hi, -⟩
        · refine List.mem_flatMap.2 ⟨p, hpp, List.mem_map.2 ⟨m, ?_, rfl⟩⟩
          exact (hboth _ (hin p hpp).1 m).1.1 (net_sends.1 hs)
        · rw [net_internals his] at hi; cases hi) (by
        intro d hd
        obtain ⟨n, e1, e2⟩ := henv d hd
        refine ⟨n, e1, ?_⟩
        rw [List.length_flatMap]
        refine Nat.le_trans (Nat.le_of_eq ?_) e2
        congr 1
        refine List.map_congr_left (fun p hpp => ?_)
        rw [List.length_map]
        exact hcount _ (hin p hpp).1)
    exact ⟨tm, h4, h6, h7, fun tm' hc' => h5 env tm' hc'⟩

end

/-! ### The graph of two vertices again, with compressed tables -/

theorem more_blocks : Pipe.FixedBlocks moreK :=
  ⟨fun _ _ _ h => (more_some h).2 ▸ ⟨4, by decide, by decide⟩, fun _ _ _ h => (by cases h)⟩

theorem fullC_flag : KeepsFlag fullC := by
  intro a b c h hd
  simp only [fullC, Pipe.miniC] at h
  cases h
  simpa using hd

/-- Whatever compressor is taken, with whatever options, and however many entries the routers take beyond the three
that are needed. -/
example : ∃ W' n, partition roomE (resetGraph roomE (roomW [3, 2]) [3, 2]) (2 : Nat) 100 [3, 2] = (W', .ok n) ∧
    ∃ s, placeFor fullM W' (fun _ => false) [3, 2] 50 (given []) = .ok s ∧
    ∃ k, ∀ fuel', k ≤ fuel' → ∃ S infos, routePlaced roomE W' fullC s devLinks splitP [3, 2] fuel' = .ok S ∧
      allocateFor false (netOf roomE W' (located fullC W' s devLinks) splitP [3, 2]) Pipe.lineK = .ok infos ∧
      ∃ tm, generate .merged (fun a b => decide (a = b))
        (ofInfos infos (netOf roomE W' (located fullC W' s devLinks) splitP [3, 2]).base.appOf) S = .ok tm ∧
        ∀ ordered verify cSort, ∃ tm',
          Driver.pairCompressor ⟨fun _ => some 3, true⟩ ordered false verify cSort tm = .ok tm' ∧
          ∀ m ∈ (W'.app 2).machines, ∀ k, HasKey infos m 5 k → ∃ b ∈ Plc.placements s, b.vertex = m ∧
            Delivers (sceneOf RPath.spin5 tm') RPath.spin5.chips.length k ((b.x : Int), (b.y : Int)) none (Plc.placements s)
              (fun v => ∃ d ∈ [3, 2], v ∈ (W'.app d).machines) := by
  obtain ⟨W', n, h1, s, h2, k, hk⟩ := C119_graph_partial (fl := false) (k := 2) (a := 2) (i := 1) (j := 4) (c := 1) (sdram := 100) (fuel := 50)
    (parts := splitP) (links := devLinks) (fixedApp := fun _ => false) (C := fullC) (K := Pipe.lineK)
    (os := [3, 2].map (fun v => .setSplitter v v)) (W := roomW [3, 2]) (env := ⟨fun _ => some 3, true⟩)
    room_built rfl (room_linked rfl) (by decide) room_all32 (room_noDev _ rfl) room32_plain split_site (by decide)
    full_even (by decide +kernel) (fun _ _ => rfl) (Placer.allFind_few (a := 2) (by decide) _ 0 (by decide +kernel) (by decide +kernel)) full_links full_passable (fun a b => ⟨_, rfl⟩) fullC_flag full_positive (by decide)
    (by decide) (by decide) split_modest (by decide) (by decide) (fun d _ => ⟨3, rfl, by decide +kernel⟩)
  refine ⟨W', n, h1, s, h2, k, fun fuel' hf => ?_⟩
  obtain ⟨S, infos, h3, h4, h5⟩ := hk fuel' hf
  obtain ⟨tm, h6, -, h7, h8⟩ := h5 .merged (fun a b => decide (a = b))
  refine ⟨S, infos, h3, h4, tm, h6, fun ordered verify cSort => ?_⟩
  obtain ⟨tm', h9, -⟩ := h7.pair ordered false verify cSort
  refine ⟨tm', h9, fun m hm key hkey => ?_⟩
  exact (h8 tm' (.pair h9) ⟨2, 5, [3, 2]⟩ (by decide) m hm).2 key hkey

/-- Packets of the device and of machine vertex 2 with the tables of the range compressor. -/
example {tm' : TablesMap} (hc : Driver.rangeCompressor ⟨fun _ => some 1023, true⟩ false fullTables = .ok tm')
    {p : AppPart} (hpp : p ∈ devP) {m : Nat} (hm : Sender devE devD p.pre m) {k : Word}
    (hk : HasKey fullInfos m p.ident k) :
    ∃ c q l, Sits devD (Plc.placements fullStore) devLinks m c q l ∧
      Delivers (sceneOf RPath.spin5 tm') 48 k c (heading (c, q, l)) (Plc.placements fullStore)
        (fun v => (devD.mv v).dev = none ∧ ∃ d ∈ p.edges, Receiver devE devD d v) ∧
      (∀ d ∈ p.edges, ∀ t, Receiver devE devD d t → ∀ c' q' l',
        Sits devD (Plc.placements fullStore) devLinks t c' q' (some l') →
        ∃ w, Lands (sceneOf RPath.spin5 tm') k c (heading (c, q, l)) w c' l') :=
  C118_mapped_partial (C := fullC) (os := [.setSplitter 0 0, .setSplitter 1 1, .setSplitter 2 2]) (W := devW) (n := 1)
    (fuel := 50) (fuel' := 200) (K := Pipe.lineK) (g := .merged) (same := fun _ _ => false) (S := fullS) (cores := 17)
    (sdram := 100) (sys := devSys) (fixedApp := fun _ => false)
    dev_built rfl dev_linked (by decide) dev_done dev_anew
    dev_all full_site (by decide +kernel) (by decide +kernel) full_store
    (C109_noReturns (C := fullC) RPath.spin5_intact (fun a b _ _ => RPath.hexVector_short RPath.spin5_board.grid a b)) fullC_flag
    (by
      intro c hc
      have h2 := (RPath.spin5_board.all c).1 hc
      simp only at h2
      omega) (by decide)
    (by decide) (by
      intro p hp t hk hs m hm c q l hsit
      rw [dev_splitter, dev_app] at hs
      simp only [devP, List.mem_cons, List.not_mem_nil, or_false] at hp
      rcases hp with rfl | rfl
      · cases hs
        obtain ⟨t, ts, h1, h2, h3⟩ := hm
        rw [dev_splitter, dev_app] at h1
        cases h1
        have : inVerts devE devD 0 = .ok [1] := by decide +kernel
        rw [this] at h2
        cases h2
        simp only [List.mem_singleton] at h3
        subst h3
        have hd : (devD.mv 1).dev = some (8, false) := by decide +kernel
        have hd0 : (devD.mv 0).dev = some (7, true) := by decide +kernel
        cases hsit with
        | core h0 _ _ => rw [hd] at h0; cases h0
        | link h0 =>
          rw [hd] at h0
          cases h0
          exact ⟨0, ⟨0, [0], by decide +kernel, by decide +kernel, by decide⟩, none, some 3, .link hd0⟩
      · cases hs; cases hk)
    full_terms (by decide +kernel) (.flexible (by decide +kernel)) (by decide +kernel) (.range Pipe.line_blocks hc) hpp hm hk

example : (Driver.rangeCompressor ⟨fun _ => some 1023, true⟩ false fullTables).toOption.isSome = true := by decide +kernel

end Pacman.Split
