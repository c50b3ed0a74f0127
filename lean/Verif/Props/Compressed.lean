import Verif.Spec.Compressed
import Verif.Proofs.Blocks
import Verif.Props.Wanted
import Verif.Props.Precompressed
/-
C118: the compressed tables of a graph deliver its packets.
-/

namespace Pacman.Pipe

open Alloc (VId Infos)
open Router (Net NetContract NoReturns NetAllSend NetOutside NetWants NetSends Even Listed KeepsFlag entryFor heading)
open RPath (XY Topo)
open Tables (TablesMap tablesOf)
open Gen (ofInfos)

section
variable {N : Net} {K : Keys} {fuel : Nat} {S : ByPart.State} {infos : Infos} {g : Generator}
  {same : Entry → Entry → Bool} {tm tm' : TablesMap} {a ident m : Nat} {k : Word} {env : Driver.Env}

/-- None of the tables made for a graph is empty. -/
theorem tables_some (hN : NetContract N) (hn : NoReturns N.base) (hK : KeyContract N K)
    (hp : Positive N.base.T) (h : Router.routeGraph N fuel = .ok S) (ha : Allocated N K infos)
    (hg : generate g same (ofInfos infos N.base.appOf) S = .ok tm) : ∀ t ∈ tablesOf tm, t.entries ≠ [] := by
  obtain ⟨tm0, j1, hmade, hkeys⟩ := generate_ok g same hN hn hK hp h ha
  rw [hg] at j1
  cases j1
  have ht := Router.routeGraph_tidy hN hn h
  intro t htm
  obtain ⟨p, hpm, rfl⟩ := List.mem_map.mp htm
  have hk : p.1 ∈ S.map (fun x => place x.1) := by rw [← hkeys]; exact List.mem_map_of_mem hpm
  obtain ⟨x, hx, hpx⟩ := List.mem_map.mp hk
  obtain ⟨t', h1, h2⟩ := hmade.table x.1 x.2 (Dict.get?_of_mem ht.chips hx)
  have hnd : (Dict.keys tm).Nodup := by
    have := hmade.once
    unfold Driver.OnePerChip tablesOf at this
    rw [List.map_map] at this
    have he : tm.map (Tables.Table.xy ∘ (·.2)) = Dict.keys tm := by
      unfold Dict.keys
      exact List.map_congr_left (fun p hp => hmade.xy p hp)
    rw [he] at this
    exact this
  have h3 := Dict.get?_of_mem hnd hpm
  rw [← hpx, h1] at h3
  injection h3 with h3
  rw [← h3]
  exact tableOf_ne h2 (chips_ready hN hn hK h ha x hx) (ht.filled x hx)

/-- If the masks of fixed keys are ones followed by zeros, then so are all masks in the tables made for a graph by
either generator, and none of the tables is empty. -/
theorem C118_masks (hN : NetContract N) (hn : NoReturns N.base) (hK : KeyContract N K) (hB : FixedBlocks K)
    (hp : Positive N.base.T) (h : Router.routeGraph N fuel = .ok S) (ha : Allocated N K infos)
    (hg : generate g same (ofInfos infos N.base.appOf) S = .ok tm) :
    ∀ t ∈ tablesOf tm, t.entries ≠ [] ∧ ∀ e ∈ t.entries, Range.Contiguous e.mask := by
  obtain ⟨ps, hps, fl, -, hal⟩ := allocated_ok ha
  have hfine : ∀ j ∈ infos, InfoFine j := by
    refine allocate_fine (fun p hpp => ?_) hal
    obtain ⟨hseen, -⟩ := (vertexParts_ok hps).2.1 p hpp
    obtain ⟨ms, h1, h2⟩ := hseen.out
    refine ⟨?_, ?_⟩
    · intro v hv km hkm
      rw [h2] at hv
      obtain ⟨x, -, rfl⟩ := List.mem_map.mp hv
      exact hB.mach x p.ident km hkm
    · intro km hkm
      exact hB.app p.pre p.ident km (by rw [← hseen.fixed]; exact hkm)
  have hmask := generateLoop_fine (blocky_ofInfos hfine N.base.appOf) S [] tm (by intro t ht; cases ht) hg
  exact fun t ht => ⟨tables_some hN hn hK hp h ha hg t ht, hmask t ht⟩

/-- C86 without asking anything of the masks in the tables: after any of the compressors the packets of a graph do the
same as before; the range compressor, with or without another one after it, is for graphs with no fixed keys, or whose
masks are ones followed by zeros.
Missing: ordered covering after the merged generator (`C86_false`), other fixed masks with the range compressor, entries
for single even keys with the pair compressor after it (`C133_false`); and as in `C84_one_way_partial`. -/
theorem C118_same_partial (hN : NetContract N) (hn : NoReturns N.base) (hs : NetAllSend N) (ho : NetOutside N)
    (hf : KeepsFlag N.base) (hK : KeyContract N K) (hp : Positive N.base.T)
    (h : Router.routeGraph N fuel = .ok S) (ha : Allocated N K infos)
    (hg : generate g same (ofInfos infos N.base.appOf) S = .ok tm) (hc : Compressed env g (FixedBlocks K) tm tm')
    (hl : Router.Leaves N a ident) (hm : NetSends N a ident m) (hk : HasKey infos m ident k) :
    SameTrips N (sceneOf N.base.T tm) (sceneOf N.base.T tm') k m := by
  cases hc with
  | pair hc => exact C86_pair_partial hN hn hs ho hK hp h ha hg hc hl hm hk
  | covering hb hc =>
    subst hb
    exact C86_ordered_covering_partial hN hn hs ho hf hK hp h ha hg hc hl hm hk
  | range hB hc =>
    obtain ⟨h1, h2⟩ := range_accepts (tablesOf tm) [] tm' hc
    obtain ⟨tm'', h3, h4⟩ := C86_range_partial (env := env) hN hn hs ho hK hp h ha hg h2
      (C118_masks hN hn hK hB hp h ha hg)
    rw [show Driver.rangeCompressor env true tm = .ok tm' from h1] at h3
    injection h3 with h3
    rw [h3]
    exact h4 _ _ _ _ hl hm hk
  | rangePair hB ho1 h1 h2 =>
    exact C133_pair_partial hN hn hs ho hK hp h ha hg (C118_masks hN hn hK hB hp h ha hg) ho1 h1 h2 hl hm hk
  | rangeCovering hB hb h1 h2 =>
    subst hb
    exact C133_covering_partial hN hn hs ho hf hK hp h ha hg (C118_masks hN hn hK hB hp h ha hg) h1 h2 hl hm hk

/-- Packets are sent where the entries lead. -/
theorem sentOn_leads (hN : NetContract N) (hn : NoReturns N.base) (hs : NetAllSend N) (ho : NetOutside N)
    (hK : KeyContract N K) (hp : Positive N.base.T) (h : Router.routeGraph N fuel = .ok S)
    (ha : Allocated N K infos) (hg : generate g same (ofInfos infos N.base.appOf) S = .ok tm)
    (hl : Router.Leaves N a ident) (hm : NetSends N a ident m) (hk : HasKey infos m ident k) (c : XY) (b : Nat) :
    (∃ w, SentOn N (sceneOf N.base.T tm) k m w c b) ↔ Leads (sceneOf N.base.T tm) k (N.base.locate m).1 c b := by
  obtain ⟨ht, hmade, hkept, hst, hmet⟩ := trips_known hN hn hs ho hK hp h ha hg hl hm hk
  have hc := made_carries hN hK hp ht ha hmade hl hm hk
  constructor
  · rintro ⟨w, hw⟩
    rw [sentOn_iff ht hst hkept hmet] at hw
    obtain ⟨h1, re, he, hb⟩ := hw
    obtain ⟨w', hw'⟩ := way_of_comes ht hc (rtrip_comes h1)
    obtain ⟨v, hv, -⟩ := entryFor_present he
    obtain ⟨e', k1, k2⟩ := hc c (present_chip ht hv) re he
    exact ⟨w', e', hw', k1, by rw [k2]; exact hb⟩
  · rintro ⟨w, e, hw, he, hb⟩
    obtain ⟨re, h1, h2⟩ := sent_of_way hN hn ho hK hp h ha hg hl hm hk hw he hb
    obtain ⟨w', hw'⟩ := comes_rtrip (comes_of_way hp ht hc hmet hw)
    refine ⟨w', ?_⟩
    rw [sentOn_iff ht hst hkept hmet]
    exact ⟨hw', re, h1, h2⟩

/-- C118: after any of the compressors a packet of a machine vertex is sent to exactly those links and cores to which
the entries of the tables sent it before, and it gets to each chip by one way, with fewer hops than there are chips.
Missing: as in `C118_same_partial`. -/
theorem C118_leads_partial (hN : NetContract N) (hn : NoReturns N.base) (hs : NetAllSend N) (ho : NetOutside N)
    (hf : KeepsFlag N.base) (hK : KeyContract N K) (hp : Positive N.base.T)
    (h : Router.routeGraph N fuel = .ok S) (ha : Allocated N K infos)
    (hg : generate g same (ofInfos infos N.base.appOf) S = .ok tm) (hc : Compressed env g (FixedBlocks K) tm tm')
    (hl : Router.Leaves N a ident) (hm : NetSends N a ident m) (hk : HasKey infos m ident k) :
    AsBefore (sceneOf N.base.T tm) (sceneOf N.base.T tm') N.base.T.chips.length k (N.base.locate m).1
      (heading (N.base.locate m)) := by
  obtain ⟨h1, h2⟩ := C118_same_partial hN hn hs ho hf hK hp h ha hg hc hl hm hk
  refine ⟨fun c b => ?_, fun w w' c hw hw' => ?_, fun w c hw => ?_⟩
  · rw [← sentOn_leads hN hn hs ho hK hp h ha hg hl hm hk c b]
    exact ⟨fun ⟨w, hw⟩ => ⟨w, (h2 w c b).mpr hw⟩, fun ⟨w, hw⟩ => ⟨w, (h2 w c b).mp hw⟩⟩
  · exact C84_one_way_partial hN hn hs ho hK hp h ha hg hl hm hk ((h1 w c).mpr hw) ((h1 w' c).mpr hw')
  · exact C84_ends_partial hN hn hs ho hK hp h ha hg hl hm hk ((h1 w c).mpr hw)

/-- C118, exactly: after any of the compressors a packet gets to a core if and only if it should get to a vertex there.
Missing: as in `C118_same_partial` and `C87_exact_partial`. -/
theorem C118_exact_partial (hN : NetContract N) (hL : Listed N) (hE : Even N) (hn : NoReturns N.base)
    (hs : NetAllSend N) (ho : NetOutside N) (hf : KeepsFlag N.base) (hK : KeyContract N K)
    (hp : Positive N.base.T) (h : Router.routeGraph N fuel = .ok S) (ha : Allocated N K infos)
    (hg : generate g same (ofInfos infos N.base.appOf) S = .ok tm) (hc : Compressed env g (FixedBlocks K) tm tm')
    (hl : Router.Leaves N a ident) (hm : NetSends N a ident m) (hk : HasKey infos m ident k)
    (h6 : ∀ t l, (N.base.locate t).2.2 = some l → l < 6) (c : XY) (q : Nat) :
    (∃ w, Lands (sceneOf N.base.T tm') k (N.base.locate m).1 (heading (N.base.locate m)) w c (6 + q)) ↔
      ∃ t, NetWants N a ident m t ∧ (N.base.locate t).1 = c ∧ (N.base.locate t).2.1 = some q := by
  rw [(C118_leads_partial hN hn hs ho hf hK hp h ha hg hc hl hm hk).leads]
  exact C87_exact_partial hN hL hE hn hs ho hK hp h ha hg hl hm hk h6 c q

end

theorem line_blocks : FixedBlocks lineK := ⟨(by intro _ _ _ h; cases h), (by intro _ _ _ h; cases h)⟩

/-- The masks of the entries merged for a row of chips. -/
example : ∀ t ∈ tablesOf rowMerged, t.entries ≠ [] ∧ ∀ e ∈ t.entries, Range.Contiguous e.mask :=
  C118_masks row_net row_noReturns row_keys line_blocks row_positive row_routed row_allocated row_merged

/-- The range compressor; nothing is asked of the masks in the tables. -/
example {tm' : TablesMap} (h : Driver.rangeCompressor rowEnv false rowBasic = .ok tm') :
    SameTrips rowN (sceneOf rowN.base.T rowBasic) (sceneOf rowN.base.T tm') 21 1 :=
  C118_same_partial row_net row_noReturns row_allSend row_outside row_flag row_keys row_positive row_routed
    row_allocated row_basic (.range line_blocks h) row_leaves row_sends row_key

example : ∃ tm', Driver.rangeCompressor rowEnv false rowBasic = .ok tm' ∧ tm' ≠ rowBasic :=
  ⟨_, rfl, by decide +kernel⟩

/-- Ordered covering leaves out entries for default routing, so packets go on without. -/
example : AsBefore (sceneOf rowN.base.T rowBasic) (sceneOf rowN.base.T rowBasicOC) 5 21 (1, 0) none :=
  C118_leads_partial row_net row_noReturns row_allSend row_outside row_flag row_keys row_positive row_routed
    row_allocated row_basic (.covering rfl row_basicOC) row_leaves row_sends row_key

/-- Packets of machine vertex 1 get to core 2 of (1, 0) after the pair compressor in any mode. -/
example (g : Generator) (same : Entry → Entry → Bool) (ordered verify cSort : Bool) {tm tm' : TablesMap}
    (hg : generate g same (ofInfos mixInfos (mixN (.app 0)).base.appOf) wholeS = .ok tm)
    (h : Driver.pairCompressor rowEnv ordered false verify cSort tm = .ok tm') :
    ∃ w, Lands (sceneOf (mixN (.app 0)).base.T tm') 21 (0, 0) none w (1, 0) (6 + 2) := by
  have hf : KeepsFlag (mixN (.app 0)).base := by
    intro a b c h hd
    simp only [mixN, miniN, miniC] at h
    cases h
    simpa using hd
  have key := C118_exact_partial (mix_net (asks := .app 0) (Or.inl rfl)) (mix_listed _) whole_even (mix_noReturns _)
    (mix_allSend _) (mix_outside _) hf (mix_keys _) (mix_positive _) whole_routed (mix_allocated _) hg (.pair h)
    (mix_leaves _) (mix_sends _) mix_key (by
      intro t l hl
      simp only [mixN, miniN, miniC] at hl
      split at hl <;> cases hl)
  refine (key (1, 0) 2).mpr ⟨3, ?_, by decide, by decide⟩
  exact Or.inl ⟨⟨0, 0, [1, 2]⟩, by simp [mixN, miniN], rfl, rfl, 2, by simp, (3, [.app 0]),
    by simp [mixN], rfl, .app 0, by simp, Or.inr ⟨rfl, [0, 1], by decide +kernel, by decide⟩⟩

end Pacman.Pipe
