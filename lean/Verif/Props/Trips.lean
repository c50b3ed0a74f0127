import Verif.Proofs.Trips
import Verif.Props.MiniNet
/-
C84: packets take one way and never run in circles (false; partial). C85: defaultable entries may be
left out (false; partial). C86: compressed tables still deliver the packets of the graph (false;
partial).
-/

namespace Pacman.Pipe

open Alloc (VId Infos)
open Router (Net Ctx NetContract NoReturns NetAllSend NetOutside NetWants NetSends Hop heading KeepsFlag entryFor)
open RPath (XY Topo)
open Tables (TablesMap tablesOf)
open Gen (ofInfos)

/-! ### The graphs of the examples -/

/-- Five chips in a row. Application vertex 0 has a machine vertex on each of the first three,
application vertex 1 one on the last. An edge leads from 0 to 1. -/
def rowN : Net := miniN false (miniT [(0, 0), (1, 0), (2, 0), (3, 0), (4, 0)]
    [((0, 0), 0), ((1, 0), 0), ((2, 0), 0), ((3, 0), 0), ((1, 0), 3), ((2, 0), 3), ((3, 0), 3), ((4, 0), 3)])
  (0, 0) [⟨0, (0, 0), 1, true⟩, ⟨0, (1, 0), 1, true⟩, ⟨0, (2, 0), 1, true⟩, ⟨1, (4, 0), 1, true⟩]
  [⟨0, 0, [1]⟩] [0, 1]

/-- The entries made for it: the packets of machine vertex 0 go straight on at (1, 0), where those of
machine vertex 1 set out; those of all go straight on at (3, 0). -/
def rowS : ByPart.State :=
  [((2, 0), [((.mach 0, 0), ⟨1, false⟩), ((.mach 1, 0), ⟨1, false⟩), ((.mach 2, 0), ⟨1, false⟩)]),
   ((3, 0), [((.app 0, 0), ⟨1, true⟩)]),
   ((4, 0), [((.app 0, 0), ⟨128, false⟩)]),
   ((0, 0), [((.mach 0, 0), ⟨1, false⟩)]),
   ((1, 0), [((.mach 0, 0), ⟨1, true⟩), ((.mach 1, 0), ⟨1, false⟩)])]

def rowInfos : Infos :=
  [.mach 0 0 0 4294967280 0, .mach 0 1 16 4294967280 1, .mach 0 2 32 4294967280 2,
   .app 0 0 0 4294967232 4294967280 4 2]

theorem row_net : NetContract rowN := mini_net (by decide) (by decide) (by decide)
theorem row_noReturns : NoReturns rowN.base := mini_noReturns _ (by decide +kernel) _ _ _ _
theorem row_allSend : NetAllSend rowN := mini_allSend _ (by decide) _ _
theorem row_outside : NetOutside rowN := mini_outside _ _ _ _ _ _
theorem row_positive : Positive rowN.base.T := mini_positive (by decide)
theorem row_keys : KeyContract rowN lineK := mini_keys _ _ _ _ _ _
theorem row_flag : KeepsFlag rowN.base := mini_flag _ _ _ _ _ _
theorem row_routed : Router.routeGraph rowN 20 = .ok rowS := by decide +kernel
theorem row_allocated : Allocated rowN lineK rowInfos := .flexible (by decide +kernel)
theorem row_leaves : Router.Leaves rowN 0 0 := Or.inl ⟨⟨0, 0, [1]⟩, by simp [rowN, miniN], rfl, rfl⟩

/-- Key 21 is one of machine vertex 1. -/
theorem row_key : HasKey rowInfos 1 0 21 := ⟨16, 4294967280, 1, by decide, by decide⟩

theorem row_sends : NetSends rowN 0 0 1 := Or.inl ⟨[0, 1, 2], by decide +kernel, by decide⟩

theorem row_wants : NetWants rowN 0 0 1 3 :=
  Or.inl ⟨⟨0, 0, [1]⟩, by simp [rowN, miniN], rfl, rfl, 1, by simp, (3, [.app 0]), by decide +kernel, rfl,
    .app 0, by simp, Or.inr ⟨rfl, [0, 1, 2], by decide +kernel, by decide⟩⟩

/-- Application vertex 0 has machine vertices on (0, 0), (1, 0) and (2, 0), of which the one on (1, 0)
does not send. Application vertex 1 has a machine vertex on (1, 0) and one on (1, 1); it asks for each
machine vertex that sends. -/
def ringN : Net := miniN true (miniT [(0, 0), (1, 0), (2, 0), (1, 1)]
    [((0, 0), 0), ((1, 0), 3), ((1, 0), 0), ((2, 0), 3), ((0, 0), 1), ((1, 1), 4), ((1, 0), 2), ((1, 1), 5)])
  (0, 0) [⟨0, (0, 0), 1, true⟩, ⟨0, (1, 0), 1, false⟩, ⟨0, (2, 0), 1, true⟩, ⟨1, (1, 0), 2, false⟩,
    ⟨1, (1, 1), 1, false⟩]
  [⟨0, 0, [1]⟩] [0, 1]

def ringS : ByPart.State :=
  [((0, 0), [((.mach 0, 0), ⟨2, false⟩), ((.mach 2, 0), ⟨2, false⟩)]),
   ((1, 1), [((.mach 0, 0), ⟨160, false⟩), ((.mach 2, 0), ⟨160, false⟩)]),
   ((1, 0), [((.mach 0, 0), ⟨256, false⟩), ((.mach 2, 0), ⟨264, false⟩)]),
   ((2, 0), [((.mach 2, 0), ⟨8, false⟩)])]

def ringInfos : Infos :=
  [.mach 0 0 0 4294967280 0, .mach 0 2 16 4294967280 1, .app 0 0 0 4294967264 4294967280 4 1]

theorem ring_net : NetContract ringN := mini_net (by decide) (by decide) (by decide)
theorem ring_noReturns : NoReturns ringN.base := mini_noReturns _ (by decide +kernel) _ _ _ _
theorem ring_positive : Positive ringN.base.T := mini_positive (by decide)
theorem ring_keys : KeyContract ringN lineK := mini_keys _ _ _ _ _ _
theorem ring_outside : NetOutside ringN := mini_outside _ _ _ _ _ _
theorem ring_routed : Router.routeGraph ringN 20 = .ok ringS := by decide +kernel
theorem ring_allocated : Allocated ringN lineK ringInfos := .flexible (by decide +kernel)

/-! ### C84 -/

/-- C84: under the tables made for a graph a packet gets to a chip by one way only. -/
def C84_full : Prop := ∀ (N : Net) (K : Keys) (fuel : Nat) (S : ByPart.State) (infos : Infos)
  (g : Generator) (same : Entry → Entry → Bool) (tm : TablesMap), NetContract N → NoReturns N.base →
  NetOutside N → KeyContract N K → Positive N.base.T →
  Router.routeGraph N fuel = .ok S → Allocated N K infos →
  generate g same (ofInfos infos N.base.appOf) S = .ok tm →
  ∀ a ident m k, Router.Leaves N a ident → NetSends N a ident m → HasKey infos m ident k →
  ∀ w w' c, Travels N (sceneOf N.base.T tm) k m w c → Travels N (sceneOf N.base.T tm) k m w' c → w = w'

/-- C84 is false: the routing can send packets in a circle, without any error. The chips of the source
count as reached from one another, also those where nothing sends, and the way to a target may lead back
to one of these. Here the packets of machine vertex 2 go round (1, 0), (0, 0), (1, 1) for ever. -/
theorem C84_circle (g : Generator) (same : Entry → Entry → Bool) :
    ∃ tm, generate g same (ofInfos ringInfos ringN.base.appOf) ringS = .ok tm ∧
      ∀ n, ∃ w, n ≤ w.length ∧ Travels ringN (sceneOf ringN.base.T tm) 16 2 w (1, 0) := by
  obtain ⟨tm, h1, h2, _⟩ := generate_ok g same ring_net ring_noReturns ring_keys ring_positive
    ring_routed ring_allocated
  have ht := Router.routeGraph_tidy ring_net ring_noReturns ring_routed
  have hc := made_carries ring_net ring_keys ring_positive ht ring_allocated h2
    (a := 0) (ident := 0) (m := 2) (k := 16)
    (Or.inl ⟨⟨0, 0, [1]⟩, by simp [ringN, miniN], rfl, rfl⟩)
    (Or.inl ⟨[0, 2], by decide +kernel, by decide⟩) ⟨16, 4294967280, 1, by decide, by decide⟩
  have hop : ∀ (w : List Nat) (c d : XY) (l : Nat) (r : ByPart.REntry), c ∈ ringN.base.T.chips →
      entryFor (ringN.ctx 0) ringS 0 2 c = some r → l < 6 → r.route.testBit l = true →
      ringN.base.T.linkAt c l = true → ringN.base.T.over c l = d →
      Travels ringN (sceneOf ringN.base.T tm) 16 2 w c →
      Travels ringN (sceneOf ringN.base.T tm) 16 2 (l :: w) d := by
    intro w c d l r hcc he hl hb hlk ho hw
    obtain ⟨e, e1, e2⟩ := hc c hcc r he
    refine .hop hw (Or.inl ⟨e, e1, ?_⟩) hl ((link_iff _ _ _ _ _).mpr ⟨hlk, ho⟩)
    rw [e2]
    exact hb
  have h0 : Travels ringN (sceneOf ringN.base.T tm) 16 2 [3] (1, 0) :=
    hop [] (2, 0) (1, 0) 3 ⟨8, false⟩ (by decide) (by decide +kernel) (by decide) (by decide) (by decide)
      (by decide) .start
  refine ⟨tm, h1, fun n => ?_⟩
  induction n with
  | zero => exact ⟨[3], Nat.zero_le _, h0⟩
  | succ n ih =>
    obtain ⟨w, hn, hw⟩ := ih
    have h3 := hop w (1, 0) (0, 0) 3 ⟨264, false⟩ (by decide) (by decide +kernel) (by decide) (by decide)
      (by decide) (by decide) hw
    have h4 := hop _ (0, 0) (1, 1) 1 ⟨2, false⟩ (by decide) (by decide +kernel) (by decide) (by decide)
      (by decide) (by decide) h3
    have h5 := hop _ (1, 1) (1, 0) 5 ⟨160, false⟩ (by decide) (by decide +kernel) (by decide) (by decide)
      (by decide) (by decide) h4
    exact ⟨_, by simp only [List.length_cons]; omega, h5⟩

theorem C84_false : ¬ C84_full := by
  intro h
  obtain ⟨tm, h1, h2⟩ := C84_circle .basic (fun _ _ => true)
  obtain ⟨w, _, hw⟩ := h2 0
  obtain ⟨w', hl, hw'⟩ := h2 (w.length + 1)
  have := h ringN lineK 20 ringS ringInfos .basic _ tm ring_net ring_noReturns ring_outside ring_keys
    ring_positive ring_routed ring_allocated h1 0 0 2 16
    (Or.inl ⟨⟨0, 0, [1]⟩, by simp [ringN, miniN], rfl, rfl⟩)
    (Or.inl ⟨[0, 2], by decide +kernel, by decide⟩) ⟨16, 4294967280, 1, by decide, by decide⟩ w w' _ hw hw'
  rw [this] at hl
  omega

section
variable {N : Net} {K : Keys} {fuel : Nat} {S : ByPart.State} {infos : Infos} {g : Generator}
  {same : Entry → Entry → Bool} {tm : TablesMap} {a ident m : Nat} {k : Word}

/-- What all theorems below rest on. -/
theorem trips_known (hN : NetContract N) (hn : NoReturns N.base) (hs : NetAllSend N) (ho : NetOutside N)
    (hK : KeyContract N K) (hp : Positive N.base.T) (h : Router.routeGraph N fuel = .ok S)
    (ha : Allocated N K infos) (hg : generate g same (ofInfos infos N.base.appOf) S = .ok tm)
    (hl : Router.Leaves N a ident) (hm : NetSends N a ident m) (hk : HasKey infos m ident k) :
    Router.Tidy (· ∈ N.base.T.chips) S ∧ Made g (ofInfos infos N.base.appOf) N.base.T S tm ∧
      Kept N S (sceneOf N.base.T tm) ident m k ∧ Router.Straight (N.ctx ident) S ident m ∧
      ∀ c, Router.Comes (N.ctx ident) S ident m c → (entryFor (N.ctx ident) S ident m c).isSome = true := by
  obtain ⟨tm', h1, h2, _⟩ := generate_ok g same hN hn hK hp h ha
  rw [hg] at h1
  cases h1
  have ht := Router.routeGraph_tidy hN hn h
  obtain ⟨ms, j1, j2⟩ := sends_outgoing hK hm
  exact ⟨ht, h2, kept_of_carries (made_carries hN hK hp ht ha h2 hl hm hk),
    Router.routeGraph_straight hN hn hs ho h hl hm,
    fun c => Router.C79_met_partial hN hn ho h hl j1 j2 (c := c)⟩

/-- C84, the part that holds: a packet of a machine vertex gets to a chip by one way only.
Missing: chips of a source where nothing sends (`C84_circle`), returning ways, targets behind links of
the machine, what `KeyContract` asks. -/
theorem C84_one_way_partial (hN : NetContract N) (hn : NoReturns N.base) (hs : NetAllSend N)
    (ho : NetOutside N) (hK : KeyContract N K) (hp : Positive N.base.T)
    (h : Router.routeGraph N fuel = .ok S) (ha : Allocated N K infos)
    (hg : generate g same (ofInfos infos N.base.appOf) S = .ok tm) (hl : Router.Leaves N a ident)
    (hm : NetSends N a ident m) (hk : HasKey infos m ident k) {w w' : List Nat} {c : XY}
    (hw : Travels N (sceneOf N.base.T tm) k m w c) (hw' : Travels N (sceneOf N.base.T tm) k m w' c) :
    w = w' := by
  obtain ⟨ht, _, hkept, hst, hmet⟩ := trips_known hN hn hs ho hK hp h ha hg hl hm hk
  rw [travels_iff ht hst hkept hmet] at hw hw'
  exact rtrip_one hst hw hw'

/-- C84, no circles: a packet makes fewer hops than there are chips.
Missing: as in `C84_one_way_partial`. -/
theorem C84_ends_partial (hN : NetContract N) (hn : NoReturns N.base) (hs : NetAllSend N)
    (ho : NetOutside N) (hK : KeyContract N K) (hp : Positive N.base.T)
    (h : Router.routeGraph N fuel = .ok S) (ha : Allocated N K infos)
    (hg : generate g same (ofInfos infos N.base.appOf) S = .ok tm) (hl : Router.Leaves N a ident)
    (hm : NetSends N a ident m) (hk : HasKey infos m ident k) {w : List Nat} {c : XY}
    (hw : Travels N (sceneOf N.base.T tm) k m w c) : w.length < N.base.T.chips.length := by
  obtain ⟨ht, _, hkept, hst, hmet⟩ := trips_known hN hn hs ho hK hp h ha hg hl hm hk
  rw [travels_iff ht hst hkept hmet] at hw
  exact rtrip_length ht hst hmet hw

theorem gets_once (hN : NetContract N) (hn : NoReturns N.base) (hs : NetAllSend N)
    (h : Router.routeGraph N fuel = .ok S) {t : Nat} (hw : NetWants N a ident m t) {tm : TablesMap}
    (ht : Router.Tidy (· ∈ N.base.T.chips) S) (hkept : Kept N S (sceneOf N.base.T tm) ident m k)
    (hst : Router.Straight (N.ctx ident) S ident m)
    (hmet : ∀ c, Router.Comes (N.ctx ident) S ident m c →
      (entryFor (N.ctx ident) S ident m c).isSome = true) :
    ∃ w, Gets N (sceneOf N.base.T tm) k m t w ∧
      ∀ w', Travels N (sceneOf N.base.T tm) k m w' (N.base.locate t).1 → w' = w := by
  obtain ⟨h1, h2, h3⟩ := Router.C79_delivered_partial hN hn hs h hw
  obtain ⟨w, hw⟩ := comes_rtrip h1
  refine ⟨w, ⟨?_, ?_, ?_⟩, fun w' hw' => ?_⟩
  · rw [travels_iff ht hst hkept hmet]
    exact hw
  · intro p hp
    rw [sentOn_iff ht hst hkept hmet]
    exact ⟨hw, h2 p hp⟩
  · intro l hl
    rw [sentOn_iff ht hst hkept hmet]
    exact ⟨hw, h3 l hl⟩
  · rw [travels_iff ht hst hkept hmet] at hw'
    exact rtrip_one hst hw' hw

/-- C84, exactly once: a packet gets to each vertex that it should get to, by one way.
Missing: as in `C84_one_way_partial`. -/
theorem C84_once_partial (hN : NetContract N) (hn : NoReturns N.base) (hs : NetAllSend N)
    (ho : NetOutside N) (hK : KeyContract N K) (hp : Positive N.base.T)
    (h : Router.routeGraph N fuel = .ok S) (ha : Allocated N K infos)
    (hg : generate g same (ofInfos infos N.base.appOf) S = .ok tm) {t : Nat}
    (hw : NetWants N a ident m t) (hk : HasKey infos m ident k) :
    ∃ w, Gets N (sceneOf N.base.T tm) k m t w ∧
      ∀ w', Travels N (sceneOf N.base.T tm) k m w' (N.base.locate t).1 → w' = w := by
  obtain ⟨hl, hm⟩ := wants_sends hN hw
  obtain ⟨ht, _, hkept, hst, hmet⟩ := trips_known hN hn hs ho hK hp h ha hg hl hm hk
  exact gets_once hN hn hs h hw ht hkept hst hmet

/-! ### C85 -/

/-- C85: tables that leave keys of defaultable entries unmatched, and otherwise route as those made for a
graph, do the same with its packets. -/
def C85_full : Prop := ∀ (N : Net) (K : Keys) (fuel : Nat) (S : ByPart.State) (infos : Infos)
  (g : Generator) (same : Entry → Entry → Bool) (tm tm' : TablesMap), NetContract N → NoReturns N.base →
  NetAllSend N → NetOutside N → KeepsFlag N.base → KeyContract N K → Positive N.base.T →
  Router.routeGraph N fuel = .ok S → Allocated N K infos →
  generate g same (ofInfos infos N.base.appOf) S = .ok tm →
  (∀ p t, tm.get? p = some t → ∃ t', tm'.get? p = some t' ∧ Stands t.entries t'.entries) →
  ∀ a ident m k, Router.Leaves N a ident → NetSends N a ident m → HasKey infos m ident k →
  SameTrips N (sceneOf N.base.T tm) (sceneOf N.base.T tm') k m

/-- C85, the part that holds: with the tables of the basic generator.
Missing: the merged generator (`C85_merged`); and as in `C84_one_way_partial`. -/
theorem C85_basic_partial (hN : NetContract N) (hn : NoReturns N.base) (hs : NetAllSend N)
    (ho : NetOutside N) (hf : KeepsFlag N.base) (hK : KeyContract N K) (hp : Positive N.base.T)
    (h : Router.routeGraph N fuel = .ok S) (ha : Allocated N K infos)
    (hg : generate .basic same (ofInfos infos N.base.appOf) S = .ok tm) {tm' : TablesMap}
    (hst : ∀ p t, tm.get? p = some t → ∃ t', tm'.get? p = some t' ∧ Stands t.entries t'.entries)
    (hl : Router.Leaves N a ident) (hm : NetSends N a ident m) (hk : HasKey infos m ident k) :
    SameTrips N (sceneOf N.base.T tm) (sceneOf N.base.T tm') k m := by
  obtain ⟨ht, hmade, hkept, hstr, hmet⟩ := trips_known hN hn hs ho hK hp h ha hg hl hm hk
  exact same_trips ht hstr hkept
    (made_stands hN hK hp ht ha hmade hst (Or.inl ⟨rfl, hf⟩) hl hm hk) hmet

/-- C85, the entries: a defaultable entry for the packets of a machine vertex sends them over one link,
straight on from where they come.
Missing: as in `C84_one_way_partial`. -/
theorem C85_straight_partial (hN : NetContract N) (hn : NoReturns N.base) (hs : NetAllSend N)
    (ho : NetOutside N) (hf : KeepsFlag N.base) (h : Router.routeGraph N fuel = .ok S)
    (hl : Router.Leaves N a ident) (hm : NetSends N a ident m) {c : XY} {e : ByPart.REntry}
    (he : entryFor (N.ctx ident) S ident m c = some e) (hd : e.defaultable = true) :
    ∃ l, (∀ b, e.route.testBit b = true ↔ b = l) ∧
      (∀ b k, Hop (N.ctx ident) S ident m b k c → k = l) ∧
      (c = (N.base.locate m).1 → heading (N.base.locate m) = some l) :=
  (Router.routeGraph_straight hN hn hs ho h hl hm).flag hf c e he hd

/-! ### C86 -/

/-- C86: if compression of the tables made for a graph does not fail then its packets still get where
they should. -/
def C86_full : Prop := ∀ (N : Net) (K : Keys) (fuel : Nat) (S : ByPart.State) (infos : Infos)
  (g : Generator) (same : Entry → Entry → Bool) (tm tm' : TablesMap) (env : Driver.Env), NetContract N →
  NoReturns N.base → NetAllSend N → NetOutside N → KeepsFlag N.base → KeyContract N K →
  Positive N.base.T → Router.routeGraph N fuel = .ok S → Allocated N K infos →
  generate g same (ofInfos infos N.base.appOf) S = .ok tm →
  (Driver.ocCompressor env tm = .ok tm' ∨
    (∃ ordered overflow verify cSort, Driver.pairCompressor env ordered overflow verify cSort tm = .ok tm') ∨
    ∃ overflow, Driver.rangeCompressor env overflow tm = .ok tm') →
  ∀ a ident m t k, NetWants N a ident m t → HasKey infos m ident k →
  ∃ w, Gets N (sceneOf N.base.T tm') k m t w

theorem made_mem (hmade : Made g (ofInfos infos N.base.appOf) N.base.T S tm) {p : Nat × Nat}
    {t : Tables.Table} (ht : tm.get? p = some t) : t ∈ tablesOf tm ∧ t.xy = p := by
  have := Dict.mem_of_get? ht
  exact ⟨List.mem_map.mpr ⟨_, this, rfl⟩, hmade.xy _ this⟩

/-- C86, the pair compressor: after it, in any mode, the packets of a graph do the same as before, with
either generator.
Missing: as in `C84_one_way_partial`. -/
theorem C86_pair_partial (hN : NetContract N) (hn : NoReturns N.base) (hs : NetAllSend N)
    (ho : NetOutside N) (hK : KeyContract N K) (hp : Positive N.base.T)
    (h : Router.routeGraph N fuel = .ok S) (ha : Allocated N K infos)
    (hg : generate g same (ofInfos infos N.base.appOf) S = .ok tm) {tm' : TablesMap} {env : Driver.Env}
    {ordered overflow verify cSort : Bool}
    (hc : Driver.pairCompressor env ordered overflow verify cSort tm = .ok tm')
    (hl : Router.Leaves N a ident) (hm : NetSends N a ident m) (hk : HasKey infos m ident k) :
    SameTrips N (sceneOf N.base.T tm) (sceneOf N.base.T tm') k m := by
  obtain ⟨ht, hmade, hkept, hstr, hmet⟩ := trips_known hN hn hs ho hK hp h ha hg hl hm hk
  obtain ⟨_, h2⟩ := Driver.C13_pair_all_chips env ordered overflow verify cSort tm tm' hmade.once
    (fun t ht => ⟨(hmade.good t ht).1, orth_disjoint (hmade.good t ht).2⟩) hc
  have hsame : ∀ p t t', tm.get? p = some t → tm'.get? p = some t' → RoutesSame t.entries t'.entries := by
    intro p t t' h3 h4
    obtain ⟨h5, rfl⟩ := made_mem hmade h3
    obtain ⟨nt, h6, h7, _⟩ := h2 t h5
    rw [h4] at h6
    cases h6
    exact h7
  refine same_trips ht hstr hkept
    (made_stands hN hK hp ht ha hmade (fun p t h3 => ?_) (Or.inr hsame) hl hm hk) hmet
  obtain ⟨h5, rfl⟩ := made_mem hmade h3
  obtain ⟨nt, h6, h7, _⟩ := h2 t h5
  exact ⟨nt, h6, stands_of_same (hmade.good t h5).2 h7⟩

/-- C86, ordered covering: after it the packets of a graph do the same as before, if the tables are those
of the basic generator.
Missing: the merged generator (`C86_false`); and as in `C84_one_way_partial`. -/
theorem C86_ordered_covering_partial (hN : NetContract N) (hn : NoReturns N.base) (hs : NetAllSend N)
    (ho : NetOutside N) (hf : KeepsFlag N.base) (hK : KeyContract N K) (hp : Positive N.base.T)
    (h : Router.routeGraph N fuel = .ok S) (ha : Allocated N K infos)
    (hg : generate .basic same (ofInfos infos N.base.appOf) S = .ok tm) {tm' : TablesMap}
    {env : Driver.Env} (hc : Driver.ocCompressor env tm = .ok tm')
    (hl : Router.Leaves N a ident) (hm : NetSends N a ident m) (hk : HasKey infos m ident k) :
    SameTrips N (sceneOf N.base.T tm) (sceneOf N.base.T tm') k m := by
  obtain ⟨_, hmade, _, _, _⟩ := trips_known hN hn hs ho hK hp h ha hg hl hm hk
  obtain ⟨_, h2⟩ := Driver.C13_ordered_covering_all_chips env tm tm' hmade.once hmade.good hc
  refine C85_basic_partial hN hn hs ho hf hK hp h ha hg (fun p t h3 => ?_) hl hm hk
  obtain ⟨h5, rfl⟩ := made_mem hmade h3
  obtain ⟨nt, n, h6, _, _, h7⟩ := h2 t h5
  exact ⟨nt, h6, fun k o ho hk => h7 o ho k hk⟩

/-- C86, the range compressor: with contiguous masks it always returns if overflow is accepted, and the
packets of a graph do the same as before, with either generator.
Missing: other masks, where it fails or misroutes (C07); and as in `C84_one_way_partial`. -/
theorem C86_range_partial (hN : NetContract N) (hn : NoReturns N.base) (hs : NetAllSend N)
    (ho : NetOutside N) (hK : KeyContract N K) (hp : Positive N.base.T)
    (h : Router.routeGraph N fuel = .ok S) (ha : Allocated N K infos)
    (hg : generate g same (ofInfos infos N.base.appOf) S = .ok tm) {env : Driver.Env}
    (hchip : ∀ t ∈ tablesOf tm, ∃ n, env.target t.xy = some n)
    (hmask : ∀ t ∈ tablesOf tm, t.entries ≠ [] ∧ ∀ e ∈ t.entries, Range.Contiguous e.mask) :
    ∃ tm', Driver.rangeCompressor env true tm = .ok tm' ∧
      ∀ a ident m k, Router.Leaves N a ident → NetSends N a ident m → HasKey infos m ident k →
      SameTrips N (sceneOf N.base.T tm) (sceneOf N.base.T tm') k m := by
  obtain ⟨tm0, j1, hmade, _⟩ := generate_ok g same hN hn hK hp h ha
  rw [hg] at j1
  cases j1
  obtain ⟨tm', h1, hkeys, h2⟩ := Driver.C13_range_all_chips env tm hmade.once hchip
    (fun t ht => ⟨(hmade.good t ht).1, hmask t ht⟩)
  refine ⟨tm', h1, fun a ident m k hl hm hk => ?_⟩
  obtain ⟨ht, _, hkept, hstr, hmet⟩ := trips_known hN hn hs ho hK hp h ha hg hl hm hk
  have hnd : (Dict.keys tm').Nodup := by rw [hkeys]; exact hmade.once
  have hfind : ∀ p t, tm.get? p = some t → ∃ t', tm'.get? p = some t' ∧ RoutesSame t.entries t'.entries := by
    intro p t h3
    obtain ⟨h5, rfl⟩ := made_mem hmade h3
    obtain ⟨nt, h6, h7, _⟩ := h2 t h5
    exact ⟨nt, Dict.get?_of_mem hnd h6, h7⟩
  refine same_trips ht hstr hkept
    (made_stands hN hK hp ht ha hmade (fun p t h3 => ?_) (Or.inr fun p t t' h3 h4 => ?_) hl hm hk) hmet
  · obtain ⟨t', h4, h5⟩ := hfind p t h3
    exact ⟨t', h4, stands_of_same (hmade.good t (made_mem hmade h3).1).2 h5⟩
  · obtain ⟨t'', h5, h6⟩ := hfind p t h3
    rw [h4] at h5
    cases h5
    exact h6

/-- C86: packets that do the same still get where they should. -/
theorem C86_gets {V V' : Valid.Scene} (h : SameTrips N V V' k m) {t : Nat} {w : List Nat}
    (hg : Gets N V k m t w) : Gets N V' k m t w :=
  ⟨(h.1 _ _).mp hg.1, fun p hp => (h.2 _ _ _).mp (hg.2.1 p hp), fun l hl => (h.2 _ _ _).mp (hg.2.2 l hl)⟩

end

/-! ### Where the merged generator loses packets -/

def rowMerged : TablesMap :=
  [((2, 0), .u ⟨2, 0, [((0, 0xffffffc0), ⟨0, 0xffffffc0, 1, false⟩)], 0⟩),
   ((3, 0), .u ⟨3, 0, [((0, 0xffffffc0), ⟨0, 0xffffffc0, 1, true⟩)], 1⟩),
   ((4, 0), .u ⟨4, 0, [((0, 0xffffffc0), ⟨0, 0xffffffc0, 128, false⟩)], 0⟩),
   ((0, 0), .u ⟨0, 0, [((0, 0xfffffff0), ⟨0, 0xfffffff0, 1, false⟩)], 0⟩),
   ((1, 0), .u ⟨1, 0, [((0, 0xffffffe0), ⟨0, 0xffffffe0, 1, true⟩)], 1⟩)]

def rowOC : TablesMap :=
  [((2, 0), .c ⟨2, 0, [⟨0, 0xffffffc0, 1, false⟩], 0⟩), ((3, 0), .c ⟨3, 0, [], 0⟩),
   ((4, 0), .c ⟨4, 0, [⟨0, 0xffffffc0, 128, false⟩], 0⟩),
   ((0, 0), .c ⟨0, 0, [⟨0, 0xfffffff0, 1, false⟩], 0⟩), ((1, 0), .c ⟨1, 0, [], 0⟩)]

/-- 1023 entries fit on each chip; tables that fit are not taken as they are. -/
def rowEnv : Driver.Env := ⟨fun _ => some 1023, true⟩

theorem row_merged : generate .merged (fun _ _ => true) (ofInfos rowInfos rowN.base.appOf) rowS = .ok rowMerged := by
  decide +kernel

theorem row_oc : Driver.ocCompressor rowEnv rowMerged = .ok rowOC := by decide +kernel

/-- The merged entry at (1, 0) took over the flag of that for machine vertex 0. It is left out, and a packet
of machine vertex 1 stays where it set out. -/
theorem C85_merged {w : List Nat} {c : XY} (h : Travels rowN (sceneOf rowN.base.T rowOC) 21 1 w c) :
    w = [] ∧ c = (1, 0) := by
  unfold Travels at h
  have h1 : (rowN.base.locate 1).1 = (1, 0) := by decide
  have h2 : heading (rowN.base.locate 1) = none := by decide
  have h3 : lookup ((sceneOf rowN.base.T rowOC).entries (1, 0)) 21 = none := by decide +kernel
  rw [h1, h2] at h
  induction h with
  | start => exact ⟨rfl, rfl⟩
  | hop _ ho _ _ ih =>
    obtain ⟨rfl, rfl⟩ := ih
    rcases ho with ⟨e, e1, _⟩ | ⟨_, e1⟩
    · rw [h3] at e1; cases e1
    · cases e1

theorem row_lost {w : List Nat} : ¬ Gets rowN (sceneOf rowN.base.T rowOC) 21 1 3 w := by
  intro h
  have := (C85_merged h.1).2
  revert this
  decide

theorem C86_false : ¬ C86_full := by
  intro h
  obtain ⟨w, hw⟩ := h rowN lineK 20 rowS rowInfos .merged _ rowMerged rowOC rowEnv row_net row_noReturns
    row_allSend row_outside row_flag row_keys row_positive row_routed row_allocated row_merged
    (Or.inl row_oc) 0 0 1 3 21 row_wants row_key
  exact row_lost hw

theorem row_stands (p : Nat × Nat) (t : Tables.Table) (h : rowMerged.get? p = some t) :
    ∃ t', rowOC.get? p = some t' ∧ Stands t.entries t'.entries := by
  obtain ⟨_, hmade, _⟩ := trips_known row_net row_noReturns row_allSend row_outside row_keys row_positive
    row_routed row_allocated row_merged row_leaves row_sends row_key
  obtain ⟨_, h2⟩ := Driver.C13_ordered_covering_all_chips rowEnv rowMerged rowOC hmade.once hmade.good row_oc
  obtain ⟨h5, rfl⟩ := made_mem hmade h
  obtain ⟨nt, n, h6, _, _, h7⟩ := h2 t h5
  exact ⟨nt, h6, fun k o ho hk => h7 o ho k hk⟩

theorem C85_false : ¬ C85_full := by
  intro h
  have hs := h rowN lineK 20 rowS rowInfos .merged _ rowMerged rowOC row_net row_noReturns
    row_allSend row_outside row_flag row_keys row_positive row_routed row_allocated row_merged
    row_stands 0 0 1 21 row_leaves row_sends row_key
  obtain ⟨w, hw, _⟩ := C84_once_partial row_net row_noReturns row_allSend row_outside row_keys row_positive
    row_routed row_allocated row_merged row_wants row_key
  exact row_lost (C86_gets hs hw)

/-! ### The theorems at work -/

def rowBasic : TablesMap :=
  match generate .basic (fun _ _ => true) (ofInfos rowInfos rowN.base.appOf) rowS with
  | .ok tm => tm
  | .error _ => []

theorem row_basic : generate .basic (fun _ _ => true) (ofInfos rowInfos rowN.base.appOf) rowS = .ok rowBasic := by
  decide +kernel

def rowBasicOC : TablesMap :=
  match Driver.ocCompressor rowEnv rowBasic with
  | .ok tm => tm
  | .error _ => []

theorem row_basicOC : Driver.ocCompressor rowEnv rowBasic = .ok rowBasicOC := by decide +kernel

/-- A packet of machine vertex 1 gets to machine vertex 3, by one way. -/
example : ∃ w, Gets rowN (sceneOf rowN.base.T rowBasic) 21 1 3 w ∧
    ∀ w', Travels rowN (sceneOf rowN.base.T rowBasic) 21 1 w' (4, 0) → w' = w :=
  C84_once_partial row_net row_noReturns row_allSend row_outside row_keys row_positive
    row_routed row_allocated row_basic row_wants row_key

/-- A packet of machine vertex 1 gets to (3, 0) by two hops. -/
theorem row_travels : Travels rowN (sceneOf rowN.base.T rowBasic) 21 1 [0, 0] (3, 0) := by
  have go : ∀ (w : List Nat) (c d : XY) (e : Entry), lookup ((sceneOf rowN.base.T rowBasic).entries c) 21 = some e →
      e.route.testBit 0 = true → (sceneOf rowN.base.T rowBasic).link c 0 = some d →
      Travels rowN (sceneOf rowN.base.T rowBasic) 21 1 w c →
      Travels rowN (sceneOf rowN.base.T rowBasic) 21 1 (0 :: w) d :=
    fun w c d e h1 h2 h3 h4 => .hop h4 (Or.inl ⟨e, h1, h2⟩) (by decide) h3
  have h0 : Travels rowN (sceneOf rowN.base.T rowBasic) 21 1 [] (1, 0) := .start
  exact go _ (2, 0) (3, 0) ⟨16, 0xfffffff0, 1, false⟩ (by decide +kernel) (by decide) (by decide +kernel)
    (go _ (1, 0) (2, 0) ⟨16, 0xfffffff0, 1, false⟩ (by decide +kernel) (by decide) (by decide +kernel) h0)

example {w : List Nat} (h : Travels rowN (sceneOf rowN.base.T rowBasic) 21 1 w (3, 0)) : w = [0, 0] :=
  C84_one_way_partial row_net row_noReturns row_allSend row_outside row_keys row_positive
    row_routed row_allocated row_basic row_leaves row_sends row_key h row_travels

example : ([0, 0] : List Nat).length < 5 :=
  C84_ends_partial row_net row_noReturns row_allSend row_outside row_keys row_positive
    row_routed row_allocated row_basic row_leaves row_sends row_key row_travels

/-- Tables with the entries that default routing makes needless left out by hand. -/
def rowThin : TablesMap := rowBasic.set (3, 0) (.c ⟨3, 0, [], 0⟩)

example : SameTrips rowN (sceneOf rowN.base.T rowBasic) (sceneOf rowN.base.T rowThin) 21 1 := by
  refine C85_basic_partial row_net row_noReturns row_allSend row_outside row_flag row_keys row_positive
    row_routed row_allocated row_basic (fun p t h => ?_) row_leaves row_sends row_key
  obtain ⟨_, hmade, _⟩ := trips_known row_net row_noReturns row_allSend row_outside row_keys row_positive
    row_routed row_allocated row_basic row_leaves row_sends row_key
  by_cases hp : p = (3, 0)
  · subst hp
    refine ⟨.c ⟨3, 0, [], 0⟩, by decide +kernel, fun k o ho _ => Or.inr ⟨rfl, ?_⟩⟩
    have : ∀ t, rowBasic.get? (3, 0) = some t → t.entries.all (·.defaultable) = true := by
      have : ((rowBasic.get? (3, 0)).map (fun t => t.entries.all (·.defaultable))).getD true = true := by
        decide +kernel
      intro t ht
      rw [ht] at this
      exact this
    exact List.all_eq_true.mp (this t h) o ho
  · refine ⟨t, ?_, stands_of_same (hmade.good t (made_mem hmade h).1).2 (fun _ _ => rfl)⟩
    unfold rowThin
    rw [Dict.get?_set, if_neg (Ne.symm hp)]
    exact h

example : ∃ l, (∀ b, (1 : Nat).testBit b = true ↔ b = l) ∧
    (∀ b k, Hop (rowN.ctx 0) rowS 0 1 b k (3, 0) → k = l) ∧
    ((3, 0) = (rowN.base.locate 1).1 → heading (rowN.base.locate 1) = some l) :=
  C85_straight_partial (e := ⟨1, true⟩) row_net row_noReturns row_allSend row_outside row_flag row_routed
    row_leaves row_sends (by decide +kernel) rfl

example : SameTrips rowN (sceneOf rowN.base.T rowBasic) (sceneOf rowN.base.T rowBasicOC) 21 1 :=
  C86_ordered_covering_partial row_net row_noReturns row_allSend row_outside row_flag row_keys row_positive
    row_routed row_allocated row_basic row_basicOC row_leaves row_sends row_key

def rowPair : TablesMap :=
  match Driver.pairCompressor rowEnv true true true true rowMerged with
  | .ok tm => tm
  | .error _ => []

example : SameTrips rowN (sceneOf rowN.base.T rowMerged) (sceneOf rowN.base.T rowPair) 21 1 :=
  C86_pair_partial (env := rowEnv) (ordered := true) (overflow := true) (verify := true) (cSort := true)
    row_net row_noReturns row_allSend row_outside row_keys row_positive
    row_routed row_allocated row_merged (by decide +kernel) row_leaves row_sends row_key

/-- After ordered covering a packet of machine vertex 1 still gets to machine vertex 3. -/
example : ∃ w, Gets rowN (sceneOf rowN.base.T rowBasicOC) 21 1 3 w := by
  obtain ⟨w, hw, _⟩ := C84_once_partial row_net row_noReturns row_allSend row_outside row_keys row_positive
    row_routed row_allocated row_basic row_wants row_key
  exact ⟨w, C86_gets (C86_ordered_covering_partial row_net row_noReturns row_allSend row_outside row_flag
    row_keys row_positive row_routed row_allocated row_basic row_basicOC row_leaves row_sends row_key) hw⟩

example : ∃ tm', Driver.rangeCompressor rowEnv true rowMerged = .ok tm' ∧
    SameTrips rowN (sceneOf rowN.base.T rowMerged) (sceneOf rowN.base.T tm') 21 1 := by
  obtain ⟨tm', h1, h2⟩ := C86_range_partial (env := rowEnv) row_net row_noReturns row_allSend row_outside
    row_keys row_positive row_routed row_allocated row_merged (fun _ _ => ⟨1023, rfl⟩) (by
      have : ∀ t ∈ tablesOf rowMerged, t.entries ≠ [] ∧ ∀ e ∈ t.entries, ∃ n ∈ [4, 5, 6],
          e.mask = BitVec.ofNat 32 (2 ^ 32 - 2 ^ n) := by decide +kernel
      intro t ht
      refine ⟨(this t ht).1, fun e he => ?_⟩
      obtain ⟨n, h1, h2⟩ := (this t ht).2 e he
      exact ⟨n, by simp only [List.mem_cons, List.not_mem_nil, or_false] at h1; omega, h2⟩)
  exact ⟨tm', h1, h2 _ _ _ _ row_leaves row_sends row_key⟩

end Pacman.Pipe
