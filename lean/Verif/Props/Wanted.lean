import Verif.Proofs.RouterWanted
import Verif.Props.Trips
/-
C87: packets reach only targets that asked for them (false; partial).
-/

namespace Pacman.Pipe

open Alloc (VId Infos)
open Router (Net Ctx NetContract NoReturns NetAllSend NetOutside NetWants NetSends Even Listed entryFor)
open RPath (XY Topo)
open Tables (TablesMap tablesOf)
open Gen (ofInfos)

/-! ### The graphs of the examples -/

/-- Application vertex 0 has two machine vertices on (0, 0). On (1, 0) machine vertex 2 is of application
vertex 1 and asks for application vertex 0; machine vertex 3 is of application vertex 2 and asks as
given. -/
def mixN (asks : VId) : Net := { miniN false (miniT [(0, 0), (1, 0)] [((0, 0), 0), ((1, 0), 3)])
  (0, 0) [⟨0, (0, 0), 1, true⟩, ⟨0, (0, 0), 2, true⟩, ⟨1, (1, 0), 1, true⟩, ⟨2, (1, 0), 2, true⟩]
  [⟨0, 0, [1, 2]⟩] [0, 1, 2] with
  incoming := fun d a _ => if a ≠ 0 then [] else
    if d = 1 then [(2, [.app 0])] else if d = 2 then [(3, [asks])] else [] }

/-- The entries where machine vertex 3 asks for machine vertex 0 only. -/
def mixS : ByPart.State :=
  [((0, 0), [((.mach 0, 0), ⟨1, false⟩), ((.mach 1, 0), ⟨1, false⟩)]),
   ((1, 0), [((.mach 0, 0), ⟨384, false⟩), ((.mach 1, 0), ⟨384, false⟩)])]

/-- The entries where it asks for application vertex 0. -/
def wholeS : ByPart.State :=
  [((0, 0), [((.mach 0, 0), ⟨1, false⟩), ((.mach 1, 0), ⟨1, false⟩)]),
   ((1, 0), [((.app 0, 0), ⟨384, false⟩)])]

def mixInfos : Infos :=
  [.mach 0 0 0 4294967280 0, .mach 0 1 16 4294967280 1, .app 0 0 0 4294967264 4294967280 4 1]

theorem mix_net {asks : VId} (h : asks = .app 0 ∨ asks = .mach 0) : NetContract (mixN asks) := by
  have h0 : NetContract (miniN false (miniT [(0, 0), (1, 0)] [((0, 0), 0), ((1, 0), 3)])
      (0, 0) [⟨0, (0, 0), 1, true⟩, ⟨0, (0, 0), 2, true⟩, ⟨1, (1, 0), 1, true⟩, ⟨2, (1, 0), 2, true⟩]
      [⟨0, 0, [1, 2]⟩] [0, 1, 2]) := mini_net (by decide) (by decide) (by decide)
  refine ⟨h0.merges, h0.owns, h0.sends, h0.within, h0.iter, h0.placed, h0.vector, ?_, h0.distinct⟩
  intro p hp d _ v hv s hs
  simp only [mixN, miniN, List.mem_singleton] at hp
  subst hp
  simp only [mixN, ne_eq, not_true_eq_false, if_false] at hv
  split at hv
  · simp only [List.mem_singleton] at hv
    subst hv
    exact Or.inl (by simpa using hs)
  · split at hv
    · simp only [List.mem_singleton] at hv
      subst hv
      simp only [List.mem_singleton] at hs
      subst hs
      rcases h with rfl | rfl
      · exact Or.inl rfl
      · exact Or.inr ⟨[0, 1], 0, by decide +kernel, by decide, rfl⟩
    · cases hv

theorem mix_noReturns (asks : VId) : NoReturns (mixN asks).base :=
  mini_noReturns false (by decide +kernel) (0, 0) _ [⟨0, 0, [1, 2]⟩] [0, 1, 2]

theorem mix_allSend (asks : VId) : NetAllSend (mixN asks) :=
  mini_allSend false (by decide) [⟨0, 0, [1, 2]⟩] [0, 1, 2]

theorem mix_outside (asks : VId) : NetOutside (mixN asks) := by
  intro a ident t l _ hl
  simp only [mixN, miniN, miniC] at hl
  split at hl <;> cases hl

theorem mix_positive (asks : VId) : Positive (mixN asks).base.T := by
  show ∀ c ∈ [((0, 0) : XY), (1, 0)], 0 ≤ c.1 ∧ 0 ≤ c.2
  decide

theorem mix_keys (asks : VId) : KeyContract (mixN asks) lineK := by
  have h := mini_keys false (miniT [(0, 0), (1, 0)] [((0, 0), 0), ((1, 0), 3)]) (0, 0)
    [⟨0, (0, 0), 1, true⟩, ⟨0, (0, 0), 2, true⟩, ⟨1, (1, 0), 1, true⟩, ⟨2, (1, 0), 2, true⟩]
    [⟨0, 0, [1, 2]⟩] [0, 1, 2]
  exact ⟨h.once, h.valid, h.validM, h.idle, h.counted, h.single, h.inside, h.apart, h.internal⟩

theorem mix_routed : Router.routeGraph (mixN (.mach 0)) 20 = .ok mixS := by decide +kernel
theorem whole_routed : Router.routeGraph (mixN (.app 0)) 20 = .ok wholeS := by decide +kernel
theorem mix_allocated (asks : VId) : Allocated (mixN asks) lineK mixInfos := by
  refine .flexible ?_
  show allocateFor true (mixN (.app 0)) lineK = .ok mixInfos
  decide +kernel

theorem mix_listed (asks : VId) : Listed (mixN asks) := by
  intro p hp
  simp only [mixN, miniN, List.mem_singleton] at hp
  subst hp
  simp [mixN, miniN]

theorem mix_leaves (asks : VId) : Router.Leaves (mixN asks) 0 0 :=
  Or.inl ⟨⟨0, 0, [1, 2]⟩, by simp [mixN, miniN], rfl, rfl⟩

theorem mix_sends (asks : VId) : NetSends (mixN asks) 0 0 1 :=
  Or.inl ⟨[0, 1], by show some (miniOut _ 0) = _; decide +kernel, by decide⟩

theorem mix_key : HasKey mixInfos 1 0 21 := ⟨16, 4294967280, 1, by decide, by decide⟩

/-! ### C87 -/

/-- C87: under the tables made for a graph, a packet of a machine vertex gets to no core but those of
vertices that it should get to. -/
def C87_full : Prop := ∀ (N : Net) (K : Keys) (fuel : Nat) (S : ByPart.State) (infos : Infos)
  (g : Generator) (same : Entry → Entry → Bool) (tm : TablesMap), NetContract N → Listed N →
  NoReturns N.base → NetAllSend N → NetOutside N → KeyContract N K → Positive N.base.T →
  Router.routeGraph N fuel = .ok S → Allocated N K infos →
  generate g same (ofInfos infos N.base.appOf) S = .ok tm →
  ∀ a ident m k, Router.Leaves N a ident → NetSends N a ident m → HasKey infos m ident k →
  ∀ c p, Valid.Reaches (sceneOf N.base.T tm) k (N.base.locate m).1 c p →
  ∃ t, NetWants N a ident m t ∧ (N.base.locate t).1 = c ∧ (N.base.locate t).2.1 = some p

/-- C87 is false: machine vertex 3 asked for machine vertex 0 only, but gets the packets of machine
vertex 1 too, as machine vertex 2 on the same chip asked for both of them before. -/
theorem C87_stray (g : Generator) (same : Entry → Entry → Bool) :
    ∃ tm, generate g same (ofInfos mixInfos (mixN (.mach 0)).base.appOf) mixS = .ok tm ∧
      Valid.Reaches (sceneOf (mixN (.mach 0)).base.T tm) 21 (0, 0) (1, 0) 2 ∧
      ∀ t, NetWants (mixN (.mach 0)) 0 0 1 t → ((mixN (.mach 0)).base.locate t).2.1 ≠ some 2 := by
  have hN := mix_net (asks := .mach 0) (Or.inr rfl)
  obtain ⟨tm, h1, h2, _⟩ := generate_ok g same hN (mix_noReturns _) (mix_keys _) (mix_positive _)
    mix_routed (mix_allocated _)
  have ht := Router.routeGraph_tidy hN (mix_noReturns _) mix_routed
  have hc := made_carries hN (mix_keys _) (mix_positive _) ht (mix_allocated _) h2 (mix_leaves _)
    (mix_sends _) mix_key
  obtain ⟨e, e1, e2⟩ := hc (0, 0) (by decide) ⟨1, false⟩ (by decide +kernel)
  obtain ⟨f, f1, f2⟩ := hc (1, 0) (by decide) ⟨384, false⟩ (by decide +kernel)
  refine ⟨tm, h1, ⟨[0], f, ?_, f1, by rw [f2]; decide⟩, ?_⟩
  · refine .hop (l := 0) .start e1 (by decide) (by rw [e2]; decide) ?_
    rw [link_iff]
    exact ⟨by decide, by decide⟩
  · rintro t (⟨p, hp, _, _, d, hd, v, hv, rfl, s, hs, hw⟩ | ⟨_, is, his, i, hi, _⟩)
    · simp only [mixN, ne_eq, not_true_eq_false, if_false] at hv
      split at hv
      · simp only [List.mem_singleton] at hv
        subst hv
        decide
      · split at hv
        · simp only [List.mem_singleton] at hv
          subst hv
          simp only [List.mem_singleton] at hs
          subst hs
          rcases hw with hw | ⟨hw, _⟩
          · cases hw
          · cases hw
        · cases hv
    · simp only [mixN, miniN] at his
      cases his
      cases hi

theorem C87_false : ¬ C87_full := by
  intro h
  obtain ⟨tm, h1, h2, h3⟩ := C87_stray .basic (fun _ _ => true)
  obtain ⟨t, k1, _, k2⟩ := h (mixN (.mach 0)) lineK 20 mixS mixInfos .basic _ tm (mix_net (Or.inr rfl))
    (mix_listed _) (mix_noReturns _) (mix_allSend _) (mix_outside _) (mix_keys _) (mix_positive _) mix_routed
    (mix_allocated _) h1 0 0 1 21 (mix_leaves _) (mix_sends _) mix_key (1, 0) 2 h2
  exact h3 t k1 k2

section
variable {N : Net} {K : Keys} {fuel : Nat} {S : ByPart.State} {infos : Infos} {g : Generator}
  {same : Entry → Entry → Bool} {tm : TablesMap} {a ident m : Nat} {k : Word}

/-- Where a packet that gets to a chip is sent from there. -/
theorem sent_of_way (hN : NetContract N) (hn : NoReturns N.base) (ho : NetOutside N) (hK : KeyContract N K)
    (hp : Positive N.base.T) (h : Router.routeGraph N fuel = .ok S) (ha : Allocated N K infos)
    (hg : generate g same (ofInfos infos N.base.appOf) S = .ok tm) (hl : Router.Leaves N a ident)
    (hm : NetSends N a ident m) (hk : HasKey infos m ident k) {c : XY} {b : Nat} {w : List Nat} {e : Entry}
    (hw : Valid.Way (sceneOf N.base.T tm) k (N.base.locate m).1 w c)
    (he : lookup ((sceneOf N.base.T tm).entries c) k = some e) (hb : e.route.testBit b = true) :
    Router.Sent (N.ctx ident) S ident m c b := by
  obtain ⟨tm', h1, h2, _⟩ := generate_ok g same hN hn hK hp h ha
  rw [hg] at h1
  cases h1
  have ht := Router.routeGraph_tidy hN hn h
  have hc := made_carries hN hK hp ht ha h2 hl hm hk
  obtain ⟨ms, j1, j2⟩ := sends_outgoing hK hm
  have hmet := fun c => Router.C79_met_partial hN hn ho h hl j1 j2 (c := c)
  have hcm := comes_of_way hp ht hc hmet hw
  cases hre : entryFor (N.ctx ident) S ident m c with
  | none => have := hmet c hcm; rw [hre] at this; cases this
  | some re =>
    obtain ⟨v, hv, -⟩ := entryFor_present hre
    obtain ⟨e', e1, e2⟩ := hc c (present_chip ht hv) re hre
    rw [e1] at he
    cases he
    exact ⟨re, hre, by rw [← e2]; exact hb⟩

/-- C87, the part that holds: where the targets on a chip ask for a source all as a whole or all by
machine vertices, a packet of a machine vertex gets to no core but those of vertices that it should get
to.
Missing: mixed chips (`C87_stray`); and as in `C83_only_partial`. -/
theorem C87_cores_partial (hN : NetContract N) (hL : Listed N) (hE : Even N) (hn : NoReturns N.base)
    (ho : NetOutside N) (hK : KeyContract N K) (hp : Positive N.base.T)
    (h : Router.routeGraph N fuel = .ok S) (ha : Allocated N K infos)
    (hg : generate g same (ofInfos infos N.base.appOf) S = .ok tm) (hl : Router.Leaves N a ident)
    (hm : NetSends N a ident m) (hk : HasKey infos m ident k) {c : XY} {p : Nat}
    (hr : Valid.Reaches (sceneOf N.base.T tm) k (N.base.locate m).1 c p) :
    ∃ t, NetWants N a ident m t ∧ (N.base.locate t).1 = c ∧
      ((N.base.locate t).2.1 = some p ∨ (N.base.locate t).2.2 = some (6 + p)) := by
  obtain ⟨w, e, hw, he, hb⟩ := hr
  have hs := sent_of_way hN hn ho hK hp h ha hg hl hm hk hw he hb
  obtain ⟨ms, j1, j2⟩ := sends_outgoing hK hm
  rcases Router.wanted_graph hN hn hE hL h hl j1 j2 hs with h1 | ⟨t, h1, h2, h3 | ⟨q, h3, h4⟩⟩
  · omega
  · exact ⟨t, h1, h2, Or.inr h3⟩
  · have : q = p := by omega
    subst this
    exact ⟨t, h1, h2, Or.inl h3⟩

/-- C87 for devices: a packet is sent over a link that is not one of the machine only to a device that
should get it.
Missing: as in `C87_cores_partial`. -/
theorem C87_links_partial (hN : NetContract N) (hL : Listed N) (hE : Even N) (hn : NoReturns N.base)
    (ho : NetOutside N) (hK : KeyContract N K) (hp : Positive N.base.T)
    (h : Router.routeGraph N fuel = .ok S) (ha : Allocated N K infos)
    (hg : generate g same (ofInfos infos N.base.appOf) S = .ok tm) (hl : Router.Leaves N a ident)
    (hm : NetSends N a ident m) (hk : HasKey infos m ident k) {c : XY} {l : Nat} (hl6 : l < 6)
    (hout : N.base.T.linkAt c l = false)
    (hr : Leads (sceneOf N.base.T tm) k (N.base.locate m).1 c l) :
    ∃ t, NetWants N a ident m t ∧ (N.base.locate t).1 = c ∧ (N.base.locate t).2.2 = some l := by
  obtain ⟨w, e, hw, he, hb⟩ := hr
  have hs := sent_of_way hN hn ho hK hp h ha hg hl hm hk hw he hb
  obtain ⟨ms, j1, j2⟩ := sends_outgoing hK hm
  rcases Router.wanted_graph hN hn hE hL h hl j1 j2 hs with h1 | ⟨t, h1, h2, h3 | ⟨q, h3, h4⟩⟩
  · rw [hout] at h1
    cases h1.2
  · exact ⟨t, h1, h2, h3⟩
  · omega

/-- C87, exactly: a packet gets to a core if and only if it should get to a vertex there.
Missing: as in `C87_cores_partial`; chips of a source where nothing sends (`C74_false`). -/
theorem C87_exact_partial (hN : NetContract N) (hL : Listed N) (hE : Even N) (hn : NoReturns N.base)
    (hs : NetAllSend N) (ho : NetOutside N) (hK : KeyContract N K) (hp : Positive N.base.T)
    (h : Router.routeGraph N fuel = .ok S) (ha : Allocated N K infos)
    (hg : generate g same (ofInfos infos N.base.appOf) S = .ok tm) (hl : Router.Leaves N a ident)
    (hm : NetSends N a ident m) (hk : HasKey infos m ident k)
    (h6 : ∀ t l, (N.base.locate t).2.2 = some l → l < 6) (c : XY) (p : Nat) :
    Valid.Reaches (sceneOf N.base.T tm) k (N.base.locate m).1 c p ↔
      ∃ t, NetWants N a ident m t ∧ (N.base.locate t).1 = c ∧ (N.base.locate t).2.1 = some p := by
  constructor
  · intro hr
    obtain ⟨t, h1, h2, h3 | h3⟩ := C87_cores_partial hN hL hE hn ho hK hp h ha hg hl hm hk hr
    · exact ⟨t, h1, h2, h3⟩
    · have := h6 t _ h3
      omega
  · rintro ⟨t, h1, rfl, h3⟩
    exact (C83_delivered_partial hN hn hs hK hp h ha hg h1 hk).2.1 p h3

end

/-- Where both ask for application vertex 0 as a whole. -/
theorem whole_even : Even (mixN (.app 0)) := by
  rintro a ident c _ _ _ (⟨p, hp, rfl, rfl, d, hd, v, hv, hc, hor⟩ | ⟨is, his, i, hi, _⟩)
  · simp only [mixN, miniN, List.mem_singleton] at hp
    subst hp
    simp only [mixN, ne_eq, not_true_eq_false, if_false] at hv
    simp only [List.mem_cons, List.not_mem_nil, or_false] at hd
    rcases hd with rfl | rfl
    · simp only [if_true, List.mem_singleton] at hv
      subst hv
      rcases hor with hor | ⟨m, hm⟩
      · cases hor
      · simp at hm
    · rw [if_neg (by decide), if_pos rfl, List.mem_singleton] at hv
      subst hv
      rcases hor with hor | ⟨m, hm⟩
      · cases hor
      · simp at hm
  · simp only [mixN, miniN] at his
    cases his
    cases hi

/-- Then the packets of machine vertex 1 get to cores 1 and 2 of (1, 0), both asked for, and nowhere
else. -/
example (g : Generator) (same : Entry → Entry → Bool) :
    ∃ tm, generate g same (ofInfos mixInfos (mixN (.app 0)).base.appOf) wholeS = .ok tm ∧
      Valid.Reaches (sceneOf (mixN (.app 0)).base.T tm) 21 (0, 0) (1, 0) 2 ∧
      ∀ c p, Valid.Reaches (sceneOf (mixN (.app 0)).base.T tm) 21 (0, 0) c p →
        ∃ t, NetWants (mixN (.app 0)) 0 0 1 t ∧ ((mixN (.app 0)).base.locate t).1 = c ∧
          ((mixN (.app 0)).base.locate t).2.1 = some p := by
  have hN := mix_net (asks := .app 0) (Or.inl rfl)
  obtain ⟨tm, h1, _⟩ := generate_ok g same hN (mix_noReturns _) (mix_keys _) (mix_positive _)
    whole_routed (mix_allocated _)
  have key := C87_exact_partial hN (mix_listed _) whole_even (mix_noReturns _) (mix_allSend _)
    (mix_outside _) (mix_keys _) (mix_positive _) whole_routed (mix_allocated _) h1 (mix_leaves _)
    (mix_sends _) mix_key (by
      intro t l hl
      simp only [mixN, miniN, miniC] at hl
      split at hl <;> cases hl)
  refine ⟨tm, h1, (key (1, 0) 2).mpr ⟨3, ?_, by decide, by decide⟩, fun c p => (key c p).mp⟩
  exact Or.inl ⟨⟨0, 0, [1, 2]⟩, by simp [mixN, miniN], rfl, rfl, 2, by simp, (3, [.app 0]),
    by simp [mixN], rfl, .app 0, by simp, Or.inr ⟨rfl, [0, 1], by decide +kernel, by decide⟩⟩

/-- As before, but machine vertex 3 is a device behind link 0 of (1, 0). -/
def devN : Net := { mixN (.app 0) with
  base := { (mixN (.app 0)).base with
    locate := fun m => if m = 3 then ((1, 0), none, some 0) else (mixN (.app 0)).base.locate m } }

def devS : ByPart.State :=
  [((0, 0), [((.mach 0, 0), ⟨1, false⟩), ((.mach 1, 0), ⟨1, false⟩)]),
   ((1, 0), [((.app 0, 0), ⟨129, false⟩)])]

theorem dev_net : NetContract devN := by
  have h := mix_net (asks := .app 0) (Or.inl rfl)
  refine ⟨h.merges, h.owns, h.sends, h.within, h.iter, fun m => ?_, h.vector, h.sources, h.distinct⟩
  simp only [devN]
  split
  · show ((1, 0) : XY) ∈ [(0, 0), (1, 0)]
    decide
  · exact h.placed m

theorem dev_routed : Router.routeGraph devN 20 = .ok devS := by decide +kernel

theorem dev_keys : KeyContract devN lineK := by
  have h := mix_keys (.app 0)
  exact ⟨h.once, h.valid, h.validM, h.idle, h.counted, h.single, h.inside, h.apart, h.internal⟩

theorem dev_outside : NetOutside devN := by
  intro a ident t l _ hl
  simp only [devN] at hl ⊢
  split at hl
  · rename_i ht
    rw [if_pos ht]
    cases hl
    decide
  · simp only [mixN, miniN, miniC] at hl
    split at hl <;> cases hl

theorem dev_even : Even devN := by
  rintro a ident c _ _ _ (⟨p, hp, rfl, rfl, d, hd, v, hv, hc, hor⟩ | ⟨is, his, i, hi, _⟩)
  · simp only [devN, mixN, miniN, List.mem_singleton] at hp
    subst hp
    simp only [devN, mixN, ne_eq, not_true_eq_false, if_false] at hv
    simp only [List.mem_cons, List.not_mem_nil, or_false] at hd
    rcases hd with rfl | rfl
    · simp only [if_true, List.mem_singleton] at hv
      subst hv
      rcases hor with hor | ⟨m, hm⟩
      · cases hor
      · simp at hm
    · rw [if_neg (by decide), if_pos rfl, List.mem_singleton] at hv
      subst hv
      rcases hor with hor | ⟨m, hm⟩
      · cases hor
      · simp at hm
  · simp only [devN, mixN, miniN] at his
    cases his
    cases hi

/-- The packets of machine vertex 1 leave the machine only for devices that should get them. -/
example (g : Generator) (same : Entry → Entry → Bool) :
    ∃ tm, generate g same (ofInfos mixInfos devN.base.appOf) devS = .ok tm ∧
      Leads (sceneOf devN.base.T tm) 21 (0, 0) (1, 0) 0 ∧
      ∃ t, NetWants devN 0 0 1 t ∧ (devN.base.locate t).1 = (1, 0) ∧ (devN.base.locate t).2.2 = some 0 := by
  have hn : NoReturns devN.base := mix_noReturns (.app 0)
  have hp : Positive devN.base.T := mix_positive (.app 0)
  have hal : Allocated devN lineK mixInfos := .flexible (by decide +kernel)
  obtain ⟨tm, h1, h2, _⟩ := generate_ok g same dev_net hn dev_keys hp dev_routed hal
  have ht := Router.routeGraph_tidy dev_net hn dev_routed
  have hl : Router.Leaves devN 0 0 := mix_leaves (.app 0)
  have hm : NetSends devN 0 0 1 := mix_sends (.app 0)
  have hc := made_carries dev_net dev_keys hp ht hal h2 hl hm mix_key
  obtain ⟨e, e1, e2⟩ := hc (0, 0) (by decide) ⟨1, false⟩ (by decide +kernel)
  obtain ⟨f, f1, f2⟩ := hc (1, 0) (by decide) ⟨129, false⟩ (by decide +kernel)
  have hlead : Leads (sceneOf devN.base.T tm) 21 (0, 0) (1, 0) 0 := by
    refine ⟨[0], f, ?_, f1, by rw [f2]; decide⟩
    refine .hop (l := 0) .start e1 (by decide) (by rw [e2]; decide) ?_
    rw [link_iff]
    exact ⟨by decide, by decide⟩
  exact ⟨tm, h1, hlead, C87_links_partial (c := (1, 0)) (l := 0) dev_net (mix_listed (.app 0)) dev_even hn
    dev_outside dev_keys hp dev_routed hal h1 hl hm mix_key (by decide) (by decide) hlead⟩

end Pacman.Pipe
