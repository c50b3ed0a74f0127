import Verif.Proofs.MappingRoutes
/-
C110 for a graph that has been partitioned with the built-in splitters and placed: it is routed.
-/

namespace Pacman.Split

open RPath (Intact ShortVector)
open Router (Ctx AppPart Net NoReturns Merges Connected Mutual Together Reaches)
open Plc (Store)
open Placer (given)

section
variable {E : Env} {mp : Nat → Option (List Nat)} {mv : Nat → MV} {next : Nat} {os : List Op} {W W' : World}
  {vs : List Nat} {cores sdram : Int} {n : Nat} {C : Ctx} {parts : List AppPart} {fuel : Nat}
  {M : Placer.Machine} {links : Nat → RPath.XY × Nat} {fixedApp : Nat → Bool} {sys : List Plc.Op} {s : Store}

theorem mapping_routed (hb : Built E mv next) (h : run E (World.new E mp mv next) os = W) (hL : Linked W)
    (hn : vs.Nodup) (hp : partition E W cores sdram vs = (W', .ok n)) (hu : ∀ v ∈ vs, Anew E W v)
    (hall : ∀ v s, (W.app v).splitter = some s → v ∈ vs) (hS : Site M C W' links) (hf : M.chips.length < fuel)
    (hsys : ∀ a ∈ Plc.placements (given sys), M.has (a.x, a.y) = true)
    (hap : ∀ a ∈ Plc.placements (given sys), ∀ v ∈ vs, a.vertex ∉ (W'.app v).machines)
    (hpl : placeFor M W' fixedApp vs fuel (given sys) = .ok s) (hA : SameLinks M C.T) (hM : Mutual C.T)
    (hr : NoReturns C) (hR : Reaches C) (hm : Merges C)
    (hdis : (parts.map (fun p => (p.pre, p.ident))).Nodup) (hne : ∀ p ∈ parts, p.edges ≠ [])
    (hout : ∀ p ∈ parts, ∃ m, Sender E W' p.pre m) (hrec : ∀ p ∈ parts, ∀ d ∈ p.edges, ∃ t, Receiver E W' d t)
    (hsrc : ∀ p ∈ parts, Settled E W' (Plc.placements s) links fixedApp p.pre)
    (htgt : ∀ p ∈ parts, ∀ d ∈ p.edges, Settled E W' (Plc.placements s) links fixedApp d ∨
      ∃ t, (W'.app d).splitter = some t ∧ E.kind t = .external) :
    ∃ k, ∀ fuel', k ≤ fuel' → ∃ S, routePlaced E W' C s links parts vs fuel' = .ok S := by
  have hW0 : Sound E W := by rw [← h]; exact sound_run os (sound_new hb)
  have hd := done_after hW0 hL hn hp hu hall
  have hL' := linked_after hL hp
  have hP := put_after (vs := vs) hS hL' hf hpl
  have hG := ground_after (vs := vs) hS hP hsys
  have hin : ∀ p ∈ parts, p.pre ∈ vs := by
    intro p hpp
    obtain ⟨m, t, ms, h1, -⟩ := hout p hpp
    exact hd.only _ t h1
  have hon : ∀ v ∈ vs, Settled E W' (Plc.placements s) links fixedApp v →
      Together C.T (fun c => ∃ m ∈ (W'.app v).machines, ((located C W' s links).locate m).1 = c) := by
    rintro v hv (⟨h1, -, h2⟩ | ⟨c, h1⟩)
    · exact placed_together hd.sound hL' hn hS hf hsys hap hpl hA hM hv h1 h2
    · refine Router.together_one (x := c) ?_
      rintro x ⟨m, hm, rfl⟩
      obtain ⟨q, k, h2⟩ := h1 m hm
      rw [locate_sits (C := C) hP h2]
  have hask := askAll_good hout hrec
  have hnear : ∀ p ∈ parts, Near E W' (located C W' s links) p.pre := by
    intro p hpp t ht hk m hm
    rcases hsrc p hpp with ⟨-, h1, -⟩ | ⟨c, h1⟩
    · exact absurd hk (h1 t ht)
    · obtain ⟨m', h2⟩ := hout p hpp
      refine ⟨m', h2, ?_⟩
      obtain ⟨q, k, h3⟩ := h1 m (receiver_known hd hm)
      obtain ⟨q', k', h4⟩ := h1 m' (sender_known hd h2)
      rw [locate_sits (C := C) hP h3, locate_sits (C := C) hP h4]
  have hroutable : Router.NetRoutable (netOf E W' (located C W' s links) parts vs) := by
    refine net_routable hd hin hne hout hrec (fun p hpp => hon _ (hin p hpp) (hsrc p hpp)) ?_
    intro p hpp d hdd
    obtain ⟨r, t, ts, h1, h2, h3⟩ := hrec p hpp d hdd
    rcases hd.shares d t h1 with ⟨-, h4⟩ | ⟨h4, -⟩
    · rcases htgt p hpp d hdd with h5 | ⟨t', h5, h6⟩
      · refine Router.together_congr (fun c => ?_) (hon d (hd.only d t h1) h5)
        constructor
        · rintro ⟨m, h6, h7⟩
          exact ⟨m, ⟨t, _, h1, h4, h6⟩, h7⟩
        · rintro ⟨m, h6, h7⟩
          exact ⟨m, receiver_known hd h6, h7⟩
      · rw [h1] at h5
        cases h5
        refine Router.together_one (x := ((located C W' s links).locate r).1) ?_
        rintro x ⟨r', ⟨t', ts', k1, k2, k3⟩, rfl⟩
        rw [h1] at k1
        cases k1
        rw [h2] at k2
        cases k2
        unfold inVerts at h2
        simp only [h6] at h2
        split at h2
        · cases h2
        · injection h2 with h2
          rw [← h2, List.mem_singleton] at h3 k3
          rw [h3, k3]
    · refine Router.together_one (x := ((located C W' s links).locate r).1) ?_
      rintro x ⟨r', ⟨t', ts', k1, k2, k3⟩, rfl⟩
      rw [h1] at k1
      cases k1
      rw [h2] at k2
      cases k2
      unfold inVerts at h2
      simp only [h4] at h2
      split at h2
      · cases h2
      · injection h2 with h2
        rw [← h2, List.mem_singleton] at h3 k3
        rw [h3, k3]
  obtain ⟨k, hk⟩ := Router.routeGraph_succeeds (net_contract (C := located C W' s links) hG hd hdis) hr hR hm
    (net_allSend (vs := vs) hd hask hnear) hroutable
  refine ⟨k, fun fuel' hf' => ?_⟩
  obtain ⟨S, hS'⟩ := hk fuel' hf'
  refine ⟨S, ?_⟩
  rw [(C99_placed_partial (parts := parts) (fuel' := fuel') hb h hL hn hp hu hall hS hf hpl hin).2.2]
  unfold routeFor
  rw [hask]
  exact hS'

/-- C110 for placed graphs: a graph that is `Anew` is partitioned and placed on a machine of which all chips can be reached from each
other over links that work both ways. If each source is no device and has no fixed location, or is on one chip, each target
is so or is a device, and something sends and something receives for each edge, then the graph is routed.
Missing: returning ways; `SplitterOneToOneLegacy` after a reset (`C89_forgotten`); fixed locations on several chips; devices that send from several chips. -/
theorem C110_placed_partial (hb : Built E mv next) (h : run E (World.new E mp mv next) os = W) (hL : Linked W)
    (hn : vs.Nodup) (hp : partition E W cores sdram vs = (W', .ok n)) (hu : ∀ v ∈ vs, Anew E W v)
    (hall : ∀ v s, (W.app v).splitter = some s → v ∈ vs) (hS : Site M C W' links) (hf : M.chips.length < fuel)
    (hsys : ∀ a ∈ Plc.placements (given sys), M.has (a.x, a.y) = true)
    (hap : ∀ a ∈ Plc.placements (given sys), ∀ v ∈ vs, a.vertex ∉ (W'.app v).machines)
    (hpl : placeFor M W' fixedApp vs fuel (given sys) = .ok s) (hA : SameLinks M C.T) (hM : Mutual C.T)
    (hr : NoReturns C) (hT : Connected C.T) (hm : Merges C)
    (hdis : (parts.map (fun p => (p.pre, p.ident))).Nodup) (hne : ∀ p ∈ parts, p.edges ≠ [])
    (hout : ∀ p ∈ parts, ∃ m, Sender E W' p.pre m) (hrec : ∀ p ∈ parts, ∀ d ∈ p.edges, ∃ t, Receiver E W' d t)
    (hsrc : ∀ p ∈ parts, Settled E W' (Plc.placements s) links fixedApp p.pre)
    (htgt : ∀ p ∈ parts, ∀ d ∈ p.edges, Settled E W' (Plc.placements s) links fixedApp d ∨
      ∃ t, (W'.app d).splitter = some t ∧ E.kind t = .external) :
    ∃ k, ∀ fuel', k ≤ fuel' → ∃ S, routePlaced E W' C s links parts vs fuel' = .ok S :=
  mapping_routed hb h hL hn hp hu hall hS hf hsys hap hpl hA hM hr
    (fun a b ha hb => RPath.withoutErrors_reaches hT.owned hT.reach (hS.vector a b ha hb) ha hb
      (fun ms h => hr a b ms ha hb h)) hm hdis hne hout hrec hsrc htgt

/-- C110 for placed graphs on a machine without faults, with shortest vectors: as `C110_placed_partial`, but nothing is asked
of the ways that the router finds.
Missing: `SplitterOneToOneLegacy` after a reset (`C89_forgotten`); fixed locations on several chips; devices that send from several chips. -/
theorem C110_whole_partial (hb : Built E mv next) (h : run E (World.new E mp mv next) os = W) (hL : Linked W)
    (hn : vs.Nodup) (hp : partition E W cores sdram vs = (W', .ok n)) (hu : ∀ v ∈ vs, Anew E W v)
    (hall : ∀ v s, (W.app v).splitter = some s → v ∈ vs) (hS : Site M C W' links) (hf : M.chips.length < fuel)
    (hsys : ∀ a ∈ Plc.placements (given sys), M.has (a.x, a.y) = true)
    (hap : ∀ a ∈ Plc.placements (given sys), ∀ v ∈ vs, a.vertex ∉ (W'.app v).machines)
    (hpl : placeFor M W' fixedApp vs fuel (given sys) = .ok s) (hA : SameLinks M C.T) (hT : Intact C.T)
    (hv : ∀ a b, a ∈ C.T.chips → b ∈ C.T.chips → ShortVector C.T a b (C.vector a b)) (hm : Merges C)
    (hdis : (parts.map (fun p => (p.pre, p.ident))).Nodup) (hne : ∀ p ∈ parts, p.edges ≠ [])
    (hout : ∀ p ∈ parts, ∃ m, Sender E W' p.pre m) (hrec : ∀ p ∈ parts, ∀ d ∈ p.edges, ∃ t, Receiver E W' d t)
    (hsrc : ∀ p ∈ parts, Settled E W' (Plc.placements s) links fixedApp p.pre)
    (htgt : ∀ p ∈ parts, ∀ d ∈ p.edges, Settled E W' (Plc.placements s) links fixedApp d ∨
      ∃ t, (W'.app d).splitter = some t ∧ E.kind t = .external) :
    ∃ k, ∀ fuel', k ≤ fuel' → ∃ S, routePlaced E W' C s links parts vs fuel' = .ok S :=
  mapping_routed hb h hL hn hp hu hall hS hf hsys hap hpl hA (Router.intact_mutual hT) (C109_noReturns hT hv)
    (Router.intact_reaches hT hv) hm hdis hne hout hrec hsrc htgt

end

/-! ### The hypotheses hold for the device and the vertices of C98 on a board with 48 chips -/

theorem full_links : SameLinks fullM RPath.spin5 := by
  intro c hc d hd
  obtain ⟨l, hl, hd⟩ := List.mem_filterMap.1 hd
  split at hd
  · rename_i h0
    injection hd with hd
    refine ⟨l, List.mem_range.1 hl, h0, ?_⟩
    have h1 : RPath.spin5.over ((c.1 : Int), (c.2 : Int)) l ∈ RPath.spin5.chips := of_decide_eq_true h0
    have h2 := (RPath.spin5_board.all _).1 h1
    simp only at h2
    rw [← hd]
    refine Prod.ext ?_ ?_
    · exact (Int.toNat_of_nonneg h2.1.1).symm
    · exact (Int.toNat_of_nonneg h2.2.1.1).symm
  · cases hd

theorem full_settled : ∀ v ∈ [0, 1, 2], Settled devE devD (Plc.placements fullStore) devLinks (fun _ => false) v := by
  intro v hv
  simp only [List.mem_cons, List.not_mem_nil, or_false] at hv
  rcases hv with rfl | rfl | rfl
  · right
    refine ⟨(0, 0), ?_⟩
    intro m hm
    have h1 : (devD.app 0).machines = [0, 1] := by decide +kernel
    rw [h1] at hm
    simp only [List.mem_cons, List.not_mem_nil, or_false] at hm
    rcases hm with rfl | rfl
    · exact ⟨_, _, .link (i := 7) (b := true) (by decide +kernel)⟩
    · exact ⟨_, _, .link (i := 8) (b := false) (by decide +kernel)⟩
  · left
    refine ⟨rfl, ?_, by decide +kernel⟩
    intro t ht
    rw [dev_splitter, dev_app] at ht
    cases ht
    decide
  · left
    refine ⟨rfl, ?_, by decide +kernel⟩
    intro t ht
    rw [dev_splitter, dev_app] at ht
    cases ht
    decide

example : ∃ k, ∀ fuel', k ≤ fuel' → ∃ S, routePlaced devE devD fullC fullStore devLinks devP [0, 1, 2] fuel' = .ok S := by
  have hr : ∀ d ∈ [0, 1, 2], ∃ t, Receiver devE devD d t := by
    intro d hd
    simp only [List.mem_cons, List.not_mem_nil, or_false] at hd
    rcases hd with rfl | rfl | rfl
    · exact ⟨1, 0, [1], by decide +kernel, by decide +kernel, by decide⟩
    · exact ⟨2, 1, [2], by decide +kernel, by decide +kernel, by decide⟩
    · exact ⟨3, 2, [3], by decide +kernel, by decide +kernel, by decide⟩
  have he : ∀ p ∈ devP, p.pre ∈ [0, 1, 2] ∧ ∀ d ∈ p.edges, d ∈ [0, 1, 2] := by decide
  exact C110_whole_partial (C := fullC) (os := [.setSplitter 0 0, .setSplitter 1 1, .setSplitter 2 2]) (W := devW) (n := 1)
    (fuel := 50) (cores := 17) (sdram := 100) (sys := devSys) (fixedApp := fun _ => false)
    dev_built rfl dev_linked (by decide) dev_done dev_anew
    dev_all full_site (by decide +kernel) (by decide +kernel) (by decide +kernel) full_store full_links RPath.spin5_intact
    (fun a b _ _ => RPath.hexVector_short RPath.spin5_board.grid a b) (fun a b => ⟨_, rfl⟩) (by decide) (by decide)
    (by
      intro p hp
      simp only [devP, List.mem_cons, List.not_mem_nil, or_false] at hp
      rcases hp with rfl | rfl
      · exact ⟨0, 0, [0], by decide +kernel, by decide +kernel, by decide⟩
      · exact ⟨2, 1, [2], by decide +kernel, by decide +kernel, by decide⟩)
    (fun p hp d hd => hr d ((he p hp).2 d hd)) (fun p hp => full_settled _ (he p hp).1)
    (fun p hp d hd => Or.inl (full_settled d ((he p hp).2 d hd)))

/-! ### A device that sends from two chips -/

/-- As `devE`, but the device also sends on link 9. -/
def twoE : Env where
  app := fun v =>
    match v with
    | 0 => ⟨[4], false, fun _ => 0, none, some (.fpga 1 [7, 9] none none)⟩
    | _ => ⟨[4], true, fun _ => 0, none, none⟩
  kind := fun s => if s = 0 then .external else .fixed

def twoNew : World := World.new twoE (fun _ => none) (fun _ => ⟨⟨0, 1, none⟩, 0, 0, 0, none⟩) 0

def twoD : World := (partition twoE (resetGraph twoE (run twoE twoNew [.setSplitter 0 0, .setSplitter 1 1]) [0, 1]) 17 100
  [0, 1]).1

def twoStore : Store := (placeFor devM twoD (fun _ => false) [0, 1] 5 (given [])).toOption.getD Plc.Store.empty

/-- Link 7 is at one end of the row, link 9 at the other. -/
def twoLinks (i : Nat) : RPath.XY × Nat := if i = 7 then ((0, 1), 3) else ((2, 0), 0)

/-- A device whose links for sending are on chips that are not next to each other: the graph is partitioned and placed, but
routing raises, since only chips of the source may be on the way from one of them to the other. -/
theorem C110_device_apart :
    placeFor devM twoD (fun _ => false) [0, 1] 5 (given []) = .ok twoStore ∧
    outVerts twoE twoD 0 = .ok [0, 1] ∧ inVerts twoE twoD 1 = .ok [2] ∧
    routePlaced twoE twoD devBase twoStore twoLinks [⟨0, 0, [1]⟩] [0, 1] 30 = .error .routing := by
  decide +kernel

end Pacman.Split
