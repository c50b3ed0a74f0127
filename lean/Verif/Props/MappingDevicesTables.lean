import Verif.Props.MappingDevices
import Verif.Props.MappingChecked
/-
C118, C119 and C124 from the graph alone, for graphs with devices.
-/

namespace Pacman.Split

open Slices (Slice mkSlice)
open Router (Ctx AppPart Merges KeepsFlag heading)
open Pipe (Keys Generator HasKey sceneOf Positive allocateFor generate FixedBlocks Compressed Delivers Lands checked
  sureKeys)
open Gen (ofInfos)
open Plc (Store)
open Placer (given)

section
variable {E : Env} {mp : Nat → Option (List Nat)} {mv : Nat → MV} {next : Nat} {os : List Op} {W W' : World}
  {vs : List Nat} {k a i j c n : Nat} {sdram : Int} {fuel : Nat} {C : Ctx} {parts : List AppPart} {K : Keys}
  {M : Placer.Machine} {links : Nat → RPath.XY × Nat} {fixedApp : Nat → Bool} {fl : Bool} {s : Store}

/-- On the chip of a machine vertex of a device that sends there is one that sends. -/
theorem mixed_near (hafter : ∀ v ∈ vs, (External E W v → OnLinks E W W' v) ∧ (¬ External E W v → OnCores E W W' k sdram v))
    (hin : ∀ p ∈ parts, p.pre ∈ vs) (hnear : ∀ p ∈ parts, External E W p.pre → OneChip E links p.pre)
    (hsends : ∀ x ∈ pairs parts K, ∃ ms, Sends E W' x ms ∧ ms.length = sendersFor E W x.1)
    (hmany : ∀ x ∈ pairs parts K, 0 < sendersFor E W x.1) :
    ∀ p ∈ parts, ∀ t, E.kind t = .external → (W'.app p.pre).splitter = some t → ∀ m, Receiver E W' p.pre m →
      ∀ c q l, Sits W' (Plc.placements s) links m c q l →
      ∃ m', Sender E W' p.pre m' ∧ ∃ q' l', Sits W' (Plc.placements s) links m' c q' l' := by
  intro p hpp t hk ht m hm c q l hsit
  have hpart : (p.pre, p.ident) ∈ pairs parts K := List.mem_append_left _ (List.mem_map.2 ⟨p, hpp, rfl⟩)
  by_cases hx : External E W p.pre
  · obtain ⟨t', d, e1, e2, e3, -, -, e4, -, e5⟩ := ((hafter _ (hin p hpp)).1 hx).device
    rw [ht] at e1
    injection e1 with e1
    subst e1
    obtain ⟨d', e6, cc, e7⟩ := hnear p hpp hx
    rw [e3] at e6
    injection e6 with e6
    subst e6
    obtain ⟨ms, ⟨t2, f1, f2⟩, f3⟩ := hsends _ hpart
    have f4 := hmany _ hpart
    rw [← f3] at f4
    obtain ⟨m', hm'⟩ := List.exists_mem_of_length_pos f4
    rw [ht] at f1
    injection f1 with f1
    subst f1
    have hms : ms = (W'.spl t).inV := by
      unfold outVerts at f2
      simp only [hk] at f2
      split at f2
      · cases f2
      · injection f2 with f2
        exact f2.symm
    obtain ⟨l1, g1, b1, g2⟩ := e5 m' (by rw [e4]; exact List.mem_append_left _ (hms ▸ hm'))
    have hmm : m ∈ (W'.app p.pre).machines := by
      obtain ⟨t3, ts, i1, i2, i3⟩ := hm
      rw [ht] at i1
      injection i1 with i1
      subst i1
      unfold inVerts at i2
      simp only [hk] at i2
      split at i2
      · cases i2
      · rename_i mo hmo
        injection i2 with i2
        rw [← i2] at i3
        rw [e4, hmo]
        exact List.mem_append_right _ i3
    obtain ⟨l2, g3, b2, g4⟩ := e5 m hmm
    have hc : c = cc := by
      cases hsit with
      | link h0 =>
        rw [g4] at h0
        injection h0 with h0
        injection h0 with h0 _
        rw [← h0]
        exact e7 _ g3
      | core h0 _ _ => rw [g4] at h0; cases h0
    refine ⟨m', ⟨t, ms, ht, f2, hm'⟩, none, some (links l1).2, ?_⟩
    rw [hc, ← e7 l1 g1]
    exact .link g2
  · exact absurd hk (((hafter _ (hin p hpp)).2 hx).kind t ht)

/-- The machine vertices that send for a vertex. -/
def sendersOf (E : Env) (W : World) (v : Nat) : List Nat :=
  match (W.app v).splitter with
  | none => []
  | some t =>
    match outVerts E W t with
    | .error _ => []
    | .ok ms => ms

theorem sendersOf_eq {v t : Nat} {ms : List Nat} (h : (W.app v).splitter = some t) (h1 : outVerts E W t = .ok ms) :
    sendersOf E W v = ms := by
  unfold sendersOf
  rw [h]
  simp only [h1]

/-- As `mapped_devices`, with compressed tables. -/
theorem compressed_devices (hb : Built E mv next) (h : runOk E (World.new E mp mv next) os = some W)
    (hn : vs.Nodup) (hall : ∀ v s, (W.app v).splitter = some s → v ∈ vs)
    (hv : ∀ v ∈ vs, Plain E W k a sdram v ∨ Lone E W k sdram v ∨ External E W v) (hS : Site M C W links) (hk : 0 < k)
    (hE : Even M k sdram) (hf : M.chips.length < fuel) (hfree : ∀ v ∈ vs, fixedApp v = false)
    (hroom : Placer.AllFind M k 0 (vs.map (coresOn E W))) (hA : SameLinks M C.T) (hT : Passable C)
    (hm : Merges C) (hflag : KeepsFlag C) (hpos : Positive C.T)
    (hdis : (parts.map (fun p => (p.pre, p.ident))).Nodup) (hne : ∀ p ∈ parts, p.edges ≠ [])
    (hin : ∀ p ∈ parts, p.pre ∈ vs ∧ ∀ d ∈ p.edges, d ∈ vs)
    (hnear : ∀ p ∈ parts, External E W p.pre → OneChip E links p.pre)
    (htakes : ∀ p ∈ parts, ∀ d ∈ p.edges, External E W d → ∃ x, (E.app d).device = some x ∧ x.receives = true)
    (hpv : ∀ x ∈ pairs parts K, x.1 ∈ vs) (hmany : ∀ x ∈ pairs parts K, 0 < sendersFor E W x.1)
    (hkeys : ∀ W' n, partition E (resetGraph E W vs) k sdram vs = (W', .ok n) →
      (∀ x ∈ pairs parts K, ∃ ms, Sends E W' x ms ∧ ms.length = sendersFor E W x.1) → KeysFit E W' parts K ∧ KeysClear fl E W' parts K) :
    ∃ W' n, partition E (resetGraph E W vs) k sdram vs = (W', .ok n) ∧
    ∃ s, placeFor M W' fixedApp vs fuel (given []) = .ok s ∧
    ∃ k, ∀ fuel', k ≤ fuel' → ∃ S infos, routePlaced E W' C s links parts vs fuel' = .ok S ∧
      allocateFor fl (netOf E W' (located C W' s links) parts vs) K = .ok infos ∧
      ∀ (g : Generator) (same : Entry → Entry → Bool), ∃ tm,
        generate g same (ofInfos infos (netOf E W' (located C W' s links) parts vs).base.appOf) S = .ok tm ∧
        ∀ env tm', Compressed env g (FixedBlocks K) tm tm' →
        ∀ p ∈ parts, ∀ m, Sender E W' p.pre m → (∃ k, HasKey infos m p.ident k) ∧ ∀ k, HasKey infos m p.ident k →
          ∃ c q l, Sits W' (Plc.placements s) links m c q l ∧
            Delivers (sceneOf C.T tm') C.T.chips.length k c (heading (c, q, l)) (Plc.placements s)
              (fun v => (W'.mv v).dev = none ∧ ∃ d ∈ p.edges, Receiver E W' d v) ∧
            (∀ d ∈ p.edges, ∀ t, Receiver E W' d t → ∀ c' q' l', Sits W' (Plc.placements s) links t c' q' (some l') →
              ∃ w, Lands (sceneOf C.T tm') k c (heading (c, q, l)) w c' l') := by
  obtain ⟨W', n, hp, -, hsends, s, hpl, k0, hk0⟩ := mapped_devices (fl := fl) (fixedApp := fixedApp) (links := links) hb h hn
    hall hv hS hk hE hf hfree hroom hA hT hm hpos hdis hne hin hnear htakes hpv hmany hkeys
  refine ⟨W', n, hp, s, hpl, k0, fun fuel' hf' => ?_⟩
  obtain ⟨S, infos, h1, h2, h3⟩ := hk0 fuel' hf'
  refine ⟨S, infos, h1, h2, fun g same => ?_⟩
  obtain ⟨tm, h4, h5⟩ := h3 g same
  refine ⟨tm, h4, fun env tm' hcomp p hpp m hmm => ?_⟩
  refine ⟨(h5 p hpp m hmm).1, fun key hkey => ?_⟩
  have hrun0 := runOk_run os h
  have hL := linked_runOk os (linked_new E mp mv next) h
  have hW0 : Sound E W := by rw [← hrun0]; exact sound_run os (sound_new hb)
  have hL0 := (keeps_resetGraph E W vs).linked hL
  obtain ⟨hu, hsite, hafter⟩ := mixed_after hb h hn hall hv hS hp
  have hd := done_after (sound_resetGraph hW0 vs) hL0 hn hp hu (all_reset hall)
  obtain ⟨hfit, hcl⟩ := hkeys W' n hp hsends
  have hnear' := mixed_near (s := s) hafter (fun p hp => (hin p hp).1) hnear hsends hmany
  have hterms := net_terms (C := located C W' s links) (vs := vs) hfit
  exact C118_mapped_partial (links := links) (fixedApp := fixedApp) (sys := []) hb (run_resetGraph hrun0 vs) hL0
    hn hp hu (all_reset hall) hsite hf (by intro a ha; cases ha) hpl hT.clean hflag hpos hdis (fun p hp => (hin p hp).1)
    hnear' hterms h1 ⟨fl, net_clear hcl, h2⟩ h4 hcomp hpp hmm hkey

/-- As `compressed_devices`, for routers that take as many entries as there are machine vertices that send. -/
theorem fitting_devices (hb : Built E mv next) (h : runOk E (World.new E mp mv next) os = some W)
    (hn : vs.Nodup) (hall : ∀ v s, (W.app v).splitter = some s → v ∈ vs)
    (hv : ∀ v ∈ vs, Plain E W k a sdram v ∨ Lone E W k sdram v ∨ External E W v) (hS : Site M C W links) (hk : 0 < k)
    (hE : Even M k sdram) (hf : M.chips.length < fuel) (hfree : ∀ v ∈ vs, fixedApp v = false)
    (hroom : Placer.AllFind M k 0 (vs.map (coresOn E W))) (hA : SameLinks M C.T) (hT : Passable C)
    (hm : Merges C) (hflag : KeepsFlag C) (hpos : Positive C.T)
    (hdis : (parts.map (fun p => (p.pre, p.ident))).Nodup) (hne : ∀ p ∈ parts, p.edges ≠ [])
    (hin : ∀ p ∈ parts, p.pre ∈ vs ∧ ∀ d ∈ p.edges, d ∈ vs)
    (hnear : ∀ p ∈ parts, External E W p.pre → OneChip E links p.pre)
    (htakes : ∀ p ∈ parts, ∀ d ∈ p.edges, External E W d → ∃ x, (E.app d).device = some x ∧ x.receives = true)
    (hpv : ∀ x ∈ pairs parts K, x.1 ∈ vs) (hmany : ∀ x ∈ pairs parts K, 0 < sendersFor E W x.1)
    (hkeys : ∀ W' n, partition E (resetGraph E W vs) k sdram vs = (W', .ok n) →
      (∀ x ∈ pairs parts K, ∃ ms, Sends E W' x ms ∧ ms.length = sendersFor E W x.1) → KeysFit E W' parts K ∧ KeysClear fl E W' parts K)
    {env : Driver.Env}
    (henv : ∀ d ∈ C.T.chips, ∃ n, env.target (Pipe.place d) = some n ∧ (parts.map (fun p => sendersFor E W p.pre)).sum ≤ n) :
    ∃ W' n, partition E (resetGraph E W vs) k sdram vs = (W', .ok n) ∧
    ∃ s, placeFor M W' fixedApp vs fuel (given []) = .ok s ∧
    ∃ k, ∀ fuel', k ≤ fuel' → ∃ S infos, routePlaced E W' C s links parts vs fuel' = .ok S ∧
      allocateFor fl (netOf E W' (located C W' s links) parts vs) K = .ok infos ∧
      ∀ (g : Generator) (same : Entry → Entry → Bool), ∃ tm,
        generate g same (ofInfos infos (netOf E W' (located C W' s links) parts vs).base.appOf) S = .ok tm ∧
        Driver.Fit env tm ∧ Pipe.AllReturn env (FixedBlocks K) tm ∧ ∀ tm', Compressed env g (FixedBlocks K) tm tm' →
        ∀ p ∈ parts, ∀ m, Sender E W' p.pre m → (∃ k, HasKey infos m p.ident k) ∧ ∀ k, HasKey infos m p.ident k →
          ∃ c q l, Sits W' (Plc.placements s) links m c q l ∧
            Delivers (sceneOf C.T tm') C.T.chips.length k c (heading (c, q, l)) (Plc.placements s)
              (fun v => (W'.mv v).dev = none ∧ ∃ d ∈ p.edges, Receiver E W' d v) ∧
            (∀ d ∈ p.edges, ∀ t, Receiver E W' d t → ∀ c' q' l', Sits W' (Plc.placements s) links t c' q' (some l') →
              ∃ w, Lands (sceneOf C.T tm') k c (heading (c, q, l)) w c' l') := by
  obtain ⟨W', n, hp, s, hpl, k0, hk0⟩ := compressed_devices (fl := fl) (fixedApp := fixedApp) (links := links) hb h hn
    hall hv hS hk hE hf hfree hroom hA hT hm hflag hpos hdis hne hin hnear htakes hpv hmany hkeys
  refine ⟨W', n, hp, s, hpl, k0, fun fuel' hf' => ?_⟩
  obtain ⟨S, infos, h1, h2, h3⟩ := hk0 fuel' hf'
  refine ⟨S, infos, h1, h2, fun g same => ?_⟩
  obtain ⟨tm, h4, h5⟩ := h3 g same
  have hrun0 := runOk_run os h
  have hL := linked_runOk os (linked_new E mp mv next) h
  have hW0 : Sound E W := by rw [← hrun0]; exact sound_run os (sound_new hb)
  have hL0 := (keeps_resetGraph E W vs).linked hL
  obtain ⟨hu, hsite, hafter⟩ := mixed_after hb h hn hall hv hS hp
  have hd := done_after (sound_resetGraph hW0 vs) hL0 hn hp hu (all_reset hall)
  have hsends := mixed_sends hafter hd.some_ hpv hmany
  obtain ⟨hfit, hcl⟩ := hkeys W' n hp hsends
  have hnear' := mixed_near (s := s) hafter (fun p hp => (hin p hp).1) hnear hsends hmany
  have hterms := net_terms (C := located C W' s links) (vs := vs) hfit
  have hP := put_after (vs := vs) hsite (linked_after hL0 hp) hf hpl
  have hG := ground_after (vs := vs) hsite hP (by intro a ha; cases ha)
  have hN := net_contract (C := located C W' s links) hG hd hdis
  obtain ⟨-, -, hplaced⟩ := C99_placed_partial (parts := parts) (fuel' := fuel') (links := links) hb (run_resetGraph hrun0 vs) hL0 hn hp hu
    (all_reset hall) hsite hf hpl (fun p hp => (hin p hp).1)
  rw [hplaced] at h1
  unfold routeFor at h1
  split at h1
  · cases h1
  · obtain ⟨h6, h7⟩ := Pipe.C119_few_partial (env := env)
      (L := parts.flatMap (fun p => (sendersOf E W' p.pre).map (fun m => (m, p.ident)))) hN
      hT.clean (net_keys hd hterms)
      hpos h1 ⟨fl, net_clear hcl, h2⟩ h4 (by
        intro a ident m hl hs
        rcases hl with ⟨p, hpp, rfl, rfl⟩ | ⟨-, is, his, i, hi, -⟩
        · refine List.mem_flatMap.2 ⟨p, hpp, List.mem_map.2 ⟨m, ?_, rfl⟩⟩
          obtain ⟨t, ms, e1, e2, e3⟩ := net_sends.1 hs
          rw [sendersOf_eq e1 e2]
          exact e3
        · rw [net_internals his] at hi; cases hi) (by
        intro d hd
        obtain ⟨n, e1, e2⟩ := henv d hd
        refine ⟨n, e1, ?_⟩
        rw [List.length_flatMap]
        refine Nat.le_trans (Nat.le_of_eq ?_) e2
        congr 1
        refine List.map_congr_left (fun p hpp => ?_)
        rw [List.length_map]
        obtain ⟨ms, ⟨t, e3, e4⟩, e5⟩ := hsends (p.pre, p.ident) (List.mem_append_left _ (List.mem_map.2 ⟨p, hpp, rfl⟩))
        rw [sendersOf_eq e3 e4]
        exact e5)
    exact ⟨tm, h4, h6, h7, fun tm' hc' => h5 env tm' hc'⟩

/-- C118 from the graph alone, with devices: as in `C111_devices_partial` a graph is mapped onto a machine on which ways are found.
Whatever one of the compressors returns for the tables, each machine vertex that sends has keys, and packets with them get to
exactly the cores of the vertices that receive, and to the links of the devices that do.
Missing: as in `C118_mapped_partial` and `C111_devices_partial`. -/
theorem C118_devices_partial (hb : Built E mv next) (h : runOk E (World.new E mp mv next) os = some W)
    (hn : vs.Nodup) (hall : ∀ v s, (W.app v).splitter = some s → v ∈ vs)
    (hv : ∀ v ∈ vs, Plain E W k a sdram v ∨ Lone E W k sdram v ∨ External E W v) (hS : Site M C W links) (hk : 0 < k)
    (hE : Even M k sdram) (hf : M.chips.length < fuel) (hfree : ∀ v ∈ vs, fixedApp v = false)
    (hroom : Placer.AllFind M k 0 (vs.map (coresOn E W))) (hA : SameLinks M C.T) (hT : Passable C)
    (hm : Merges C) (hflag : KeepsFlag C) (hpos : Positive C.T)
    (hdis : (parts.map (fun p => (p.pre, p.ident))).Nodup) (hne : ∀ p ∈ parts, p.edges ≠ [])
    (hin : ∀ p ∈ parts, p.pre ∈ vs ∧ ∀ d ∈ p.edges, d ∈ vs)
    (hnear : ∀ p ∈ parts, External E W p.pre → OneChip E links p.pre)
    (htakes : ∀ p ∈ parts, ∀ d ∈ p.edges, External E W d → ∃ x, (E.app d).device = some x ∧ x.receives = true)
    (hK : Modest fl (sendersFor E W) vs parts K i j c) (hbits : i + j + c ≤ 32)
    (hmany : ∀ x ∈ pairs parts K, 0 < sendersFor E W x.1 ∧ sendersFor E W x.1 ≤ 2 ^ i) :
    ∃ W' n, partition E (resetGraph E W vs) k sdram vs = (W', .ok n) ∧
    ∃ s, placeFor M W' fixedApp vs fuel (given []) = .ok s ∧
    ∃ k, ∀ fuel', k ≤ fuel' → ∃ S infos, routePlaced E W' C s links parts vs fuel' = .ok S ∧
      allocateFor fl (netOf E W' (located C W' s links) parts vs) K = .ok infos ∧
      ∀ (g : Generator) (same : Entry → Entry → Bool), ∃ tm,
        generate g same (ofInfos infos (netOf E W' (located C W' s links) parts vs).base.appOf) S = .ok tm ∧
        ∀ env tm', Compressed env g (FixedBlocks K) tm tm' →
        ∀ p ∈ parts, ∀ m, Sender E W' p.pre m → (∃ k, HasKey infos m p.ident k) ∧ ∀ k, HasKey infos m p.ident k →
          ∃ c q l, Sits W' (Plc.placements s) links m c q l ∧
            Delivers (sceneOf C.T tm') C.T.chips.length k c (heading (c, q, l)) (Plc.placements s)
              (fun v => (W'.mv v).dev = none ∧ ∃ d ∈ p.edges, Receiver E W' d v) ∧
            (∀ d ∈ p.edges, ∀ t, Receiver E W' d t → ∀ c' q' l', Sits W' (Plc.placements s) links t c' q' (some l') →
              ∃ w, Lands (sceneOf C.T tm') k c (heading (c, q, l)) w c' l') := by
  have hpv : ∀ x ∈ pairs parts K, x.1 ∈ vs := pairs_in (fun p hp => (hin p hp).1) hK.asked
  refine compressed_devices hb h hn hall hv hS hk hE hf hfree hroom hA hT hm hflag hpos hdis hne hin hnear htakes hpv
    (fun x hx => (hmany x hx).1) (fun W' n hp hsends => ?_)
  exact keys_after hK hbits hmany (fun x hx => (hsends x hx).imp fun _ h => h.1) (sends_length hsends)

/-- C119 from the graph alone, with devices: if, as in `C111_devices_partial`, a graph is mapped onto a machine on which ways are
found, whose routers take as many entries as there are machine vertices that send, then the tables fit, and each of the
compressors, in each of its modes, returns tables that fit. What it returns delivers as `C118_devices_partial` says.
Missing: as in `C118_devices_partial`. -/
theorem C119_devices_partial (hb : Built E mv next) (h : runOk E (World.new E mp mv next) os = some W)
    (hn : vs.Nodup) (hall : ∀ v s, (W.app v).splitter = some s → v ∈ vs)
    (hv : ∀ v ∈ vs, Plain E W k a sdram v ∨ Lone E W k sdram v ∨ External E W v) (hS : Site M C W links) (hk : 0 < k)
    (hE : Even M k sdram) (hf : M.chips.length < fuel) (hfree : ∀ v ∈ vs, fixedApp v = false)
    (hroom : Placer.AllFind M k 0 (vs.map (coresOn E W))) (hA : SameLinks M C.T) (hT : Passable C)
    (hm : Merges C) (hflag : KeepsFlag C) (hpos : Positive C.T)
    (hdis : (parts.map (fun p => (p.pre, p.ident))).Nodup) (hne : ∀ p ∈ parts, p.edges ≠ [])
    (hin : ∀ p ∈ parts, p.pre ∈ vs ∧ ∀ d ∈ p.edges, d ∈ vs)
    (hnear : ∀ p ∈ parts, External E W p.pre → OneChip E links p.pre)
    (htakes : ∀ p ∈ parts, ∀ d ∈ p.edges, External E W d → ∃ x, (E.app d).device = some x ∧ x.receives = true)
    (hK : Modest fl (sendersFor E W) vs parts K i j c) (hbits : i + j + c ≤ 32)
    (hmany : ∀ x ∈ pairs parts K, 0 < sendersFor E W x.1 ∧ sendersFor E W x.1 ≤ 2 ^ i)
    {env : Driver.Env}
    (henv : ∀ d ∈ C.T.chips, ∃ n, env.target (Pipe.place d) = some n ∧ (parts.map (fun p => sendersFor E W p.pre)).sum ≤ n) :
    ∃ W' n, partition E (resetGraph E W vs) k sdram vs = (W', .ok n) ∧
    ∃ s, placeFor M W' fixedApp vs fuel (given []) = .ok s ∧
    ∃ k, ∀ fuel', k ≤ fuel' → ∃ S infos, routePlaced E W' C s links parts vs fuel' = .ok S ∧
      allocateFor fl (netOf E W' (located C W' s links) parts vs) K = .ok infos ∧
      ∀ (g : Generator) (same : Entry → Entry → Bool), ∃ tm,
        generate g same (ofInfos infos (netOf E W' (located C W' s links) parts vs).base.appOf) S = .ok tm ∧
        Driver.Fit env tm ∧ Pipe.AllReturn env (FixedBlocks K) tm ∧ ∀ tm', Compressed env g (FixedBlocks K) tm tm' →
        ∀ p ∈ parts, ∀ m, Sender E W' p.pre m → (∃ k, HasKey infos m p.ident k) ∧ ∀ k, HasKey infos m p.ident k →
          ∃ c q l, Sits W' (Plc.placements s) links m c q l ∧
            Delivers (sceneOf C.T tm') C.T.chips.length k c (heading (c, q, l)) (Plc.placements s)
              (fun v => (W'.mv v).dev = none ∧ ∃ d ∈ p.edges, Receiver E W' d v) ∧
            (∀ d ∈ p.edges, ∀ t, Receiver E W' d t → ∀ c' q' l', Sits W' (Plc.placements s) links t c' q' (some l') →
              ∃ w, Lands (sceneOf C.T tm') k c (heading (c, q, l)) w c' l') := by
  have hpv : ∀ x ∈ pairs parts K, x.1 ∈ vs := pairs_in (fun p hp => (hin p hp).1) hK.asked
  refine fitting_devices hb h hn hall hv hS hk hE hf hfree hroom hA hT hm hflag hpos hdis hne hin hnear htakes hpv
    (fun x hx => (hmany x hx).1) (fun W' n hp hsends => ?_) henv
  exact keys_after hK hbits hmany (fun x hx => (hsends x hx).imp fun _ h => h.1) (sends_length hsends)

/-- The slices of a device have atoms, and no more than its size and the number of its machine vertices say. -/
theorem devSlice_few {d : DevKind} {atoms i : Nat} {sl : Slice} (h : d.slice atoms i = .ok sl) :
    0 < sl.n ∧ sl.n ≤ d.perSender atoms := by
  have hmk : ∀ {lo stop : Nat} {dims : Option (List (Nat × Nat × Nat))}, mkSlice lo stop dims = .ok sl → 0 < sl.n ∧ sl.n = stop - lo := by
    intro lo stop dims h
    unfold mkSlice at h
    split at h
    · cases h
    · injection h with h
      subst h
      exact ⟨by simp only; omega, rfl⟩
  unfold DevKind.slice at h
  split at h
  · unfold Device.fpgaSlice at h
    split at h
    · cases h
    · obtain ⟨h1, h2⟩ := hmk h
      refine ⟨h1, ?_⟩
      unfold DevKind.perSender
      simp only
      rw [Nat.mul_succ] at h2
      omega
  · obtain ⟨h1, h2⟩ := hmk h
    refine ⟨h1, ?_⟩
    unfold DevKind.perSender
    simp only
    omega
  · unfold linkSlice at h
    split at h
    · cases h
    · obtain ⟨h1, h2⟩ := hmk h
      refine ⟨h1, ?_⟩
      unfold DevKind.perSender
      simp only [Device.ceilDiv] at h2 ⊢
      rw [Nat.mul_succ] at h2
      omega
  · obtain ⟨h1, h2⟩ := hmk h
    refine ⟨h1, ?_⟩
    unfold DevKind.perSender
    simp only
    omega

/-- The atoms of machine vertices that send. -/
theorem mixed_atoms (hb : Built E mv next) (h : runOk E (World.new E mp mv next) os = some W)
    (hn : vs.Nodup) (hall : ∀ v s, (W.app v).splitter = some s → v ∈ vs)
    (hv : ∀ v ∈ vs, Plain E W k a sdram v ∨ Lone E W k sdram v ∨ External E W v) (hS : Site M C W links)
    (hp : partition E (resetGraph E W vs) k sdram vs = (W', .ok n)) {v m : Nat} (hvv : v ∈ vs)
    (hone : ∀ m, (E.app v).single = some m → 0 < (W.mv m).slice.n) (hm : Sender E W' v m) :
    0 < atomsOf W' m ∧ atomsOf W' m ≤ mostAtoms E W v := by
  have hrun0 := runOk_run os h
  have hL := linked_runOk os (linked_new E mp mv next) h
  have hW0 : Sound E W := by rw [← hrun0]; exact sound_run os (sound_new hb)
  have hL0 := (keeps_resetGraph E W vs).linked hL
  obtain ⟨hu, hsite, hafter⟩ := mixed_after hb h hn hall hv hS hp
  have hd := done_after (sound_resetGraph hW0 vs) hL0 hn hp hu (all_reset hall)
  have hspl : ∀ v, (W'.app v).splitter = (W.app v).splitter := by
    intro v
    have h3 := (keeps_partition E (resetGraph E W vs) k sdram vs).1 v
    rw [hp] at h3
    exact h3.trans ((keeps_resetGraph E W vs).1 v)
  obtain ⟨t, ms, e1, e2, e3⟩ := hm
  rcases hv v hvv with hx | hx | hx
  · obtain ⟨t', f1, f2⟩ := hx.splitter
    rw [hspl, f1] at e1
    injection e1 with e1
    subst e1
    have h1' := ((keeps_resetGraph E W vs).1 v).trans f1
    obtain ⟨ss, g3, g4, -⟩ := machines_after (sound_resetGraph hW0 vs) hL0 hn hp hvv h1' f2 (hu _ hvv)
    obtain ⟨-, g5, -, -⟩ := C90_atoms_partial hb (run_resetGraph hrun0 vs) hL0 hn hp hvv h1' f2 (hu _ hvv)
    rw [resetGraph_maxPer] at g5
    have hno : ¬ External E W v := by
      intro hy
      obtain ⟨t2, y1, y2⟩ := hy.splitter
      rw [f1] at y1
      injection y1 with y1
      subst y1
      rw [f2] at y2
      cases y2
    have h6 := ((hafter v hvv).2 hno).outs t' ((hspl v).trans f1)
    rw [h6] at e2
    injection e2 with e2
    subst e2
    refine ⟨multi_pos g3 _ (by rw [← g4]; exact List.mem_map_of_mem e3), ?_⟩
    unfold mostAtoms
    rw [f1, Option.map_some, f2]
    exact g5 m e3
  · obtain ⟨t', f1, f2⟩ := hx.splitter
    obtain ⟨m', g1, -, -⟩ := hx.share
    rw [hspl, f1] at e1
    injection e1 with e1
    subst e1
    have hno : ¬ External E W v := by
      intro hy
      have := hy.many
      rw [g1] at this
      cases this
    have h6 := ((hafter v hvv).2 hno).outs t' ((hspl v).trans f1)
    rw [h6] at e2
    injection e2 with e2
    subst e2
    rw [hd.sound.sing v m' g1] at e3
    obtain rfl := List.mem_singleton.1 e3
    have hlt : m < W.next := hW0.bound v m (by rw [hW0.sing v m g1]; exact List.mem_singleton.2 rfl)
    have hext : Ext W W' := by
      have h3 := ext_partition E (resetGraph E W vs) k sdram vs
      rw [hp] at h3
      exact (ext_of_mv (resetGraph_mv E vs W)).trans h3
    unfold atomsOf mostAtoms
    rw [hext.slice hlt, f1, Option.map_some, f2, g1]
    exact ⟨hone m g1, Nat.le_refl _⟩
  · obtain ⟨t', f1, f2⟩ := hx.splitter
    rw [hspl, f1] at e1
    injection e1 with e1
    subst e1
    have hH : ∀ t, Has E W' t := by
      have h3 := mono_partition E (resetGraph E W vs) k sdram vs
      have h4 := ext_partition E (resetGraph E W vs) k sdram vs
      rw [hp] at h3 h4
      exact Mono.has (sound_resetGraph hW0 vs) h3 h4
        (has_resetGraph vs hW0 (has_runOk os (sound_new hb) (has_new E mp mv next) h))
    obtain ⟨d, g1, g2, -⟩ := hH t' v f2 ((linked_after hL0 hp v t').1 ((hspl v).trans f1))
    unfold outVerts at e2
    simp only [f2] at e2
    split at e2
    · cases e2
    · injection e2 with e2
      subst e2
      obtain ⟨x, -, h2⟩ := g2.mem m e3
      obtain ⟨h3, h4⟩ := devSlice_few h2.1
      refine ⟨h3, ?_⟩
      unfold mostAtoms
      rw [f1, Option.map_some, f2, g1]
      exact h4

/-- C124 from the graph alone, with devices that send: as in `C111_devices_partial` a graph is mapped. If no device is to receive,
and each machine vertex that sends asks for more keys than there may be atoms on it, or has more of them fixed, then the check of
the routes accepts the tables of both generators.
Missing: what `C124_device` and `C124_beside` show to be refused; what `C111_devices_partial` leaves out. -/
theorem C124_devices_partial (hb : Built E mv next) (h : runOk E (World.new E mp mv next) os = some W)
    (hn : vs.Nodup) (hall : ∀ v s, (W.app v).splitter = some s → v ∈ vs)
    (hv : ∀ v ∈ vs, Plain E W k a sdram v ∨ Lone E W k sdram v ∨ External E W v) (hS : Site M C W links) (hk : 0 < k)
    (hE : Even M k sdram) (hf : M.chips.length < fuel) (hfree : ∀ v ∈ vs, fixedApp v = false)
    (hroom : Placer.AllFind M k 0 (vs.map (coresOn E W))) (hA : SameLinks M C.T) (hT : Passable C)
    (hm : Merges C) (hpos : Positive C.T)
    (hdis : (parts.map (fun p => (p.pre, p.ident))).Nodup) (hne : ∀ p ∈ parts, p.edges ≠ [])
    (hin : ∀ p ∈ parts, p.pre ∈ vs ∧ ∀ d ∈ p.edges, d ∈ vs)
    (hnear : ∀ p ∈ parts, External E W p.pre → OneChip E links p.pre)
    (hcores : ∀ p ∈ parts, ∀ d ∈ p.edges, ¬ External E W d)
    (hK : Modest fl (sendersFor E W) vs parts K i j c) (hB : FixedBlocks K) (hbits : i + j + c ≤ 32)
    (hmany : ∀ x ∈ pairs parts K, 0 < sendersFor E W x.1 ∧ sendersFor E W x.1 ≤ 2 ^ i)
    (hone : ∀ p ∈ parts, ∀ m, (E.app p.pre).single = some m → 0 < (W.mv m).slice.n)
    (hspare : ∀ p ∈ parts, ∀ m, mostAtoms E W p.pre < sureKeys K p.pre p.ident m) :
    ∃ W' n, partition E (resetGraph E W vs) k sdram vs = (W', .ok n) ∧
    ∃ s, placeFor M W' fixedApp vs fuel (given []) = .ok s ∧
    ∃ k, ∀ fuel', k ≤ fuel' → ∃ S infos, routePlaced E W' C s links parts vs fuel' = .ok S ∧
      allocateFor fl (netOf E W' (located C W' s links) parts vs) K = .ok infos ∧
      ∀ (g : Generator) (same : Entry → Entry → Bool), ∃ tm,
        generate g same (ofInfos infos (netOf E W' (located C W' s links) parts vs).base.appOf) S = .ok tm ∧
        ∀ rounds, tm.length < rounds →
          Valid.validate (checked (netOf E W' (located C W' s links) parts vs) infos tm (atomsOf W')) rounds = .ok () := by
  obtain ⟨W', n, hp, -, -, s, hpl, k0, hk0⟩ := C111_devices_partial (fl := fl) (fixedApp := fixedApp) (links := links) hb h hn
    hall hv hS hk hE hf hfree hroom hA hT hm hpos hdis hne hin hnear (fun p hp d hd hx => absurd hx (hcores p hp d hd)) hK hbits hmany
  refine ⟨W', n, hp, s, hpl, k0, fun fuel' hf' => ?_⟩
  obtain ⟨S, infos, h1, h2, h3⟩ := hk0 fuel' hf'
  refine ⟨S, infos, h1, h2, fun g same => ?_⟩
  obtain ⟨tm, h4, -⟩ := h3 g same
  refine ⟨tm, h4, fun rounds hrd => ?_⟩
  have hrun0 := runOk_run os h
  have hL := linked_runOk os (linked_new E mp mv next) h
  have hW0 : Sound E W := by rw [← hrun0]; exact sound_run os (sound_new hb)
  have hL0 := (keeps_resetGraph E W vs).linked hL
  obtain ⟨hu, hsite, hafter⟩ := mixed_after hb h hn hall hv hS hp
  have hd := done_after (sound_resetGraph hW0 vs) hL0 hn hp hu (all_reset hall)
  obtain ⟨hsends, hfit, hcl⟩ := mixed_keys hafter hd.some_ (fun p hp => (hin p hp).1) hK hbits hmany
  have hnear' := mixed_near (s := s) hafter (fun p hp => (hin p hp).1) hnear hsends (fun x hx => (hmany x hx).1)
  have hterms := net_terms (C := located C W' s links) (vs := vs) hfit
  refine C124_mapped_partial (links := links) (fixedApp := fixedApp) (sys := []) hb (run_resetGraph hrun0 vs) hL0
    hn hp hu (all_reset hall) hsite hf (by intro a ha; cases ha) hpl hT.clean hpos hdis (fun p hp => (hin p hp).1)
    hnear' hterms hB h1 ⟨fl, net_clear hcl, h2⟩ h4 ?_ ?_ hrd
  · intro p hpp m hms
    obtain ⟨e1, e2⟩ := mixed_atoms hb h hn hall hv hS hp (hin p hpp).1 (hone p hpp) hms
    exact ⟨e1, Nat.lt_of_le_of_lt e2 (hspare p hpp m)⟩
  · intro p hpp d hdd t ht
    have hdv := (hin p hpp).2 d hdd
    have e1 := (hafter d hdv).2 (hcores p hpp d hdd)
    obtain ⟨t', ts, e2, e3, e4⟩ := ht
    rcases hd.shares d t' e2 with ⟨-, h3⟩ | ⟨h3, -⟩
    · rw [h3] at e3
      injection e3 with e3
      subst e3
      exact (e1.share t e4).1
    · exact absurd h3 (e1.kind t' e2)

end

/-! ### The device on two links again, with compressed tables -/

example : ∃ W' n, partition mixE (resetGraph mixE mixW [3, 1, 2]) (2 : Nat) 100 [3, 1, 2] = (W', .ok n) ∧
    ∃ s, placeFor fullM W' (fun _ => false) [3, 1, 2] 50 (given []) = .ok s ∧
    ∃ k, ∀ fuel', k ≤ fuel' → ∃ S infos, routePlaced mixE W' fullC s devLinks mixP [3, 1, 2] fuel' = .ok S ∧
      ∃ tm, generate .merged (fun a b => decide (a = b))
        (ofInfos infos (netOf mixE W' (located fullC W' s devLinks) mixP [3, 1, 2]).base.appOf) S = .ok tm ∧
        ∀ ordered verify cSort, ∃ tm', Driver.pairCompressor ⟨fun _ => some 4, true⟩ ordered false verify cSort tm = .ok tm' ∧
        ∀ m, Sender mixE W' 2 m → ∀ k, HasKey infos m 5 k → ∃ c q l, Sits W' (Plc.placements s) devLinks m c q l ∧
          ∀ t, Receiver mixE W' 3 t → ∀ c' q' l', Sits W' (Plc.placements s) devLinks t c' q' (some l') →
            ∃ w, Lands (sceneOf fullC.T tm') k c (heading (c, q, l)) w c' l' := by
  obtain ⟨W', n, h1, s, h3, k, hk⟩ := C119_devices_partial (fl := true) (k := 2) (a := 2) (i := 1) (j := 4) (c := 3) (sdram := 100)
    (fuel := 50) (parts := mixP) (links := devLinks) (fixedApp := fun _ => false) (C := fullC) (K := moreK) (M := fullM)
    (vs := [3, 1, 2]) (env := ⟨fun _ => some 4, true⟩)
    mix_built mix_ok (by decide) mix_all mix_vertices mix_site (by decide)
    full_even (by decide +kernel) (fun _ _ => rfl) mix_room full_links full_passable (fun a b => ⟨_, rfl⟩) fullC_flag full_positive
    (by decide) (by decide) (by decide) mix_near mix_takes mix_modest (by decide) (by decide +kernel)
    (fun _ _ => ⟨4, rfl, by decide +kernel⟩)
  refine ⟨W', n, h1, s, h3, k, fun fuel' hf => ?_⟩
  obtain ⟨S, infos, h4, -, h5⟩ := hk fuel' hf
  obtain ⟨tm, h6, -, h7, h8⟩ := h5 .merged (fun a b => decide (a = b))
  refine ⟨S, infos, h4, tm, h6, fun ordered verify cSort => ?_⟩
  obtain ⟨tm', h9, -⟩ := h7.pair ordered false verify cSort
  refine ⟨tm', h9, fun m hm key hkey => ?_⟩
  obtain ⟨cc, q, l, h10, -, h11⟩ := (h8 tm' (.pair h9) ⟨2, 5, [3]⟩ (by decide) m hm).2 key hkey
  exact ⟨cc, q, l, h10, h11 3 (by decide)⟩

def mixQ : List AppPart := [⟨3, 0, [1, 2]⟩, ⟨2, 5, [1]⟩, ⟨1, 0, [2, 1]⟩]

theorem mixQ_modest {fl : Bool} : Modest fl (sendersFor mixE mixW) [3, 1, 2] mixQ moreK 1 4 3 where
  valid := by
    intro a ident km h
    rw [(more_some h).2]
    decide
  freeM := fun _ _ => rfl
  asked := by decide
  some_ := fun _ _ => (by decide : 1 ≤ 10)
  most := fun _ _ => (by decide : 10 ≤ 2 ^ 4)
  one := by decide +kernel
  apart := by
    intro x _ y _ hne a b h1 h2
    exact absurd ((more_some h1).1.trans (more_some h2).1.symm) hne
  room := by
    refine ⟨[8], by decide, ?_⟩
    intro x _ km h k hk
    rw [(more_some h).2] at hk
    have h4 := (Alloc.covers_maskOf (y := 16) (a := 4) (by decide) k).1 (by
      have := congrArg BitVec.toNat hk
      rw [BitVec.toNat_and] at this
      exact this)
    have h5 : k.toNat / 2 ^ 5 = 8 := by omega
    exact List.mem_singleton.2 h5
  clear := .inr (.inr ⟨(2, 5), by decide, by decide, fun y hy _ => ⟨by revert y; decide +kernel, fun _ _ => Nat.le_refl _⟩⟩)

theorem mixQ_near : ∀ p ∈ mixQ, External mixE mixW p.pre → OneChip mixE devLinks p.pre := by
  intro p hp hx
  simp only [mixQ, List.mem_cons, List.not_mem_nil, or_false] at hp
  rcases hp with rfl | rfl | rfl
  · exact ⟨_, rfl, (0, 0), by decide⟩
  · obtain ⟨t, h1, h2⟩ := hx.splitter
    have h3 : (mixW.app 2).splitter = some 2 := by decide +kernel
    rw [h3] at h1
    injection h1 with h1
    subst h1
    cases h2
  · obtain ⟨t, h1, h2⟩ := hx.splitter
    have h3 : (mixW.app 1).splitter = some 1 := by decide +kernel
    rw [h3] at h1
    injection h1 with h1
    subst h1
    cases h2

theorem mixQ_cores : ∀ p ∈ mixQ, ∀ d ∈ p.edges, ¬ External mixE mixW d := by
  intro p hp d hd hx
  obtain ⟨t, h1, h2⟩ := hx.splitter
  have hd' : d = 1 ∨ d = 2 := (by decide : ∀ p ∈ mixQ, ∀ d ∈ p.edges, d = 1 ∨ d = 2) p hp d hd
  rcases hd' with rfl | rfl
  · have h3 : (mixW.app 1).splitter = some 1 := by decide +kernel
    rw [h3] at h1
    injection h1 with h1
    subst h1
    cases h2
  · have h3 : (mixW.app 2).splitter = some 2 := by decide +kernel
    rw [h3] at h1
    injection h1 with h1
    subst h1
    cases h2

/-- The device has four atoms and sixteen keys. -/
example : ∃ W' n, partition mixE (resetGraph mixE mixW [3, 1, 2]) (2 : Nat) 100 [3, 1, 2] = (W', .ok n) ∧
    ∃ s, placeFor fullM W' (fun _ => false) [3, 1, 2] 50 (given []) = .ok s ∧
    ∃ k, ∀ fuel', k ≤ fuel' → ∃ S infos, routePlaced mixE W' fullC s devLinks mixQ [3, 1, 2] fuel' = .ok S ∧
      ∃ tm, generate .merged (fun a b => decide (a = b))
        (ofInfos infos (netOf mixE W' (located fullC W' s devLinks) mixQ [3, 1, 2]).base.appOf) S = .ok tm ∧
        Valid.validate (checked (netOf mixE W' (located fullC W' s devLinks) mixQ [3, 1, 2]) infos tm (atomsOf W')) (tm.length + 1) =
          .ok () := by
  obtain ⟨W', n, h1, s, h3, k, hk⟩ := C124_devices_partial (fl := true) (k := 2) (a := 2) (i := 1) (j := 4) (c := 3) (sdram := 100)
    (fuel := 50) (parts := mixQ) (links := devLinks) (fixedApp := fun _ => false) (C := fullC) (K := moreK) (M := fullM)
    (vs := [3, 1, 2])
    mix_built mix_ok (by decide) mix_all mix_vertices mix_site (by decide)
    full_even (by decide +kernel) (fun _ _ => rfl) mix_room full_links full_passable (fun a b => ⟨_, rfl⟩) full_positive
    (by decide) (by decide) (by decide) mixQ_near mixQ_cores mixQ_modest more_blocks (by decide) (by decide +kernel)
    (by
      intro p _ m h
      have : m = 0 := by
        revert h
        unfold mixE
        simp only
        split <;> intro h
        · cases h
        · injection h with h; exact h.symm
        · cases h
      subst this
      decide +kernel)
    (by
      have h : ∀ p ∈ mixQ, mostAtoms mixE mixW p.pre < sureKeys moreK p.pre p.ident 0 := by decide +kernel
      exact fun p hp _ => h p hp)
  refine ⟨W', n, h1, s, h3, k, fun fuel' hf => ?_⟩
  obtain ⟨S, infos, h4, -, h5⟩ := hk fuel' hf
  obtain ⟨tm, h6, h7⟩ := h5 .merged (fun a b => decide (a = b))
  exact ⟨S, infos, h4, tm, h6, h7 _ (Nat.lt_succ_self _)⟩

/-! ### And with a fixed key whose mask has holes -/

def holeK : Keys := { Pipe.lineK with
  fixed := fun a ident => if (a, ident) = (3, 0) then some (0x100, 0xFFFFFFF5) else none, extra := [(3, 7)] }

theorem hole_some {a ident : Nat} {km : Word × Word} (h : holeK.fixed a ident = some km) :
    (a, ident) = (3, 0) ∧ km = (0x100, 0xFFFFFFF5) := by
  unfold holeK at h
  simp only at h
  split at h
  · rename_i h1
    exact ⟨h1, (Option.some.inj h).symm⟩
  · cases h

theorem hole_modest {fl : Bool} : Modest fl (sendersFor mixE mixW) [3, 1, 2] mixP holeK 1 4 3 where
  valid := by
    intro a ident km h
    rw [(hole_some h).2]
    decide
  freeM := fun _ _ => rfl
  asked := by decide
  some_ := fun _ _ => (by decide : 1 ≤ 10)
  most := fun _ _ => (by decide : 10 ≤ 2 ^ 4)
  one := by decide +kernel
  apart := by
    intro x _ y _ hne a b h1 h2
    exact absurd ((hole_some h1).1.trans (hole_some h2).1.symm) hne
  room := by
    refine ⟨[8], by decide, ?_⟩
    intro x _ km h k hk
    rw [(hole_some h).2] at hk
    have h3 : k &&& 0xFFFFFFF0#32 = 0x100#32 := by
      have h2 : k &&& 0xFFFFFFF5#32 = 0x100#32 := hk
      have h1 : k &&& 0xFFFFFFF0#32 = k &&& 0xFFFFFFF5#32 &&& 0xFFFFFFF0#32 := by
        rw [BitVec.and_assoc]
        rfl
      rw [h1, h2]
      rfl
    have h4 := (Alloc.covers_maskOf (y := 16) (a := 4) (by decide) k).1 (by
      have := congrArg BitVec.toNat h3
      rw [BitVec.toNat_and] at this
      exact this)
    have h5 : k.toNat / 2 ^ 5 = 8 := by omega
    exact List.mem_singleton.2 h5
  clear := .inr (.inr ⟨(2, 5), by decide, by decide, fun y hy _ => ⟨by revert y; decide +kernel, fun _ _ => Nat.le_refl _⟩⟩)

/-- The mask is not ones followed by zeros. -/
theorem hole_blocks : ¬ Pipe.FixedBlocks holeK := by
  intro h
  obtain ⟨e, h1, h2⟩ := h.1 3 0 _ rfl
  have h3 : ∀ e < 33, (0xFFFFFFF5 : Word) ≠ BitVec.ofNat 32 (2 ^ 32 - 2 ^ e) := by decide +kernel
  exact h3 e (by omega) h2

example : ∃ W' n, partition mixE (resetGraph mixE mixW [3, 1, 2]) (2 : Nat) 100 [3, 1, 2] = (W', .ok n) ∧
    ∃ s, placeFor fullM W' (fun _ => false) [3, 1, 2] 50 (given []) = .ok s ∧
    ∃ k, ∀ fuel', k ≤ fuel' → ∃ S infos, routePlaced mixE W' fullC s devLinks mixP [3, 1, 2] fuel' = .ok S ∧
      ∃ tm tm', generate .basic (fun a b => decide (a = b))
        (ofInfos infos (netOf mixE W' (located fullC W' s devLinks) mixP [3, 1, 2]).base.appOf) S = .ok tm ∧
        Driver.ocCompressor ⟨fun _ => some 4, true⟩ tm = .ok tm' ∧
        ∀ m, Sender mixE W' 3 m → ∀ k, HasKey infos m 0 k → ∃ c q l, Sits W' (Plc.placements s) devLinks m c q l ∧
          Delivers (sceneOf fullC.T tm') fullC.T.chips.length k c (heading (c, q, l)) (Plc.placements s)
            (fun v => (W'.mv v).dev = none ∧ ∃ d ∈ [1, 2], Receiver mixE W' d v) := by
  obtain ⟨W', n, h1, s, h3, k, hk⟩ := C119_devices_partial (fl := true) (k := 2) (a := 2) (i := 1) (j := 4) (c := 3) (sdram := 100)
    (fuel := 50) (parts := mixP) (links := devLinks) (fixedApp := fun _ => false) (C := fullC) (K := holeK) (M := fullM)
    (vs := [3, 1, 2]) (env := ⟨fun _ => some 4, true⟩)
    mix_built mix_ok (by decide) mix_all mix_vertices mix_site (by decide)
    full_even (by decide +kernel) (fun _ _ => rfl) mix_room full_links full_passable (fun a b => ⟨_, rfl⟩) fullC_flag full_positive
    (by decide) (by decide) (by decide) mix_near mix_takes hole_modest (by decide) (by decide +kernel)
    (fun _ _ => ⟨4, rfl, by decide +kernel⟩)
  refine ⟨W', n, h1, s, h3, k, fun fuel' hf => ?_⟩
  obtain ⟨S, infos, h4, -, h5⟩ := hk fuel' hf
  obtain ⟨tm, h6, -, h7, h8⟩ := h5 .basic (fun a b => decide (a = b))
  obtain ⟨tm', h9, -⟩ := h7.covering
  refine ⟨S, infos, h4, tm, tm', h6, h9, fun m hm key hkey => ?_⟩
  obtain ⟨cc, q, l, h10, h12, h11⟩ := (h8 tm' (.covering rfl h9) ⟨3, 0, [1, 2]⟩ (by decide) m hm).2 key hkey
  exact ⟨cc, q, l, h10, h12⟩

end Pacman.Split
