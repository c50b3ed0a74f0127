import Verif.Proofs.MappingDevices
/-
C111 from the graph alone, for graphs with devices.
-/

namespace Pacman.Split

open Router (Ctx AppPart Merges)
open Pipe (Keys Generator HasKey Leads sceneOf Positive allocateFor generate)
open Gen (ofInfos)
open Plc (Store)
open Placer (given)

section
variable {E : Env} {mp : Nat → Option (List Nat)} {mv : Nat → MV} {next : Nat} {os : List Op} {W W' : World}
  {vs : List Nat} {k a i j c n : Nat} {sdram : Int} {fuel : Nat} {C : Ctx} {parts : List AppPart} {K : Keys}
  {M : Placer.Machine} {links : Nat → RPath.XY × Nat} {fixedApp : Nat → Bool} {fl : Bool}

/-- A vertex on cores after the partitioner. -/
structure OnCores (E : Env) (W W' : World) (k : Nat) (bytes : Int) (v : Nat) : Prop where
  kind : ∀ t, (W'.app v).splitter = some t → E.kind t ≠ .external
  count : (W'.app v).machines.length = coresOn E W v
  senders : coresOn E W v = sendersFor E W v
  pos : 0 < coresOn E W v
  outs : ∀ t, (W'.app v).splitter = some t → outVerts E W' t = .ok (W'.app v).machines
  share : ∀ m ∈ (W'.app v).machines, (W'.mv m).dev = none ∧ 0 ≤ (W'.mv m).sdram ∧ (W'.mv m).sdram * k ≤ bytes

/-- A device after the partitioner. -/
structure OnLinks (E : Env) (W W' : World) (v : Nat) : Prop where
  cores : coresOn E W v = 0
  device : ∃ t d, (W'.app v).splitter = some t ∧ E.kind t = .external ∧ (E.app v).device = some d ∧
    sendersFor E W v = d.senders ∧ (W'.spl t).inV.length = d.senders ∧
    (W'.app v).machines = (W'.spl t).inV ++ (W'.spl t).outV.toList ∧ (d.receives = true ↔ ∃ m, (W'.spl t).outV = some m)∧
    ∀ m ∈ (W'.app v).machines, ∃ l ∈ d.uses, ∃ b, (W'.mv m).dev = some (l, b)

/-- What holds once a graph with devices has been partitioned. -/
theorem mixed_after (hb : Built E mv next) (h : runOk E (World.new E mp mv next) os = some W)
    (hn : vs.Nodup) (hall : ∀ v s, (W.app v).splitter = some s → v ∈ vs)
    (hv : ∀ v ∈ vs, Plain E W k a sdram v ∨ Lone E W k sdram v ∨ External E W v) (hS : Site M C W links)
    (hp : partition E (resetGraph E W vs) k sdram vs = (W', .ok n)) :
    (∀ v ∈ vs, Anew E (resetGraph E W vs) v) ∧ Site M C W' links ∧
    ∀ v ∈ vs, (External E W v → OnLinks E W W' v) ∧ (¬ External E W v → OnCores E W W' k sdram v) := by
  have hrun := runOk_run os h
  have hL := linked_runOk os (linked_new E mp mv next) h
  have hW0 : Sound E W := by rw [← hrun]; exact sound_run os (sound_new hb)
  have hL0 := (keeps_resetGraph E W vs).linked hL
  have hu : ∀ v ∈ vs, Anew E (resetGraph E W vs) v := by
    intro v hvv
    refine anew_reset hvv (fun s hs => ?_)
    rcases hv v hvv with hv | hv | hv
    · obtain ⟨t, h1, h2⟩ := hv.splitter
      rw [h1] at hs
      injection hs with hs
      subst hs
      rw [h2]
      exact ⟨(by intro h0; cases h0), fun h0 => absurd hv.many h0⟩
    · obtain ⟨t, h1, h2⟩ := hv.splitter
      rw [h1] at hs
      injection hs with hs
      subst hs
      rw [h2]
      exact ⟨(by intro h0; cases h0), fun _ => rfl⟩
    · obtain ⟨t, h1, h2⟩ := hv.splitter
      rw [h1] at hs
      injection hs with hs
      subst hs
      rw [h2]
      exact ⟨(by intro h0; cases h0), fun h0 => absurd hv.many h0⟩
  have hd := done_after (sound_resetGraph hW0 vs) hL0 hn hp hu (all_reset hall)
  have hspl : ∀ v, (W'.app v).splitter = (W.app v).splitter := by
    intro v
    have h3 := (keeps_partition E (resetGraph E W vs) k sdram vs).1 v
    rw [hp] at h3
    exact h3.trans ((keeps_resetGraph E W vs).1 v)
  have hext : Ext W W' := by
    have h3 := ext_partition E (resetGraph E W vs) k sdram vs
    rw [hp] at h3
    exact (ext_of_mv (resetGraph_mv E vs W)).trans h3
  refine ⟨hu, { hS with links := ?_ }, fun v hvv => ⟨fun hx => ?_, fun hx => ?_⟩⟩
  · have := partitionLoop_dev (P := fun d => ∀ i b, d = some (i, b) → (links i).1 ∈ C.T.chips ∧ (links i).2 < 6 ∧
      C.T.linkAt (links i).1 (links i).2 = false) (fun _ _ h => by cases h) (E := E) (c := Counter.Counter.new k sdram) vs
      (W := resetGraph E W vs) (by rw [(resetGraph_mv E vs W).1]; exact hS.links)
    rw [← partition_world, hp] at this
    exact this
  · obtain ⟨t, h1, h2⟩ := hx.splitter
    have ht := (hspl v).trans h1
    have hsh : (W'.app v).machines = (W'.spl t).inV ++ (W'.spl t).outV.toList := by
      have hr := hu v hvv t (((keeps_resetGraph E W vs).1 _).trans h1)
      rcases hd.shares v t ht with ⟨h3, h4⟩ | ⟨-, h3⟩
      · unfold outVerts at h3
        unfold inVerts at h4
        simp only [h2] at h3 h4
        split at h3
        · cases h3
        · injection h3 with h3
          split at h4
          · cases h4
          · rename_i m hm
            injection h4 with h4
            have h5 := hd.sound.fresh t
            rw [hm, h3, ← h4] at h5
            simp at h5
      · exact h3
    have hH : ∀ t, Has E W' t := by
      have h3 := mono_partition E (resetGraph E W vs) k sdram vs
      have h4 := ext_partition E (resetGraph E W vs) k sdram vs
      rw [hp] at h3 h4
      exact Mono.has (sound_resetGraph hW0 vs) h3 h4
        (has_resetGraph vs hW0 (has_runOk os (sound_new hb) (has_new E mp mv next) h))
    obtain ⟨d, e1, e2, e3⟩ := hH t v h2 ((linked_after hL0 hp v t).1 ht)
    refine ⟨by unfold coresOn; rw [h1, Option.map_some, h2], t, d, ht, h2, e1, ?_, ?_, hsh, ?_, ?_⟩
    · unfold sendersFor
      rw [h1, Option.map_some, h2, e1]
    · rw [e2.length, senders_eq]
    · cases ho : d.out with
      | none =>
        rw [ho] at e3
        rw [out_none ho, show (W'.spl t).outV = none from e3]
        exact ⟨fun h => (by cases h), fun ⟨_, h⟩ => (by cases h)⟩
      | some l =>
        rw [ho] at e3
        obtain ⟨m, e4, -⟩ := e3
        exact ⟨fun _ => ⟨m, e4⟩, fun _ => (out_uses ho).2⟩
    · intro m hm
      rw [hsh] at hm
      rcases List.mem_append.1 hm with hm | hm
      · obtain ⟨x, hx1, hx2⟩ := e2.mem m hm
        exact ⟨x.2, jobs_uses x hx1, true, hx2.2⟩
      · cases ho : d.out with
        | none =>
          rw [ho] at e3
          rw [show (W'.spl t).outV = none from e3] at hm
          cases hm
        | some l =>
          rw [ho] at e3
          obtain ⟨m', e4, -, e5⟩ := e3
          rw [e4] at hm
          obtain rfl := List.mem_singleton.1 hm
          exact ⟨l, (out_uses ho).1, false, e5⟩
  · have houts : ∀ t, E.kind t ≠ .external → (W'.app v).splitter = some t → outVerts E W' t = .ok (W'.app v).machines := by
      intro t hk ht
      rcases hd.shares v t ht with ⟨h3, -⟩ | ⟨h3, -⟩
      · exact h3
      · exact absurd h3 hk
    rcases hv v hvv with hv | hv | hv
    · obtain ⟨t, h1, h2⟩ := hv.splitter
      have h1' := ((keeps_resetGraph E W vs).1 v).trans h1
      have hne : E.kind t ≠ .external := by rw [h2]; intro h0; cases h0
      have hco : coresOn E W v = coresFor E W v := by unfold coresOn; rw [h1, Option.map_some, h2]
      have hse : sendersFor E W v = coresFor E W v := by unfold sendersFor; rw [h1, Option.map_some, h2]
      obtain ⟨e0, e1, e2⟩ := C90_count hb (run_resetGraph hrun vs) hL0 hn hp hvv h1' h2 (hu v hvv)
      obtain ⟨-, f1, f2, -⟩ := C90_atoms_partial hb (run_resetGraph hrun vs) hL0 hn hp hvv h1' h2 (hu v hvv)
      rw [resetGraph_maxPer] at e1 e2 f1
      have e3 : (W'.app v).machines.length = coresFor E W v := count_eq e0 e1 e2
      have hkind : ∀ t', (W'.app v).splitter = some t' → E.kind t' ≠ .external := by
        intro t' ht'
        rw [hspl v, h1] at ht'
        injection ht' with ht'
        rw [← ht']; exact hne
      refine ⟨hkind, e3.trans hco.symm, hco.trans hse.symm, ?_, fun t' ht' => houts t' (hkind t' ht') ht', ?_⟩
      · rw [hco, ← e3]; exact e0
      · intro m hm
        rw [(f2 m hm).1]
        exact ⟨machines_none (sound_resetGraph hW0 vs) hL0 hn hp hvv h1' h2 (hu v hvv) m hm, hv.share _ (f1 m hm)⟩
    · obtain ⟨t, h1, h2⟩ := hv.splitter
      obtain ⟨m, g1, g2, g3⟩ := hv.share
      have hne : E.kind t ≠ .external := by rw [h2]; intro h0; cases h0
      have hmm : (W'.app v).machines = [m] := hd.sound.sing v m g1
      have hlt : m < W.next := hW0.bound v m (by rw [hW0.sing v m g1]; exact List.mem_singleton.2 rfl)
      have hkind : ∀ t', (W'.app v).splitter = some t' → E.kind t' ≠ .external := by
        intro t' ht'
        rw [hspl v, h1] at ht'
        injection ht' with ht'
        rw [← ht']; exact hne
      have hco : coresOn E W v = 1 := by unfold coresOn; rw [h1, Option.map_some, h2]
      have hse : sendersFor E W v = 1 := by unfold sendersFor; rw [h1, Option.map_some, h2]
      refine ⟨hkind, by rw [hmm, hco]; rfl, hco.trans hse.symm, by rw [hco]; exact Nat.one_pos,
        fun t' ht' => houts t' (hkind t' ht') ht', ?_⟩
      intro m' hm'
      rw [hmm] at hm'
      obtain rfl := List.mem_singleton.1 hm'
      rw [hext.dev hlt, hext.sdram hlt]
      exact ⟨g2, g3⟩
    · exact absurd hv hx

theorem pairs_in (hin : ∀ p ∈ parts, p.pre ∈ vs) (hasked : ∀ x ∈ K.extra, x.1 ∈ vs) : ∀ x ∈ pairs parts K, x.1 ∈ vs := by
  intro x hx
  rcases List.mem_append.1 hx with hx | hx
  · obtain ⟨p, hpp, rfl⟩ := List.mem_map.1 hx
    exact hin p hpp
  · exact hasked x hx

/-- From how many machine vertices those vertices send that have keys. -/
theorem mixed_sends (hafter : ∀ v ∈ vs, (External E W v → OnLinks E W W' v) ∧ (¬ External E W v → OnCores E W W' k sdram v))
    (hsome : ∀ v ∈ vs, ∃ t, (W'.app v).splitter = some t) (hpv : ∀ x ∈ pairs parts K, x.1 ∈ vs)
    (hmany : ∀ x ∈ pairs parts K, 0 < sendersFor E W x.1) :
    ∀ x ∈ pairs parts K, ∃ ms, Sends E W' x ms ∧ ms.length = sendersFor E W x.1 := by
  intro x hxx
  by_cases hx : External E W x.1
  · obtain ⟨t, d, h1, h2, -, h4, h5, -⟩ := ((hafter _ (hpv x hxx)).1 hx).device
    refine ⟨(W'.spl t).inV, ⟨t, h1, ?_⟩, h5.trans h4.symm⟩
    rw [outVerts_device h2, if_neg]
    intro h0
    have h6 := hmany x hxx
    rw [h4, ← h5, h0] at h6
    exact absurd h6 (Nat.lt_irrefl 0)
  · have h1 := (hafter _ (hpv x hxx)).2 hx
    obtain ⟨t, ht⟩ := hsome _ (hpv x hxx)
    exact ⟨_, ⟨t, ht, h1.outs t ht⟩, h1.count.trans h1.senders⟩

theorem sends_length (hsends : ∀ x ∈ pairs parts K, ∃ ms, Sends E W' x ms ∧ ms.length = sendersFor E W x.1) :
    ∀ x ∈ pairs parts K, ∀ ms, Sends E W' x ms → ms.length = sendersFor E W x.1 := by
  rintro x hxx ms ⟨t, h1, h2⟩
  obtain ⟨ms', ⟨t', h3, h4⟩, h5⟩ := hsends x hxx
  rw [h1] at h3
  injection h3 with h3
  subst h3
  rw [h2] at h4
  injection h4 with h4
  rw [h4]; exact h5

/-- From how many machine vertices those vertices send that have keys, and that keys are found for them. -/
theorem mixed_keys (hafter : ∀ v ∈ vs, (External E W v → OnLinks E W W' v) ∧ (¬ External E W v → OnCores E W W' k sdram v))
    (hsome : ∀ v ∈ vs, ∃ t, (W'.app v).splitter = some t) (hin : ∀ p ∈ parts, p.pre ∈ vs)
    (hK : Modest fl (sendersFor E W) vs parts K i j c) (hbits : i + j + c ≤ 32)
    (hmany : ∀ x ∈ pairs parts K, 0 < sendersFor E W x.1 ∧ sendersFor E W x.1 ≤ 2 ^ i) :
    (∀ x ∈ pairs parts K, ∃ ms, Sends E W' x ms ∧ ms.length = sendersFor E W x.1) ∧ KeysFit E W' parts K ∧
      KeysClear fl E W' parts K := by
  have hsends := mixed_sends hafter hsome (pairs_in hin hK.asked) (fun x hx => (hmany x hx).1)
  exact ⟨hsends, keys_after hK hbits hmany (fun x hx => (hsends x hx).imp fun _ h => h.1) (sends_length hsends)⟩

/-- A graph with devices can be mapped if its keys fit, once it has been partitioned. -/
theorem mapped_devices (hb : Built E mv next) (h : runOk E (World.new E mp mv next) os = some W)
    (hn : vs.Nodup) (hall : ∀ v s, (W.app v).splitter = some s → v ∈ vs)
    (hv : ∀ v ∈ vs, Plain E W k a sdram v ∨ Lone E W k sdram v ∨ External E W v) (hS : Site M C W links) (hk : 0 < k)
    (hE : Even M k sdram) (hf : M.chips.length < fuel) (hfree : ∀ v ∈ vs, fixedApp v = false)
    (hroom : Placer.AllFind M k 0 (vs.map (coresOn E W))) (hA : SameLinks M C.T) (hT : Passable C)
    (hm : Merges C) (hpos : Positive C.T)
    (hdis : (parts.map (fun p => (p.pre, p.ident))).Nodup) (hne : ∀ p ∈ parts, p.edges ≠ [])
    (hin : ∀ p ∈ parts, p.pre ∈ vs ∧ ∀ d ∈ p.edges, d ∈ vs)
    (hnear : ∀ p ∈ parts, External E W p.pre → OneChip E links p.pre)
    (htakes : ∀ p ∈ parts, ∀ d ∈ p.edges, External E W d → ∃ x, (E.app d).device = some x ∧ x.receives = true)
    (hpv : ∀ x ∈ pairs parts K, x.1 ∈ vs) (hmany : ∀ x ∈ pairs parts K, 0 < sendersFor E W x.1)
    (hkeys : ∀ W' n, partition E (resetGraph E W vs) k sdram vs = (W', .ok n) →
      (∀ x ∈ pairs parts K, ∃ ms, Sends E W' x ms ∧ ms.length = sendersFor E W x.1) → KeysFit E W' parts K ∧ KeysClear fl E W' parts K) :
    ∃ W' n, partition E (resetGraph E W vs) k sdram vs = (W', .ok n) ∧
    (∀ v ∈ vs, ((W'.app v).machines.filter (fun m => decide ((W'.mv m).dev = none))).length = coresOn E W v) ∧
    (∀ x ∈ pairs parts K, ∃ ms, Sends E W' x ms ∧ ms.length = sendersFor E W x.1) ∧
    ∃ s, placeFor M W' fixedApp vs fuel (given []) = .ok s ∧
    ∃ k, ∀ fuel', k ≤ fuel' → ∃ S infos, routePlaced E W' C s links parts vs fuel' = .ok S ∧
      allocateFor fl (netOf E W' (located C W' s links) parts vs) K = .ok infos ∧
      ∀ (g : Generator) (same : Entry → Entry → Bool), ∃ tm,
        generate g same (ofInfos infos (netOf E W' (located C W' s links) parts vs).base.appOf) S = .ok tm ∧
        ∀ p ∈ parts, ∀ m, Sender E W' p.pre m → (∃ k, HasKey infos m p.ident k) ∧ ∀ k, HasKey infos m p.ident k →
          (∀ p' ∈ parts, ∀ m', Sender E W' p'.pre m' → HasKey infos m' p'.ident k → m' = m ∧ p'.ident = p.ident) ∧
          ∃ c q l, Sits W' (Plc.placements s) links m c q l ∧
            (∀ a ∈ Plc.placements s, Valid.Reaches (sceneOf C.T tm) k c ((a.x : Int), (a.y : Int)) a.p ↔
              (W'.mv a.vertex).dev = none ∧ ∃ d ∈ p.edges, Receiver E W' d a.vertex) ∧
            (∀ c' q', Valid.Reaches (sceneOf C.T tm) k c c' q' →
              ∃ a ∈ Plc.placements s, c' = ((a.x : Int), (a.y : Int)) ∧ q' = a.p) ∧
            (∀ d ∈ p.edges, ∀ t, Receiver E W' d t → ∀ c' q' l', Sits W' (Plc.placements s) links t c' q' (some l') →
              Leads (sceneOf C.T tm) k c c' l') := by
  have hrun0 := runOk_run os h
  have hL := linked_runOk os (linked_new E mp mv next) h
  obtain ⟨W', n, hp⟩ := (C112_returns_iff hb hrun0 hL hn k sdram).2 (fun v hvv => by
    rcases hv v hvv with hx | hx | hx
    · obtain ⟨t, h1, h2⟩ := hx.splitter
      refine ⟨t, h1, ?_⟩
      rw [h2]
      exact ⟨hx.many, hx.valid⟩
    · obtain ⟨t, h1, h2⟩ := hx.splitter
      refine ⟨t, h1, ?_⟩
      rw [h2]
      trivial
    · obtain ⟨t, h1, h2⟩ := hx.splitter
      refine ⟨t, h1, ?_⟩
      rw [h2]
      intro m l h0
      rw [hx.many] at h0
      cases h0)
  obtain ⟨hu, hsite, hafter⟩ := mixed_after hb h hn hall hv hS hp
  have hrun := run_resetGraph hrun0 vs
  have hL0 := (keeps_resetGraph E W vs).linked hL
  have hW0 : Sound E W := by rw [← hrun0]; exact sound_run os (sound_new hb)
  have hd := done_after (sound_resetGraph hW0 vs) hL0 hn hp hu (all_reset hall)
  have hcores : ∀ v ∈ vs, ((W'.app v).machines.filter (fun m => decide ((W'.mv m).dev = none))).length = coresOn E W v := by
    intro v hvv
    by_cases hx : External E W v
    · have h1 := (hafter v hvv).1 hx
      obtain ⟨t, d, -, -, -, -, -, -, -, h2⟩ := h1.device
      rw [h1.cores, List.filter_eq_nil_iff.2]
      · rfl
      · intro m hm
        obtain ⟨l, -, b, h3⟩ := h2 m hm
        rw [h3]
        simp
    · have h1 := (hafter v hvv).2 hx
      rw [← h1.count, List.filter_eq_self.2]
      exact fun m hm => decide_eq_true (h1.share m hm).1
  have hsends := mixed_sends hafter hd.some_ hpv hmany
  obtain ⟨hfit, hcl⟩ := hkeys W' n hp hsends
  obtain ⟨s, hpl⟩ := C101_remote_partial (fixedApp := fixedApp) hb hrun hL0 hn hp hu (all_reset hall) hk hE hf hfree
    (fun v hvv => by
      by_cases hx : External E W v
      · obtain ⟨t, d, -, -, -, -, -, -, -, h2⟩ := ((hafter v hvv).1 hx).device
        refine .inr fun m hm => ?_
        obtain ⟨l, -, b, h3⟩ := h2 m hm
        rw [h3]
        simp
      · have h1 := (hafter v hvv).2 hx
        exact .inl ⟨by rw [h1.count]; exact h1.pos, h1.share⟩)
    (by rw [List.map_congr_left hcores]; exact hroom)
  have hpart : ∀ p ∈ parts, (p.pre, p.ident) ∈ pairs parts K :=
    fun p hp => List.mem_append_left _ (List.mem_map.2 ⟨p, hp, rfl⟩)
  have hset : ∀ v ∈ vs, ¬ External E W v → Settled E W' (Plc.placements s) links fixedApp v := fun v hvv hx =>
    .inl ⟨hfree v hvv, ((hafter v hvv).2 hx).kind, fun m hm => (((hafter v hvv).2 hx).share m hm).1⟩
  refine ⟨W', n, hp, hcores, hsends, s, hpl, ?_⟩
  refine C111_placed_partial (links := links) (fixedApp := fixedApp) (sys := []) hb hrun hL0 hn hp hu (all_reset hall) hsite hf
    (by intro a ha; cases ha) (by intro a ha; cases ha) hpl hA hT hm hpos hdis hne ?_ ?_ ?_ ?_ hfit hcl
  · intro p hpp
    obtain ⟨ms, ⟨t, h1, h2⟩, h3⟩ := hsends _ (hpart p hpp)
    have h4 := hmany _ (hpart p hpp)
    rw [← h3] at h4
    obtain ⟨m, hm⟩ := List.exists_mem_of_length_pos h4
    exact ⟨m, t, ms, h1, h2, hm⟩
  · intro p hpp d hdd
    have hdv := (hin p hpp).2 d hdd
    by_cases hx : External E W d
    · obtain ⟨t, x, h1, h2, h3, -, -, -, h6, -⟩ := ((hafter d hdv).1 hx).device
      obtain ⟨x', h7, h8⟩ := htakes p hpp d hdd hx
      rw [h3] at h7
      injection h7 with h7
      subst h7
      obtain ⟨m, hm⟩ := h6.1 h8
      refine ⟨m, t, [m], h1, ?_, List.mem_singleton.2 rfl⟩
      unfold inVerts
      rw [h2, hm]
    · have h1 := (hafter d hdv).2 hx
      obtain ⟨t, ht⟩ := hd.some_ d hdv
      have h2 := h1.pos
      rw [← h1.count] at h2
      obtain ⟨m, hm⟩ := List.exists_mem_of_length_pos h2
      rcases hd.shares d t ht with ⟨-, h3⟩ | ⟨h3, -⟩
      · exact ⟨m, t, _, ht, h3, hm⟩
      · exact absurd h3 (h1.kind t ht)
  · intro p hpp
    by_cases hx : External E W p.pre
    · obtain ⟨t, d, -, -, h3, -, -, -, -, h4⟩ := ((hafter _ (hin p hpp).1).1 hx).device
      obtain ⟨d', h5, cc, h6⟩ := hnear p hpp hx
      rw [h3] at h5
      injection h5 with h5
      subst h5
      refine .inr ⟨cc, fun m hm => ?_⟩
      obtain ⟨l, h7, b, h8⟩ := h4 m hm
      refine ⟨none, some (links l).2, ?_⟩
      rw [← h6 l h7]
      exact .link h8
    · exact hset _ (hin p hpp).1 hx
  · intro p hpp d hdd
    have hdv := (hin p hpp).2 d hdd
    by_cases hx : External E W d
    · obtain ⟨t, _, h1, h2, -⟩ := ((hafter d hdv).1 hx).device
      exact .inr ⟨t, h1, h2⟩
    · exact .inl (hset d hdv hx)

/-- C111 from the graph alone, with devices. A graph is set up without exceptions. Its vertices have a `SplitterFixedLegacy`, or a
`SplitterOneAppOneMachine`, or are devices with a `SplitterExternalDevice`. It is reset and mapped onto a machine on which ways are
found, of which all chips have `k` cores and the SDRAM that the partitioner reckons with. If however those before lie the cores that a
vertex needs are left on chips that can be reached from one another, devices that send have their links on one chip,
devices to which is sent can receive, and bits for the vertices of a source, for their keys and for the sources are together at most 32,
then partitioning, placing, routing, allocating keys and making tables succeed, each source sends from as many machine vertices as
reckoned, each of these has keys, no other has them, and its packets get to exactly the cores of the vertices that receive and to the
links of the devices that receive.
Missing: `SplitterOneToOneLegacy` after a reset (`C89_forgotten`); ways that return (C68); fixed keys of vertices that send from several
machine vertices (C22; `C111_pixels_partial` has those of 2D devices); devices that send from several chips; fixed locations. -/
theorem C111_devices_partial (hb : Built E mv next) (h : runOk E (World.new E mp mv next) os = some W)
    (hn : vs.Nodup) (hall : ∀ v s, (W.app v).splitter = some s → v ∈ vs)
    (hv : ∀ v ∈ vs, Plain E W k a sdram v ∨ Lone E W k sdram v ∨ External E W v) (hS : Site M C W links) (hk : 0 < k)
    (hE : Even M k sdram) (hf : M.chips.length < fuel) (hfree : ∀ v ∈ vs, fixedApp v = false)
    (hroom : Placer.AllFind M k 0 (vs.map (coresOn E W))) (hA : SameLinks M C.T) (hT : Passable C)
    (hm : Merges C) (hpos : Positive C.T)
    (hdis : (parts.map (fun p => (p.pre, p.ident))).Nodup) (hne : ∀ p ∈ parts, p.edges ≠ [])
    (hin : ∀ p ∈ parts, p.pre ∈ vs ∧ ∀ d ∈ p.edges, d ∈ vs)
    (hnear : ∀ p ∈ parts, External E W p.pre → OneChip E links p.pre)
    (htakes : ∀ p ∈ parts, ∀ d ∈ p.edges, External E W d → ∃ x, (E.app d).device = some x ∧ x.receives = true)
    (hK : Modest fl (sendersFor E W) vs parts K i j c) (hbits : i + j + c ≤ 32)
    (hmany : ∀ x ∈ pairs parts K, 0 < sendersFor E W x.1 ∧ sendersFor E W x.1 ≤ 2 ^ i) :
    ∃ W' n, partition E (resetGraph E W vs) k sdram vs = (W', .ok n) ∧
    (∀ v ∈ vs, ((W'.app v).machines.filter (fun m => decide ((W'.mv m).dev = none))).length = coresOn E W v) ∧
    (∀ x ∈ pairs parts K, ∃ ms, Sends E W' x ms ∧ ms.length = sendersFor E W x.1) ∧
    ∃ s, placeFor M W' fixedApp vs fuel (given []) = .ok s ∧
    ∃ k, ∀ fuel', k ≤ fuel' → ∃ S infos, routePlaced E W' C s links parts vs fuel' = .ok S ∧
      allocateFor fl (netOf E W' (located C W' s links) parts vs) K = .ok infos ∧
      ∀ (g : Generator) (same : Entry → Entry → Bool), ∃ tm,
        generate g same (ofInfos infos (netOf E W' (located C W' s links) parts vs).base.appOf) S = .ok tm ∧
        ∀ p ∈ parts, ∀ m, Sender E W' p.pre m → (∃ k, HasKey infos m p.ident k) ∧ ∀ k, HasKey infos m p.ident k →
          (∀ p' ∈ parts, ∀ m', Sender E W' p'.pre m' → HasKey infos m' p'.ident k → m' = m ∧ p'.ident = p.ident) ∧
          ∃ c q l, Sits W' (Plc.placements s) links m c q l ∧
            (∀ a ∈ Plc.placements s, Valid.Reaches (sceneOf C.T tm) k c ((a.x : Int), (a.y : Int)) a.p ↔
              (W'.mv a.vertex).dev = none ∧ ∃ d ∈ p.edges, Receiver E W' d a.vertex) ∧
            (∀ c' q', Valid.Reaches (sceneOf C.T tm) k c c' q' →
              ∃ a ∈ Plc.placements s, c' = ((a.x : Int), (a.y : Int)) ∧ q' = a.p) ∧
            (∀ d ∈ p.edges, ∀ t, Receiver E W' d t → ∀ c' q' l', Sits W' (Plc.placements s) links t c' q' (some l') →
              Leads (sceneOf C.T tm) k c c' l') := by
  have hpv : ∀ x ∈ pairs parts K, x.1 ∈ vs := pairs_in (fun p hp => (hin p hp).1) hK.asked
  refine mapped_devices hb h hn hall hv hS hk hE hf hfree hroom hA hT hm hpos hdis hne hin hnear htakes hpv
    (fun x hx => (hmany x hx).1) (fun W' n hp hsends => ?_)
  exact keys_after hK hbits hmany (fun x hx => (hsends x hx).imp fun _ h => h.1) (sends_length hsends)

end

/-! ### A device on two links of a board with 48 chips that sends to two vertices, one of them split, which sends back. The keys of the
device are fixed, and more keys are asked for it -/

def mixE : Env where
  app := fun v =>
    match v with
    | 3 => ⟨[4], false, fun _ => 0, none, some (.fpga 1 [7] (some 8) none)⟩
    | 1 => ⟨[1], false, fun _ => 0, some 0, none⟩
    | _ => ⟨[4], true, fun _ => 20, none, none⟩
  kind := fun s => if s = 3 then .external else if s = 1 then .oneApp else .fixed

def mixMv : Nat → MV := fun _ => ⟨⟨0, 1, none⟩, 30, 1, 0, none⟩

def mixMp : Nat → Option (List Nat) := fun v => if v = 2 then some [2] else none

def mixOs : List Op := [.setSplitter 3 3, .setSplitter 1 1, .setSplitter 2 2]

def mixW : World := run mixE (World.new mixE mixMp mixMv 1) mixOs

theorem mix_built : Built mixE mixMv 1 := by
  have : ∀ v m, (mixE.app v).single = some m → m = 0 ∧ v = 1 := by
    intro v m h
    match v with
    | 1 => injection h with h; exact ⟨h.symm, rfl⟩
    | 0 => cases h
    | 2 => cases h
    | 3 => cases h
    | v + 4 => cases h
  refine ⟨?_, ?_, ?_⟩ <;> intro v m h <;> obtain ⟨rfl, rfl⟩ := this v m h
  · decide
  · rfl
  · rfl

theorem mix_ok : runOk mixE (World.new mixE mixMp mixMv 1) mixOs = some mixW := rfl

theorem mix_all (v s : Nat) (h : (mixW.app v).splitter = some s) : v ∈ [3, 1, 2] := by
  match v with
  | 1 => decide
  | 2 => decide
  | 3 => decide
  | 0 => have : (mixW.app 0).splitter = none := rfl
         rw [this] at h; cases h
  | v + 4 =>
    have : (mixW.app (v + 4)).splitter = none := rfl
    rw [this] at h
    cases h

theorem mix_vertices : ∀ v ∈ [3, 1, 2], Plain mixE mixW 2 2 100 v ∨ Lone mixE mixW 2 100 v ∨ External mixE mixW v := by
  intro v hv
  simp only [List.mem_cons, List.not_mem_nil, or_false] at hv
  rcases hv with rfl | rfl | rfl
  · exact .inr (.inr ⟨⟨3, by decide +kernel, rfl⟩, rfl⟩)
  · exact .inr (.inl ⟨⟨1, by decide +kernel, rfl⟩, 0, rfl, by decide +kernel, by decide +kernel, by decide +kernel⟩)
  · exact .inl ⟨⟨2, by decide +kernel, rfl⟩, rfl, ⟨by decide, by
      intro m hm
      have : m = [2] := by
        have h0 : (mixW.app 2).maxPer = some [2] := by decide +kernel
        rw [h0] at hm
        exact (Option.some.inj hm).symm
      subst this
      exact ⟨rfl, by decide, fun h => absurd rfl h⟩⟩, by decide +kernel,
      fun sl _ => ⟨(by decide : (0 : Int) ≤ 20), (by decide : (20 : Int) * 2 ≤ 100)⟩⟩

theorem mix_site : Site fullM fullC mixW devLinks :=
  { full_site with links := by intro m i b _; unfold devLinks; split <;> decide +kernel }

def mixP : List AppPart := [⟨3, 0, [1, 2]⟩, ⟨2, 5, [3]⟩, ⟨1, 0, [2, 1]⟩]

theorem mix_modest {fl : Bool} : Modest fl (sendersFor mixE mixW) [3, 1, 2] mixP moreK 1 4 3 where
  valid := by
    intro a ident km h
    rw [(more_some h).2]
    decide
  freeM := fun _ _ => rfl
  asked := by decide
  some_ := fun _ _ => (by decide : 1 ≤ 10)
  most := fun _ _ => (by decide : 10 ≤ 2 ^ 4)
  one := by decide +kernel
  apart := by
    intro x _ y _ hne a b h1 h2
    exact absurd ((more_some h1).1.trans (more_some h2).1.symm) hne
  room := by
    refine ⟨[8], by decide, ?_⟩
    intro x _ km h k hk
    rw [(more_some h).2] at hk
    have h4 := (Alloc.covers_maskOf (y := 16) (a := 4) (by decide) k).1 (by
      have := congrArg BitVec.toNat hk
      rw [BitVec.toNat_and] at this
      exact this)
    have h5 : k.toNat / 2 ^ 5 = 8 := by omega
    exact List.mem_singleton.2 h5
  clear := .inr (.inr ⟨(2, 5), by decide, by decide, fun y hy _ => ⟨by revert y; decide +kernel, fun _ _ => Nat.le_refl _⟩⟩)

theorem mix_room : Placer.AllFind fullM 2 0 ([3, 1, 2].map (coresOn mixE mixW)) := by
  have : [3, 1, 2].map (coresOn mixE mixW) = [0, 1, 2] := by decide +kernel
  rw [this]
  exact ⟨Placer.finds_chip (by decide) (by decide +kernel), Placer.finds_chip (by decide) (by decide +kernel),
    Placer.finds_chip (by decide) (by decide +kernel), trivial⟩

theorem mix_near : ∀ p ∈ mixP, External mixE mixW p.pre → OneChip mixE devLinks p.pre := by
  intro p hp hx
  simp only [mixP, List.mem_cons, List.not_mem_nil, or_false] at hp
  rcases hp with rfl | rfl | rfl
  · exact ⟨_, rfl, (0, 0), by decide⟩
  · obtain ⟨t, h1, h2⟩ := hx.splitter
    have h3 : (mixW.app 2).splitter = some 2 := by decide +kernel
    rw [h3] at h1
    injection h1 with h1
    subst h1
    cases h2
  · obtain ⟨t, h1, h2⟩ := hx.splitter
    have h3 : (mixW.app 1).splitter = some 1 := by decide +kernel
    rw [h3] at h1
    injection h1 with h1
    subst h1
    cases h2

theorem mix_takes : ∀ p ∈ mixP, ∀ d ∈ p.edges, External mixE mixW d → ∃ x, (mixE.app d).device = some x ∧ x.receives = true := by
  intro p hp d hd hx
  have hd' : d = 1 ∨ d = 2 ∨ d = 3 :=
    (by decide : ∀ p ∈ mixP, ∀ d ∈ p.edges, d = 1 ∨ d = 2 ∨ d = 3) p hp d hd
  rcases hd' with rfl | rfl | rfl
  · obtain ⟨t, h1, h2⟩ := hx.splitter
    have h3 : (mixW.app 1).splitter = some 1 := by decide +kernel
    rw [h3] at h1
    injection h1 with h1
    subst h1
    cases h2
  · obtain ⟨t, h1, h2⟩ := hx.splitter
    have h3 : (mixW.app 2).splitter = some 2 := by decide +kernel
    rw [h3] at h1
    injection h1 with h1
    subst h1
    cases h2
  · exact ⟨_, rfl, rfl⟩

/-- Packets of both machine vertices of vertex 2 get to the link of the device. -/
example : ∃ W' n, partition mixE (resetGraph mixE mixW [3, 1, 2]) (2 : Nat) 100 [3, 1, 2] = (W', .ok n) ∧
    (∃ ms, Sends mixE W' (2, 5) ms ∧ ms.length = 2) ∧ ∃ s, placeFor fullM W' (fun _ => false) [3, 1, 2] 50 (given []) = .ok s ∧
    ∃ k, ∀ fuel', k ≤ fuel' → ∃ S infos, routePlaced mixE W' fullC s devLinks mixP [3, 1, 2] fuel' = .ok S ∧
      ∀ (g : Generator) (same : Entry → Entry → Bool), ∃ tm, generate g same
        (ofInfos infos (netOf mixE W' (located fullC W' s devLinks) mixP [3, 1, 2]).base.appOf) S = .ok tm ∧
        ∀ m, Sender mixE W' 2 m → ∃ k, HasKey infos m 5 k ∧ ∃ c q l, Sits W' (Plc.placements s) devLinks m c q l ∧
          ∀ t, Receiver mixE W' 3 t → ∀ c' q' l', Sits W' (Plc.placements s) devLinks t c' q' (some l') →
            Leads (sceneOf fullC.T tm) k c c' l' := by
  obtain ⟨W', n, h1, -, h2, s, h3, k, hk⟩ := C111_devices_partial (fl := true) (k := 2) (a := 2) (i := 1) (j := 4) (c := 3) (sdram := 100)
    (fuel := 50) (parts := mixP) (links := devLinks) (fixedApp := fun _ => false) (C := fullC) (K := moreK) (M := fullM)
    (vs := [3, 1, 2])
    mix_built mix_ok (by decide) mix_all mix_vertices mix_site (by decide)
    full_even (by decide +kernel) (fun _ _ => rfl) mix_room full_links full_passable (fun a b => ⟨_, rfl⟩) full_positive (by decide)
    (by decide) (by decide) mix_near mix_takes mix_modest (by decide) (by decide +kernel)
  obtain ⟨ms, hms, hlen⟩ := h2 (2, 5) (by decide)
  refine ⟨W', n, h1, ⟨ms, hms, hlen.trans (by decide +kernel)⟩, s, h3, k, fun fuel' hf => ?_⟩
  obtain ⟨S, infos, h4, -, h5⟩ := hk fuel' hf
  refine ⟨S, infos, h4, fun g same => ?_⟩
  obtain ⟨tm, h6, h7⟩ := h5 g same
  refine ⟨tm, h6, fun m hm => ?_⟩
  obtain ⟨⟨key, hkey⟩, h8⟩ := h7 ⟨2, 5, [3]⟩ (by decide) m hm
  obtain ⟨-, cc, q, l, h9, -, -, h10⟩ := h8 key hkey
  exact ⟨key, hkey, cc, q, l, h9, h10 3 (by decide)⟩

/-! ### The placer finds chips for the graph of the example -/

theorem mix_linked : Linked mixW := linked_runOk _ (linked_new _ _ _ _) mix_ok

theorem mix_anew : ∀ v ∈ [3, 1, 2], Anew mixE mixW v := by
  intro v hv s hs
  simp only [List.mem_cons, List.not_mem_nil, or_false] at hv
  rcases hv with rfl | rfl | rfl
  · have h3 : (mixW.app 3).splitter = some 3 := by decide +kernel
    rw [h3] at hs
    injection hs with hs
    subst hs
    exact ⟨rfl, rfl⟩
  · have h3 : (mixW.app 1).splitter = some 1 := by decide +kernel
    rw [h3] at hs
    injection hs with hs
    subst hs
    exact trivial
  · have h3 : (mixW.app 2).splitter = some 2 := by decide +kernel
    rw [h3] at hs
    injection hs with hs
    subst hs
    exact ⟨rfl, rfl, rfl⟩

def mixD : World := (partition mixE mixW (2 : Nat) 100 [3, 1, 2]).1

theorem mix_done : partition mixE mixW (2 : Nat) 100 [3, 1, 2] = (mixD, .ok 3) := by
  have h : (partition mixE mixW (2 : Nat) 100 [3, 1, 2]).2 = .ok 3 := by decide +kernel
  rw [← h]
  rfl

example : ∃ s, placeFor fullM mixD (fun _ => false) [3, 1, 2] 50 (given []) = .ok s :=
  C101_remote_partial (k := 2) (sdram := 100) (os := mixOs) mix_built rfl mix_linked (by decide) mix_done mix_anew mix_all
    (by decide) full_even (by decide +kernel) (fun _ _ => rfl) (by decide +kernel)
    (by
      have : [3, 1, 2].map (fun v => ((mixD.app v).machines.filter (fun m => decide ((mixD.mv m).dev = none))).length) = [0, 1, 2] := by
        decide +kernel
      rw [this]
      exact ⟨Placer.finds_chip (by decide) (by decide +kernel), Placer.finds_chip (by decide) (by decide +kernel),
        Placer.finds_chip (by decide) (by decide +kernel), trivial⟩)

end Pacman.Split
