import Verif.Props.ValidationMapped
import Verif.Props.MappingCompressed
import Verif.Props.SliceText
/-
C124 for whole mappings: the check of the routes on a graph that has been partitioned, placed and routed.
-/

namespace Pacman.Split

open Slices (Slice)
open Router (Ctx AppPart Net NoReturns Merges Leaves NetSends NetAsked)
open Pipe (Keys Generator HasKey Positive allocateFor generate FixedBlocks checked sureKeys)
open Gen (ofInfos)
open Tables (TablesMap)
open Plc (Store)
open Placer (given)

/-- The atoms of a machine vertex, `vertex_slice.n_atoms`. -/
def atomsOf (W : World) (m : Nat) : Nat := (W.mv m).slice.n

section
variable {E : Env} {mp : Nat → Option (List Nat)} {mv : Nat → MV} {next : Nat} {os : List Op} {W W' : World}
  {vs : List Nat} {cores sdram : Int} {n : Nat} {C : Ctx} {parts : List AppPart} {K : Keys} {fuel fuel' : Nat}
  {S : ByPart.State} {infos : Alloc.Infos} {g : Generator} {same : Entry → Entry → Bool} {tm : TablesMap}
  {M : Placer.Machine} {links : Nat → RPath.XY × Nat} {fixedApp : Nat → Bool} {sys : List Plc.Op} {s : Store}

/-- Those that are asked for packets. -/
theorem net_asked {a ident t : Nat} : NetAsked (netOf E W C parts vs) a ident t ↔
    ∃ p ∈ parts, p.pre = a ∧ p.ident = ident ∧ ∃ d ∈ p.edges, Receiver E W d t := by
  constructor
  · rintro (⟨p, h1, h2, h3, d, h4, x, h5, rfl⟩ | ⟨is, h1, i, hi, -⟩)
    · exact ⟨p, h1, h2, h3, d, h4, (net_incoming.1 h5).1⟩
    · rw [net_internals h1] at hi; cases hi
  · rintro ⟨p, h1, h2, h3, d, h4, h5⟩
    exact Or.inl ⟨p, h1, h2, h3, d, h4, (t, [.app a]), net_incoming.2 ⟨h5, rfl⟩, rfl⟩

/-- C124 for mapped graphs: a graph that is `Anew` is partitioned, placed, routed, given keys, and tables are made. If no target is
a device, and each machine vertex that sends has an atom and asks for more keys than it has atoms, or has more of them fixed,
then the check of the routes accepts the tables.
Missing: what `C124_device` and `C124_beside` show to be refused; what `C99_exact_partial` leaves out. -/
theorem C124_mapped_partial (hb : Built E mv next) (h : run E (World.new E mp mv next) os = W) (hL : Linked W)
    (hn : vs.Nodup) (hp : partition E W cores sdram vs = (W', .ok n)) (hu : ∀ v ∈ vs, Anew E W v)
    (hall : ∀ v s, (W.app v).splitter = some s → v ∈ vs) (hS : Site M C W' links) (hf : M.chips.length < fuel)
    (hsys : ∀ a ∈ Plc.placements (given sys), M.has (a.x, a.y) = true)
    (hpl : placeFor M W' fixedApp vs fuel (given sys) = .ok s) (hr : NoReturns C)
    (hpos : Positive C.T) (hdis : (parts.map (fun p => (p.pre, p.ident))).Nodup) (hin : ∀ p ∈ parts, p.pre ∈ vs)
    (hnear : ∀ p ∈ parts, ∀ t, E.kind t = .external → (W'.app p.pre).splitter = some t → ∀ m, Receiver E W' p.pre m →
      ∀ c q l, Sits W' (Plc.placements s) links m c q l →
      ∃ m', Sender E W' p.pre m' ∧ ∃ q' l', Sits W' (Plc.placements s) links m' c q' l')
    (hK : KeyTerms (netOf E W' (located C W' s links) parts vs) K) (hB : FixedBlocks K)
    (hroute : routePlaced E W' C s links parts vs fuel' = .ok S)
    (ha : Pipe.Allocated (netOf E W' (located C W' s links) parts vs) K infos)
    (hg : generate g same (ofInfos infos (netOf E W' (located C W' s links) parts vs).base.appOf) S = .ok tm)
    (hat : ∀ p ∈ parts, ∀ m, Sender E W' p.pre m → 0 < atomsOf W' m ∧ atomsOf W' m < sureKeys K p.pre p.ident m)
    (hno : ∀ p ∈ parts, ∀ d ∈ p.edges, ∀ t, Receiver E W' d t → (W'.mv t).dev = none)
    {rounds : Nat} (hrd : tm.length < rounds) :
    Valid.validate (checked (netOf E W' (located C W' s links) parts vs) infos tm (atomsOf W')) rounds = .ok () := by
  have hW0 : Sound E W := by rw [← h]; exact sound_run os (sound_new hb)
  have hd := done_after hW0 hL hn hp hu hall
  have hP := put_after (vs := vs) hS (linked_after hL hp) hf hpl
  have hG := ground_after (vs := vs) hS hP hsys
  obtain ⟨hone, -, hplaced⟩ := C99_placed_partial (parts := parts) (fuel' := fuel') hb h hL hn hp hu hall hS hf hpl hin
  rw [hplaced] at hroute
  have hnear' : ∀ p ∈ parts, Near E W' (located C W' s links) p.pre := by
    intro p hpp t ht hk m hm
    obtain ⟨c, q, l, h1, -⟩ := hone p.pre m (Or.inr (Or.inr hm))
    obtain ⟨m', h2, q', l', h3⟩ := hnear p hpp t hk ht m hm c q l h1
    refine ⟨m', h2, ?_⟩
    rw [locate_sits (C := C) hP h1, locate_sits (C := C) hP h3]
  have hN := net_contract (C := located C W' s links) hG hd hdis
  unfold routeFor at hroute
  split at hroute
  · cases hroute
  · rename_i hask
    refine Pipe.C124_asked_partial hN hin (net_even hd hask hnear') hr (net_allSend hd hask hnear') (net_outside hG)
      (net_keys hd hK) hB hpos hroute ha hg (fun t l hl => (hG.outside t l hl).1) ?_ ?_ hrd
    · intro a ident m hl hm
      obtain ⟨p, h1, rfl, rfl⟩ := net_leaves hl
      exact hat p h1 m (net_sends.1 hm)
    · intro a ident t _ ht
      obtain ⟨p, h1, rfl, rfl, d, h4, h5⟩ := net_asked.1 ht
      obtain ⟨c, q, l, h6, -⟩ := hone d t (Or.inr (Or.inr h5))
      rw [show (netOf E W' (located C W' s links) parts vs).base.locate t = (c, q, l) from locate_sits (C := C) hP h6]
      cases h6 with
      | link h0 => rw [hno p h1 d h4 t h5] at h0; cases h0
      | core _ _ _ => rfl

/-- What is refused of mapped graphs: those with a device among the targets, whatever the tables are. -/
theorem C124_mapped_device (hdis : (parts.map (fun p => (p.pre, p.ident))).Nodup) {p : AppPart} (hp : p ∈ parts) {d : Nat}
    (hd : d ∈ p.edges) {t : Nat} (ht : Receiver E W' d t) (hdev : (W'.mv t).dev.isSome = true) (infos : Alloc.Infos)
    (tm : TablesMap) (rounds : Nat) :
    Valid.validate (checked (netOf E W' (located C W' s links) parts vs) infos tm (atomsOf W')) rounds ≠ .ok () := by
  refine Pipe.C124_device (t := t) hdis (Or.inl ⟨p, hp, rfl, rfl⟩ : Leaves _ p.pre p.ident)
    (net_asked.2 ⟨p, hp, rfl, rfl, d, hd, ht⟩) ?_ infos tm _ rounds
  cases h : (W'.mv t).dev with
  | none => rw [h] at hdev; cases hdev
  | some x => simp only [netOf, located, h]

end

/-- Slices of vertices have atoms. -/
theorem multi_pos {v : Slices.Vertex} {ss : List Slice} (h : Slices.multiSlices v = .ok ss) : ∀ s ∈ ss, 0 < s.n := by
  intro s hs
  by_cases hl : v.shape.length = 1
  · have h1 : Slices.singleSlices v = .ok ss := by
      unfold Slices.multiSlices at h
      cases h1 : Slices.maxPerDim v with
      | error e => rw [h1] at h; cases h
      | ok per =>
        rw [h1] at h
        dsimp only [bind, Except.bind] at h
        split at h
        · cases h
        · exact h
    exact (SliceText.singleSlices_plain h1 s hs).1
  · obtain ⟨ss', h1, -, h2, -, -⟩ := Slices.C44_slices_tile (Slices.C44_only_valid h) hl
    rw [h] at h1
    cases h1
    exact SliceText.mem_contiguous h2 s hs

section
variable {E : Env} {mp : Nat → Option (List Nat)} {mv : Nat → MV} {next : Nat} {os : List Op} {W : World}
  {vs : List Nat} {k a i j c : Nat} {sdram : Int} {fuel : Nat} {C : Ctx} {parts : List AppPart} {K : Keys}
  {M : Placer.Machine} {links : Nat → RPath.XY × Nat} {fixedApp : Nat → Bool} {fl : Bool}

/-- C124 from the graph alone: as in `C111_graph_partial` a graph is mapped. If each machine vertex asks for more keys than
there may be atoms on a core, or has more of them fixed, then the check of the routes accepts the tables of both generators.
Missing: vertices that ask for as many keys as they have atoms (`C124_beside`); what `C111_graph_partial` leaves out. -/
theorem C124_graph_partial (hb : Built E mv next) (h : run E (World.new E mp mv next) os = W) (hL : Linked W)
    (hn : vs.Nodup) (hall : ∀ v s, (W.app v).splitter = some s → v ∈ vs) (hdev : ∀ m, (W.mv m).dev = none)
    (hplain : ∀ v ∈ vs, Plain E W k a sdram v) (hS : Site M C W links) (hk : 0 < k)
    (hE : Even M k sdram) (hf : M.chips.length < fuel) (hfree : ∀ v ∈ vs, fixedApp v = false)
    (hroom : Placer.AllFind M k 0 (vs.map (coresFor E W))) (hA : SameLinks M C.T) (hT : Passable C)
    (hm : Merges C) (hpos : Positive C.T)
    (hdis : (parts.map (fun p => (p.pre, p.ident))).Nodup) (hne : ∀ p ∈ parts, p.edges ≠ [])
    (hin : ∀ p ∈ parts, p.pre ∈ vs ∧ ∀ d ∈ p.edges, d ∈ vs) (hK : Modest fl (coresFor E W) vs parts K i j c)
    (hB : FixedBlocks K) (hbits : i + j + c ≤ 32) (hi : a ≤ 2 ^ i)
    (hspare : ∀ p ∈ parts, ∀ m, perCore E W p.pre < sureKeys K p.pre p.ident m) :
    ∃ W' n, partition E (resetGraph E W vs) k sdram vs = (W', .ok n) ∧
    ∃ s, placeFor M W' fixedApp vs fuel (given []) = .ok s ∧
    ∃ k, ∀ fuel', k ≤ fuel' → ∃ S infos, routePlaced E W' C s links parts vs fuel' = .ok S ∧
      allocateFor fl (netOf E W' (located C W' s links) parts vs) K = .ok infos ∧
      ∀ (g : Generator) (same : Entry → Entry → Bool), ∃ tm,
        generate g same (ofInfos infos (netOf E W' (located C W' s links) parts vs).base.appOf) S = .ok tm ∧
        ∀ rounds, tm.length < rounds →
          Valid.validate (checked (netOf E W' (located C W' s links) parts vs) infos tm (atomsOf W')) rounds = .ok () := by
  obtain ⟨W', n, hp, -, s, hpl, k0, hk0⟩ := C111_graph_partial (fl := fl) (fixedApp := fixedApp) (links := links) hb h hL hn
    hall hdev hplain hS hk hE hf hfree hroom hA hT hm hpos hdis hne hin hK hbits hi
  refine ⟨W', n, hp, s, hpl, k0, fun fuel' hf' => ?_⟩
  obtain ⟨S, infos, h1, h2, h3⟩ := hk0 fuel' hf'
  refine ⟨S, infos, h1, h2, fun g same => ?_⟩
  obtain ⟨tm, h4, -⟩ := h3 g same
  refine ⟨tm, h4, fun rounds hrd => ?_⟩
  obtain ⟨hu, hdev', hkinds, hboth, -, hsite, hfit, hcl⟩ := plain_after (C := C) (parts := parts) hb h hL hn hall hdev hplain hS
    (fun p hp => (hin p hp).1) hK hbits hi hp
  have hterms := net_terms (C := located C W' s links) (vs := vs) hfit
  refine C124_mapped_partial (links := links) (fixedApp := fixedApp) (sys := []) hb (run_resetGraph h vs) ((keeps_resetGraph E W vs).linked hL)
    hn hp hu (all_reset hall) hsite hf (by intro a ha; cases ha) hpl hT.clean hpos hdis (fun p hp => (hin p hp).1)
    (by intro p hp t h0 ht; rw [hkinds _ (hin p hp).1 t ht] at h0; cases h0) hterms hB
    h1 ⟨fl, net_clear hcl, h2⟩ h4 ?_ (fun _ _ _ _ t _ => hdev' t) hrd
  intro p hpp m hms
  have hpv := (hin p hpp).1
  have hmm := (hboth _ hpv m).1.1 hms
  obtain ⟨t, e1, e2⟩ := (hplain _ hpv).splitter
  have hW0 : Sound E W := by rw [← h]; exact sound_run os (sound_new hb)
  obtain ⟨ss, e3, e4, -⟩ := machines_after (sound_resetGraph hW0 vs) ((keeps_resetGraph E W vs).linked hL) hn hp hpv
    (((keeps_resetGraph E W vs).1 _).trans e1) e2 (hu _ hpv)
  obtain ⟨-, e5, -, -⟩ := C90_atoms_partial hb (run_resetGraph h vs) ((keeps_resetGraph E W vs).linked hL) hn hp hpv
    (((keeps_resetGraph E W vs).1 _).trans e1) e2 (hu _ hpv)
  rw [resetGraph_maxPer] at e5
  refine ⟨multi_pos e3 _ ?_, Nat.lt_of_le_of_lt (e5 m hmm) (hspare p hpp m)⟩
  rw [← e4]
  exact List.mem_map_of_mem hmm

end

/-! ### The graph of two vertices on the machine with faults, and the graph with a device -/

example : ∃ W' n, partition roomE (resetGraph roomE (roomW [3, 2]) [3, 2]) (2 : Nat) 100 [3, 2] = (W', .ok n) ∧
    ∃ s, placeFor devM W' (fun _ => false) [3, 2] 5 (given []) = .ok s ∧
    ∃ k, ∀ fuel', k ≤ fuel' → ∃ S infos, routePlaced roomE W' devBase s devLinks splitP [3, 2] fuel' = .ok S ∧
      ∀ (g : Generator) (same : Entry → Entry → Bool), ∃ tm, generate g same
        (ofInfos infos (netOf roomE W' (located devBase W' s devLinks) splitP [3, 2]).base.appOf) S = .ok tm ∧
        Valid.validate (checked (netOf roomE W' (located devBase W' s devLinks) splitP [3, 2]) infos tm (atomsOf W'))
          (tm.length + 1) = .ok () := by
  obtain ⟨W', n, h1, s, h3, k, hk⟩ := C124_graph_partial (fl := false) (k := 2) (a := 2) (i := 1) (j := 4) (c := 1) (sdram := 100) (fuel := 5)
    (parts := splitP) (links := devLinks) (fixedApp := fun _ => false) (C := devBase) (K := Pipe.lineK)
    (os := [3, 2].map (fun v => .setSplitter v v)) (W := roomW [3, 2])
    room_built rfl (room_linked rfl) (by decide) room_all32 (room_noDev _ rfl) room32_plain line_site (by decide)
    line_even (by decide +kernel) (fun _ _ => rfl) (Placer.allFind_few (a := 2) (by decide) _ 0 (by decide +kernel) (by decide +kernel)) line_same line_passable (fun a b => ⟨_, rfl⟩)
    (by intro c hc; revert c; decide) (by decide)
    (by decide) (by decide) split_modest Pipe.line_blocks (by decide) (by decide) (by
      have h : ∀ p ∈ splitP, perCore roomE (roomW [3, 2]) p.pre < 10 := by decide +kernel
      exact fun p hp _ => h p hp)
  refine ⟨W', n, h1, s, h3, k, fun fuel' hf => ?_⟩
  obtain ⟨S, infos, h4, -, h5⟩ := hk fuel' hf
  refine ⟨S, infos, h4, fun g same => ?_⟩
  obtain ⟨tm, h6, h7⟩ := h5 g same
  exact ⟨tm, h6, h7 _ (Nat.lt_succ_self _)⟩

/-- With the sixteen keys that are fixed for vertex 3. -/
example : ∃ W' n, partition roomE (resetGraph roomE (roomW [3, 2]) [3, 2]) (2 : Nat) 100 [3, 2] = (W', .ok n) ∧
    ∃ s, placeFor devM W' (fun _ => false) [3, 2] 5 (given []) = .ok s ∧
    ∃ k, ∀ fuel', k ≤ fuel' → ∃ S infos, routePlaced roomE W' devBase s devLinks splitP [3, 2] fuel' = .ok S ∧
      ∃ tm, generate .merged (fun _ _ => true)
        (ofInfos infos (netOf roomE W' (located devBase W' s devLinks) splitP [3, 2]).base.appOf) S = .ok tm ∧
        Valid.validate (checked (netOf roomE W' (located devBase W' s devLinks) splitP [3, 2]) infos tm (atomsOf W'))
          (tm.length + 1) = .ok () := by
  obtain ⟨W', n, h1, s, h3, k, hk⟩ := C124_graph_partial (fl := false) (k := 2) (a := 2) (i := 1) (j := 4) (c := 2) (sdram := 100) (fuel := 5)
    (parts := splitP) (links := devLinks) (fixedApp := fun _ => false) (C := devBase) (K := moreK)
    (os := [3, 2].map (fun v => .setSplitter v v)) (W := roomW [3, 2])
    room_built rfl (room_linked rfl) (by decide) room_all32 (room_noDev _ rfl) room32_plain line_site (by decide)
    line_even (by decide +kernel) (fun _ _ => rfl) (Placer.allFind_few (a := 2) (by decide) _ 0 (by decide +kernel) (by decide +kernel)) line_same line_passable (fun a b => ⟨_, rfl⟩)
    (by intro c hc; revert c; decide) (by decide)
    (by decide) (by decide) more_modest more_blocks (by decide) (by decide) (by
      have h : ∀ p ∈ splitP, perCore roomE (roomW [3, 2]) p.pre < sureKeys moreK p.pre p.ident 0 := by decide +kernel
      exact fun p hp _ => h p hp)
  refine ⟨W', n, h1, s, h3, k, fun fuel' hf => ?_⟩
  obtain ⟨S, infos, h4, -, h5⟩ := hk fuel' hf
  obtain ⟨tm, h6, h7⟩ := h5 .merged (fun _ _ => true)
  exact ⟨S, infos, h4, tm, h6, h7 _ (Nat.lt_succ_self _)⟩

/-- The routes of the graph with the device deliver (C111), but the check refuses them. -/
example (infos : Alloc.Infos) (tm : TablesMap) (rounds : Nat) :
    Valid.validate (checked fullNet infos tm (atomsOf devD)) rounds ≠ .ok () :=
  C124_mapped_device (C := fullC) (s := fullStore) (links := devLinks) (vs := [0, 1, 2]) (p := ⟨1, 0, [0, 2]⟩) (d := 0) (t := 1)
    (by decide) (by decide) (by decide) ⟨0, [1], by decide +kernel, by decide +kernel, by decide⟩ (by decide +kernel) infos tm
    rounds

/-! ### As many keys as atoms -/

/-- Each machine vertex asks for as many keys as it has atoms. -/
def exactK : Keys := { Pipe.lineK with nKeys := fun m _ => atomsOf (roomD [3, 2] 2) m }

def exactStore : Store := (placeFor devM (roomD [3, 2] 2) (fun _ => false) [3, 2] 5 (given [])).toOption.getD Plc.Store.empty

def exactN : Net := netOf roomE (roomD [3, 2] 2) (located devBase (roomD [3, 2] 2) exactStore devLinks) splitP [3, 2]

def exactS : ByPart.State :=
  (routePlaced roomE (roomD [3, 2] 2) devBase exactStore devLinks splitP [3, 2] 30).toOption.getD []

def exactInfos : Alloc.Infos := (allocateFor true exactN exactK).toOption.getD []

/-- A graph that is mapped, and to whose vertices packets get as they should (C111), but which the check refuses: the two
machine vertices of application vertex 2 have one atom each and ask for one key each, so that the key after the one of the
first is the key of the second. -/
theorem C124_graph_beside (g : Generator) :
    (partition roomE (resetGraph roomE (roomW [3, 2]) [3, 2]) (2 : Nat) 100 [3, 2] = (roomD [3, 2] 2, .ok 2) ∧
    placeFor devM (roomD [3, 2] 2) (fun _ => false) [3, 2] 5 (given []) = .ok exactStore ∧
    routePlaced roomE (roomD [3, 2] 2) devBase exactStore devLinks splitP [3, 2] 30 = .ok exactS ∧
    allocateFor true exactN exactK = .ok exactInfos) ∧
    ∃ tm, generate g (fun _ _ => true) (ofInfos exactInfos exactN.base.appOf) exactS = .ok tm ∧
      Valid.validate (checked exactN exactInfos tm (atomsOf (roomD [3, 2] 2))) 6 = .error .configuration := by
  refine ⟨⟨room_done (by decide +kernel), by decide +kernel, by decide +kernel, by decide +kernel⟩, ?_⟩
  cases g
  · have h : (match generate .basic (fun _ _ => true) (ofInfos exactInfos exactN.base.appOf) exactS with
      | .ok tm => decide (Valid.validate (checked exactN exactInfos tm (atomsOf (roomD [3, 2] 2))) 6 = .error .configuration)
      | .error _ => false) = true := by decide +kernel
    cases ht : generate .basic (fun _ _ => true) (ofInfos exactInfos exactN.base.appOf) exactS with
    | error e => rw [ht] at h; cases h
    | ok tm => rw [ht] at h; exact ⟨tm, rfl, of_decide_eq_true h⟩
  · have h : (match generate .merged (fun _ _ => true) (ofInfos exactInfos exactN.base.appOf) exactS with
      | .ok tm => decide (Valid.validate (checked exactN exactInfos tm (atomsOf (roomD [3, 2] 2))) 6 = .error .configuration)
      | .error _ => false) = true := by decide +kernel
    cases ht : generate .merged (fun _ _ => true) (ofInfos exactInfos exactN.base.appOf) exactS with
    | error e => rw [ht] at h; cases h
    | ok tm => rw [ht] at h; exact ⟨tm, rfl, of_decide_eq_true h⟩

end Pacman.Split
