import Verif.Proofs.SplitterAnew
import Verif.Props.Splitters
import Verif.Props.Wanted
/-
C98: with the built-in splitters, the packets of an application vertex get to all vertices that receive for the targets
of its edges, and to no others (false for some devices; partial).
-/

namespace Pacman.Split

open Slices (Slice rasterIds)
open Counter (Counter)
open Router (Ctx AppPart Net NoReturns NetWants NetSends)
open Pipe (Keys KeyContract Generator HasKey Arrives sceneOf Positive allocateFor generate miniC miniT)
open Gen (ofInfos)
open Tables (TablesMap)
open RPath (XY)

/-- C90 for a `SplitterOneToOneLegacy` that is partitioned for the first time: one machine vertex has all atoms and the
SDRAM that the vertex wants for them, and it sends and receives for the vertex. -/
theorem C90_whole {E : Env} {mp : Nat → Option (List Nat)} {mv : Nat → MV} {next : Nat} (hb : Built E mv next)
    {os : List Op} {W W' : World} (h : run E (World.new E mp mv next) os = W) (hL : Linked W) {vs : List Nat}
    (hn : vs.Nodup) {cores sdram : Int} {n : Nat}
    (hp : partition E W cores sdram vs = (W', .ok n)) {v s : Nat} (hv : v ∈ vs)
    (hs : (W.app v).splitter = some s) (hk : E.kind s = .oneToOne) (hr : Anew E W v) :
    ∃ m, (W'.app v).machines = [m] ∧ rasterIds (W'.mv m).slice = List.range (E.app v).nAtoms ∧
      (W'.mv m).sdram = (E.app v).sdramOf (W'.mv m).slice ∧ (W'.mv m).app = v ∧
      outVerts E W' s = .ok [m] ∧ inVerts E W' s = .ok [m] := by
  have hW0 : Sound E W := by rw [← h]; exact sound_run os (sound_new hb)
  have hS := sound_partitionLoop (E := E) vs W (Counter.new cores sdram) hW0
  rw [← partition_world, hp] at hS
  simp only at hS
  have hg : (W'.spl s).governed = some v := by
    have := (mono_partition E W cores sdram vs).governed s
    rw [hp] at this
    simp only at this
    rw [this]
    exact (hL v s).1 hs
  rcases shares_after hW0 hL hn hp hv hs hr with ⟨h1, h2⟩ | ⟨h1, -⟩
  · have h3 := h1
    unfold outVerts at h3
    simp only [hk] at h3
    cases hx : (W'.spl s).one with
    | none => rw [hx] at h3; cases h3
    | some x =>
      rw [hx] at h3
      injection h3 with h3
      obtain ⟨-, e2, e3, e4⟩ := hS.one s x hx
      obtain ⟨e5, e6, e7⟩ := e2 v hg
      rw [← h3] at h1 h2
      refine ⟨x.1, h3.symm, ?_, by rw [e4, e3, e7], e5, h1, h2⟩
      rw [e3]
      unfold Slices.mkSlice at e6
      split at e6
      · cases e6
      · injection e6 with e6
        rw [← e6]
        simp [rasterIds, List.range_eq_range']
  · rw [hk] at h1; cases h1

example :
    let W := run demo demoNew [.setSplitter 3 1, .setSplitter 0 0]
    let r := partition demo W 17 100 [0, 3]
    r.2 = .ok 1 ∧ (r.1.app 3).machines = [1] ∧ rasterIds (r.1.mv 1).slice = List.range 16 ∧ (r.1.mv 1).sdram = 32 ∧
    (r.1.app 0).machines.map (fun m => (r.1.mv m).slice.n) = [4, 4, 2] := by decide +kernel

section
variable {E : Env} {mp : Nat → Option (List Nat)} {mv : Nat → MV} {next : Nat} {os : List Op} {W W' : World}
  {vs : List Nat} {cores sdram : Int} {n : Nat} {C : Ctx} {parts : List AppPart} {K : Keys} {fuel : Nat}
  {S : ByPart.State} {infos : Alloc.Infos} {g : Generator} {same : Entry → Entry → Bool} {tm : TablesMap}

/-- Every sender of the source of a partition has a key. -/
theorem C98_keys (hb : Built E mv next) (h : run E (World.new E mp mv next) os = W) (hL : Linked W) (hn : vs.Nodup)
    (hp : partition E W cores sdram vs = (W', .ok n)) (hu : ∀ v ∈ vs, Anew E W v)
    (hall : ∀ v s, (W.app v).splitter = some s → v ∈ vs) (hG : Ground C)
    (hdis : (parts.map (fun p => (p.pre, p.ident))).Nodup) (hK : KeyTerms (netOf E W' C parts vs) K)
    (ha : Pipe.Allocated (netOf E W' C parts vs) K infos)
    {p : AppPart} (hpp : p ∈ parts) {m : Nat} (hm : Sender E W' p.pre m) : ∃ k, HasKey infos m p.ident k := by
  have hW0 : Sound E W := by rw [← h]; exact sound_run os (sound_new hb)
  have hd := done_after hW0 hL hn hp hu hall
  exact Pipe.C83_keys (net_contract hG hd hdis) (net_keys hd hK) ha (Or.inl ⟨p, hpp, rfl, rfl⟩) (net_sends.2 hm)

/-- C98, the part that holds: the graph is `Anew` (splitters were just set, or it was reset), and it is partitioned, routed, given keys, and tables are made by either
generator. Then a packet of a machine vertex that sends for the source of a partition gets to every machine vertex that
receives for the target of an edge of the partition, and to no core where there is none.
Missing: `SplitterOneToOneLegacy` after a reset, by which its machine vertex is forgotten (`C89_forgotten`); devices with a chip
that only receives (`C98_device_fails`, `C98_device_lost`); returning ways (`C74_false_loops`); and what `KeyTerms`
asks. -/
theorem C98_exact_partial (hb : Built E mv next) (h : run E (World.new E mp mv next) os = W) (hL : Linked W)
    (hn : vs.Nodup) (hp : partition E W cores sdram vs = (W', .ok n)) (hu : ∀ v ∈ vs, Anew E W v)
    (hall : ∀ v s, (W.app v).splitter = some s → v ∈ vs) (hG : Ground C) (hr : NoReturns C) (hpos : Positive C.T)
    (hdis : (parts.map (fun p => (p.pre, p.ident))).Nodup) (hin : ∀ p ∈ parts, p.pre ∈ vs)
    (hnear : ∀ p ∈ parts, Near E W' C p.pre) (hK : KeyTerms (netOf E W' C parts vs) K)
    (hroute : routeFor E W' C parts vs fuel = .ok S) (ha : Pipe.Allocated (netOf E W' C parts vs) K infos)
    (hg : generate g same (ofInfos infos (netOf E W' C parts vs).base.appOf) S = .ok tm)
    {p : AppPart} (hpp : p ∈ parts) {m : Nat} (hm : Sender E W' p.pre m) {k : Word} (hk : HasKey infos m p.ident k) :
    (∀ d ∈ p.edges, ∀ t, Receiver E W' d t →
      Arrives (netOf E W' C parts vs) (sceneOf C.T tm) k (C.locate m).1 t) ∧
    (∀ c q, Valid.Reaches (sceneOf C.T tm) k (C.locate m).1 c q ↔
      ∃ d ∈ p.edges, ∃ t, Receiver E W' d t ∧ (C.locate t).1 = c ∧ (C.locate t).2.1 = some q) := by
  have hW0 : Sound E W := by rw [← h]; exact sound_run os (sound_new hb)
  have hd := done_after hW0 hL hn hp hu hall
  have hN := net_contract (C := C) hG hd hdis
  unfold routeFor at hroute
  split at hroute
  · cases hroute
  · rename_i hask
    have hs := net_allSend (vs := vs) hd hask hnear
    have hE := net_even (vs := vs) hd hask hnear
    have hK' := net_keys hd hK
    have hl : Router.Leaves (netOf E W' C parts vs) p.pre p.ident := Or.inl ⟨p, hpp, rfl, rfl⟩
    have hsend : NetSends (netOf E W' C parts vs) p.pre p.ident m := net_sends.2 hm
    constructor
    · intro d hdd t ht
      exact Pipe.C83_delivered_partial hN hr hs hK' hpos hroute ha hg
        (net_wants.2 ⟨hm, p, hpp, rfl, rfl, d, hdd, ht⟩) hk
    · intro c q
      have hx := Pipe.C87_exact_partial hN hin hE hr hs (net_outside hG) hK' hpos hroute ha hg hl hsend hk
        (fun t l h0 => (hG.outside t l h0).1) c q
      refine hx.trans ⟨?_, ?_⟩
      · rintro ⟨t, h1, h2, h3⟩
        obtain ⟨-, p', h4, h5, h6, d, h7, h8⟩ := net_wants.1 h1
        have hpe : p' = p := by
          have : ∀ {l : List AppPart}, (l.map (fun p => (p.pre, p.ident))).Nodup → p' ∈ l → p ∈ l → p' = p := by
            intro l
            induction l with
            | nil => intro _ h; cases h
            | cons x xs ih =>
              intro hnd h1 h2
              rw [List.map_cons, List.nodup_cons] at hnd
              rcases List.mem_cons.1 h1 with h1 | h1 <;> rcases List.mem_cons.1 h2 with h2 | h2
              · rw [h1, h2]
              · exact absurd (List.mem_map.2 ⟨p, h2, by rw [← h1, h5, h6]⟩) hnd.1
              · exact absurd (List.mem_map.2 ⟨p', h1, by rw [← h2, h5, h6]⟩) hnd.1
              · exact ih hnd.2 h1 h2
          exact this hdis h4 hpp
        subst hpe
        exact ⟨d, h7, t, h8, h2, h3⟩
      · rintro ⟨d, h1, t, h2, h3, h4⟩
        exact ⟨t, net_wants.2 ⟨hm, p, hpp, rfl, rfl, d, h1, h2⟩, h3, h4⟩

/-- C98 for atoms: for each atom of a source and each atom of a target, both with a `SplitterFixedLegacy` or a
`SplitterOneToOneLegacy`, there are machine vertices with these atoms, and packets of the first, for which there is a key, get to the second.
Missing: as in `C98_exact_partial`. -/
theorem C98_atoms_partial (hb : Built E mv next) (h : run E (World.new E mp mv next) os = W) (hL : Linked W)
    (hn : vs.Nodup) (hp : partition E W cores sdram vs = (W', .ok n)) (hu : ∀ v ∈ vs, Anew E W v)
    (hall : ∀ v s, (W.app v).splitter = some s → v ∈ vs) (hG : Ground C) (hr : NoReturns C) (hpos : Positive C.T)
    (hdis : (parts.map (fun p => (p.pre, p.ident))).Nodup) (hin : ∀ p ∈ parts, p.pre ∈ vs)
    (hnear : ∀ p ∈ parts, Near E W' C p.pre) (hK : KeyTerms (netOf E W' C parts vs) K)
    (hroute : routeFor E W' C parts vs fuel = .ok S) (ha : Pipe.Allocated (netOf E W' C parts vs) K infos)
    (hg : generate g same (ofInfos infos (netOf E W' C parts vs).base.appOf) S = .ok tm)
    {p : AppPart} (hpp : p ∈ parts) {d : Nat} (hdd : d ∈ p.edges) {s s' : Nat}
    (h1 : (W.app p.pre).splitter = some s) (h2 : E.kind s = .fixed ∨ E.kind s = .oneToOne)
    (h3 : (W.app d).splitter = some s') (h4 : E.kind s' = .fixed ∨ E.kind s' = .oneToOne)
    {x y : Nat} (hx : x < (E.app p.pre).nAtoms) (hy : y < (E.app d).nAtoms) :
    ∃ m t, m ∈ (W'.app p.pre).machines ∧ x ∈ rasterIds (W'.mv m).slice ∧ t ∈ (W'.app d).machines ∧
      y ∈ rasterIds (W'.mv t).slice ∧ (∃ k, HasKey infos m p.ident k) ∧
      ∀ k, HasKey infos m p.ident k → Arrives (netOf E W' C parts vs) (sceneOf C.T tm) k (C.locate m).1 t := by
  have hW0 : Sound E W := by rw [← h]; exact sound_run os (sound_new hb)
  have key : ∀ v s, (W.app v).splitter = some s → E.kind s = .fixed ∨ E.kind s = .oneToOne → ∀ z, z < (E.app v).nAtoms →
      ∃ m, m ∈ (W'.app v).machines ∧ z ∈ rasterIds (W'.mv m).slice ∧ Sender E W' v m ∧ Receiver E W' v m := by
    intro v s hs hk z hz
    have hv := hall v s hs
    have hperm : ((W'.app v).machines.flatMap (fun m => rasterIds (W'.mv m).slice)).Perm (List.range (E.app v).nAtoms) := by
      rcases hk with hk | hk
      · exact (C90_atoms_partial hb h hL hn hp hv hs hk (hu v hv)).1
      · obtain ⟨m, e1, e2, -⟩ := C90_whole hb h hL hn hp hv hs hk (hu v hv)
        rw [e1, List.flatMap_cons, List.flatMap_nil, List.append_nil, e2]
    obtain ⟨m, hm, hz⟩ := List.mem_flatMap.1 (hperm.mem_iff.2 (List.mem_range.2 hz))
    have hsh := shares_after hW0 hL hn hp hv hs (hu v hv)
    have hs' : (W'.app v).splitter = some s := by
      have hK := keeps_partitionLoop E vs W (Counter.new cores sdram)
      rw [← partition_world, hp] at hK
      exact (hK.1 v).trans hs
    rcases hsh with ⟨h5, h6⟩ | ⟨h5, -⟩
    · exact ⟨m, hm, hz, ⟨s, _, hs', h5, hm⟩, ⟨s, _, hs', h6, hm⟩⟩
    · rw [h5] at hk; rcases hk with hk | hk <;> cases hk
  obtain ⟨m, m1, m2, m3, -⟩ := key p.pre s h1 h2 x hx
  obtain ⟨t, t1, t2, -, t4⟩ := key d s' h3 h4 y hy
  refine ⟨m, t, m1, m2, t1, t2, C98_keys hb h hL hn hp hu hall hG hdis hK ha hpp m3, ?_⟩
  intro k hk
  exact (C98_exact_partial hb h hL hn hp hu hall hG hr hpos hdis hin hnear hK hroute ha hg hpp m3 hk).1 d hdd t t4

end

/-- No edge is dropped silently: if a target of an edge has no splitter, or its splitter raises when asked for
the vertices that receive (as for a device without outgoing link, `C92_receives_partial`), routing raises; so it does if the
source has no splitter or its splitter has no vertices that send. -/
theorem C98_refused {E : Env} {W : World} {C : Ctx} {parts : List AppPart} {vs : List Nat} {fuel : Nat} {p : AppPart}
    (hp : p ∈ parts)
    (h : (∀ s ms, (W.app p.pre).splitter = some s → outVerts E W s ≠ .ok ms) ∨
      ∃ d ∈ p.edges, ∀ s ts, (W.app d).splitter = some s → inVerts E W s ≠ .ok ts) :
    ∃ e, routeFor E W C parts vs fuel = .error e := by
  have ht : ∀ {a : Nat} {ds : List Nat}, askTargets E W a ds = .ok () → ∀ d ∈ ds,
      ∃ s ts, (W.app d).splitter = some s ∧ inVerts E W s = .ok ts := by
    intro a ds
    induction ds with
    | nil => intro _ d hd; cases hd
    | cons x xs ih =>
      intro h d hd
      unfold askTargets at h
      split at h
      · cases h
      · rename_i s hs
        split at h
        · cases h
        · rename_i l hl
          rcases List.mem_cons.1 hd with rfl | hd
          · unfold inFor at hl
            cases hi : inVerts E W s with
            | error e => rw [hi] at hl; cases hl
            | ok ts => exact ⟨s, ts, hs, hi⟩
          · exact ih h d hd
  have hA : ∀ {l : List AppPart}, askAll E W l = .ok () → ∀ q ∈ l, askTargets E W q.pre q.edges = .ok () := by
    intro l
    induction l with
    | nil => intro _ q hq; cases hq
    | cons x xs ih =>
      intro h q hq
      unfold askAll at h
      split at h
      · cases h
      · split at h
        · cases h
        · split at h
          · cases h
          · rename_i hx
            rcases List.mem_cons.1 hq with rfl | hq
            · exact hx
            · exact ih h q hq
  unfold routeFor
  split
  · rename_i e _; exact ⟨e, rfl⟩
  · rename_i hask
    rcases h with h | ⟨d, hd, h⟩
    · obtain ⟨s, ms, h1, h2⟩ := askAll_ok hask p hp
      exact absurd h2 (h s ms h1)
    · obtain ⟨s, ts, h1, h2⟩ := ht (hA hask p hp) d hd
      exact absurd h2 (h s ts h1)

/-- A device with one link, by which it only sends, as target. -/
example : ∃ e, routeFor { demo with app := fun v => match v with
      | 0 => ⟨[4], false, fun _ => 0, none, some (.fpga 1 [7] none none)⟩
      | _ => ⟨[4], true, fun _ => 0, none, none⟩, kind := fun s => if s = 0 then .external else .fixed }
    (run { demo with app := fun v => match v with
      | 0 => ⟨[4], false, fun _ => 0, none, some (.fpga 1 [7] none none)⟩
      | _ => ⟨[4], true, fun _ => 0, none, none⟩, kind := fun s => if s = 0 then .external else .fixed }
      demoNew [.setSplitter 0 0, .setSplitter 1 1, .partition [0, 1]])
    (miniC (miniT [] []) (0, 0) []) [⟨1, 0, [0]⟩] [0, 1] 5 = .error e :=
  C98_refused (p := ⟨1, 0, [0]⟩) (by decide) (Or.inr ⟨0, by decide, by
    intro s ts hs h
    have : s = 0 := by
      injection hs with hs
      exact hs.symm
    subst this
    cases h⟩)

/-! ### Devices -/

/-- Vertex 0 is a device that sends packets on link 7 and gets packets on link 8; vertices 1 and 2 have four atoms.
Splitter 1, which is that of vertex 1, is a `SplitterOneToOneLegacy`, which makes its machine vertex when it is set. -/
def devE : Env where
  app := fun v =>
    match v with
    | 0 => ⟨[4], false, fun _ => 0, none, some (.fpga 1 [7] (some 8) none)⟩
    | _ => ⟨[4], true, fun _ => 0, none, none⟩
  kind := fun s => if s = 0 then .external else if s = 1 then .oneToOne else .fixed

def devNew : World := World.new devE (fun _ => none) (fun _ => ⟨⟨0, 1, none⟩, 0, 0, 0, none⟩) 0

/-- The state after the partitioner. -/
def devD : World := (partition devE
  (run devE devNew [.setSplitter 0 0, .setSplitter 1 1, .setSplitter 2 2]) 17 100 [0, 1, 2]).1

/-- Machine vertex 0, by which the device sends, is on link 3 of (0, 0); machine vertex 1, by which it receives, on a link
of the chip given. Machine vertex 2, of vertex 1, is on (2, 0), machine vertex 3, of vertex 2, on (0, 1). -/
def devC (out : XY × Nat) : Ctx := { miniC (miniT [(0, 0), (1, 0), (2, 0), (0, 1)]
    [((0, 0), 0), ((1, 0), 3), ((1, 0), 0), ((2, 0), 3), ((0, 0), 2), ((0, 1), 5)]) (0, 0) [] with
  locate := fun m => match m with
    | 0 => ((0, 0), none, some 3)
    | 1 => (out.1, none, some out.2)
    | 2 => ((2, 0), some 1, none)
    | _ => ((0, 1), some 1, none) }

/-- C98 is false for a device whose packets leave the machine from another chip than they come in: if the way to a
target passes this chip, the routing starts from there, though nothing sends there, and raises a `KeyError` in
`_make_source_to_source_edge_routes`. -/
theorem C98_device_fails : routeFor devE devD (devC ((1, 0), 2)) [⟨0, 0, [1]⟩] [0, 1, 2] 20 = .error .keyError ∧
    outVerts devE devD 0 = .ok [0] ∧ inVerts devE devD 0 = .ok [1] ∧ inVerts devE devD 1 = .ok [2] := by
  decide +kernel

/-- With a second target that can be reached directly there is no error, but the packets get to this one only. -/
theorem C98_device_lost :
    routeFor devE devD (devC ((1, 0), 2)) [⟨0, 0, [1, 2]⟩] [0, 1, 2] 20 = .ok
      [((0, 0), [((.mach 0, 0), ⟨4, false⟩)]), ((0, 1), [((.app 0, 0), ⟨128, false⟩)])] := by
  decide +kernel

/-- If they leave from the same chip, both get them. -/
theorem C98_device_same :
    routeFor devE devD (devC ((0, 0), 4)) [⟨0, 0, [1, 2]⟩] [0, 1, 2] 20 = .ok
      [((0, 0), [((.mach 0, 0), ⟨5, false⟩)]), ((0, 1), [((.app 0, 0), ⟨128, false⟩)]),
       ((1, 0), [((.app 0, 0), ⟨1, true⟩)]), ((2, 0), [((.app 0, 0), ⟨128, false⟩)])] := by
  decide +kernel

/-! ### The hypotheses hold for such a device and two vertices that send to each other and to the device -/

/-- The partitions: the device to both vertices, the first of them to the device and to the other. -/
def devP : List AppPart := [⟨0, 0, [1, 2]⟩, ⟨1, 0, [0, 2]⟩]

def devW : World := run devE devNew [.setSplitter 0 0, .setSplitter 1 1, .setSplitter 2 2]

def devN : Net := netOf devE devD (devC ((0, 0), 4)) devP [0, 1, 2]

theorem dev_built : Built devE (fun _ => ⟨⟨0, 1, none⟩, 0, 0, 0, none⟩) 0 := by
  have : ∀ v, (devE.app v).single = none := by
    intro v
    match v with
    | 0 => rfl
    | _ + 1 => rfl
  refine ⟨?_, ?_, ?_⟩ <;> intro v m h <;> rw [this v] at h <;> cases h

theorem dev_app (v : Nat) : (devW.app v).splitter = if v < 3 then some v else none := by
  match v with
  | 0 => rfl
  | 1 => rfl
  | 2 => rfl
  | v + 3 => rfl

theorem dev_linked : Linked devW := by
  have : runOk devE devNew [.setSplitter 0 0, .setSplitter 1 1, .setSplitter 2 2] = some devW := rfl
  exact linked_runOk _ (linked_new _ _ _ _) this

theorem dev_ground : Ground (devC ((0, 0), 4)) where
  merges := by intro a b c h; injection h with h; subst h; rfl
  iter := fun l => List.Perm.refl _
  placed := by
    intro m
    match m with
    | 0 => decide
    | 1 => decide
    | 2 => decide
    | _ + 3 => exact (by decide : ((0, 1) : XY) ∈ [((0, 0) : XY), (1, 0), (2, 0), (0, 1)])
  vector := fun a b _ _ => Pipe.mini_vector _ _ a b
  outside := by
    intro m l h
    match m with
    | 0 => cases h; decide
    | 1 => cases h; decide
    | 2 => cases h
    | _ + 3 => cases h

theorem dev_single (v : Nat) : (devE.app v).single = none := by
  match v with
  | 0 => rfl
  | _ + 1 => rfl

/-- The splitters have just been set. -/
theorem dev_anew : ∀ v ∈ [0, 1, 2], Anew devE devW v := by
  intro v _
  refine anew_set (mp := fun _ => none) (l := [(0, 0), (1, 1), (2, 2)]) dev_built rfl ?_
  intro h
  exact absurd (dev_single v) h

theorem dev_all (v s : Nat) (h : (devW.app v).splitter = some s) : v ∈ [0, 1, 2] := by
  rw [dev_app] at h
  split at h
  · rename_i h0
    match v, h0 with
    | 0, _ => decide
    | 1, _ => decide
    | 2, _ => decide
  · cases h

theorem dev_done : partition devE devW 17 100 [0, 1, 2] = (devD, .ok 1) := by
  have h : (partition devE devW 17 100 [0, 1, 2]).2 = .ok 1 := by decide +kernel
  rw [← h]
  rfl

theorem dev_splitter (v : Nat) : (devD.app v).splitter = (devW.app v).splitter := by
  rw [show devD = _ from partition_world devE devW 17 100 [0, 1, 2]]
  exact (keeps_partitionLoop devE _ _ _).1 v

theorem dev_near : ∀ p ∈ devP, Near devE devD (devC ((0, 0), 4)) p.pre := by
  intro p hp s hs hk t ht
  obtain ⟨s', ts, h1, h2, h3⟩ := ht
  rw [hs] at h1
  injection h1 with h1
  subst h1
  rw [dev_splitter, dev_app] at hs
  simp only [devP, List.mem_cons, List.not_mem_nil, or_false] at hp
  rcases hp with rfl | rfl
  · cases hs
    have : inVerts devE devD 0 = .ok [1] := by decide +kernel
    rw [this] at h2
    cases h2
    simp only [List.mem_singleton] at h3
    subst h3
    exact ⟨0, ⟨0, [0], by decide +kernel, by decide +kernel, by decide⟩, rfl⟩
  · cases hs; cases hk

theorem dev_keys : KeyTerms devN Pipe.lineK := by
  refine ⟨(by intro _ _ _ h; cases h), (by intro _ _ _ h; cases h), (fun _ _ _ _ => rfl), ?_,
    (fun _ _ _ _ _ h => absurd rfl h), (by intro _ _ _ _ _ _ _ _ h; cases h),
    (by intro _ _ _ _ _ _ _ _ _ h; cases h)⟩
  intro a ident ms _ h1 _ h2
  cases ms with
  | nil => exact Nat.zero_le _
  | cons m ms => have := h2 m List.mem_cons_self; cases this

/-- The entries and keys. -/
def devS : ByPart.State := (routeFor devE devD (devC ((0, 0), 4)) devP [0, 1, 2] 20).toOption.getD []
def devInfos : Alloc.Infos := (allocateFor false devN Pipe.lineK).toOption.getD []
def devTables : TablesMap := (generate .basic (fun _ _ => false) (ofInfos devInfos devN.base.appOf) devS).toOption.getD []

theorem dev_arrives {p : AppPart} (hpp : p ∈ devP) {m : Nat} (hm : Sender devE devD p.pre m) {k : Word}
    (hk : HasKey devInfos m p.ident k) :
    (∀ d ∈ p.edges, ∀ t, Receiver devE devD d t →
      Arrives devN (sceneOf (devC ((0, 0), 4)).T devTables) k ((devC ((0, 0), 4)).locate m).1 t) ∧
    (∀ c q, Valid.Reaches (sceneOf (devC ((0, 0), 4)).T devTables) k ((devC ((0, 0), 4)).locate m).1 c q ↔
      ∃ d ∈ p.edges, ∃ t, Receiver devE devD d t ∧ ((devC ((0, 0), 4)).locate t).1 = c ∧
        ((devC ((0, 0), 4)).locate t).2.1 = some q) :=
  C98_exact_partial (os := [.setSplitter 0 0, .setSplitter 1 1, .setSplitter 2 2]) (W := devW) (n := 1) (fuel := 20)
    (K := Pipe.lineK) (g := .basic) (same := fun _ _ => false) (S := devS) (cores := 17) (sdram := 100)
    dev_built rfl dev_linked (by decide) dev_done dev_anew
    dev_all dev_ground (Pipe.mini_noReturns false (by decide +kernel) (0, 0) [] [] [])
    (show ∀ c ∈ [((0, 0) : XY), (1, 0), (2, 0), (0, 1)], 0 ≤ c.1 ∧ 0 ≤ c.2 by decide) (by decide)
    (by decide) dev_near dev_keys (by decide +kernel) ⟨false, .inr (.inl (fun _ _ _ => rfl)), by decide +kernel⟩
    (by decide +kernel) hpp hm hk

theorem dev_keyed {p : AppPart} (hpp : p ∈ devP) {m : Nat} (hm : Sender devE devD p.pre m) :
    ∃ k, HasKey devInfos m p.ident k :=
  C98_keys (os := [.setSplitter 0 0, .setSplitter 1 1, .setSplitter 2 2]) (W := devW) (n := 1) (K := Pipe.lineK)
    (cores := 17) (sdram := 100) dev_built rfl dev_linked (by decide) dev_done dev_anew dev_all dev_ground (by decide)
    dev_keys ⟨false, .inr (.inl (fun _ _ _ => rfl)), by decide +kernel⟩ hpp hm

/-- Packets from the device get to core 1 of (2, 0) and of (0, 1) and to no others, packets of machine vertex 2 get
to the device. -/
example : (∃ k, HasKey devInfos 0 0 k ∧ (∀ c q, Valid.Reaches (sceneOf (devC ((0, 0), 4)).T devTables) k (0, 0) c q ↔
      (c, q) = ((2, 0), 1) ∨ (c, q) = ((0, 1), 1))) ∧
    (∃ k, HasKey devInfos 2 0 k ∧ Arrives devN (sceneOf (devC ((0, 0), 4)).T devTables) k (2, 0) 1) := by
  have hs0 : Sender devE devD 0 0 := ⟨0, [0], by decide +kernel, by decide +kernel, by decide⟩
  have hs2 : Sender devE devD 1 2 := ⟨1, [2], by decide +kernel, by decide +kernel, by decide⟩
  have hr1 : Receiver devE devD 0 1 := ⟨0, [1], by decide +kernel, by decide +kernel, by decide⟩
  have hr2 : ∀ t, Receiver devE devD 1 t ↔ t = 2 := by
    intro t
    constructor
    · rintro ⟨s, ts, h1, h2, h3⟩
      have : (devD.app 1).splitter = some 1 := by decide +kernel
      rw [this] at h1; cases h1
      have : inVerts devE devD 1 = .ok [2] := by decide +kernel
      rw [this] at h2; cases h2
      simpa using h3
    · rintro rfl; exact ⟨1, [2], by decide +kernel, by decide +kernel, by decide⟩
  have hr3 : ∀ t, Receiver devE devD 2 t ↔ t = 3 := by
    intro t
    constructor
    · rintro ⟨s, ts, h1, h2, h3⟩
      have : (devD.app 2).splitter = some 2 := by decide +kernel
      rw [this] at h1; cases h1
      have : inVerts devE devD 2 = .ok [3] := by decide +kernel
      rw [this] at h2; cases h2
      simpa using h3
    · rintro rfl; exact ⟨2, [3], by decide +kernel, by decide +kernel, by decide⟩
  obtain ⟨k, hk⟩ := dev_keyed (p := ⟨0, 0, [1, 2]⟩) (by decide) hs0
  obtain ⟨k', hk'⟩ := dev_keyed (p := ⟨1, 0, [0, 2]⟩) (by decide) hs2
  refine ⟨⟨k, hk, ?_⟩, k', hk', ?_⟩
  · intro c q
    refine ((dev_arrives (p := ⟨0, 0, [1, 2]⟩) (by decide) hs0 hk).2 c q).trans ⟨?_, ?_⟩
    · rintro ⟨d, hd, t, ht, h1, h2⟩
      simp only [List.mem_cons, List.not_mem_nil, or_false] at hd
      rcases hd with rfl | rfl
      · rw [hr2] at ht; subst ht
        left; cases h2; rw [← h1]; rfl
      · rw [hr3] at ht; subst ht
        right; cases h2; rw [← h1]; rfl
    · rintro (h | h) <;> cases h
      · exact ⟨1, by decide, 2, (hr2 2).2 rfl, rfl, rfl⟩
      · exact ⟨2, by decide, 3, (hr3 3).2 rfl, rfl, rfl⟩
  · exact (dev_arrives (p := ⟨1, 0, [0, 2]⟩) (by decide) hs2 hk').1 0 (by decide) 1 hr1

/-- Atom 3 of vertex 1 and atom 0 of vertex 2. -/
example : ∃ m t, m ∈ (devD.app 1).machines ∧ 3 ∈ rasterIds (devD.mv m).slice ∧ t ∈ (devD.app 2).machines ∧
    0 ∈ rasterIds (devD.mv t).slice ∧ (∃ k, HasKey devInfos m 0 k) ∧
    ∀ k, HasKey devInfos m 0 k →
      Arrives devN (sceneOf (devC ((0, 0), 4)).T devTables) k ((devC ((0, 0), 4)).locate m).1 t :=
  C98_atoms_partial (os := [.setSplitter 0 0, .setSplitter 1 1, .setSplitter 2 2]) (W := devW) (n := 1) (fuel := 20)
    (K := Pipe.lineK) (g := .basic) (same := fun _ _ => false) (S := devS) (cores := 17) (sdram := 100)
    (p := ⟨1, 0, [0, 2]⟩) (d := 2) (s := 1) (s' := 2)
    dev_built rfl dev_linked (by decide) dev_done dev_anew
    dev_all dev_ground (Pipe.mini_noReturns false (by decide +kernel) (0, 0) [] [] [])
    (show ∀ c ∈ [((0, 0) : XY), (1, 0), (2, 0), (0, 1)], 0 ≤ c.1 ∧ 0 ≤ c.2 by decide) (by decide)
    (by decide) dev_near dev_keys (by decide +kernel) ⟨false, .inr (.inl (fun _ _ _ => rfl)), by decide +kernel⟩
    (by decide +kernel) (by decide) (by decide)
    (dev_app 1) (Or.inr rfl) (dev_app 2) (Or.inl rfl) (by decide) (by decide)

end Pacman.Split
