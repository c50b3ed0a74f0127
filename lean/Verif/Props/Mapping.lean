import Verif.Proofs.Mapping
import Verif.Props.SplitterNet
import Verif.Props.PlacerVirtual
/-
C99: from an application graph to packets that get from placed vertex to placed vertex: splitters, partitioner, placer,
router, keys and tables together (partial, as C98). C102 for the built-in splitters.
-/

namespace Pacman.Split

open Slices (Slice rasterIds)
open Counter (Counter)
open Router (Ctx AppPart Net NoReturns)
open Pipe (Keys Generator HasKey Leads sceneOf Positive allocateFor generate miniC miniT)
open Gen (ofInfos)
open Tables (TablesMap)
open Plc (Store)
open Placer (given)

section
variable {E : Env} {mp : Nat → Option (List Nat)} {mv : Nat → MV} {next : Nat} {os : List Op} {W W' : World}
  {vs : List Nat} {cores sdram : Int} {n : Nat} {C : Ctx} {parts : List AppPart} {K : Keys} {fuel fuel' : Nat}
  {S : ByPart.State} {infos : Alloc.Infos} {g : Generator} {same : Entry → Entry → Bool} {tm : TablesMap}
  {M : Placer.Machine} {links : Nat → RPath.XY × Nat} {fixedApp : Nat → Bool} {sys : List Plc.Op} {s : Store}

theorem linked_after (hL : Linked W) (hp : partition E W cores sdram vs = (W', .ok n)) :
    Linked W' := by
  have hk := keeps_partition E W cores sdram vs
  rw [hp] at hk
  exact hk.linked hL

/-- After partitioning and placement of a graph that is `Anew` (splitters were just set, or it was reset), each machine vertex of the graph, each one that sends and each one that
receives, is in one place: on a core, or, for one of a device, on a link; and no two are on one core. So the router never
raises since a vertex is not placed. Missing: `SplitterOneToOneLegacy` after a reset (`C89_forgotten`). -/
theorem C99_placed_partial (hb : Built E mv next) (h : run E (World.new E mp mv next) os = W) (hL : Linked W)
    (hn : vs.Nodup) (hp : partition E W cores sdram vs = (W', .ok n)) (hu : ∀ v ∈ vs, Anew E W v)
    (hall : ∀ v s, (W.app v).splitter = some s → v ∈ vs) (hS : Site M C W' links) (hf : M.chips.length < fuel)
    (hpl : placeFor M W' fixedApp vs fuel (given sys) = .ok s) (hin : ∀ p ∈ parts, p.pre ∈ vs) :
    (∀ v m, (v ∈ vs ∧ m ∈ (W'.app v).machines) ∨ Sender E W' v m ∨ Receiver E W' v m →
      ∃ c q l, Sits W' (Plc.placements s) links m c q l ∧
        ∀ c' q' l', Sits W' (Plc.placements s) links m c' q' l' → c' = c ∧ q' = q ∧ l' = l) ∧
    (∀ m m' c q, Sits W' (Plc.placements s) links m c (some q) none → Sits W' (Plc.placements s) links m' c (some q) none →
      m = m') ∧
    routePlaced E W' C s links parts vs fuel' = routeFor E W' (located C W' s links) parts vs fuel' := by
  have hW0 : Sound E W := by rw [← h]; exact sound_run os (sound_new hb)
  have hd := done_after hW0 hL hn hp hu hall
  have hP := put_after (vs := vs) hS (linked_after hL hp) hf hpl
  have key : ∀ v m, (v ∈ vs ∧ m ∈ (W'.app v).machines) ∨ Sender E W' v m ∨ Receiver E W' v m →
      (W'.mv m).dev = none → ∃ a, Plc.getOfVertex s m = .ok a := by
    rintro v m (⟨h1, h2⟩ | h1 | h1)
    · exact hP.placed v h1 m h2
    · obtain ⟨t, _, h2, _⟩ := id h1
      exact hP.placed v (hd.only v t h2) m (sender_known hd h1)
    · obtain ⟨t, _, h2, _⟩ := id h1
      exact hP.placed v (hd.only v t h2) m (receiver_known hd h1)
  refine ⟨?_, ?_, ?_⟩
  · intro v m hm
    refine ⟨_, _, _, sits_locate (C := C) hP (key v m hm), ?_⟩
    intro c' q' l' h'
    rw [locate_sits (C := C) hP h']
    exact ⟨rfl, rfl, rfl⟩
  · intro m m' c q h1 h2
    obtain ⟨a, a1, a2, a3, a4, -⟩ := sits_core h1
    obtain ⟨b, b1, b2, b3, b4, -⟩ := sits_core h2
    rw [← a2, ← b2, same_core hP.inv.locs a1 b1 (a3.symm.trans b3) (a4.symm.trans b4)]
  · unfold routePlaced
    have : lookUp W' s (parts.flatMap (lookedUp E W')) = .ok () := by
      refine lookUp_ok ?_
      intro m hm
      obtain ⟨p, hpp, hm⟩ := List.mem_flatMap.1 hm
      unfold lookedUp at hm
      simp only [List.append_assoc, List.mem_append] at hm
      rcases hm with hm | hm | hm
      · exact key p.pre m (Or.inl ⟨hin p hpp, hm⟩)
      · split at hm
        · cases hm
        · rename_i t ht
          cases hi : outVerts E W' t with
          | error e => rw [hi] at hm; simp [Except.toOption] at hm
          | ok ts =>
            rw [hi] at hm
            simp only [Except.toOption, Option.getD_some] at hm
            exact key p.pre m (Or.inr (Or.inl ⟨t, ts, ht, hi, hm⟩))
      · obtain ⟨d, -, hm⟩ := List.mem_flatMap.1 hm
        split at hm
        · cases hm
        · rename_i t ht
          cases hi : inVerts E W' t with
          | error e => rw [hi] at hm; simp [Except.toOption] at hm
          | ok ts =>
            rw [hi] at hm
            simp only [Except.toOption, Option.getD_some] at hm
            exact key d m (Or.inr (Or.inr ⟨t, ts, ht, hi, hm⟩))
    rw [this]

/-- If a machine vertex of the source of a partition, or one that sends or receives for one, is not placed and is not of
a device, routing raises. -/
theorem C99_unplaced {p : AppPart} (hp : p ∈ parts) {m : Nat} (hd : (W.mv m).dev = none)
    (hn : ∀ a, Plc.getOfVertex s m ≠ .ok a)
    (h : m ∈ (W.app p.pre).machines ∨ Sender E W p.pre m ∨ ∃ d ∈ p.edges, Receiver E W d m) :
    ∃ e, routePlaced E W C s links parts vs fuel = .error e := by
  have hm : m ∈ parts.flatMap (lookedUp E W) := by
    refine List.mem_flatMap.2 ⟨p, hp, ?_⟩
    unfold lookedUp
    simp only [List.append_assoc, List.mem_append]
    rcases h with h | ⟨t, ts, h1, h2, h3⟩ | ⟨d, hd, t, ts, h1, h2, h3⟩
    · exact Or.inl h
    · refine Or.inr (Or.inl ?_)
      rw [h1]
      simp only [h2, Except.toOption, Option.getD_some]
      exact h3
    · refine Or.inr (Or.inr (List.mem_flatMap.2 ⟨d, hd, ?_⟩))
      rw [h1]
      simp only [h2, Except.toOption, Option.getD_some]
      exact h3
  obtain ⟨e, he⟩ := lookUp_error hd hn hm
  refine ⟨e, ?_⟩
  unfold routePlaced
  rw [he]

/-- C102 for the built-in splitters: the placer gives no core to a machine vertex of a device. -/
theorem C102_devices (hO : Placer.Order M) (hG : Placer.Grid M) (hf : M.chips.length < fuel)
    (hpl : placeFor M W fixedApp vs fuel (given sys) = .ok s) :
    ∀ a ∈ Plc.placements s, a ∉ Plc.placements (given sys) → (W.mv a.vertex).dev = none := by
  intro a ha hn
  unfold placeFor at hpl
  split at hpl
  · cases hpl
  · rename_i as has
    have := Placer.C102_real_partial (M := machineFor M W) hO hG hf sys as (by
      intro v hv g hg
      obtain ⟨m, hm⟩ := appsOf_one has v hv g hg
      rw [hm]
      cases hc : (machineFor M W).virtual m with
      | true => left; intro u hu; rw [List.mem_singleton] at hu; rw [hu]; exact hc
      | false => right; intro u hu; rw [List.mem_singleton] at hu; rw [hu]; exact hc) hpl a ha hn
    have h2 : (W.mv a.vertex).dev.isSome = false := this
    cases hdv : (W.mv a.vertex).dev with
    | none => rfl
    | some x => rw [hdv] at h2; cases h2

/-- C99, the part that holds: a graph that is `Anew` is partitioned, placed, routed, given keys, and tables are made. Then a packet
of a machine vertex that sends for the source of a partition, sent from where that vertex is, gets to a placed vertex
if and only if that receives for the target of an edge of the partition; it gets to no other core; and it gets to the links
of the devices that receive.
Missing: as in `C98_exact_partial`. -/
theorem C99_exact_partial (hb : Built E mv next) (h : run E (World.new E mp mv next) os = W) (hL : Linked W)
    (hn : vs.Nodup) (hp : partition E W cores sdram vs = (W', .ok n)) (hu : ∀ v ∈ vs, Anew E W v)
    (hall : ∀ v s, (W.app v).splitter = some s → v ∈ vs) (hS : Site M C W' links) (hf : M.chips.length < fuel)
    (hsys : ∀ a ∈ Plc.placements (given sys), M.has (a.x, a.y) = true)
    (hpl : placeFor M W' fixedApp vs fuel (given sys) = .ok s) (hr : NoReturns C) (hpos : Positive C.T)
    (hdis : (parts.map (fun p => (p.pre, p.ident))).Nodup) (hin : ∀ p ∈ parts, p.pre ∈ vs)
    (hnear : ∀ p ∈ parts, ∀ t, E.kind t = .external → (W'.app p.pre).splitter = some t → ∀ m, Receiver E W' p.pre m →
      ∀ c q l, Sits W' (Plc.placements s) links m c q l →
      ∃ m', Sender E W' p.pre m' ∧ ∃ q' l', Sits W' (Plc.placements s) links m' c q' l')
    (hK : KeyTerms (netOf E W' (located C W' s links) parts vs) K)
    (hroute : routePlaced E W' C s links parts vs fuel' = .ok S)
    (ha : Pipe.Allocated (netOf E W' (located C W' s links) parts vs) K infos)
    (hg : generate g same (ofInfos infos (netOf E W' (located C W' s links) parts vs).base.appOf) S = .ok tm)
    {p : AppPart} (hpp : p ∈ parts) {m : Nat} (hm : Sender E W' p.pre m) {k : Word} (hk : HasKey infos m p.ident k) :
    ∃ c q l, Sits W' (Plc.placements s) links m c q l ∧
      (∀ a ∈ Plc.placements s, Valid.Reaches (sceneOf C.T tm) k c ((a.x : Int), (a.y : Int)) a.p ↔
        (W'.mv a.vertex).dev = none ∧ ∃ d ∈ p.edges, Receiver E W' d a.vertex) ∧
      (∀ c' q', Valid.Reaches (sceneOf C.T tm) k c c' q' → ∃ a ∈ Plc.placements s, c' = ((a.x : Int), (a.y : Int)) ∧ q' = a.p) ∧
      (∀ d ∈ p.edges, ∀ t, Receiver E W' d t → ∀ c' q' l', Sits W' (Plc.placements s) links t c' q' (some l') →
        Leads (sceneOf C.T tm) k c c' l') := by
  have hW0 : Sound E W := by rw [← h]; exact sound_run os (sound_new hb)
  have hd := done_after hW0 hL hn hp hu hall
  have hP := put_after (vs := vs) hS (linked_after hL hp) hf hpl
  have hG := ground_after (vs := vs) hS hP hsys
  obtain ⟨hone, hcore, hplaced⟩ := C99_placed_partial (parts := parts) (fuel' := fuel') hb h hL hn hp hu hall hS hf hpl hin
  rw [hplaced] at hroute
  have hnear' : ∀ p ∈ parts, Near E W' (located C W' s links) p.pre := by
    intro p hpp t ht hk m hm
    obtain ⟨c, q, l, h1, -⟩ := hone p.pre m (Or.inr (Or.inr hm))
    obtain ⟨m', h2, q', l', h3⟩ := hnear p hpp t hk ht m hm c q l h1
    refine ⟨m', h2, ?_⟩
    rw [locate_sits (C := C) hP h1, locate_sits (C := C) hP h3]
  obtain ⟨h1, h2⟩ := C98_exact_partial hb h hL hn hp hu hall hG hr hpos hdis hin hnear' hK hroute ha hg hpp hm hk
  obtain ⟨c, q, l, hs, -⟩ := hone p.pre m (Or.inr (Or.inl hm))
  refine ⟨c, q, l, hs, ?_, ?_, ?_⟩
  · intro a haa
    have hx := h2 ((a.x : Int), (a.y : Int)) a.p
    rw [locate_sits (C := C) hP hs] at hx
    refine hx.trans ⟨?_, ?_⟩
    · rintro ⟨d, hdd, t, ht, h3, h4⟩
      obtain ⟨c1, q1, l1, hs1, -⟩ := hone d t (Or.inr (Or.inr ht))
      rw [locate_sits (C := C) hP hs1] at h3 h4
      simp only at h3 h4
      rw [h4] at hs1
      obtain ⟨b, b1, b2, b3, b4, b5⟩ := sits_core hs1
      have := same_core hP.inv.locs haa b1 (h3.symm.trans b3) b4
      rw [this, b2]
      exact ⟨b5, d, hdd, ht⟩
    · rintro ⟨hdev, d, hdd, ht⟩
      refine ⟨d, hdd, a.vertex, ht, ?_⟩
      rw [locate_sits (C := C) hP (.core hdev haa rfl)]
      exact ⟨rfl, rfl⟩
  · intro c' q' hx
    have hx' := (h2 c' q').1 (by rw [locate_sits (C := C) hP hs]; exact hx)
    obtain ⟨d, hdd, t, ht, h3, h4⟩ := hx'
    obtain ⟨c1, q1, l1, hs1, -⟩ := hone d t (Or.inr (Or.inr ht))
    rw [locate_sits (C := C) hP hs1] at h3 h4
    cases hs1 with
    | core d1 a1 e1 => cases h4; exact ⟨_, a1, h3.symm, rfl⟩
    | link d1 => cases h4
  · intro d hdd t ht c' q' l' hs'
    obtain ⟨-, -, h3⟩ := h1 d hdd t ht
    have hb : (netOf E W' (located C W' s links) parts vs).base.locate t = (c', q', some l') := locate_sits (C := C) hP hs'
    rw [hb] at h3
    have := h3 l' rfl
    rw [locate_sits (C := C) hP hs] at this
    exact this

end

/-! ### The hypotheses hold for the device and the vertices of C98, with a monitor on the first core -/

/-- Four chips with two cores each. -/
def devM : Placer.Machine where
  width := 3
  height := 2
  has := fun c => decide (c ∈ [(0, 0), (1, 0), (2, 0), (0, 1)])
  cores := fun _ => [1, 2]
  sdram := fun _ => 100
  board := fun _ => (0, 0)
  links := fun c => if c = (0, 0) then [(1, 0), (0, 1)] else if c = (1, 0) then [(2, 0), (0, 0)]
    else if c = (2, 0) then [(1, 0)] else [(0, 0)]
  maxSdram := 100
  maxCores := 2
  virtual := fun _ => false
  need := fun _ => 0
  fixed := fun _ => none
  iter := id

/-- Both links of the device are on the first chip. -/
def devLinks (i : Nat) : RPath.XY × Nat := if i = 8 then ((0, 0), 4) else ((0, 0), 3)

def devSys : List Plc.Op := [.add ⟨100, 0, 0, 1⟩]

def devStore : Store := (placeFor devM devD (fun _ => false) [0, 1, 2] 5 (given devSys)).toOption.getD Plc.Store.empty

theorem dev_store : placeFor devM devD (fun _ => false) [0, 1, 2] 5 (given devSys) = .ok devStore := by
  decide +kernel

example : Plc.placements devStore = [⟨100, 0, 0, 1⟩, ⟨2, 0, 0, 2⟩, ⟨3, 0, 1, 1⟩] := by decide +kernel

/-- The machine without places. -/
def devBase : Ctx := devC ((0, 0), 4)

def devCtx : Ctx := located devBase devD devStore devLinks

def devNet : Net := netOf devE devD devCtx devP [0, 1, 2]

theorem dev_site : Site devM devBase devD devLinks where
  merges := dev_ground.merges
  iter := dev_ground.iter
  vector := dev_ground.vector
  some_ := by decide
  agree := by
    intro c hc
    have hc : c ∈ [((0, 0) : Nat × Nat), (1, 0), (2, 0), (0, 1)] := by simpa [devM] using hc
    simp only [List.mem_cons, List.not_mem_nil, or_false] at hc
    rcases hc with rfl | rfl | rfl | rfl <;> decide
  grid := by
    intro c hc
    have hc : c ∈ [((0, 0) : Nat × Nat), (1, 0), (2, 0), (0, 1)] := by simpa [devM] using hc
    simp only [List.mem_cons, List.not_mem_nil, or_false] at hc
    rcases hc with rfl | rfl | rfl | rfl <;> decide
  cores := fun l => List.Perm.refl l
  links := by
    intro _ i _ _
    unfold devLinks
    split <;> decide

theorem dev_terms : KeyTerms devNet Pipe.lineK := by
  refine ⟨(by intro _ _ _ h; cases h), (by intro _ _ _ h; cases h), (fun _ _ _ _ => rfl), ?_,
    (fun _ _ _ _ _ h => absurd rfl h), (by intro _ _ _ _ _ _ _ _ h; cases h),
    (by intro _ _ _ _ _ _ _ _ _ h; cases h)⟩
  intro a ident ms _ h1 _ h2
  cases ms with
  | nil => exact Nat.zero_le _
  | cons m ms => have := h2 m List.mem_cons_self; cases this

def mapS : ByPart.State := (routePlaced devE devD devBase devStore devLinks devP [0, 1, 2] 20).toOption.getD []
def mapInfos : Alloc.Infos := (allocateFor true devNet Pipe.lineK).toOption.getD []
def mapTables : TablesMap := (generate .merged (fun _ _ => false) (ofInfos mapInfos devNet.base.appOf) mapS).toOption.getD []

theorem dev_maps {p : AppPart} (hpp : p ∈ devP) {m : Nat} (hm : Sender devE devD p.pre m) {k : Word}
    (hk : HasKey mapInfos m p.ident k) :
    ∃ c q l, Sits devD (Plc.placements devStore) devLinks m c q l ∧
      (∀ a ∈ Plc.placements devStore, Valid.Reaches (sceneOf devBase.T mapTables) k c ((a.x : Int), (a.y : Int)) a.p ↔
        (devD.mv a.vertex).dev = none ∧ ∃ d ∈ p.edges, Receiver devE devD d a.vertex) ∧
      (∀ c' q', Valid.Reaches (sceneOf devBase.T mapTables) k c c' q' →
        ∃ a ∈ Plc.placements devStore, c' = ((a.x : Int), (a.y : Int)) ∧ q' = a.p) ∧
      (∀ d ∈ p.edges, ∀ t, Receiver devE devD d t → ∀ c' q' l',
        Sits devD (Plc.placements devStore) devLinks t c' q' (some l') → Leads (sceneOf devBase.T mapTables) k c c' l') :=
  C99_exact_partial (os := [.setSplitter 0 0, .setSplitter 1 1, .setSplitter 2 2]) (W := devW) (n := 1) (fuel := 5)
    (fuel' := 20) (K := Pipe.lineK) (g := .merged) (same := fun _ _ => false) (S := mapS) (cores := 17) (sdram := 100)
    (sys := devSys) (fixedApp := fun _ => false)
    dev_built rfl dev_linked (by decide) dev_done dev_anew
    dev_all dev_site (by decide) (by decide +kernel) dev_store
    (Pipe.mini_noReturns false (by decide +kernel) (0, 0) [] [] [])
    (show ∀ c ∈ [((0, 0) : RPath.XY), (1, 0), (2, 0), (0, 1)], 0 ≤ c.1 ∧ 0 ≤ c.2 by decide) (by decide)
    (by decide) (by
      intro p hp t hk hs m hm c q l hsit
      rw [dev_splitter, dev_app] at hs
      simp only [devP, List.mem_cons, List.not_mem_nil, or_false] at hp
      rcases hp with rfl | rfl
      · cases hs
        obtain ⟨t, ts, h1, h2, h3⟩ := hm
        rw [dev_splitter, dev_app] at h1
        cases h1
        have : inVerts devE devD 0 = .ok [1] := by decide +kernel
        rw [this] at h2
        cases h2
        simp only [List.mem_singleton] at h3
        subst h3
        have hd : (devD.mv 1).dev = some (8, false) := by decide +kernel
        have hd0 : (devD.mv 0).dev = some (7, true) := by decide +kernel
        cases hsit with
        | core h0 _ _ => rw [hd] at h0; cases h0
        | link h0 =>
          rw [hd] at h0
          cases h0
          exact ⟨0, ⟨0, [0], by decide +kernel, by decide +kernel, by decide⟩, none, some 3, .link hd0⟩
      · cases hs; cases hk)
    dev_terms (by decide +kernel) (.flexible (by decide +kernel)) (by decide +kernel) hpp hm hk

/-- The packets of machine vertex 2, on core 2 of (0, 0), get to machine vertex 3, on core 1 of (0, 1), and to the link of
the device. -/
example : ∃ k, HasKey mapInfos 2 0 k ∧ Valid.Reaches (sceneOf devBase.T mapTables) k (0, 0) (0, 1) 1 ∧
    Leads (sceneOf devBase.T mapTables) k (0, 0) (0, 0) 4 := by
  have hs2 : Sender devE devD 1 2 := ⟨1, [2], by decide +kernel, by decide +kernel, by decide⟩
  have hr1 : Receiver devE devD 0 1 := ⟨0, [1], by decide +kernel, by decide +kernel, by decide⟩
  have hr3 : Receiver devE devD 2 3 := ⟨2, [3], by decide +kernel, by decide +kernel, by decide⟩
  have hk : HasKey mapInfos 2 0 16 := ⟨16, 4294967280, 0, by decide +kernel, by decide⟩
  obtain ⟨c, q, l, h1, h2, -, h4⟩ := dev_maps (p := ⟨1, 0, [0, 2]⟩) (by decide) hs2 hk
  have hc : c = (0, 0) := by
    cases h1 with
    | core _ ha hv =>
      rename_i a _
      have : ∀ a ∈ Plc.placements devStore, a.vertex = 2 → ((a.x : Int), (a.y : Int)) = ((0, 0) : RPath.XY) := by
        decide +kernel
      exact this a ha hv
    | link h0 =>
      have : (devD.mv 2).dev = none := by decide +kernel
      rw [this] at h0
      cases h0
  subst hc
  refine ⟨16, hk, ?_, ?_⟩
  · exact (h2 ⟨3, 0, 1, 1⟩ (by decide +kernel)).2 ⟨by decide +kernel, 2, by decide, hr3⟩
  · exact h4 0 (by decide) 1 hr1 _ none 4 (.link (i := 8) (b := false) (by decide +kernel))

/-- Nothing is placed, so routing raises. -/
example : (∀ a, Plc.getOfVertex Plc.Store.empty 2 ≠ .ok a) ∧ (devD.mv 2).dev = none ∧ 2 ∈ (devD.app 1).machines ∧
    routePlaced devE devD devBase Plc.Store.empty devLinks devP [0, 1, 2] 20 = .error .notPlaced :=
  ⟨(by intro a h; cases h), by decide +kernel, by decide +kernel, by decide +kernel⟩

/-- Machine vertices 0 and 1 are of a device. -/
example : (devD.app 0).machines = [0, 1] ∧ (∀ m ∈ [0, 1], (devD.mv m).dev ≠ none) ∧
    ∀ a ∈ Plc.placements devStore, a.vertex ≠ 0 ∧ a.vertex ≠ 1 := by decide +kernel

end Pacman.Split
