import Verif.Props.RouterWhole
import Verif.Props.Mapping
/-
C109 for the router: without faults in the machine no way returns. So C99 without asking this.
-/

namespace Pacman.RPath

/-- Hops that work are not repaired. -/
theorem fixErrors_walk {T : Topo} {s e : XY} {ns : List Node} (h : Walk T s ns e) : fixErrors T s ns = .ok ns := by
  unfold fixErrors
  cases ns with
  | nil => rfl
  | cons n ns =>
    show fixLoop T (ns.length + 1) s (n :: ns) [] = _
    unfold fixLoop
    rw [takeOk_walk h]
    simp only [skipBad]
    unfold fixLoop
    cases ns <;> rfl

end Pacman.RPath

namespace Pacman.Split

open RPath (Intact ShortVector hexVector spin5 spin5_intact spin5_board hexVector_short)
open Router (Ctx AppPart Net NoReturns)
open Pipe (Keys Generator HasKey Leads sceneOf Positive allocateFor generate miniC Arrives)
open Gen (ofInfos)
open Tables (TablesMap)
open Plc (Store)
open Placer (given)

/-- C109: if the machine has no faults, and vectors are shortest ones, no way returns. -/
theorem C109_noReturns {C : Ctx} (hT : Intact C.T)
    (hv : ∀ a b, a ∈ C.T.chips → b ∈ C.T.chips → ShortVector C.T a b (C.vector a b)) : NoReturns C := by
  intro a b ms ha hb hf
  obtain ⟨-, h2, h3, -⟩ := RPath.C109_way hT ha hb (hv a b ha hb)
  rw [RPath.fixErrors_walk h2] at hf
  injection hf with hf
  subst hf
  intro P1 P2 P3 x hx
  rw [hx] at h3
  simp only [List.append_assoc, List.cons_append, List.nodup_append, List.nodup_cons] at h3
  exact absurd (List.mem_append.mpr (Or.inr List.mem_cons_self)) h3.2.1.1

section
variable {E : Env} {mp : Nat → Option (List Nat)} {mv : Nat → MV} {next : Nat} {os : List Op} {W W' : World}
  {vs : List Nat} {cores sdram : Int} {n : Nat} {C : Ctx} {parts : List AppPart} {K : Keys} {fuel fuel' : Nat}
  {S : ByPart.State} {infos : Alloc.Infos} {g : Generator} {same : Entry → Entry → Bool} {tm : TablesMap}
  {M : Placer.Machine} {links : Nat → RPath.XY × Nat} {fixedApp : Nat → Bool} {sys : List Plc.Op} {s : Store}

/-- C99: on a machine without faults the whole of the mapping, with shortest vectors, gives tables by which a packet of a
machine vertex that sends for the source of a partition gets to exactly those placed vertices that receive for the target
of an edge of the partition, to no other core, and to the links of the devices that receive. Other than in
`C99_exact_partial` nothing is asked of the ways that the router finds.
Missing: `SplitterOneToOneLegacy` after a reset (left out by `Anew`), devices with a chip that only receives (by `hnear`), and what
`KeyTerms` asks. -/
theorem C99_intact_partial (hb : Built E mv next) (h : run E (World.new E mp mv next) os = W) (hL : Linked W)
    (hn : vs.Nodup) (hp : partition E W cores sdram vs = (W', .ok n)) (hu : ∀ v ∈ vs, Anew E W v)
    (hall : ∀ v s, (W.app v).splitter = some s → v ∈ vs) (hS : Site M C W' links) (hf : M.chips.length < fuel)
    (hsys : ∀ a ∈ Plc.placements (given sys), M.has (a.x, a.y) = true)
    (hpl : placeFor M W' fixedApp vs fuel (given sys) = .ok s) (hT : Intact C.T)
    (hv : ∀ a b, a ∈ C.T.chips → b ∈ C.T.chips → ShortVector C.T a b (C.vector a b)) (hpos : Positive C.T)
    (hdis : (parts.map (fun p => (p.pre, p.ident))).Nodup) (hin : ∀ p ∈ parts, p.pre ∈ vs)
    (hnear : ∀ p ∈ parts, ∀ t, E.kind t = .external → (W'.app p.pre).splitter = some t → ∀ m, Receiver E W' p.pre m →
      ∀ c q l, Sits W' (Plc.placements s) links m c q l →
      ∃ m', Sender E W' p.pre m' ∧ ∃ q' l', Sits W' (Plc.placements s) links m' c q' l')
    (hK : KeyTerms (netOf E W' (located C W' s links) parts vs) K)
    (hroute : routePlaced E W' C s links parts vs fuel' = .ok S)
    (ha : Pipe.Allocated (netOf E W' (located C W' s links) parts vs) K infos)
    (hg : generate g same (ofInfos infos (netOf E W' (located C W' s links) parts vs).base.appOf) S = .ok tm)
    {p : AppPart} (hpp : p ∈ parts) {m : Nat} (hm : Sender E W' p.pre m) {k : Word} (hk : HasKey infos m p.ident k) :
    ∃ c q l, Sits W' (Plc.placements s) links m c q l ∧
      (∀ a ∈ Plc.placements s, Valid.Reaches (sceneOf C.T tm) k c ((a.x : Int), (a.y : Int)) a.p ↔
        (W'.mv a.vertex).dev = none ∧ ∃ d ∈ p.edges, Receiver E W' d a.vertex) ∧
      (∀ c' q', Valid.Reaches (sceneOf C.T tm) k c c' q' → ∃ a ∈ Plc.placements s, c' = ((a.x : Int), (a.y : Int)) ∧ q' = a.p) ∧
      (∀ d ∈ p.edges, ∀ t, Receiver E W' d t → ∀ c' q' l', Sits W' (Plc.placements s) links t c' q' (some l') →
        Leads (sceneOf C.T tm) k c c' l') :=
  C99_exact_partial hb h hL hn hp hu hall hS hf hsys hpl (C109_noReturns hT hv) hpos hdis hin hnear hK hroute ha hg hpp
    hm hk

end

/-! ### The hypotheses hold for the device and the vertices of C98 on a board with 48 chips -/

/-- The board for the placer: 48 chips, with two cores each. -/
def fullM : Placer.Machine :=
  { devM with
    width := 8
    height := 8
    has := fun c => decide (((c.1 : Int), (c.2 : Int)) ∈ RPath.board48)
    links := fun c => (List.range 6).filterMap (fun l =>
      if spin5.linkAt ((c.1 : Int), (c.2 : Int)) l then
        some ((spin5.over ((c.1 : Int), (c.2 : Int)) l).1.toNat, (spin5.over ((c.1 : Int), (c.2 : Int)) l).2.toNat)
      else none) }

/-- The board for the router. -/
def fullC : Ctx := { miniC spin5 (0, 0) [] with vector := hexVector }

def fullStore : Store := (placeFor fullM devD (fun _ => false) [0, 1, 2] 50 (given devSys)).toOption.getD Plc.Store.empty

theorem full_store : placeFor fullM devD (fun _ => false) [0, 1, 2] 50 (given devSys) = .ok fullStore := by
  decide +kernel

def fullNet : Net := netOf devE devD (located fullC devD fullStore devLinks) devP [0, 1, 2]

theorem full_site : Site fullM fullC devD devLinks where
  merges := by intro a b c h; injection h with h; subst h; rfl
  iter := fun l => List.Perm.refl l
  vector := fun a b _ _ => (hexVector_short spin5_board.grid a b).1
  some_ := by decide
  agree := by
    intro c hc
    exact of_decide_eq_true hc
  grid := by
    intro c hc
    have h1 := of_decide_eq_true hc
    have h2 := (spin5_board.all ((c.1 : Int), (c.2 : Int))).1 h1
    simp only at h2
    show c.1 < 8 ∧ c.2 < 8
    omega
  cores := fun l => List.Perm.refl l
  links := by
    intro _ i _ _
    unfold devLinks
    split <;> decide +kernel

theorem full_terms : KeyTerms fullNet Pipe.lineK := by
  refine ⟨(by intro _ _ _ h; cases h), (by intro _ _ _ h; cases h), (fun _ _ _ _ => rfl), ?_,
    (fun _ _ _ _ _ h => absurd rfl h), (by intro _ _ _ _ _ _ _ _ h; cases h),
    (by intro _ _ _ _ _ _ _ _ _ h; cases h)⟩
  intro a ident ms _ h1 _ h2
  cases ms with
  | nil => exact Nat.zero_le _
  | cons m ms => have := h2 m List.mem_cons_self; cases this

def fullS : ByPart.State := (routePlaced devE devD fullC fullStore devLinks devP [0, 1, 2] 200).toOption.getD []
def fullInfos : Alloc.Infos := (allocateFor true fullNet Pipe.lineK).toOption.getD []
def fullTables : TablesMap := (generate .merged (fun _ _ => false) (ofInfos fullInfos fullNet.base.appOf) fullS).toOption.getD []

/-- Packets of machine vertex 2 get to the placed vertices that receive for vertices 0 and 2, and to the link of the
device. -/
example {p : AppPart} (hpp : p ∈ devP) {m : Nat} (hm : Sender devE devD p.pre m) {k : Word}
    (hk : HasKey fullInfos m p.ident k) :
    ∃ c q l, Sits devD (Plc.placements fullStore) devLinks m c q l ∧
      (∀ a ∈ Plc.placements fullStore, Valid.Reaches (sceneOf spin5 fullTables) k c ((a.x : Int), (a.y : Int)) a.p ↔
        (devD.mv a.vertex).dev = none ∧ ∃ d ∈ p.edges, Receiver devE devD d a.vertex) ∧
      (∀ c' q', Valid.Reaches (sceneOf spin5 fullTables) k c c' q' →
        ∃ a ∈ Plc.placements fullStore, c' = ((a.x : Int), (a.y : Int)) ∧ q' = a.p) ∧
      (∀ d ∈ p.edges, ∀ t, Receiver devE devD d t → ∀ c' q' l',
        Sits devD (Plc.placements fullStore) devLinks t c' q' (some l') → Leads (sceneOf spin5 fullTables) k c c' l') :=
  C99_intact_partial (C := fullC) (os := [.setSplitter 0 0, .setSplitter 1 1, .setSplitter 2 2]) (W := devW) (n := 1)
    (fuel := 50) (fuel' := 200) (K := Pipe.lineK) (g := .merged) (same := fun _ _ => false) (S := fullS) (cores := 17)
    (sdram := 100) (sys := devSys) (fixedApp := fun _ => false)
    dev_built rfl dev_linked (by decide) dev_done dev_anew
    dev_all full_site (by decide +kernel) (by decide +kernel) full_store spin5_intact
    (fun a b _ _ => hexVector_short spin5_board.grid a b)
    (by
      intro c hc
      have h2 := (spin5_board.all c).1 hc
      simp only at h2
      omega) (by decide)
    (by decide) (by
      intro p hp t hk hs m hm c q l hsit
      rw [dev_splitter, dev_app] at hs
      simp only [devP, List.mem_cons, List.not_mem_nil, or_false] at hp
      rcases hp with rfl | rfl
      · cases hs
        obtain ⟨t, ts, h1, h2, h3⟩ := hm
        rw [dev_splitter, dev_app] at h1
        cases h1
        have : inVerts devE devD 0 = .ok [1] := by decide +kernel
        rw [this] at h2
        cases h2
        simp only [List.mem_singleton] at h3
        subst h3
        have hd : (devD.mv 1).dev = some (8, false) := by decide +kernel
        have hd0 : (devD.mv 0).dev = some (7, true) := by decide +kernel
        cases hsit with
        | core h0 _ _ => rw [hd] at h0; cases h0
        | link h0 =>
          rw [hd] at h0
          cases h0
          exact ⟨0, ⟨0, [0], by decide +kernel, by decide +kernel, by decide⟩, none, some 3, .link hd0⟩
      · cases hs; cases hk)
    full_terms (by decide +kernel) (.flexible (by decide +kernel)) (by decide +kernel) hpp hm hk

example : ((0, 1), 0) ∈ fullTables.map (fun t => (t.1, 0)) ∧ HasKey fullInfos 2 0 16 :=
  ⟨by decide +kernel, 16, 4294967280, 0, by decide +kernel, by decide⟩

end Pacman.Split
