import Verif.Proofs.RouterFollow
/-
C57: generated routing entries follow the routing tree.
C74: packets of a partition are delivered (false; partial).
C75: routing a partition sends packets only to its targets.
C76: routing a partition ends.
C77: packets of a partition meet an entry on every chip they come to.
-/

namespace Pacman.Router

open Alloc (VId)
open RPath

/-! A machine of four chips: three in a row, one above the first. -/

/-- The machine of the examples. -/
def lineT : Topo where
  chips := [(0, 0), (1, 0), (2, 0), (0, 1)]
  linkAt := fun c l => decide ((c, l) ∈ [((0, 0), 0), ((1, 0), 3), ((1, 0), 0), ((2, 0), 3),
    ((0, 0), 2), (((0, 1), 5) : XY × Nat)])
  over := fun c l => (c.1 + (linkAdd l).1, c.2 + (linkAdd l).2)

/-- Application vertex 0 has machine vertices 0 on (0, 0) and 1 on (1, 0), and sends with `out`;
application vertex 1 has machine vertex 2 on (2, 0); application vertex 2 has machine vertex 3 on
(0, 1). Each is on core 1. -/
def lineC (out : List Nat) : Ctx where
  T := lineT
  vector := fun a b => (b.1 - a.1, b.2 - a.2, 0)
  appOf := fun m => if m ≤ 1 then some 0 else if m = 2 then some 1 else if m = 3 then some 2 else none
  machines := fun a => if a = 0 then [0, 1] else if a = 1 then [2] else if a = 2 then [3] else []
  merge := fun a b => .ok ⟨a.route ||| b.route, a.defaultable && b.defaultable⟩
  outgoing := fun a => if a = 0 then some out else some []
  locate := fun m => if m = 1 then ((1, 0), some 1, none) else if m = 2 then ((2, 0), some 1, none)
    else if m = 3 then ((0, 1), some 1, none) else ((0, 0), some 1, none)
  iter := id

/-- Edges from application vertex 0 to 1 and to 2. -/
def lineP : Partition := ⟨0, 0, [(1, [(2, [.app 0])]), (2, [(3, [.app 0])])], []⟩

theorem line_contract {out : List Nat} (ho : ∀ m ∈ out, m ≤ 1) {P : Partition}
    (hi : ∀ p ∈ P.internal, (lineC out).appOf p.1 = some P.source)
    (hs : ∀ e ∈ P.edges, ∀ v ∈ e.2, ∀ s ∈ v.2, s = .app P.source ∨
      ∃ l m, (lineC out).outgoing P.source = some l ∧ m ∈ l ∧ s = .mach m) :
    Contract (lineC out) P where
  merges := by
    intro a b c h
    simp only [lineC] at h
    cases h
    rfl
  owns := by
    intro a m
    simp only [lineC]
    by_cases h0 : a = 0
    · subst h0
      rw [if_pos rfl]
      constructor
      · intro h
        rw [if_pos]
        simp only [List.mem_cons, List.not_mem_nil, or_false] at h
        omega
      · intro h
        have : m ≤ 1 := by
          refine Decidable.byContradiction fun hm => ?_
          rw [if_neg hm] at h
          split at h
          · cases h
          · split at h <;> cases h
        simp only [List.mem_cons, List.not_mem_nil, or_false]
        omega
    · rw [if_neg h0]
      by_cases h1 : a = 1
      · subst h1
        rw [if_pos rfl]
        constructor
        · intro h
          simp only [List.mem_singleton] at h
          rw [h]
          rfl
        · intro h
          split at h
          · cases h
          · split at h
            · rename_i h2; simp [h2]
            · split at h <;> cases h
      · rw [if_neg h1]
        by_cases h2 : a = 2
        · subst h2
          rw [if_pos rfl]
          constructor
          · intro h
            simp only [List.mem_singleton] at h
            rw [h]
            rfl
          · intro h
            split at h
            · cases h
            · split at h
              · cases h
              · split at h
                · rename_i h3; simp [h3]
                · cases h
        · rw [if_neg h2]
          constructor
          · intro h; cases h
          · intro h
            split at h
            · cases h; exact absurd rfl h0
            · split at h
              · cases h; exact absurd rfl h1
              · split at h
                · cases h; exact absurd rfl h2
                · cases h
  sends := by
    intro a l m h hm
    simp only [lineC] at h ⊢
    split at h
    · rename_i h0
      cases h
      rw [if_pos (ho m hm), h0]
    · cases h
      cases hm
  within := hi
  iter := fun l => List.Perm.refl _
  placed := by
    intro m
    simp only [lineC]
    split
    · decide
    · split
      · decide
      · split <;> decide
  vector := by
    intro a b _ _
    have h := C39_end (T := lineT) (w := none) (h := none) (fun _ _ _ => rfl) (b.1 - a.1) (b.2 - a.2) 0
      (s := a) rfl
    have h1 : wrap none (a.1 + (b.1 - a.1 - 0)) = b.1 := by
      show a.1 + (b.1 - a.1 - 0) = b.1
      omega
    have h2 : wrap none (a.2 + (b.2 - a.2 - 0)) = b.2 := by
      show a.2 + (b.2 - a.2 - 0) = b.2
      omega
    rw [h1, h2] at h
    exact h
  sources := hs

theorem lineP_contract {out : List Nat} (ho : ∀ m ∈ out, m ≤ 1) : Contract (lineC out) lineP := by
  refine line_contract ho (by intro p hp; cases hp) ?_
  intro e he v hv s hs
  left
  simp only [lineP, List.mem_cons, List.not_mem_nil, or_false] at he
  rcases he with rfl | rfl
  · simp only [List.mem_singleton] at hv
    subst hv
    simp only [List.mem_singleton] at hs
    exact hs
  · simp only [List.mem_singleton] at hv
    subst hv
    simp only [List.mem_singleton] at hs
    exact hs

theorem line_noReturns (out : List Nat) : NoReturns (lineC out) := by
  have key : ∀ a ∈ lineT.chips, ∀ b ∈ lineT.chips,
      (match fixErrors lineT a (longestFirst lineT (b.1 - a.1) (b.2 - a.2) 0 a) with
        | .ok ms => decide ((visits a ms).Nodup)
        | .error _ => true) = true := by decide +kernel
  intro a b ms ha hb h
  have := key a ha b hb
  have h' : fixErrors lineT a (longestFirst lineT (b.1 - a.1) (b.2 - a.2) 0 a) = .ok ms := h
  rw [h'] at this
  simp only [decide_eq_true_eq] at this
  intro P1 P2 P3 x hx
  rw [hx] at this
  simp only [List.append_assoc, List.cons_append, List.nodup_append, List.nodup_cons] at this
  exact absurd (List.mem_append.mpr (Or.inr List.mem_cons_self)) this.2.1.1

/-! C57: `_convert_a_route` -/

/-- C57: after `_convert_a_route` the entry of a vertex on a chip has exactly the bits it had before
and, for the chips that the routes lead to from the first one, the links to the children and the
cores and links asked for the vertex (`Names`). Nothing else is added, for this partition or
another. -/
theorem C57_bits {C : Ctx} (hj : Joins C) {ident fuel : Nat} {src : VId} {useSource ensureAll : Bool}
    {R : Routes} {iP iL : Option Nat} {first : XY} {S S' : ByPart.State}
    {tg tg' : Dict XY Targets.State} (hf : Fits src useSource ensureAll) (hs : Sound tg)
    (h : convert C fuel ident src useSource ensureAll R iP iL first S tg = .ok (S', tg'))
    (part : Nat) (v : VId) (c : XY) (b : Nat) :
    Bit S' part v c b ↔ Bit S part v c b ∨
      (part = ident ∧ Names C src useSource ensureAll R first tg v c b) :=
  convert_bits hj hf hs h part v c b

/-- C57: the vertices and chips that get an entry are exactly those of `Writes`: also where nothing is
to be sent, an entry is made. -/
theorem C57_entries {C : Ctx} {ident fuel : Nat} {src : VId} {useSource ensureAll : Bool}
    {R : Routes} {iP iL : Option Nat} {first : XY} {S S' : ByPart.State}
    {tg tg' : Dict XY Targets.State} (hf : Fits src useSource ensureAll) (hs : Sound tg)
    (h : convert C fuel ident src useSource ensureAll R iP iL first S tg = .ok (S', tg'))
    (part : Nat) (v : VId) (c : XY) :
    (Present S' part v c ↔ Present S part v c ∨
      (part = ident ∧ Writes C src useSource ensureAll R first tg v c)) ∧
    (¬ (part = ident ∧ Writes C src useSource ensureAll R first tg v c) →
      ByPart.entryOn S' v part c.1 c.2 = ByPart.entryOn S v part c.1 c.2) :=
  ⟨convert_present hf hs h part v c, fun hn => convert_frame hf hs h part v c (fun h1 h2 => hn ⟨h1, h2⟩)⟩

/-- C57: a new entry is marked defaultable only if the packets come to the chip over a link, leave it
only over the link opposite, and go to no core there: leaving the entry out changes nothing. -/
theorem C57_defaultable {C : Ctx} (hj : Joins C) (hm : KeepsFlag C) {ident fuel : Nat} {src : VId}
    {useSource ensureAll : Bool} {R : Routes} {iP iL : Option Nat} {first : XY}
    {S S' : ByPart.State} {tg tg' : Dict XY Targets.State} (hf : Fits src useSource ensureAll)
    (hs : Sound tg) (hR : Forest R) (h6 : ∀ a l b, Edge R a l b → l < 6)
    (h : convert C fuel ident src useSource ensureAll R iP iL first S tg = .ok (S', tg'))
    {v : VId} {c : XY} {e : ByPart.REntry} (hn : ByPart.entryOn S v ident c.1 c.2 = none)
    (he : ByPart.entryOn S' v ident c.1 c.2 = some e) (hd : e.defaultable = true) :
    ∃ l, Heads R first iP iL c l ∧ ∀ b, e.route.testBit b = true ↔ b = l :=
  convert_flag hj hm hf hs hR h6 h hn he hd

/-- The routes of the example: from (0, 0) to (1, 0), (2, 0) and (0, 1). -/
def lineR : Routes := [((0, 0), [(2, (0, 1)), (0, (1, 0))]), ((0, 1), []), ((2, 0), []),
  ((1, 0), [(0, (2, 0))])]

/-- The targets of the example: core 1 on (2, 0) for machine vertex 0, core 1 on (0, 1) for all. -/
def lineTg : Dict XY Targets.State := [((2, 0), ⟨[([1], [])], [(.mach 0, 0)]⟩),
  ((0, 1), ⟨[([1], [])], [(.app 0, 0)]⟩)]

instance decEqEntries : DecidableEq ByPart.Entries := inferInstance

instance decEqTables : DecidableEq ByPart.State := inferInstance

instance decEqTargets : DecidableEq (Dict XY Targets.State) := inferInstance

instance decEqConverted : DecidableEq (ByPart.State × Dict XY Targets.State) := instDecidableEqProd

/-- On (1, 0) the entry is defaultable; on (2, 0) machine vertex 1 gets an entry that sends nowhere. -/
example : convert (lineC [0, 1]) 10 7 (.app 0) false true lineR none none (0, 0) [] lineTg =
    .ok ([((0, 0), [((.app 0, 7), ⟨5, false⟩)]), ((1, 0), [((.app 0, 7), ⟨1, true⟩)]),
      ((2, 0), [((.mach 0, 7), ⟨128, false⟩), ((.mach 1, 7), ⟨0, false⟩)]),
      ((0, 1), [((.app 0, 7), ⟨128, false⟩)])], lineTg) := by
  decide +kernel

example : Fits (.app 0) false true := fun _ => ⟨rfl, 0, rfl⟩

theorem lineTg_sound : Sound lineTg := by
  intro c t ht
  have hm := Dict.mem_of_get? ht
  have key : ∀ (u v : VId) (p : Nat), Dict.get? [(u, 0)] v = some p → p < 1 := by
    intro u v p h
    have := Dict.mem_of_get? h
    simp only [List.mem_singleton, Prod.mk.injEq] at this
    omega
  simp only [lineTg, List.mem_cons, List.not_mem_nil, or_false, Prod.mk.injEq] at hm
  rcases hm with ⟨_, rfl⟩ | ⟨_, rfl⟩
  · exact ⟨by decide, fun v p hp => key _ v p hp⟩
  · exact ⟨by decide, fun v p hp => key _ v p hp⟩

/-- The routes of the example are those of the router. -/
theorem lineR_forest : Forest lineR ∧ ∀ a l b, Edge lineR a l b → l < 6 := by
  have h : routeToXys lineT (0, 0) lineT.chips [] [(0, 0), (2, 0), (0, 1)] = .ok lineR := by
    decide +kernel
  have h0 : Forest [] := by
    refine ⟨?_, ?_, ?_⟩
    · rintro a l b ⟨ch, h, _⟩; cases h
    · rintro a l a' l' b ⟨ch, h, _⟩; cases h
    · rintro a l b ⟨ch, h, _⟩; cases h
  refine ⟨C71_forest h0 h, fun a l b he => ?_⟩
  rcases (C56_working h).2 a l b he with ⟨ch, h1, _⟩ | h1
  · cases h1
  · exact h1.1.1

example (out : List Nat) : Joins (lineC out) ∧ KeepsFlag (lineC out) ∧ NoFuel (lineC out) := by
  refine ⟨?_, ?_, ?_⟩
  · intro a b c h; cases h; rfl
  · intro a b c h hd
    cases h
    simpa using hd
  · intro a b h; cases h

/-! C74: delivery -/

/-- The statement of C74 in full: if a partition is routed at all, the packets of every machine vertex
get to every target they should get to. It does not hold: `C74_false` and `C74_false_loops`. -/
def C74_full : Prop :=
  ∀ (C : Ctx) (P : Partition) (fuel : Nat) (S S' : ByPart.State), Contract C P → Unmixed C S →
    routePartition C P fuel S = .ok S' → ∀ m t, Wants C P m t → Delivered C S' P.ident m t

theorem unmixed_empty (C : Ctx) : Unmixed C [] := by
  rintro a m part x y _ ⟨h, _⟩
  cases h

/-- No packet leaves the chips of `L`. -/
def keepsIn (C : Ctx) (S : ByPart.State) (ident m : Nat) (L : List XY) : Bool :=
  L.all (fun c => (List.range 6).all (fun l =>
    match entryFor C S ident m c with
    | none => true
    | some e => !(e.route.testBit l && C.T.linkAt c l) || decide (C.T.over c l ∈ L)))

theorem comes_within {C : Ctx} {S : ByPart.State} {ident m : Nat} {L : List XY}
    (h0 : (C.locate m).1 ∈ L) (h : keepsIn C S ident m L = true) {c : XY}
    (hc : Comes C S ident m c) : c ∈ L := by
  induction hc with
  | start => exact h0
  | @hop c e l _ he hl hb hk ih =>
    unfold keepsIn at h
    rw [List.all_eq_true] at h
    have h1 := h c ih
    rw [List.all_eq_true] at h1
    have h2 := h1 l (List.mem_range.mpr hl)
    rw [he] at h2
    simpa [hb, hk] using h2

/-- The tables of the example where machine vertex 1 does not send. -/
def lineS : ByPart.State := [((0, 0), [((.mach 0, 0), ⟨4, false⟩)]), ((0, 1), [((.app 0, 0), ⟨128, false⟩)])]

/-- C74 fails: machine vertex 1, on the way from machine vertex 0 to the target on (2, 0), does not
send. The way is taken to start at its chip; as nothing is sent from there, it is left out. The
routing succeeds, and no packet gets to (2, 0). -/
theorem C74_false : ¬ C74_full := by
  intro h
  have hr : routePartition (lineC [0]) lineP 10 [] = .ok lineS := by decide +kernel
  have hw : Wants (lineC [0]) lineP 0 2 :=
    Or.inl ⟨(1, [(2, [.app 0])]), by simp [lineP], (2, [.app 0]), by simp, rfl, .app 0, by simp,
      Or.inr ⟨0, [0], rfl, rfl, by simp⟩⟩
  have hd := (h _ _ _ _ _ (lineP_contract (by simp)) (unmixed_empty _) hr 0 2 hw).1
  have := comes_within (L := [(0, 0), (0, 1)]) (by decide) (by decide +kernel) hd
  revert this
  decide

/-- With only the first edge there is no chip to start from, and the routing fails with a
`KeyError`. -/
example : routePartition (lineC [0]) { lineP with edges := [(1, [(2, [.app 0])])] } 10 [] =
    .error .keyError := by decide +kernel

/-- The machine of `C68_false`: machine vertex 0 on (3, 1) is to reach machine vertex 1 on (0, 4). -/
def loopC (T : Topo) : Ctx where
  T := T
  vector := fun a b => (b.1 - a.1, b.2 - a.2, 0)
  appOf := fun m => if m = 0 then some 0 else none
  machines := fun a => if a = 0 then [0] else []
  merge := fun a b => .ok ⟨a.route ||| b.route, a.defaultable && b.defaultable⟩
  outgoing := fun a => if a = 0 then some [0] else none
  locate := fun m => if m = 0 then ((3, 1), some 1, none) else ((0, 4), some 1, none)
  iter := id

def loopP : Partition := ⟨0, 0, [(1, [(1, [.app 0])])], []⟩

/-- The same machine with a chip (0, 3) that can be reached from (0, 2) and has no other links. -/
def deadT : Topo where
  chips := exT.chips ++ [(0, 3)]
  linkAt := fun c l => exT.linkAt c l || decide ((c, l) ∈ [((0, 2), 2), (((0, 3), 5) : XY × Nat)])
  over := exT.over

theorem loop_contract {T : Topo} (ht : T.over = exT.over) (h0 : (3, 1) ∈ T.chips)
    (h1 : (0, 4) ∈ T.chips) : Contract (loopC T) loopP where
  merges := by intro a b c h; cases h; rfl
  owns := by
    intro a m
    simp only [loopC]
    by_cases ha : a = 0
    · subst ha
      by_cases hm : m = 0
      · subst hm; simp
      · simp [hm]
    · rw [if_neg ha]
      constructor
      · intro h; cases h
      · intro h
        split at h
        · cases h; exact absurd rfl ha
        · cases h
  sends := by
    intro a l m h hm
    simp only [loopC] at h ⊢
    split at h
    · rename_i ha
      cases h
      simp only [List.mem_singleton] at hm
      rw [if_pos hm, ha]
    · cases h
  within := by intro p hp; cases hp
  iter := fun l => List.Perm.refl _
  placed := by
    intro m
    simp only [loopC]
    split
    · exact h0
    · exact h1
  vector := by
    intro a b _ _
    have h := C39_end (T := T) (w := none) (h := none) (fun c l _ => by rw [ht]; rfl) (b.1 - a.1)
      (b.2 - a.2) 0 (s := a) rfl
    have h1 : wrap none (a.1 + (b.1 - a.1 - 0)) = b.1 := by
      show a.1 + (b.1 - a.1 - 0) = b.1
      omega
    have h2 : wrap none (a.2 + (b.2 - a.2 - 0)) = b.2 := by
      show a.2 + (b.2 - a.2 - 0) = b.2
      omega
    rw [h1, h2] at h
    exact h
  sources := by
    intro e he v hv s hs
    left
    simp only [loopP, List.mem_singleton] at he
    subst he
    simp only [List.mem_singleton] at hv
    subst hv
    exact List.mem_singleton.mp hs

/-- What is made on either machine. -/
def loopS : ByPart.State :=
  [((3, 1), [((.mach 0, 0), ⟨16, false⟩)]), ((2, 0), [((.app 0, 0), ⟨8, false⟩)]),
   ((1, 0), [((.app 0, 0), ⟨8, true⟩)]), ((0, 0), [((.app 0, 0), ⟨4, false⟩)]),
   ((0, 1), [((.app 0, 0), ⟨4, true⟩)]), ((0, 2), [((.app 0, 0), ⟨4, true⟩)]),
   ((1, 3), [((.app 0, 0), ⟨4, true⟩)]), ((1, 4), [((.app 0, 0), ⟨8, false⟩)]),
   ((0, 4), [((.app 0, 0), ⟨128, false⟩)])]

theorem loop_routed : routePartition (loopC exT) loopP 20 [] = .ok loopS := by decide +kernel

theorem dead_routed : routePartition (loopC deadT) loopP 20 [] = .ok loopS := by decide +kernel

/-- C74 fails also where every chip of the source sends: the way from (3, 1) to (0, 4), repaired and
its loops removed, says that link 2 leads from (0, 2) to (1, 3) (see `C68_false`). There is no such
link. The routing succeeds, and no packet gets beyond (0, 2). -/
theorem C74_false_loops : ¬ ∀ (C : Ctx) (P : Partition) (fuel : Nat) (S S' : ByPart.State),
    Contract C P → AllSend C P → Unmixed C S → routePartition C P fuel S = .ok S' →
    ∀ m t, Wants C P m t → Delivered C S' P.ident m t := by
  intro h
  have hs : AllSend (loopC exT) loopP := by
    intro m hm
    have : m = 0 := by simpa [loopC, loopP] using hm
    exact ⟨0, Or.inl ⟨[0], rfl, by simp⟩, by rw [this]⟩
  have hw : Wants (loopC exT) loopP 0 1 :=
    Or.inl ⟨(1, [(1, [.app 0])]), by simp [loopP], (1, [.app 0]), by simp, rfl, .app 0, by simp,
      Or.inr ⟨0, [0], rfl, rfl, by simp⟩⟩
  have hd := (h _ _ _ _ _ (loop_contract rfl (by decide) (by decide)) hs (unmixed_empty _) loop_routed
    0 1 hw).1
  have := comes_within (L := [(3, 1), (2, 0), (1, 0), (0, 0), (0, 1), (0, 2)]) (by decide)
    (by decide +kernel) hd
  revert this
  decide

/-- C74, the part that holds: if a partition is routed, the packets of every machine vertex get to
every target they should get to: over working links they come to its chip, and there they are sent to
its core, or its link. It does not matter what other partitions have entries.
Missing: sources with a chip from which nothing is sent (`C74_false`), and machines where a repaired
way returns to a removed loop (`C74_false_loops`). -/
theorem C74_delivered_partial {C : Ctx} {P : Partition} {fuel : Nat} {S S' : ByPart.State}
    (hC : Contract C P) (hn : NoReturns C) (ha : AllSend C P) (hu : Unmixed C S)
    (h : routePartition C P fuel S = .ok S') {m t : Nat} (hw : Wants C P m t) :
    Delivered C S' P.ident m t :=
  delivered hC hn ha hu h hw

theorem line_allSend : AllSend (lineC [0, 1]) lineP := by
  intro m hm
  exact ⟨m, Or.inl ⟨[0, 1], rfl, hm⟩, rfl⟩

/-- Both machine vertices send: machine vertex 0 goes by (1, 0) to (2, 0), and both to (0, 1). -/
def lineS' : ByPart.State :=
  [((1, 0), [((.mach 0, 0), ⟨1, false⟩), ((.mach 1, 0), ⟨9, false⟩)]),
   ((2, 0), [((.app 0, 0), ⟨128, false⟩)]),
   ((0, 0), [((.mach 0, 0), ⟨5, false⟩), ((.mach 1, 0), ⟨4, false⟩)]),
   ((0, 1), [((.app 0, 0), ⟨128, false⟩)])]

theorem line_routed : routePartition (lineC [0, 1]) lineP 10 [] = .ok lineS' := by decide +kernel

example : Delivered (lineC [0, 1]) lineS' 0 1 3 :=
  C74_delivered_partial (lineP_contract (by decide)) (line_noReturns _) line_allSend (unmixed_empty _)
    line_routed (Or.inl ⟨(2, [(3, [.app 0])]), by simp [lineP], (3, [.app 0]), by simp, rfl, .app 0,
      by simp, Or.inr ⟨0, [0, 1], rfl, rfl, by simp⟩⟩)

/-! C75: nothing else is sent -/

/-- C75: a core is sent to, on the entry of any vertex and partition, only if it was before, or the
vertex sends the partition's packets and a target of the partition is on that core. This holds
whatever the routes, also where they are wrong (`C74_false_loops`). -/
theorem C75_cores {C : Ctx} {P : Partition} {fuel : Nat} {S S' : ByPart.State} (hC : Contract C P)
    (h : routePartition C P fuel S = .ok S') {part : Nat} {v : VId} {c : XY} {p : Nat}
    (hb : Bit S' part v c (6 + p)) : Bit S part v c (6 + p) ∨
      (part = P.ident ∧ Mine C P v ∧ ∃ t, Asked P t ∧ (C.locate t).1 = c ∧
        ((C.locate t).2.1 = some p ∨ (C.locate t).2.2 = some (6 + p))) := by
  rcases (only_partition hC (keeps_low hC) h).bits part v c _ hb with hb | ⟨h1, h2, h3⟩
  · exact Or.inl hb
  · refine Or.inr ⟨h1, h2, ?_⟩
    rcases h3 with ⟨d, hd⟩ | ⟨t, h3, h4, h5⟩ | ⟨q, ⟨t, h3, h4, h5⟩, hq⟩
    · omega
    · exact ⟨t, h3, h4, Or.inr h5⟩
    · have : p = q := by omega
      exact ⟨t, h3, h4, Or.inl (this ▸ h5)⟩

/-- C75: a link is sent over only if it was before, or it works and leads to a chip of the machine, or
a target of the partition is on that link.
Missing: machines where a repaired way returns to a removed loop (`C75_false_links`). -/
theorem C75_links_partial {C : Ctx} {P : Partition} {fuel : Nat} {S S' : ByPart.State} (hC : Contract C P)
    (hn : NoReturns C) (h : routePartition C P fuel S = .ok S') {part : Nat} {v : VId} {c : XY} {l : Nat}
    (hl : l < 6) (hb : Bit S' part v c l) : Bit S part v c l ∨
      (part = P.ident ∧ Mine C P v ∧
        ((C.T.linkAt c l = true ∧ C.T.over c l ∈ C.T.chips) ∨
          ∃ t, Asked P t ∧ (C.locate t).1 = c ∧ (C.locate t).2.2 = some l)) := by
  rcases (only_partition hC (keeps_wired hC hn) h).bits part v c _ hb with hb | ⟨h1, h2, h3⟩
  · exact Or.inl hb
  · refine Or.inr ⟨h1, h2, ?_⟩
    rcases h3 with ⟨d, hd⟩ | ⟨t, h3, h4, h5⟩ | ⟨q, ⟨t, h3, h4, h5⟩, hq⟩
    · obtain ⟨_, h4, h5, h6⟩ := hd
      rw [h5]
      exact Or.inl ⟨h4, h6⟩
    · exact Or.inr ⟨t, h3, h4, h5⟩
    · omega

/-- C75 is false for links: on (0, 2) packets are sent over link 2, which does not work. -/
theorem C75_false_links : ¬ ∀ (C : Ctx) (P : Partition) (fuel : Nat) (S S' : ByPart.State),
    Contract C P → routePartition C P fuel S = .ok S' →
    ∀ (part : Nat) (v : VId) (c : XY) (l : Nat), l < 6 → Bit S' part v c l → Bit S part v c l ∨
      C.T.linkAt c l = true ∨ ∃ t, Asked P t ∧ (C.locate t).1 = c ∧ (C.locate t).2.2 = some l := by
  intro h
  have := h _ _ _ _ _ (loop_contract rfl (by decide) (by decide)) loop_routed 0 (.app 0) (0, 2) 2
    (by decide) ⟨⟨4, true⟩, by decide, by decide⟩
  rcases this with ⟨e, he, _⟩ | h1 | ⟨t, _, _, h1⟩
  · cases he
  · revert h1; decide
  · simp only [loopC] at h1
    split at h1 <;> cases h1

/-- C75: entries of other partitions, and of vertices that do not send this partition's packets, stay
as they are. -/
theorem C75_others {C : Ctx} {P : Partition} {fuel : Nat} {S S' : ByPart.State} (hC : Contract C P)
    (h : routePartition C P fuel S = .ok S') (part : Nat) (v : VId) (c : XY)
    (hn : ¬ (part = P.ident ∧ Mine C P v)) :
    ByPart.entryOn S' v part c.1 c.2 = ByPart.entryOn S v part c.1 c.2 :=
  (only_partition hC (keeps_low hC) h).frame part v c hn

/-- C75: no entry loses a core or link, and if no router held both an application vertex and one of its
machine vertices then none does afterwards. -/
theorem C75_kept {C : Ctx} {P : Partition} {fuel : Nat} {S S' : ByPart.State} (hC : Contract C P)
    (h : routePartition C P fuel S = .ok S') :
    (∀ part v c b, Bit S part v c b → Bit S' part v c b) ∧ (Unmixed C S → Unmixed C S') :=
  have ho := only_partition hC (keeps_low hC) h
  ⟨ho.grows, ho.unmixed⟩

/-- C75: where nothing had been routed for the partition, a core that packets of a machine vertex are
sent to is the core of a target of the partition. -/
theorem C75_sent {C : Ctx} {P : Partition} {fuel : Nat} {S S' : ByPart.State} (hC : Contract C P)
    (hf : Fresh C P S) (hd : ∀ t l, (C.locate t).2.2 = some l → l < 6)
    (h : routePartition C P fuel S = .ok S') {m : Nat} (hm : Sends C P m) {c : XY} {p : Nat}
    (hs : Sent C S' P.ident m c (6 + p)) :
    ∃ t, Asked P t ∧ (C.locate t).1 = c ∧ (C.locate t).2.1 = some p := by
  obtain ⟨e, he, hb⟩ := hs
  have key : ∃ v, Mine C P v ∧ Bit S' P.ident v c (6 + p) := by
    unfold entryFor at he
    cases h1 : ByPart.entryOn S' (.mach m) P.ident c.1 c.2 with
    | some e1 =>
      simp only [h1] at he
      exact ⟨.mach m, Or.inr ⟨m, rfl, hm⟩, e, by rw [h1]; exact he, hb⟩
    | none =>
      simp only [h1, sends_app hC hm] at he
      exact ⟨.app P.source, Or.inl rfl, e, he, hb⟩
  obtain ⟨v, hv, hbit⟩ := key
  rcases C75_cores hC h hbit with ⟨e1, he1, _⟩ | ⟨_, _, t, h1, h2, h3 | h3⟩
  · rw [hf v hv c] at he1; cases he1
  · exact ⟨t, h1, h2, h3⟩
  · have := hd t _ h3
    omega

example : Bit lineS' 0 (.app 0) (2, 0) (6 + 1) ∧ Bit lineS' 0 (.mach 1) (1, 0) 3 :=
  ⟨⟨⟨128, false⟩, by decide, by decide⟩, ⟨⟨9, false⟩, by decide, by decide⟩⟩

/-! C76: termination -/

/-- C76: the routing of a partition ends, for every machine and whatever the vertices ask for: with
enough rounds allowed, none of its loops uses them up. -/
theorem C76_ends {C : Ctx} {P : Partition} (hC : Contract C P) (hm : NoFuel C) :
    ∃ n, ∀ fuel, n ≤ fuel → ∀ S, routePartition C P fuel S ≠ .error .outOfFuel :=
  partition_ends hC hm

example : Contract (loopC exT) loopP ∧ NoFuel (loopC exT) :=
  ⟨loop_contract rfl (by decide) (by decide), fun a b h => by cases h⟩

/-! C77: every packet meets an entry -/

/-- C77: on every chip that packets of the source come to there is an entry for them, so that none is
sent on by default where the router meant something else.
Missing: machines where a repaired way returns to a removed loop (`C77_false`). -/
theorem C77_met_partial {C : Ctx} {P : Partition} {fuel : Nat} {S S' : ByPart.State} (hC : Contract C P)
    (hn : NoReturns C) (ho : Outside C P) (hf : Fresh C P S) {ms : List Nat} {m : Nat}
    (h1 : C.outgoing P.source = some ms) (h2 : m ∈ ms) (h : routePartition C P fuel S = .ok S') {c : XY}
    (hc : Comes C S' P.ident m c) : (entryFor C S' P.ident m c).isSome = true := by
  refine met hC hn ho h1 h2 ?_ h hc
  rintro v c l hv ⟨e, he, _⟩
  have hmine : Mine C P v := by
    rcases hv with rfl | rfl
    · exact Or.inr ⟨m, rfl, Or.inl ⟨ms, h1, h2⟩⟩
    · exact Or.inl rfl
  rw [hf v hmine c] at he
  cases he

/-- C77 is false: where the way from (3, 1) to (0, 4) has lost its hop from (0, 2) to (1, 2), packets
come to (0, 3), which is on no route. -/
theorem C77_false : ¬ ∀ (C : Ctx) (P : Partition) (fuel : Nat) (S S' : ByPart.State),
    Contract C P → Outside C P → Fresh C P S → routePartition C P fuel S = .ok S' →
    ∀ (ms : List Nat) (m : Nat), C.outgoing P.source = some ms → m ∈ ms →
      ∀ c, Comes C S' P.ident m c → (entryFor C S' P.ident m c).isSome = true := by
  intro h
  have ho : Outside (loopC deadT) loopP := by
    intro t l _ hl
    simp only [loopC] at hl
    split at hl <;> cases hl
  have hc : Comes (loopC deadT) loopS 0 0 (0, 3) := by
    have c0 : Comes (loopC deadT) loopS 0 0 (3, 1) := .start
    have c1 : Comes (loopC deadT) loopS 0 0 (2, 0) :=
      c0.hop (e := ⟨16, false⟩) (l := 4) (by decide) (by decide) (by decide) (by decide)
    have c2 : Comes (loopC deadT) loopS 0 0 (1, 0) :=
      c1.hop (e := ⟨8, false⟩) (l := 3) (by decide) (by decide) (by decide) (by decide)
    have c3 : Comes (loopC deadT) loopS 0 0 (0, 0) :=
      c2.hop (e := ⟨8, true⟩) (l := 3) (by decide) (by decide) (by decide) (by decide)
    have c4 : Comes (loopC deadT) loopS 0 0 (0, 1) :=
      c3.hop (e := ⟨4, false⟩) (l := 2) (by decide) (by decide) (by decide) (by decide)
    have c5 : Comes (loopC deadT) loopS 0 0 (0, 2) :=
      c4.hop (e := ⟨4, true⟩) (l := 2) (by decide) (by decide) (by decide) (by decide)
    exact c5.hop (e := ⟨4, true⟩) (l := 2) (by decide) (by decide) (by decide) (by decide)
  have := h (loopC deadT) loopP 20 [] loopS (loop_contract rfl (by decide) (by decide)) ho
    (fun _ _ _ => rfl) dead_routed [0] 0 rfl (by decide) _ hc
  revert this
  decide

example (t : Nat) (l : Nat) : ((lineC [0, 1]).locate t).2.2 ≠ some l := by
  simp only [lineC]
  split
  · intro h; cases h
  · split
    · intro h; cases h
    · split <;> (intro h; cases h)

example : Fresh (lineC [0, 1]) lineP [] := fun _ _ _ => rfl

end Pacman.Router
