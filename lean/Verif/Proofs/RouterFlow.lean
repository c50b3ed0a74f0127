import Verif.Proofs.RouterInto
import Verif.Proofs.RouterFollow
/-
Helper lemmas: the packets of a vertex come to each chip by one link, and entries are defaultable only
where packets go straight on.
-/

namespace Pacman.Router

open Alloc (VId)
open RPath
open Targets (Op Clean)

/-- The working links that entries send packets over are as `F` says; the defaultable entries send
packets over one link, the one that `D` says. -/
structure Track (C : Ctx) (P : Partition) (F : VId → XY → Nat → XY → Prop) (D : VId → XY → Nat → Prop)
    (S : ByPart.State) : Prop where
  flow : ∀ v, Mine C P v → ∀ c l, Bit S P.ident v c l → l < 6 → C.T.linkAt c l = true →
    F v c l (C.T.over c l)
  flag : KeepsFlag C → ∀ v, Mine C P v → ∀ (c : XY) e, ByPart.entryOn S v P.ident c.1 c.2 = some e →
    e.defaultable = true → ∃ l, (∀ b, e.route.testBit b = true ↔ b = l) ∧ D v c l

theorem track_fresh {C : Ctx} {P : Partition} {F : VId → XY → Nat → XY → Prop}
    {D : VId → XY → Nat → Prop} {S : ByPart.State} (h : Fresh C P S) : Track C P F D S := by
  refine ⟨fun v hv c l hb => ?_, fun _ v hv c e he => ?_⟩
  · obtain ⟨e, he, _⟩ := hb
    rw [h v hv c] at he
    cases he
  · rw [h v hv c] at he
    cases he

/-- The entries put on a chip go in the directions in which packets come. -/
theorem put_heads {C : Ctx} {src : VId} {useSource ensureAll : Bool} {R : Routes} {iP iL : Option Nat}
    {first : XY} {tg : Dict XY Targets.State} (hf : Fits src useSource ensureAll) (hs : Sound tg)
    (h6 : ∀ a l b, Edge R a l b → l < 6)
    {vis : List (Option Nat × Option Nat × XY)} (hv : ∀ i, i ∈ vis ↔ Visit R [(iP, iL, first)] i)
    {p : Put} (hp : p ∈ vis.flatMap (itemPuts C src useSource ensureAll R tg))
    (hd : p.e.defaultable = true) :
    ∃ l, Heads R first iP iL p.c l ∧ ∀ b, p.e.route.testBit b = true ↔ b = l := by
  obtain ⟨⟨jP, jL, c'⟩, hi, hp⟩ := List.mem_flatMap.mp hp
  unfold itemPuts at hp
  rw [chip_exact hf (fun t' h => hs _ t' h)] at hp
  obtain ⟨hc', hp⟩ := hp
  simp only at hc'
  have hhead : ∀ i, Visit R [(iP, iL, first)] (none, some i, c') →
      Heads R first iP iL c' ((i + 3) % 6) := by
    intro i hi
    rcases hi with hi | ⟨j, hj, a, l, c'', h1, h2, h3⟩
    · simp only [List.mem_singleton, Prod.mk.injEq] at hi
      exact Or.inr ⟨hi.2.2, hi.1.symm, i, hi.2.1.symm, rfl⟩
    · simp only [List.mem_singleton] at hj
      subst hj
      simp only [Prod.mk.injEq, Option.some.injEq, true_and] at h3
      obtain ⟨rfl, rfl⟩ := h3
      refine Or.inl ⟨a, h1, ?_⟩
      have := h6 _ _ _ h2
      have h7 : ((l + 3) % 6 + 3) % 6 = l := by omega
      rw [h7]
      exact h2
  have key : ∀ links cores, p.e = mkEntry links cores jP jL →
      ∃ l, Heads R first iP iL p.c l ∧ ∀ b, p.e.route.testBit b = true ↔ b = l := by
    intro links cores hpe
    rw [hpe] at hd
    obtain ⟨rfl, i, rfl, hb⟩ := flag_straight hd
    refine ⟨(i + 3) % 6, ?_, by rw [hpe]; exact hb⟩
    rw [hc']
    exact hhead i ((hv _).mp hi)
  rcases hp with ⟨_, _, h1⟩ | ⟨t', _, ⟨_, _, h1⟩ | ⟨_, ⟨L, _, h1⟩ | ⟨_, _, h1⟩⟩⟩
  · exact key _ _ h1
  · exact key _ _ h1
  · exact key _ _ h1
  · exact key _ _ h1

theorem track_convert {C : Ctx} {P : Partition} (hC : Contract C P) (ho : Outside C P)
    {F : VId → XY → Nat → XY → Prop} {D : VId → XY → Nat → Prop}
    (hone : ∀ v c l k, D v c l → D v c k → l = k)
    {fuel : Nat} {src : VId} {useSource ensureAll : Bool} {R : Routes} {iP iL : Option Nat}
    {first : XY} {S S' : ByPart.State} {tg tg' : Dict XY Targets.State}
    (hf : Fits src useSource ensureAll) (hc : AllClean C P tg)
    (hR : ∀ a l b, Edge R a l b → Wired C.T a l b)
    (hF : ∀ v c l d, Writes C src useSource ensureAll R first tg v c → Edge R c l d → F v c l d)
    (hD : ∀ v c l, Writes C src useSource ensureAll R first tg v c → Heads R first iP iL c l → D v c l)
    (hT : Track C P F D S)
    (h : convert C fuel P.ident src useSource ensureAll R iP iL first S tg = .ok (S', tg')) :
    Track C P F D S' := by
  refine ⟨fun v hv c l hb hl hlk => ?_, fun hk v hv c e he hd => ?_⟩
  · rcases (convert_bits hC.merges hf hc.sound h _ v c l).mp hb with hb | ⟨_, hw, hn⟩
    · exact hT.flow v hv c l hb hl hlk
    · rcases hn with ⟨d, hd⟩ | ⟨t, L, ht, hL, hb⟩
      · obtain ⟨_, _, h3, _⟩ := hR c l d hd
        rw [h3]
        exact hF v c l d hw hd
      · obtain ⟨_, _, k2⟩ := Targets.clean_lists (hc c t ht) hL
        rcases hb with hb | ⟨p, _, rfl⟩
        · obtain ⟨t', h1, rfl, h3⟩ := k2 l hb
          rw [ho t' l h1 h3] at hlk
          cases hlk
        · omega
  · obtain ⟨_, _, _, _, vis, hvis, hp⟩ := convert_ok hc.sound.wf h
    obtain ⟨hold, hall⟩ := puts_flag hk _ hp he hd
    have hput : ∀ p ∈ vis.flatMap (itemPuts C src useSource ensureAll R tg), p.v = v → p.c = c →
        ∃ l, D v c l ∧ ∀ b, p.e.route.testBit b = true ↔ b = l := by
      intro p hpm hpv hpc
      obtain ⟨l, h1, h2⟩ := put_heads hf hc.sound (fun a l b h => (hR a l b h).1) hvis hpm
        (hall p hpm hpv hpc)
      refine ⟨l, hD v c l ((puts_names hf hc.sound hvis v c).1.mp ⟨p, hpm, hpv, hpc⟩) ?_, h2⟩
      rw [← hpc]
      exact h1
    have hsome : ∃ l, D v c l := by
      rcases (puts_present _ hp P.ident v c).mp (by unfold Present; rw [he]; rfl) with h0 | ⟨_, p, h1, h2, h3⟩
      · obtain ⟨old, h0⟩ := Option.isSome_iff_exists.mp h0
        obtain ⟨l, _, h2⟩ := hT.flag hk v hv c old h0 (hold old h0)
        exact ⟨l, h2⟩
      · obtain ⟨l, h4, _⟩ := hput p h1 h2 h3
        exact ⟨l, h4⟩
    obtain ⟨l, hl⟩ := hsome
    refine ⟨l, fun b => ?_, hl⟩
    have hbit := puts_bit hC.merges _ hp P.ident v c
    constructor
    · intro hb
      rcases (hbit b).mp ⟨e, he, hb⟩ with ⟨old, h0, hb0⟩ | ⟨_, p, h1, h2, h3, h4⟩
      · obtain ⟨k, h1, h2⟩ := hT.flag hk v hv c old h0 (hold old h0)
        rw [(h1 b).mp hb0]
        exact hone _ _ _ _ h2 hl
      · obtain ⟨k, h5, h6⟩ := hput p h1 h2 h3
        rw [(h6 b).mp h4]
        exact hone _ _ _ _ h5 hl
    · rintro rfl
      have hback : ∀ {x : Prop}, (Bit S' P.ident v c b → x) → Bit S' P.ident v c b → x := fun f => f
      have hend : Bit S' P.ident v c b → e.route.testBit b = true := by
        rintro ⟨e1, h1, h2⟩
        rw [he] at h1
        cases h1
        exact h2
      rcases (puts_present _ hp P.ident v c).mp (by unfold Present; rw [he]; rfl) with h0 | ⟨_, p, h1, h2, h3⟩
      · obtain ⟨old, h0⟩ := Option.isSome_iff_exists.mp h0
        obtain ⟨k, h1, h2⟩ := hT.flag hk v hv c old h0 (hold old h0)
        refine hend ((hbit b).mpr (Or.inl ⟨old, h0, (h1 b).mpr (hone _ _ _ _ hl h2)⟩))
      · obtain ⟨k, h5, h6⟩ := hput p h1 h2 h3
        exact hend ((hbit b).mpr (Or.inr ⟨rfl, p, h1, h2, h3, (h6 b).mpr (hone _ _ _ _ hl h5)⟩))

theorem track_toTargets {C : Ctx} {P : Partition} (hC : Contract C P) (ho : Outside C P)
    {F : VId → XY → Nat → XY → Prop} {D : VId → XY → Nat → Prop}
    (hone : ∀ v c l k, D v c l → D v c k → l = k)
    {fuel : Nat} {M : Mapping} (hM : ∀ x ∈ M, ∀ v ∈ x.2, Sends C P v.1) {R : Routes}
    (hR : ∀ a l b, Edge R a l b → Wired C.T a l b)
    (hF : ∀ v c l d, Edge R c l d → F v c l d) (hD : ∀ v a c l, Edge R a l c → D v c l) (es : List XY) :
    ∀ {S S' : ByPart.State} {tg tg' : Dict XY Targets.State}, AllClean C P tg → Track C P F D S →
    toTargets C P fuel M R es S tg = .ok (S', tg') → Track C P F D S' ∧ AllClean C P tg' := by
  induction es with
  | nil =>
    intro S S' tg tg' hc hT h
    simp only [toTargets] at h
    cases h
    exact ⟨hT, hc⟩
  | cons e es ih =>
    intro S S' tg tg' hc hT h
    simp only [toTargets] at h
    have hc1 : AllClean C P (if (tg.get? e).isSome then tg else tg.set e (edgeTargets M)) := by
      split
      · exact hc
      · exact clean_set hc (clean_edgeTargets hM e)
    generalize (if (tg.get? e).isSome then tg else tg.set e (edgeTargets M)) = tg1 at h hc1
    split at h
    · cases h
    · rename_i S1 tg2 hcv
      have k1 := track_convert hC ho hone (fun _ => ⟨rfl, _, rfl⟩) hc1 hR
        (fun v c l d _ he => hF v c l d he) (by
          rintro v c l _ (⟨a, _, he⟩ | ⟨_, _, i, h0, _⟩)
          · exact hD v a c l he
          · cases h0) hT hcv
      have k2 := (only_convert hC (fun _ => ⟨rfl, _, rfl⟩) (Or.inl rfl) hc1 hR hcv).2
      exact ih k2 k1 h

theorem writes_mach {C : Ctx} {k : Nat} {useSource : Bool} {R : Routes} {first : XY}
    {tg : Dict XY Targets.State} (hu : useSource = true ∨ ∀ c, tg.get? c = none) {v : VId} {c : XY}
    (hw : Writes C (.mach k) useSource false R first tg v c) : v = .mach k := by
  rcases hw with ⟨_, ⟨_, h⟩ | ⟨t, ht, ⟨_, h⟩ | ⟨h1, _⟩⟩⟩
  · exact h
  · exact h
  · rcases hu with hu | hu
    · rw [h1] at hu; cases hu
    · rw [hu] at ht; cases ht

theorem track_fromVertices {C : Ctx} {P : Partition} (hC : Contract C P) (ho : Outside C P)
    {F : VId → XY → Nat → XY → Prop} {D : VId → XY → Nat → Prop}
    (hone : ∀ v c l k, D v c l → D v c k → l = k)
    {fuel : Nat} {useSource : Bool} {R : Routes} (hR : ∀ a l b, Edge R a l b → Wired C.T a l b)
    {xy : XY} (vs : List (Nat × Option Nat × Option Nat))
    (hF : ∀ v ∈ vs, ∀ c l d, Edge R c l d → F (.mach v.1) c l d)
    (hD : ∀ v ∈ vs, ∀ c l, Heads R xy v.2.1 v.2.2 c l → D (.mach v.1) c l) :
    ∀ {S S' : ByPart.State} {tg tg' : Dict XY Targets.State}, (∀ v ∈ vs, Sends C P v.1) →
    (useSource = true ∨ ∀ c, tg.get? c = none) →
    AllClean C P tg → Track C P F D S → fromVertices C P fuel useSource R xy vs S tg = .ok (S', tg') →
    Track C P F D S' ∧ AllClean C P tg' ∧ (useSource = true ∨ ∀ c, tg'.get? c = none) := by
  induction vs with
  | nil =>
    intro S S' tg tg' _ hu hc hT h
    simp only [fromVertices] at h
    cases h
    exact ⟨hT, hc, hu⟩
  | cons v vs ih =>
    obtain ⟨k, p, l⟩ := v
    intro S S' tg tg' hv hu hc hT h
    simp only [fromVertices] at h
    split at h
    · cases h
    · rename_i S1 tg1 h1
      have k1 := track_convert hC ho hone (fun he => by cases he) hc hR
        (fun v c l d hw he => by
          rw [writes_mach hu hw]
          exact hF _ List.mem_cons_self c l d he)
        (fun v c l hw he => by
          rw [writes_mach hu hw]
          exact hD _ List.mem_cons_self c l he) hT h1
      have k2 := (only_convert hC (fun he => by cases he)
        (Or.inr ⟨k, rfl, hv _ List.mem_cons_self⟩) hc hR h1).2
      have k3 : useSource = true ∨ ∀ c, tg1.get? c = none := by
        cases hus : useSource with
        | true => exact Or.inl rfl
        | false =>
          subst hus
          right
          intro c
          rw [(convert_ok hc.sound.wf h1).2.2.2.1 rfl c]
          rcases hu with hu | hu
          · cases hu
          · exact hu c
      exact ih (fun v hv => hF v (List.mem_cons_of_mem _ hv)) (fun v hv => hD v (List.mem_cons_of_mem _ hv))
        (fun u hu => hv u (List.mem_cons_of_mem _ hu)) k3 k2 k1 h

theorem track_fromSources {C : Ctx} {P : Partition} (hC : Contract C P) (ho : Outside C P)
    {F : VId → XY → Nat → XY → Prop} {D : VId → XY → Nat → Prop}
    (hone : ∀ v c l k, D v c l → D v c k → l = k)
    (hK : Keeps C (Wired C.T)) {fuel : Nat} {useSource : Bool} {all goals : List XY}
    (hF : ∀ m Rm, Sends C P m → routeToXys C.T (C.locate m).1 all [] goals = .ok Rm →
      ∀ c l d, Edge Rm c l d → F (.mach m) c l d)
    (hD : ∀ m Rm, Sends C P m → routeToXys C.T (C.locate m).1 all [] goals = .ok Rm →
      ∀ c l, Heads Rm (C.locate m).1 (C.locate m).2.1 (C.locate m).2.2 c l → D (.mach m) c l)
    (M : Mapping) :
    ∀ {S S' : ByPart.State} {tg tg' : Dict XY Targets.State},
    (∀ x ∈ M, ∀ v ∈ x.2, Sends C P v.1 ∧ C.locate v.1 = (x.1, v.2)) →
    (useSource = true ∨ ∀ c, tg.get? c = none) → AllClean C P tg → Track C P F D S →
    fromSources C P fuel useSource all goals M S tg = .ok (S', tg') → Track C P F D S' := by
  induction M with
  | nil =>
    intro S S' tg tg' _ hu hc hT h
    simp only [fromSources] at h
    cases h
    exact hT
  | cons x M ih =>
    obtain ⟨xy, vs⟩ := x
    intro S S' tg tg' hM hu hc hT h
    simp only [fromSources] at h
    split at h
    · cases h
    · rename_i R hr
      split at h
      · cases h
      · rename_i S1 tg1 h1
        have hR := keeps_routeToXys hK (R := []) (by rintro a l b ⟨ch, h, _⟩; cases h) hr
        have hv := hM _ List.mem_cons_self
        obtain ⟨k1, k2, k3⟩ := track_fromVertices hC ho hone hR vs
          (fun v hm c l d he => hF v.1 R (hv v hm).1 (by rw [(hv v hm).2]; exact hr) c l d he)
          (fun v hm c l he => hD v.1 R (hv v hm).1 (by rw [(hv v hm).2]; exact hr) c l (by
            rw [(hv v hm).2]; exact he))
          (fun v hm => (hv v hm).1) hu hc hT h1
        exact ih (fun x hx => hM x (List.mem_cons_of_mem _ hx)) k3 k2 k1 h

theorem mapping_located {C : Ctx} {P : Partition} {M : Mapping} (h : mapping C P = .ok M) :
    ∀ x ∈ M, ∀ v ∈ x.2, Sends C P v.1 ∧ C.locate v.1 = (x.1, v.2) := by
  intro x hx v hv
  refine ⟨(mapping_sends h).2 x hx v hv, ?_⟩
  have hg := Dict.get?_of_mem (mapping_sends h).1 hx
  unfold mapping at h
  cases ho : C.outgoing P.source with
  | none => simp only [ho] at h; cases h
  | some ms =>
    simp only [ho] at h
    cases h
    have h1 : v ∈ ((((P.internal.map (·.1)).foldl (mapAdd C) (ms.foldl (mapAdd C) [])).get? x.1).getD []) := by
      rw [hg]; exact hv
    rw [(mapFold C _ _ x.1).1, (mapFold C _ _ x.1).1] at h1
    rcases h1 with (h1 | ⟨m, _, h2, h3⟩) | ⟨m, _, h2, h3⟩
    · cases h1
    · rw [h3, ← h2]
    · rw [h3, ← h2]

/-! ### One partition -/

/-- Where the packets of a vertex may be sent: along the routes of the partition, and for a machine
vertex along the routes between the chips of the source. -/
def FlowF (C : Ctx) (P : Partition) (R : Routes) (all goals : List XY) (v : VId) (c : XY) (l : Nat)
    (d : XY) : Prop :=
  Edge R c l d ∨ ∃ m Rm, v = .mach m ∧ Sends C P m ∧
    routeToXys C.T (C.locate m).1 all [] goals = .ok Rm ∧ Edge Rm c l d

/-- The direction in which they come. -/
def FlowD (C : Ctx) (P : Partition) (R : Routes) (all goals : List XY) (v : VId) (c : XY) (l : Nat) :
    Prop :=
  (∃ a, Edge R a l c) ∨ ∃ m Rm, v = .mach m ∧ Sends C P m ∧
    routeToXys C.T (C.locate m).1 all [] goals = .ok Rm ∧
    Heads Rm (C.locate m).1 (C.locate m).2.1 (C.locate m).2.2 c l

theorem forest_empty : Forest [] := (winv_empty (T := ⟨[], fun _ _ => false, fun c _ => c⟩) (fun _ => True)).forest

theorem heads_one {R : Routes} (hR : Forest R) {first c : XY} {iP iL : Option Nat} {l k : Nat}
    (h1 : Heads R first iP iL c l) (h2 : Heads R first iP iL c k) : l = k := by
  rcases h1 with ⟨a, h1, h2'⟩ | ⟨rfl, _, i, h1, h2'⟩ <;>
    rcases h2 with ⟨a', h3, h4⟩ | ⟨h3, _, i', h4, h5⟩
  · exact (hR.oneParent _ _ _ _ _ h2' h4).2
  · subst h3
    exact absurd h1 (hR.acyclic _ _ _ h2')
  · exact absurd h3 (hR.acyclic _ _ _ h4)
  · rw [h1] at h4
    cases h4
    rw [h2', h5]

/-- The chips of the source are entered only by the routes between them. -/
structure Apart (C : Ctx) (P : Partition) (R : Routes) (all : List XY) : Prop where
  forest : Forest R
  noEnter : NoEnter all R
  here : ∀ m, Sends C P m → (C.locate m).1 ∈ all

theorem self_into {C : Ctx} {m : Nat} {all goals : List XY} {Rm : Routes}
    (h : routeToXys C.T (C.locate m).1 all [] goals = .ok Rm) {a b : XY} {l : Nat} (he : Edge Rm a l b) :
    b ∈ all ∧ b ≠ (C.locate m).1 := by
  rcases routeToXys_into h he with ⟨ch, h0, _⟩ | h0
  · cases h0
  · exact h0

theorem self_heads {C : Ctx} {P : Partition} {R : Routes} {all goals : List XY} (hA : Apart C P R all)
    {m : Nat} (hm : Sends C P m) {Rm : Routes}
    (h : routeToXys C.T (C.locate m).1 all [] goals = .ok Rm) {c : XY} {l : Nat} {iP iL : Option Nat}
    (hh : Heads Rm (C.locate m).1 iP iL c l) : c ∈ all := by
  rcases hh with ⟨a, _, he⟩ | ⟨rfl, _⟩
  · exact (self_into h he).1
  · exact hA.here m hm

theorem flowD_one {C : Ctx} {P : Partition} {R : Routes} {all goals : List XY} (hA : Apart C P R all)
    (v : VId) (c : XY) (l k : Nat) (h1 : FlowD C P R all goals v c l) (h2 : FlowD C P R all goals v c k) :
    l = k := by
  rcases h1 with ⟨a, h1⟩ | ⟨m, Rm, rfl, hm, hr, hh⟩ <;> rcases h2 with ⟨a', h2⟩ | ⟨m', Rm', hv, hm', hr', hh'⟩
  · exact (hA.forest.oneParent _ _ _ _ _ h1 h2).2
  · exact absurd (self_heads hA hm' hr' hh') (hA.noEnter _ _ _ h1)
  · exact absurd (self_heads hA hm hr hh) (hA.noEnter _ _ _ h2)
  · cases hv
    rw [hr] at hr'
    cases hr'
    exact heads_one (C71_forest forest_empty hr) hh hh'

/-- What the routing of one partition leaves. -/
theorem routePartition_track {C : Ctx} {P : Partition} {fuel : Nat} {S S' : ByPart.State}
    (hC : Contract C P) (hn : NoReturns C) (ho : Outside C P) (hs : AllSend C P) (hf : Fresh C P S)
    (h : routePartition C P fuel S = .ok S') :
    ∃ R all goals, Apart C P R all ∧ Track C P (FlowF C P R all goals) (FlowD C P R all goals) S' := by
  have hK := keeps_wired hC hn
  unfold routePartition at h
  cases hM : mapping C P with
  | error err => rw [hM] at h; cases h
  | ok M =>
    rw [hM] at h
    cases M with
    | nil =>
      simp only at h
      cases h
      refine ⟨[], [], [], ⟨forest_empty, noEnter_empty _, fun m hm => ?_⟩, track_fresh hf⟩
      obtain ⟨vs, hvs, _⟩ := (mapping_ok hM).1 m hm
      cases hvs
    | cons s M =>
      simp only at h
      have hloc := mapping_located hM
      have hsend := (mapping_sends hM).2
      have hall := allSource_iff hC hs hM
      have hsM : (Dict.get? (s :: M) s.1).isSome = true := by simp [Dict.get?_cons]
      have hsc : s.1 ∈ C.T.chips := by
        obtain ⟨m, _, hm⟩ := ((mapping_ok hM).2 s.1).mp hsM
        rw [← hm]; exact hC.placed m
      split at h
      · cases h
      · rename_i W hW
        obtain ⟨k1, k2⟩ := clean_routeEdges hC hK hsc P.edges (fun e he => he)
          (by intro c t ht; cases ht) (by rintro a l b ⟨ch, h, _⟩; cases h) hW
        have hne := noEnter_routeEdges hC hn hsc hall P.edges (noEnter_empty _) hW
        obtain ⟨G, hE, _, _⟩ := routeEdges_ok hC hn (M := s :: M) hsc hsM hall P.edges (G := [])
          (fun e he => he) ⟨tinv_empty C _, winv_empty _ _⟩ hW
        split at h
        · cases h
        · rename_i W1 hW1
          obtain ⟨k3, k4⟩ := clean_routeInternal k1 hW1
          have hA : Apart C P W1.routes (allSource C P) := by
            rw [k4]
            refine ⟨hE.winv.forest, hne, fun m hm => (hall _).mpr (((mapping_ok hM).2 _).mpr ⟨m, hm, rfl⟩)⟩
          rw [← k4] at k2
          have hrest : ∀ goals, (∀ m Rm, Sends C P m →
              routeToXys C.T (C.locate m).1 (allSource C P) [] goals = .ok Rm → ∀ c l d, Edge Rm c l d →
              FlowF C P W1.routes (allSource C P) goals (.mach m) c l d) ∧
            (∀ m Rm, Sends C P m → routeToXys C.T (C.locate m).1 (allSource C P) [] goals = .ok Rm →
              ∀ c l, Heads Rm (C.locate m).1 (C.locate m).2.1 (C.locate m).2.2 c l →
              FlowD C P W1.routes (allSource C P) goals (.mach m) c l) := fun goals =>
            ⟨fun m Rm hm hr c l d he => Or.inr ⟨m, Rm, rfl, hm, hr, he⟩,
             fun m Rm hm hr c l hh => Or.inr ⟨m, Rm, rfl, hm, hr, hh⟩⟩
          unfold makeRoutes at h
          split at h
          · cases h
          · rename_i S1 tg1 hto
            have hphase : ∀ goals, Track C P (FlowF C P W1.routes (allSource C P) goals)
                (FlowD C P W1.routes (allSource C P) goals) S1 ∧ AllClean C P tg1 := fun goals =>
              track_toTargets hC ho (flowD_one hA) hsend k2 (fun v c l d he => Or.inl he)
                (fun v a c l he => Or.inl ⟨a, he⟩) _ k3 (track_fresh hf) hto
            split at h
            · split at h
              · cases h
              · rename_i S2 tg2 h2
                cases h
                refine ⟨_, _, _, hA, track_fromSources hC ho (flowD_one hA) hK (hrest _).1 (hrest _).2 _
                  hloc (Or.inl rfl) (hphase []).2 (hphase _).1 h2⟩
            · split at h
              · cases h
              · rename_i S2 tg2 h2
                cases h
                refine ⟨_, _, _, hA, track_fromSources hC ho (flowD_one hA) hK (hrest _).1 (hrest _).2 _
                  hloc (Or.inr (fun _ => rfl)) (by intro c t ht; cases ht) (hphase _).1 h2⟩

end Pacman.Router
