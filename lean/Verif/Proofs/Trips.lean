import Verif.Proofs.RouterOnce
import Verif.Proofs.PipelineTables
/-
Helper lemmas: the trips of packets under the tables made for a graph.
-/

namespace Pacman.Pipe

open Router (Net NetContract NoReturns NetAllSend NetOutside NetSends Tidy entryFor Comes Hop Straight heading
  KeepsFlag)
open RPath (XY Topo)
open Tables (TablesMap Table tablesOf)
open Alloc (Infos)
open Gen (ofInfos)

/-- The machine's routers do with packets of `m` with key `k` what the entries say, but may have no entry
where that of the routing is defaultable. -/
def Kept (N : Net) (S : ByPart.State) (V : Valid.Scene) (ident m : Nat) (k : Word) : Prop :=
  ∀ c ∈ N.base.T.chips, ∀ re, entryFor (N.ctx ident) S ident m c = some re →
    (∃ e, lookup (V.entries c) k = some e ∧ e.route = re.route) ∨
    (lookup (V.entries c) k = none ∧ re.defaultable = true ∧ KeepsFlag (N.ctx ident))

/-- The trips that the entries say. -/
inductive RTrip (C : Router.Ctx) (S : ByPart.State) (ident m : Nat) : List Nat → XY → Prop
  | start : RTrip C S ident m [] (C.locate m).1
  | hop {w : List Nat} {c d : XY} {l : Nat} : RTrip C S ident m w c → Hop C S ident m c l d →
      RTrip C S ident m (l :: w) d

section
variable {N : Net} {S : ByPart.State} {ident m : Nat} {k : Word}

theorem rtrip_comes {C : Router.Ctx} {w : List Nat} {c : XY} (h : RTrip C S ident m w c) :
    Comes C S ident m c := by
  induction h with
  | start => exact .start
  | hop _ h1 ih =>
    obtain ⟨e, h2, h3, h4, h5, rfl⟩ := h1
    exact .hop ih h2 h3 h4 h5

theorem comes_rtrip {C : Router.Ctx} {c : XY} (h : Comes C S ident m c) : ∃ w, RTrip C S ident m w c := by
  induction h with
  | start => exact ⟨[], .start⟩
  | hop _ h2 h3 h4 h5 ih =>
    obtain ⟨w, hw⟩ := ih
    exact ⟨_, .hop hw ⟨_, h2, h3, h4, h5, rfl⟩⟩

theorem rtrip_one {C : Router.Ctx} (hs : Straight C S ident m) {w : List Nat} :
    ∀ {w' : List Nat} {c : XY}, RTrip C S ident m w c → RTrip C S ident m w' c → w = w' := by
  induction w with
  | nil =>
    intro w' c h h'
    cases h
    cases h' with
    | start => rfl
    | hop _ h1 => exact absurd h1 (hs.home _ _)
  | cons l w ih =>
    intro w' c h h'
    cases h with
    | hop h1 h2 =>
      cases h' with
      | start => exact absurd h2 (hs.home _ _)
      | hop h3 h4 =>
        obtain ⟨rfl, rfl⟩ := hs.one _ _ _ _ _ h2 h4
        rw [ih h1 h3]

/-- Where a packet is, the routers send it on as the entry says. -/
theorem out_iff {V : Valid.Scene} (hs : Straight (N.ctx ident) S ident m) (hk : Kept N S V ident m k)
    {w : List Nat} {c : XY} (hw : RTrip (N.ctx ident) S ident m w c) (hc : c ∈ N.base.T.chips)
    {re : ByPart.REntry} (he : entryFor (N.ctx ident) S ident m c = some re) (b : Nat) :
    Out V k c (w.head?.or (heading (N.base.locate m))) b ↔ re.route.testBit b = true := by
  rcases hk c hc re he with ⟨e, h1, h2⟩ | ⟨h1, h2, h3⟩
  · unfold Out
    rw [h1, ← h2]
    simp
  · obtain ⟨l, h4, h5, h6⟩ := hs.flag h3 c re he h2
    have hhead : w.head?.or (heading (N.base.locate m)) = some l := by
      cases hw with
      | start => exact h6 rfl
      | hop _ h7 =>
        rw [h5 _ _ h7]
        rfl
    unfold Out
    rw [h1, hhead, h4]
    constructor
    · rintro (⟨e, h7, _⟩ | ⟨_, h7⟩)
      · cases h7
      · exact (Option.some.inj h7).symm
    · rintro rfl
      exact Or.inr ⟨rfl, rfl⟩

theorem link_iff (T : Topo) (tm : TablesMap) (c d : XY) (l : Nat) :
    (sceneOf T tm).link c l = some d ↔ T.linkAt c l = true ∧ T.over c l = d := by
  unfold sceneOf
  simp only
  split
  · rename_i h
    simp [h]
  · rename_i h
    simp [h]

/-- Packets travel as the entries say. -/
theorem travels_iff {tm : TablesMap} (ht : Tidy (· ∈ N.base.T.chips) S)
    (hs : Straight (N.ctx ident) S ident m) (hk : Kept N S (sceneOf N.base.T tm) ident m k)
    (hmet : ∀ c, Comes (N.ctx ident) S ident m c → (entryFor (N.ctx ident) S ident m c).isSome = true)
    (w : List Nat) (c : XY) :
    Travels N (sceneOf N.base.T tm) k m w c ↔ RTrip (N.ctx ident) S ident m w c := by
  have hentry : ∀ {w c}, RTrip (N.ctx ident) S ident m w c →
      c ∈ N.base.T.chips ∧ ∃ re, entryFor (N.ctx ident) S ident m c = some re := by
    intro w c hw
    obtain ⟨re, he⟩ := Option.isSome_iff_exists.mp (hmet c (rtrip_comes hw))
    obtain ⟨v, hv, -⟩ := entryFor_present he
    exact ⟨present_chip ht hv, re, he⟩
  constructor
  · intro h
    unfold Travels at h
    induction h with
    | start => exact .start
    | hop _ h1 h2 h3 ih =>
      obtain ⟨hc, re, he⟩ := hentry ih
      rw [out_iff hs hk ih hc he] at h1
      rw [link_iff] at h3
      exact .hop ih ⟨re, he, h2, h1, h3⟩
  · intro h
    induction h with
    | start => exact .start
    | hop h0 h1 ih =>
      obtain ⟨re, he, h2, h3, h4⟩ := h1
      refine .hop ih ((out_iff hs hk h0 (hentry h0).1 he _).mpr h3) h2 ?_
      rw [link_iff]
      exact h4

theorem sentOn_iff {tm : TablesMap} (ht : Tidy (· ∈ N.base.T.chips) S)
    (hs : Straight (N.ctx ident) S ident m) (hk : Kept N S (sceneOf N.base.T tm) ident m k)
    (hmet : ∀ c, Comes (N.ctx ident) S ident m c → (entryFor (N.ctx ident) S ident m c).isSome = true)
    (w : List Nat) (c : XY) (b : Nat) : SentOn N (sceneOf N.base.T tm) k m w c b ↔
      RTrip (N.ctx ident) S ident m w c ∧
        ∃ re, entryFor (N.ctx ident) S ident m c = some re ∧ re.route.testBit b = true := by
  unfold SentOn
  rw [travels_iff ht hs hk hmet]
  constructor
  · rintro ⟨h1, h2⟩
    obtain ⟨re, he⟩ := Option.isSome_iff_exists.mp (hmet c (rtrip_comes h1))
    obtain ⟨v, hv, -⟩ := entryFor_present he
    exact ⟨h1, re, he, (out_iff hs hk h1 (present_chip ht hv) he b).mp h2⟩
  · rintro ⟨h1, re, he, h2⟩
    obtain ⟨v, hv, -⟩ := entryFor_present he
    exact ⟨h1, (out_iff hs hk h1 (present_chip ht hv) he b).mpr h2⟩

theorem same_trips {tm tm' : TablesMap} (ht : Tidy (· ∈ N.base.T.chips) S)
    (hs : Straight (N.ctx ident) S ident m) (hk : Kept N S (sceneOf N.base.T tm) ident m k)
    (hk' : Kept N S (sceneOf N.base.T tm') ident m k)
    (hmet : ∀ c, Comes (N.ctx ident) S ident m c → (entryFor (N.ctx ident) S ident m c).isSome = true) :
    SameTrips N (sceneOf N.base.T tm) (sceneOf N.base.T tm') k m := by
  refine ⟨fun w c => ?_, fun w c b => ?_⟩
  · rw [travels_iff ht hs hk hmet, travels_iff ht hs hk' hmet]
  · rw [sentOn_iff ht hs hk hmet, sentOn_iff ht hs hk' hmet]

/-- The chips on a trip are all different. -/
theorem rtrip_length (ht : Tidy (· ∈ N.base.T.chips) S) (hs : Straight (N.ctx ident) S ident m)
    (hmet : ∀ c, Comes (N.ctx ident) S ident m c → (entryFor (N.ctx ident) S ident m c).isSome = true)
    {w : List Nat} {c : XY} (hw : RTrip (N.ctx ident) S ident m w c) :
    w.length < N.base.T.chips.length := by
  have hchip : ∀ {w c}, RTrip (N.ctx ident) S ident m w c → c ∈ N.base.T.chips := by
    intro w c hw
    obtain ⟨re, he⟩ := Option.isSome_iff_exists.mp (hmet c (rtrip_comes hw))
    obtain ⟨v, hv, -⟩ := entryFor_present he
    exact present_chip ht hv
  have key : ∃ L : List XY, L.length = w.length + 1 ∧ L.Nodup ∧
      ∀ x ∈ L, ∃ w1, w1.length ≤ w.length ∧ RTrip (N.ctx ident) S ident m w1 x := by
    induction hw with
    | start => exact ⟨[_], rfl, by simp, fun x hx => ⟨[], Nat.le_refl _, by simp at hx; rw [hx]; exact .start⟩⟩
    | hop h0 h1 ih =>
      rename_i w c d l
      obtain ⟨L, k1, k2, k3⟩ := ih
      refine ⟨d :: L, by simp [k1], List.nodup_cons.mpr ⟨fun hd => ?_, k2⟩, ?_⟩
      · obtain ⟨w1, j1, j2⟩ := k3 d hd
        have := rtrip_one hs j2 (.hop h0 h1)
        rw [this] at j1
        simp at j1
        omega
      · intro x hx
        rcases List.mem_cons.mp hx with rfl | hx
        · exact ⟨_, Nat.le_refl _, .hop h0 h1⟩
        · obtain ⟨w1, j1, j2⟩ := k3 x hx
          exact ⟨w1, by simp; omega, j2⟩
  obtain ⟨L, k1, k2, k3⟩ := key
  have := List.Nodup.length_le_of_subset k2 (l₂ := N.base.T.chips) (fun x hx => by
    obtain ⟨w1, _, j2⟩ := k3 x hx
    exact hchip j2)
  omega

theorem kept_of_carries {V : Valid.Scene} (hc : Carries N S V ident m k) : Kept N S V ident m k :=
  fun c hc' re he => Or.inl (hc c hc' re he)

end

section
variable {N : Net} {K : Keys} {S : ByPart.State} {infos : Infos}

/-- Tables that stand in for those of the generator do the same. -/
theorem made_stands {g : Generator} (hN : NetContract N) (hK : KeyContract N K) (hp : Positive N.base.T)
    (ht : Tidy (· ∈ N.base.T.chips) S) (ha : Allocated N K infos) {tm tm' : TablesMap}
    (hm : Made g (ofInfos infos N.base.appOf) N.base.T S tm)
    (hst : ∀ p t, tm.get? p = some t → ∃ t', tm'.get? p = some t' ∧ Stands t.entries t'.entries)
    (hg : (g = .basic ∧ KeepsFlag N.base) ∨
      ∀ p t t', tm.get? p = some t → tm'.get? p = some t' → RoutesSame t.entries t'.entries)
    {a ident m : Nat} {k : Word} (hl : Router.Leaves N a ident) (hs : NetSends N a ident m)
    (hk : HasKey infos m ident k) : Kept N S (sceneOf N.base.T tm') ident m k := by
  intro c hc re he
  obtain ⟨t, h1, e, h2, h3, h4, h5, -⟩ := made_entry hN hK hp ht ha hm hl hs hk he
  obtain ⟨t', h6, h7⟩ := hst _ _ h1
  rw [scene_entries hp tm' hc, h6]
  simp only [Option.map_some, Option.getD_some]
  have hleft : routeOf t'.entries k = some e.route →
      ∃ e', lookup t'.entries k = some e' ∧ e'.route = re.route := by
    intro hr
    unfold routeOf at hr
    cases hlk : lookup t'.entries k with
    | none => rw [hlk] at hr; cases hr
    | some e' =>
      rw [hlk] at hr
      simp only [Option.map_some, Option.some.injEq] at hr
      exact ⟨e', rfl, by rw [hr, h4]⟩
  rcases hg with ⟨hb, hkf⟩ | hrs
  · rcases h7 k e h2 h3 with h8 | ⟨h8, h9⟩
    · exact Or.inl (hleft h8)
    · refine Or.inr ⟨h8, ?_, hkf⟩
      rw [← h5 hb]
      exact h9
  · have hlk : lookup t.entries k = some e :=
      Gen.lookup_orth (hm.good t (List.mem_map.mpr ⟨_, Dict.mem_of_get? h1, rfl⟩)).2 h2 h3
    have hr : routeOf t.entries k = some e.route := by unfold routeOf; rw [hlk]; rfl
    refine Or.inl (hleft ?_)
    rw [hrs _ _ _ h1 h6 k (by rw [hr]; simp), hr]

theorem stands_of_same {t t' : List Entry} (ho : Orthogonal t) (h : RoutesSame t t') : Stands t t' := by
  intro k o hm hk
  have hlk : lookup t k = some o := Gen.lookup_orth ho hm hk
  have hr : routeOf t k = some o.route := by unfold routeOf; rw [hlk]; rfl
  left
  rw [h k (by rw [hr]; simp), hr]

theorem orth_disjoint {t : List Entry} (h : Orthogonal t) : RouteDisjoint t := by
  intro a ha b hb hne ⟨k, h1, h2⟩
  have e1 := Gen.lookup_orth h ha h1
  have e2 := Gen.lookup_orth h hb h2
  rw [e1] at e2
  cases e2
  exact hne rfl

end

end Pacman.Pipe
