import Verif.Proofs.PipelineKeys
import Verif.Proofs.PipelineTidy
import Verif.Proofs.Validation
import Verif.Props.Generators
import Verif.Props.CompressorDriver
/-
Helper lemmas: the tables made for a whole graph, and what packets do under them.
-/

namespace Pacman.Pipe

open Alloc (VId Part Infos Info)
open Router (Net Leaves NetContract NoReturns Tidy Unmixed entryFor Comes Delivered)
open RPath (XY Topo)
open Gen (ofInfos FromPart Item)
open Tables (UTable Table TablesMap addTable tablesOf)

/-! ### One table -/

/-- What is known of a table made for these items. -/
structure TableOf (g : Generator) (w : Gen.World) (items : List Item) (t : UTable) : Prop where
  orth : Orthogonal t.values
  valid : AllValid t.values
  served : ∀ it ∈ items, ∀ k, w.Owns it.1 k → ∃ e ∈ t.values, e.Matches k ∧ e.route = it.2.route ∧
    (g = .basic → e.defaultable = it.2.defaultable) ∧ ∀ k', w.Owns it.1 k' → e.Matches k'
  single : ∀ e ∈ t.values, e.mask = 0xFFFFFFFF#32 → ∃ it ∈ items, ∀ x y, w.Owns it.1 x → w.Owns it.1 y → x = y

theorem create_ok (g : Generator) (same : Entry → Entry → Bool) {w : Gen.World} {items : List Item}
    (hr : Gen.Ready w (items.map (·.1))) (x y : Nat) :
    ∃ t, g.create same w x y items = .ok t ∧ t.x = x ∧ t.y = y ∧ TableOf g w items t := by
  cases g with
  | basic =>
    obtain ⟨t, h1, h2, h3, h4⟩ := Gen.basicLoop_ok same items [] [] (UTable.empty x y)
      (by simpa using hr) (by intro km src h; simp at h) (Tables.uinv_empty x y) Gen.Served.nil
    refine ⟨t, h1, h2, h3, h4.orth, h4.valid, ?_, by simpa using h4.single⟩
    intro it hit k hk
    obtain ⟨e, e1, e2, e3, e4, e5⟩ := h4.reach it (by simpa using hit) k hk
    exact ⟨e, e1, e2, e3, fun _ => e4, e5⟩
  | merged =>
    obtain ⟨t, h1, h2, h3, h4⟩ := Gen.mergedLoop_ok same hr (items.length + 1) items [] []
      (UTable.empty x y) (by omega) rfl (by intro km src h; simp at h) (Tables.uinv_empty x y)
      Gen.Served.nil
    refine ⟨t, h1, h2, h3, h4.orth, h4.valid, ?_, h4.single⟩
    intro it hit k hk
    obtain ⟨e, e1, e2, e3, -, e5⟩ := h4.reach it hit k hk
    exact ⟨e, e1, e2, e3, (fun h => by cases h), e5⟩

/-! ### All tables -/

/-- The position of the table of a chip. -/
def place (c : XY) : Nat × Nat := (c.1.toNat, c.2.toNat)

theorem generateLoop_ok (g : Generator) (same : Entry → Entry → Bool) {w : Gen.World}
    (S : ByPart.State) : ∀ (m : TablesMap),
    (∀ x ∈ S, Gen.Ready w (x.2.map (·.1))) → (Dict.keys m ++ S.map (fun x => place x.1)).Nodup →
    ∃ m', generateLoop g same w S m = .ok m' ∧ Dict.keys m' = Dict.keys m ++ S.map (fun x => place x.1) ∧
      (∀ p ∈ m, p ∈ m') ∧
      (∀ x ∈ S, ∃ t, m'.get? (place x.1) = some (.u t) ∧ TableOf g w x.2 t) ∧
      (∀ p ∈ m', p ∈ m ∨ ∃ x ∈ S, ∃ t, p = (place x.1, .u t) ∧ Table.xy (.u t) = place x.1 ∧
        TableOf g w x.2 t) := by
  induction S with
  | nil =>
    intro m _ _
    exact ⟨m, rfl, by simp, fun p h => h, (by intro x h; cases h), fun p h => Or.inl h⟩
  | cons x S ih =>
    obtain ⟨c, items⟩ := x
    intro m hr hn
    obtain ⟨t, h1, h2, h3, h4⟩ := create_ok g same (hr _ List.mem_cons_self) c.1.toNat c.2.toNat
    have hxy : Table.xy (.u t) = place c := by
      simp only [Table.xy, place, h2, h3]
    have hnew : m.get? (place c) = none := by
      rw [Dict.get?_eq_none]
      intro hc
      rw [List.nodup_append] at hn
      exact hn.2.2 _ hc _ (by simp) rfl
    have hadd : addTable m (.u t) = .ok (m ++ [(place c, .u t)]) := by
      unfold addTable
      rw [hxy, hnew]
      simp only
      rw [Dict.set_absent hnew]
    have hkeys : Dict.keys (m ++ [(place c, Table.u t)]) = Dict.keys m ++ [place c] := by
      simp [Dict.keys]
    obtain ⟨m', k1, k2, k3, k4, k5⟩ := ih (m ++ [(place c, .u t)])
      (fun x hx => hr x (List.mem_cons_of_mem _ hx)) (by rw [hkeys]; simpa using hn)
    have hk' : Dict.keys m' = Dict.keys m ++ ((c, items) :: S).map (fun x => place x.1) := by
      rw [k2, hkeys]; simp
    refine ⟨m', ?_, hk', fun p hp => k3 p (List.mem_append_left _ hp), ?_, ?_⟩
    · simp only [generateLoop, h1, hadd]
      exact k1
    · intro x hx
      rcases List.mem_cons.mp hx with rfl | hx
      · refine ⟨t, Dict.get?_of_mem ?_ (k3 _ (List.mem_append_right _ (List.mem_singleton.mpr rfl))), h4⟩
        have : (Dict.keys m').Nodup := by rw [hk']; exact hn
        exact this
      · exact k4 x hx
    · intro p hp
      rcases k5 p hp with h | ⟨x, hx, h⟩
      · rcases List.mem_append.mp h with h | h
        · exact Or.inl h
        · rw [List.mem_singleton] at h
          exact Or.inr ⟨_, List.mem_cons_self, t, h, hxy, h4⟩
      · exact Or.inr ⟨x, List.mem_cons_of_mem _ hx, h⟩

/-! ### The scene -/

theorem place_inj {T : Topo} (hp : Positive T) {c d : XY} (hc : c ∈ T.chips) (hd : d ∈ T.chips)
    (h : place c = place d) : c = d := by
  obtain ⟨h1, h2⟩ := hp c hc
  obtain ⟨h3, h4⟩ := hp d hd
  injection h with e1 e2
  obtain ⟨a, b⟩ := c
  obtain ⟨x, y⟩ := d
  simp only at *
  have : a = x := by omega
  have : b = y := by omega
  subst_vars
  rfl

theorem scene_get (T : Topo) (m : TablesMap) (x y : Nat) :
    (sceneOf T m).tables.get? ((x : Int), (y : Int)) = (m.get? (x, y)).map Table.entries := by
  unfold sceneOf
  simp only
  induction m with
  | nil => rfl
  | cons p m ih =>
    obtain ⟨⟨a, b⟩, t⟩ := p
    rw [List.map_cons, Dict.get?_cons, Dict.get?_cons, ih]
    by_cases h : (a, b) = (x, y)
    · cases h
      simp
    · have h' : ¬ (((a : Int), (b : Int)) = ((x : Int), (y : Int))) := by
        intro he
        injection he with e1 e2
        exact h (by rw [Int.ofNat.inj e1, Int.ofNat.inj e2])
      rw [if_neg h, if_neg h']

theorem scene_entries {T : Topo} (hp : Positive T) (m : TablesMap) {c : XY} (hc : c ∈ T.chips) :
    (sceneOf T m).entries c = ((m.get? (place c)).map Table.entries).getD [] := by
  obtain ⟨h1, h2⟩ := hp c hc
  have : c = (((place c).1 : Int), ((place c).2 : Int)) := by
    obtain ⟨a, b⟩ := c
    simp only [place] at *
    rw [Int.toNat_of_nonneg h1, Int.toNat_of_nonneg h2]
  unfold Valid.Scene.entries
  rw [this, scene_get]
  simp only [← this]

/-! ### What packets do -/

/-- The tables send packets with key `k` where the entries of `m` say. -/
def Carries (N : Net) (S : ByPart.State) (V : Valid.Scene) (ident m : Nat) (k : Word) : Prop :=
  ∀ c ∈ N.base.T.chips, ∀ re, entryFor (N.ctx ident) S ident m c = some re →
    ∃ e, lookup (V.entries c) k = some e ∧ e.route = re.route

section
variable {N : Net} {S : ByPart.State} {ident m : Nat} {k : Word}

theorem entryFor_present {c : XY} {re : ByPart.REntry} {C : Router.Ctx}
    (h : entryFor C S ident m c = some re) : ∃ v, Router.Present S ident v c ∧
      ByPart.entryOn S v ident c.1 c.2 = some re ∧
      (v = .mach m ∨ ∃ a, C.appOf m = some a ∧ v = .app a) := by
  unfold entryFor at h
  split at h
  · rename_i e he
    cases h
    exact ⟨.mach m, by unfold Router.Present; rw [he]; rfl, he, Or.inl rfl⟩
  · split at h
    · cases h
    · rename_i a ha
      exact ⟨.app a, by unfold Router.Present; rw [h]; rfl, h, Or.inr ⟨a, ha, rfl⟩⟩

theorem present_chip {Q : XY → Prop} (ht : Tidy Q S) {v : VId} {c : XY}
    (h : Router.Present S ident v c) : Q c := by
  unfold Router.Present ByPart.entryOn ByPart.entriesFor at h
  split at h
  · cases h
  · rename_i es he
    exact ht.within (c, es) (Dict.mem_of_get? he)

/-- Packets go at least where the entries say. -/
theorem way_of_comes {tm : TablesMap} (ht : Tidy (· ∈ N.base.T.chips) S)
    (hc : Carries N S (sceneOf N.base.T tm) ident m k) {c : XY} (h : Comes (N.ctx ident) S ident m c) :
    ∃ w, Valid.Way (sceneOf N.base.T tm) k (N.base.locate m).1 w c := by
  induction h with
  | start => exact ⟨[], .start⟩
  | hop h1 h2 h3 h4 h5 ih =>
    rename_i c e l
    obtain ⟨w, hw⟩ := ih
    obtain ⟨v, hv, -⟩ := entryFor_present h2
    obtain ⟨e', k1, k2⟩ := hc c (present_chip ht hv) e h2
    refine ⟨l :: w, .hop hw k1 h3 (by rw [k2]; exact h4) ?_⟩
    have h5' : N.base.T.linkAt c l = true := h5
    simp only [sceneOf, h5', if_true]
    rfl

theorem arrives_of_delivered {tm : TablesMap} (ht : Tidy (· ∈ N.base.T.chips) S)
    (hc : Carries N S (sceneOf N.base.T tm) ident m k) {t : Nat}
    (h : Delivered (N.ctx ident) S ident m t) :
    Arrives N (sceneOf N.base.T tm) k (N.base.locate m).1 t := by
  obtain ⟨h1, h2, h3⟩ := h
  obtain ⟨w, hw⟩ := way_of_comes ht hc h1
  refine ⟨⟨w, hw⟩, fun p hp => ?_, fun l hl => ?_⟩
  · obtain ⟨e, e1, e2⟩ := h2 p hp
    obtain ⟨v, hv, -⟩ := entryFor_present e1
    obtain ⟨e', k1, k2⟩ := hc _ (present_chip ht hv) e e1
    exact ⟨w, e', hw, k1, by rw [k2]; exact e2⟩
  · obtain ⟨e, e1, e2⟩ := h3 l hl
    obtain ⟨v, hv, -⟩ := entryFor_present e1
    obtain ⟨e', k1, k2⟩ := hc _ (present_chip ht hv) e e1
    exact ⟨w, e', hw, k1, by rw [k2]; exact e2⟩

/-- Packets go nowhere else, if there is an entry wherever they come. -/
theorem comes_of_way {tm : TablesMap} (hp : Positive N.base.T) (ht : Tidy (· ∈ N.base.T.chips) S)
    (hc : Carries N S (sceneOf N.base.T tm) ident m k)
    (hmet : ∀ c, Comes (N.ctx ident) S ident m c → (entryFor (N.ctx ident) S ident m c).isSome = true)
    {w : List Nat} {c : XY} (h : Valid.Way (sceneOf N.base.T tm) k (N.base.locate m).1 w c) :
    Comes (N.ctx ident) S ident m c := by
  induction h with
  | start => exact .start
  | hop h1 h2 h3 h4 h5 ih =>
    rename_i w c d e l
    cases he : entryFor (N.ctx ident) S ident m c with
    | none => have := hmet c ih; rw [he] at this; cases this
    | some re =>
      obtain ⟨v, hv, -⟩ := entryFor_present he
      obtain ⟨e', k1, k2⟩ := hc c (present_chip ht hv) re he
      rw [k1] at h2
      cases h2
      simp only [sceneOf] at h5
      split at h5
      · rename_i hl
        cases h5
        exact .hop ih he h3 (by rw [← k2]; exact h4) hl
      · cases h5
  | straight h1 h2 h3 ih =>
    rename_i w c d l
    cases he : entryFor (N.ctx ident) S ident m c with
    | none => have := hmet c ih; rw [he] at this; cases this
    | some re =>
      obtain ⟨v, hv, -⟩ := entryFor_present he
      obtain ⟨e', k1, k2⟩ := hc c (present_chip ht hv) re he
      rw [k1] at h2
      cases h2

end

/-! ### The whole -/

section
variable {N : Net} {K : Keys} {S : ByPart.State} {infos : Infos}

theorem allocateFor_ok {fl : Bool} (h : allocateFor fl N K = .ok infos) :
    ∃ ps, vertexParts N K = .ok ps ∧ Alloc.allocate fl ps = .ok infos := by
  unfold allocateFor at h
  split at h
  · cases h
  · rename_i ps hps
    exact ⟨ps, hps, h⟩

/-- What was allocated for a graph was given by the allocator. -/
theorem allocated_ok (h : Allocated N K infos) : ∃ ps, vertexParts N K = .ok ps ∧ Alloc.Given ps infos := by
  obtain ⟨fl, hcl, h⟩ := h
  obtain ⟨ps, hps, hal⟩ := allocateFor_ok h
  refine ⟨ps, hps, fl, ?_, hal⟩
  obtain ⟨-, hseen, hall⟩ := vertexParts_ok hps
  rcases hcl with hfl | hnone | ⟨a, ident, ms, hu, ho, hf, hmost⟩
  · exact .inl hfl
  · right; left
    intro p hp
    rw [(hseen p hp).1.fixed]
    exact hnone _ _ (hseen p hp).2
  · right; right
    obtain ⟨p, hp, rfl, rfl⟩ := hall a ident hu
    obtain ⟨ms1, k1, k2⟩ := (hseen p hp).1.out
    rw [k1] at ho
    cases ho
    refine ⟨p, hp, by rw [(hseen p hp).1.fixed]; exact hf, ?_⟩
    intro q hq hqf
    obtain ⟨ms2, j1, j2⟩ := (hseen q hq).1.out
    rw [(hseen q hq).1.fixed] at hqf
    obtain ⟨h1, h2⟩ := hmost _ _ _ (hseen q hq).2 j1 hqf
    rw [k2, j2]
    refine ⟨fun e he v hv => ?_, fun e he => ?_⟩
    · obtain ⟨m, hm, rfl⟩ := List.mem_map.1 hv
      exact h1 e (fun m' hm' => he _ (List.mem_map.2 ⟨m', hm', rfl⟩)) m hm
    · rw [List.length_map] at he ⊢
      exact h2 e he

theorem sends_outgoing (hK : KeyContract N K) {a ident m : Nat} (h : Router.NetSends N a ident m) :
    ∃ ms, N.outgoing ident a = some ms ∧ m ∈ ms := by
  rcases h with h | ⟨is, h1, i, h2, rfl, rfl⟩
  · exact h
  · exact hK.internal a is h1 i h2

/-- The partition of a vertex with an entry. -/
theorem present_part (hN : NetContract N) (hK : KeyContract N K) {fuel : Nat}
    (h : Router.routeGraph N fuel = .ok S) {ps : List Part} (hps : vertexParts N K = .ok ps)
    {ident : Nat} {v : VId} {c : XY} (hp : Router.Present S ident v c) :
    ∃ q ∈ ps, q.outgoing ≠ [] ∧ FromPart q (v, ident) := by
  obtain ⟨a, h1, ⟨m, h2⟩, h3⟩ := Router.routeGraph_senders hN h hp
  obtain ⟨q, hq, rfl, rfl⟩ := (vertexParts_ok hps).2.2 a ident (Or.inl h1)
  obtain ⟨ms, k1, k2⟩ := ((vertexParts_ok hps).2.1 q hq).1.out
  have hmem : ∀ m, Router.NetSends N q.pre q.ident m → ∃ v ∈ q.outgoing, v.id = m := by
    intro m hm
    obtain ⟨ms', j1, j2⟩ := sends_outgoing hK hm
    rw [k1] at j1
    cases j1
    exact ⟨K.vertex q.ident m, by rw [k2]; exact List.mem_map.mpr ⟨m, j2, rfl⟩, rfl⟩
  refine ⟨q, hq, ?_, ?_⟩
  · obtain ⟨v, hv, _⟩ := hmem m h2
    intro h0
    rw [h0] at hv
    cases hv
  · rcases h3 with rfl | ⟨m', rfl, hm'⟩
    · exact Or.inl rfl
    · obtain ⟨v, hv, hvm⟩ := hmem m' hm'
      exact Or.inr ⟨v, hv, by rw [hvm]⟩

/-- What is on each chip is ready for the generators. -/
theorem chips_ready (hN : NetContract N) (hn : NoReturns N.base) (hK : KeyContract N K) {fuel : Nat}
    (h : Router.routeGraph N fuel = .ok S) (ha : Allocated N K infos) :
    ∀ x ∈ S, Gen.Ready (ofInfos infos N.base.appOf) (x.2.map (·.1)) := by
  obtain ⟨ps, hps, hal⟩ := allocated_ok ha
  have ht := Router.routeGraph_tidy hN hn h
  have hu := Router.C79_unmixed hN h
  intro x hx
  have hget : S.get? x.1 = some x.2 := Dict.get?_of_mem ht.chips hx
  have hon : ∀ v p, (v, p) ∈ x.2.map (·.1) → (ByPart.entryOn S v p x.1.1 x.1.2).isSome = true := by
    intro v p hv
    obtain ⟨it, hit, he⟩ := List.mem_map.mp hv
    have : Dict.get? x.2 (v, p) = some it.2 := by
      rw [← he]
      exact Dict.get?_of_mem (ht.sources x hx) hit
    unfold ByPart.entryOn ByPart.entriesFor
    rw [show ((x.1.1, x.1.2) : Int × Int) = x.1 from rfl, hget]
    simp only [this]
    rfl
  refine parts_ready hN hK hps hal (ht.sources x hx) ?_ ?_
  · intro s hs
    exact present_part hN hK h hps (v := s.1) (ident := s.2) (c := x.1) (hon s.1 s.2 hs)
  · intro q hq h1 v hv h2
    exact hu q.pre v.id q.ident x.1.1 x.1.2 (parts_app hN hps q hq v hv) ⟨hon _ _ h1, hon _ _ h2⟩

/-- A machine vertex that has a key is one that sends. -/
theorem hasKey_owns (hN : NetContract N) (hK : KeyContract N K) {ps : List Part}
    (hps : vertexParts N K = .ok ps) (hG : Alloc.Given ps infos) {a ident m : Nat} {k : Word}
    (hl : Leaves N a ident) (hs : Router.NetSends N a ident m) (hk : HasKey infos m ident k) :
    ∃ q ∈ ps, q.pre = a ∧ q.ident = ident ∧ q.outgoing ≠ [] ∧ FromPart q (.mach m, ident) ∧
      (ofInfos infos N.base.appOf).Owns (.mach m, ident) k := by
  obtain ⟨q, hq, rfl, rfl⟩ := (vertexParts_ok hps).2.2 a ident (Or.inl hl)
  obtain ⟨ms, k1, k2⟩ := ((vertexParts_ok hps).2.1 q hq).1.out
  obtain ⟨ms', j1, j2⟩ := sends_outgoing hK hs
  rw [k1] at j1
  cases j1
  have hv : K.vertex q.ident m ∈ q.outgoing := by rw [k2]; exact List.mem_map.mpr ⟨m, j2, rfl⟩
  have hne : q.outgoing ≠ [] := fun h0 => by rw [h0] at hv; cases hv
  have hfp : FromPart q (.mach m, q.ident) := Or.inr ⟨_, hv, rfl⟩
  refine ⟨q, hq, rfl, rfl, hne, hfp, ?_⟩
  have hwf := parts_wf hN hK hps
  have hi := parts_idle hK hps
  have hc := parts_counted hK hps
  obtain ⟨fl, -, ha⟩ := id hG
  obtain ⟨d, z', used, ab, L, sh⟩ := Alloc.allocate_ok hwf hi hc ha
  obtain ⟨kk, mm, hg⟩ := Gen.good_of hwf hi hc ha hq hne hfp
  rw [hg.owns sh.nodup]
  obtain ⟨⟨j, hj, hof, hkm⟩, -⟩ := hg
  obtain ⟨key, mask, index, hmem, hcov⟩ := hk
  have := Alloc.info_unique sh.nodup hj hmem (by rw [hof]; rfl)
  rw [this] at hkm
  cases hkm
  exact hcov

/-- What is known of the tables made for a graph. -/
structure Made (g : Generator) (w : Gen.World) (T : Topo) (S : ByPart.State) (tm : TablesMap) :
    Prop where
  once : Driver.OnePerChip tm
  good : ∀ t ∈ tablesOf tm, AllValid t.entries ∧ Orthogonal t.entries
  table : ∀ c items, S.get? c = some items → ∃ t, tm.get? (place c) = some (.u t) ∧ TableOf g w items t
  xy : ∀ p ∈ tm, p.2.xy = p.1

theorem generate_ok (g : Generator) (same : Entry → Entry → Bool) (hN : NetContract N)
    (hn : NoReturns N.base) (hK : KeyContract N K) (hp : Positive N.base.T) {fuel : Nat}
    (h : Router.routeGraph N fuel = .ok S) (ha : Allocated N K infos) :
    ∃ tm, generate g same (ofInfos infos N.base.appOf) S = .ok tm ∧
      Made g (ofInfos infos N.base.appOf) N.base.T S tm ∧ Dict.keys tm = S.map (fun x => place x.1) := by
  have ht := Router.routeGraph_tidy hN hn h
  have hnd : (S.map (fun x => place x.1)).Nodup := by
    have h1 : (S.map (·.1)).Nodup := ht.chips
    rw [List.Nodup, List.pairwise_map] at h1 ⊢
    refine List.Pairwise.imp_of_mem ?_ h1
    intro x y hx hy hne he
    exact hne (place_inj hp (ht.within x hx) (ht.within y hy) he)
  obtain ⟨tm, h1, h2, h3, h4, h5⟩ := generateLoop_ok g same S []
    (chips_ready hN hn hK h ha) (by simpa [Dict.keys] using hnd)
  have hxy : ∀ p ∈ tm, p.2.xy = p.1 := by
    intro p hp
    rcases h5 p hp with h | ⟨x, hx, t, rfl, ht, _⟩
    · cases h
    · exact ht
  refine ⟨tm, h1, ⟨?_, ?_, ?_, hxy⟩, by simpa [Dict.keys] using h2⟩
  · unfold Driver.OnePerChip tablesOf
    rw [List.map_map]
    have : tm.map (Table.xy ∘ (·.2)) = Dict.keys tm := by
      unfold Dict.keys
      exact List.map_congr_left (fun p hp => hxy p hp)
    rw [this, h2]
    simpa [Dict.keys] using hnd
  · intro t ht'
    obtain ⟨p, hp, rfl⟩ := List.mem_map.mp ht'
    rcases h5 p hp with h | ⟨x, hx, t, rfl, _, h6⟩
    · cases h
    · exact ⟨h6.valid, h6.orth⟩
  · intro c items hg
    exact h4 (c, items) (Dict.mem_of_get? hg)

/-- A packet of `m` is matched wherever there is an entry for it, with the flag if the basic generator
made the table; the entry is for all keys of `m`. -/
theorem made_entry {g : Generator} (hN : NetContract N)
    (hK : KeyContract N K) (hp : Positive N.base.T) (ht : Tidy (· ∈ N.base.T.chips) S)
    (ha : Allocated N K infos) {tm : TablesMap}
    (hm : Made g (ofInfos infos N.base.appOf) N.base.T S tm) {a ident m : Nat} {k : Word}
    (hl : Leaves N a ident) (hs : Router.NetSends N a ident m) (hk : HasKey infos m ident k)
    {c : XY} {re : ByPart.REntry} (he : entryFor (N.ctx ident) S ident m c = some re) :
    ∃ t, tm.get? (place c) = some t ∧ ∃ e ∈ t.entries, e.Matches k ∧ e.route = re.route ∧
      (g = .basic → e.defaultable = re.defaultable) ∧ ∀ k', HasKey infos m ident k' → e.Matches k' := by
  obtain ⟨ps, hps, hal⟩ := allocated_ok ha
  obtain ⟨q, hq, rfl, rfl, hne, hfp, -⟩ := hasKey_owns hN hK hps hal hl hs hk
  obtain ⟨v, hv, hon, hvm⟩ := entryFor_present he
  have hov : ∀ k, HasKey infos m q.ident k → (ofInfos infos N.base.appOf).Owns (v, q.ident) k := by
    intro k hk
    obtain ⟨q', hq', k1, k2, -, -, ho⟩ := hasKey_owns hN hK hps hal hl hs hk
    rcases hvm with rfl | ⟨a, ha', rfl⟩
    · exact ho
    · have hma : N.base.appOf m = some q.pre := by
        rcases hfp with h0 | ⟨u, hu, h0⟩
        · cases h0
        · cases h0
          exact parts_app hN hps q hq u hu
      have ha'' : N.base.appOf m = some a := ha'
      rw [hma] at ha''
      cases ha''
      exact owned_app hN hK hps hal hq hfp hne ho
  unfold ByPart.entryOn ByPart.entriesFor at hon
  cases hS : S.get? (c.1, c.2) with
  | none => rw [hS] at hon; cases hon
  | some items =>
    rw [hS] at hon
    obtain ⟨t, h1, h2⟩ := hm.table c items hS
    obtain ⟨e, e1, e2, e3, e4, e5⟩ := h2.served ((v, q.ident), re) (Dict.mem_of_get? hon) k (hov k hk)
    exact ⟨.u t, h1, e, e1, e2, e3, e4, fun k' hk' => e5 k' (hov k' hk')⟩

theorem made_carries {g : Generator} (hN : NetContract N)
    (hK : KeyContract N K) (hp : Positive N.base.T) (ht : Tidy (· ∈ N.base.T.chips) S)
    (ha : Allocated N K infos) {tm : TablesMap}
    (hm : Made g (ofInfos infos N.base.appOf) N.base.T S tm) {a ident m : Nat} {k : Word}
    (hl : Leaves N a ident) (hs : Router.NetSends N a ident m) (hk : HasKey infos m ident k) :
    Carries N S (sceneOf N.base.T tm) ident m k := by
  intro c hc re he
  obtain ⟨t, h1, e, h2, h3, h4, _⟩ := made_entry hN hK hp ht ha hm hl hs hk he
  refine ⟨e, ?_, h4⟩
  rw [scene_entries hp tm hc, h1]
  exact Gen.lookup_orth (hm.good t (List.mem_map.mpr ⟨_, Dict.mem_of_get? h1, rfl⟩)).2 h2 h3

end

end Pacman.Pipe
