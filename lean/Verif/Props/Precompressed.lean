import Verif.Spec.Compressed
import Verif.Props.Trips
/-
C133: tables that are compressed twice, by the range compressor and then by another one, still deliver the packets of
the graph (false; partial).
-/

namespace Pacman.Pipe

open Alloc (VId Infos Part)
open Router (Net NetContract NoReturns NetAllSend NetOutside NetWants NetSends KeepsFlag)
open RPath (XY Topo)
open Tables (TablesMap tablesOf)
open Gen (ofInfos)

section
variable {N : Net} {K : Keys} {fuel : Nat} {S : ByPart.State} {infos : Infos} {g : Generator}
  {same : Entry → Entry → Bool} {tm tm1 tm' : TablesMap} {a ident m : Nat} {k : Word} {env before : Driver.Env}
  {over ordered overflow verify cSort : Bool}

/-- What the range compressor returns it also returns if overflow is accepted. -/
theorem range_accepts {overflow : Bool} (ts : List Tables.Table) : ∀ (m m' : TablesMap),
    Driver.rangeLoop env overflow ts m = .ok m' → Driver.rangeLoop env true ts m = .ok m' ∧
      ∀ t ∈ ts, ∃ n, env.target t.xy = some n := by
  induction ts with
  | nil => intro m m' h; exact ⟨h, by intro t ht; cases ht⟩
  | cons t ts ih =>
    intro m m' h
    simp only [Driver.rangeLoop, bind, Except.bind] at h ⊢
    cases h1 : Driver.rangeTable env t with
    | error e => rw [h1] at h; cases h
    | ok nt =>
      rw [h1] at h
      cases h2 : env.targetE t.xy with
      | error e => rw [h2] at h; cases h
      | ok n =>
        rw [h2] at h
        simp only at h ⊢
        split at h
        · cases h
        · cases h3 : Tables.addTable m nt with
          | error e => rw [h3] at h; cases h
          | ok m1 =>
            rw [h3] at h
            obtain ⟨i1, i2⟩ := ih _ _ h
            refine ⟨by simpa using i1, ?_⟩
            intro t' ht'
            rcases List.mem_cons.mp ht' with rfl | ht'
            · unfold Driver.Env.targetE at h2
              split at h2
              · rename_i hn; exact ⟨_, hn⟩
              · cases h2
            · exact i2 t' ht'

/-- C133: tables that are compressed twice, first by the range compressor, still deliver the packets of the graph, if
all masks are ones followed by zeros and the generator is the basic one. -/
def C133_full : Prop := ∀ (N : Net) (K : Keys) (fuel : Nat) (S : ByPart.State) (infos : Infos)
  (same : Entry → Entry → Bool) (tm tm1 tm' : TablesMap) (before env : Driver.Env) (over : Bool), NetContract N →
  NoReturns N.base → NetAllSend N → NetOutside N → KeepsFlag N.base → KeyContract N K →
  Positive N.base.T → FixedBlocks K → Router.routeGraph N fuel = .ok S → Allocated N K infos →
  generate .basic same (ofInfos infos N.base.appOf) S = .ok tm → Driver.rangeCompressor before over tm = .ok tm1 →
  (Driver.ocCompressor env tm1 = .ok tm' ∨
    ∃ ordered overflow verify cSort, Driver.pairCompressor env ordered overflow verify cSort tm1 = .ok tm') →
  ∀ a ident m t k, NetWants N a ident m t → HasKey infos m ident k →
  ∃ w, Gets N (sceneOf N.base.T tm') k m t w

/-- C133, the pair compressor after the range compressor: in any mode, and with either generator, the packets of a graph
do the same as with the tables made for it.
Missing: entries for single even keys (`C133_false`), other masks (C07); and as in `C84_one_way_partial`. -/
theorem C133_pair_partial (hN : NetContract N) (hn : NoReturns N.base) (hs : NetAllSend N)
    (ho : NetOutside N) (hK : KeyContract N K) (hp : Positive N.base.T)
    (h : Router.routeGraph N fuel = .ok S) (ha : Allocated N K infos)
    (hg : generate g same (ofInfos infos N.base.appOf) S = .ok tm)
    (hmask : ∀ t ∈ tablesOf tm, t.entries ≠ [] ∧ ∀ e ∈ t.entries, Range.Contiguous e.mask)
    (hodd : ∀ t ∈ tablesOf tm, Range.OddSingles t.entries)
    (hr : Driver.rangeCompressor before over tm = .ok tm1)
    (hc : Driver.pairCompressor env ordered overflow verify cSort tm1 = .ok tm')
    (hl : Router.Leaves N a ident) (hm : NetSends N a ident m) (hk : HasKey infos m ident k) :
    SameTrips N (sceneOf N.base.T tm) (sceneOf N.base.T tm') k m := by
  obtain ⟨ht, hmade, hkept, hstr, hmet⟩ := trips_known hN hn hs ho hK hp h ha hg hl hm hk
  obtain ⟨hr1, hchip⟩ := range_accepts (tablesOf tm) [] tm1 hr
  obtain ⟨r1, r2, r4, r3⟩ := Driver.C13_range_apart before tm tm1 hmade.once hchip
    (fun t ht => ⟨(hmade.good t ht).1, hmask t ht⟩) (fun t ht => (hmade.good t ht).2) hr1
  obtain ⟨_, h2⟩ := Driver.C13_pair_all_chips env ordered overflow verify cSort tm1 tm' r1
    (fun t ht => ⟨(r2 t ht).1, orth_disjoint (r4 hodd t ht)⟩) hc
  have hfind : ∀ p t, tm.get? p = some t → ∃ t', tm'.get? p = some t' ∧ RoutesSame t.entries t'.entries := by
    intro p t h3
    obtain ⟨h5, rfl⟩ := made_mem hmade h3
    obtain ⟨nt, j1, j2, -, j4, -⟩ := r3 t h5
    obtain ⟨nt', k1, k2, -⟩ := h2 nt j1
    refine ⟨nt', by rw [← j2]; exact k1, fun x hx => ?_⟩
    have e1 := j4 x hx
    rw [← e1]
    exact k2 x (by rw [e1]; exact hx)
  refine same_trips ht hstr hkept
    (made_stands hN hK hp ht ha hmade (fun p t h3 => ?_) (Or.inr fun p t t' h3 h4 => ?_) hl hm hk) hmet
  · obtain ⟨t', h4, h5⟩ := hfind p t h3
    exact ⟨t', h4, stands_of_same (hmade.good t (made_mem hmade h3).1).2 h5⟩
  · obtain ⟨t'', h5, h6⟩ := hfind p t h3
    rw [h4] at h5
    cases h5
    exact h6

/-- C133, ordered covering after the range compressor, with the tables of the basic generator.
Missing: other masks (C07); the merged generator (`C86_false`); and as in `C85_basic_partial`. -/
theorem C133_covering_partial (hN : NetContract N) (hn : NoReturns N.base) (hs : NetAllSend N)
    (ho : NetOutside N) (hf : KeepsFlag N.base) (hK : KeyContract N K) (hp : Positive N.base.T)
    (h : Router.routeGraph N fuel = .ok S) (ha : Allocated N K infos)
    (hg : generate .basic same (ofInfos infos N.base.appOf) S = .ok tm)
    (hmask : ∀ t ∈ tablesOf tm, t.entries ≠ [] ∧ ∀ e ∈ t.entries, Range.Contiguous e.mask)
    (hr : Driver.rangeCompressor before over tm = .ok tm1) (hc : Driver.ocCompressor env tm1 = .ok tm')
    (hl : Router.Leaves N a ident) (hm : NetSends N a ident m) (hk : HasKey infos m ident k) :
    SameTrips N (sceneOf N.base.T tm) (sceneOf N.base.T tm') k m := by
  obtain ⟨_, hmade, _, _, _⟩ := trips_known hN hn hs ho hK hp h ha hg hl hm hk
  obtain ⟨hr1, hchip⟩ := range_accepts (tablesOf tm) [] tm1 hr
  obtain ⟨r1, r2, -, r3⟩ := Driver.C13_range_apart before tm tm1 hmade.once hchip
    (fun t ht => ⟨(hmade.good t ht).1, hmask t ht⟩) (fun t ht => (hmade.good t ht).2) hr1
  obtain ⟨_, h2⟩ := Driver.C13_ordered_covering_narrow env tm1 tm' r1 r2 hc
  refine C85_basic_partial hN hn hs ho hf hK hp h ha hg (fun p t h3 => ?_) hl hm hk
  obtain ⟨h5, rfl⟩ := made_mem hmade h3
  obtain ⟨nt, j1, j2, -, j4, -, j6⟩ := r3 t h5
  obtain ⟨nt', n, k1, -, -, k2⟩ := h2 nt j1
  refine ⟨nt', by rw [← j2]; exact k1, fun x o hot hox => ?_⟩
  have horth := (hmade.good t h5).2
  have hlk : lookup t.entries x = some o := Gen.lookup_orth horth hot hox
  have hro : routeOf t.entries x = some o.route := by unfold routeOf; rw [hlk]; rfl
  have hrn : routeOf nt.entries x = some o.route := by
    rw [j4 x (by rw [hro]; simp), hro]
  unfold routeOf at hrn
  cases hln : lookup nt.entries x with
  | none => rw [hln] at hrn; cases hrn
  | some e =>
    rw [hln] at hrn
    simp only [Option.map_some, Option.some.injEq] at hrn
    have hen : e ∈ nt.entries := by unfold lookup at hln; exact List.mem_of_find?_eq_some hln
    have hex : e.Matches x := by unfold lookup at hln; simpa using List.find?_some hln
    rcases k2 x e hln with q | ⟨q1, q2⟩
    · exact Or.inl (by rw [q, hrn])
    · refine Or.inr ⟨q1, ?_⟩
      have hlk' : lookup t.entries x = some e := Gen.lookup_orth horth (j6 e hen q2) hex
      rw [hlk] at hlk'
      cases hlk'
      exact q2

/-! ### Graphs without entries for single keys -/

/-- A mask other than all ones leaves room for two keys. -/
theorem two_keys {k m : Nat} (hk : k < 2 ^ 32) (hm : m < 2 ^ 32) (hv : k &&& m = k) (hne : m ≠ 0xFFFFFFFF) :
    ∃ x y : Word, x ≠ y ∧ Alloc.Covers k m x ∧ Alloc.Covers k m y := by
  have hbit : ∃ i, i < 32 ∧ m.testBit i = false := by
    refine Classical.byContradiction fun hno => hne ?_
    refine Nat.eq_of_testBit_eq fun i => ?_
    by_cases hi : i < 32
    · have h1 : m.testBit i = true := by
        cases hb : m.testBit i with
        | true => rfl
        | false => exact absurd ⟨i, hi, hb⟩ hno
      rw [h1, show (0xFFFFFFFF : Nat) = 2 ^ 32 - 1 from rfl, Nat.testBit_two_pow_sub_one]
      simp [hi]
    · rw [Nat.testBit_lt_two_pow (Nat.lt_of_lt_of_le hm (Nat.pow_le_pow_right (by omega) (Nat.le_of_not_lt hi))),
        Nat.testBit_lt_two_pow (Nat.lt_of_lt_of_le (show 0xFFFFFFFF < 2 ^ 32 by decide)
          (Nat.pow_le_pow_right (by omega) (Nat.le_of_not_lt hi)))]
  obtain ⟨i, hi, hb⟩ := hbit
  have hlt : k ^^^ 2 ^ i < 2 ^ 32 := Nat.xor_lt_two_pow hk (Nat.pow_lt_pow_right (by omega) hi)
  refine ⟨BitVec.ofNat 32 k, BitVec.ofNat 32 (k ^^^ 2 ^ i), ?_, ?_, ?_⟩
  · intro he
    have := congrArg BitVec.toNat he
    rw [BitVec.toNat_ofNat, BitVec.toNat_ofNat, Nat.mod_eq_of_lt hk, Nat.mod_eq_of_lt hlt] at this
    have h1 := congrArg (Nat.testBit · i) this
    simp only [Nat.testBit_xor, Nat.testBit_two_pow_self] at h1
    cases hb' : k.testBit i <;> simp [hb'] at h1
  · unfold Alloc.Covers
    rw [BitVec.toNat_ofNat, Nat.mod_eq_of_lt hk]
    exact hv
  · unfold Alloc.Covers
    rw [BitVec.toNat_ofNat, Nat.mod_eq_of_lt hlt, Nat.and_xor_distrib_right, hv]
    have h0 : 2 ^ i &&& m = 0 := by
      refine Nat.eq_of_testBit_eq fun j => ?_
      rw [Nat.testBit_and, Nat.testBit_two_pow, Nat.zero_testBit]
      by_cases hij : i = j
      · subst hij; simp [hb]
      · simp [hij]
    rw [h0, Nat.xor_zero]

theorem maskOf_wide {b : Nat} (hb : 1 ≤ b) : Alloc.maskOf b ≠ 0xFFFFFFFF := by
  unfold Alloc.maskOf
  have := Nat.pow_le_pow_right (n := 2) (by omega) hb
  omega

theorem pos_of_two_le {n a : Nat} (h : 2 ≤ n) (h1 : n ≤ 2 ^ a) : 1 ≤ a := by
  rcases Nat.eq_zero_or_pos a with rfl | h0
  · simp at h1; omega
  · exact h0

/-- The sources of a graph like that have two keys. -/
theorem spread_two (hN : NetContract N) (hK : KeyContract N K) (hw : Spread N K) {ps : List Part}
    (hps : vertexParts N K = .ok ps) (hG : Alloc.Given ps infos) {q : Part} (hq : q ∈ ps) (hne : q.outgoing ≠ [])
    {src : VId × Nat} (hs : Gen.FromPart q src) :
    ∃ x y, x ≠ y ∧ (ofInfos infos N.base.appOf).Owns src x ∧ (ofInfos infos N.base.appOf).Owns src y := by
  have hwf := parts_wf hN hK hps
  have hi := parts_idle hK hps
  have hc := parts_counted hK hps
  obtain ⟨fl, -, ha⟩ := hG
  obtain ⟨d, z', used, ab, L, sh⟩ := Alloc.allocate_ok hwf hi hc ha
  obtain ⟨kk, mm, hg⟩ := Gen.good_of hwf hi hc ha hq hne hs
  obtain ⟨hseen, -⟩ := (vertexParts_ok hps).2.1 q hq
  obtain ⟨ms, s1, s2⟩ := hseen.out
  have hasks : q.fixed = none → ∀ v ∈ q.outgoing, 2 ≤ v.nKeys := by
    intro hf v hv
    rw [s2] at hv
    obtain ⟨x, hx, rfl⟩ := List.mem_map.mp hv
    exact hw.asks q.pre q.ident ms x s1 hx (by rw [← hseen.fixed]; exact hf)
  have hmm : mm ≠ 0xFFFFFFFF := by
    obtain ⟨⟨j, hj, hof, hkm⟩, -⟩ := hg
    cases hf : q.fixed with
    | none =>
      rcases hs with rfl | ⟨v, hv, rfl⟩
      · obtain ⟨v, hv⟩ := List.exists_mem_of_ne_nil _ hne
        obtain ⟨_, _, a, m, _, _, _, ham, hnk, -, -⟩ := sh.free_mach hc hq hf hv
        obtain ⟨ap, mm', nb, mi, -, hmem⟩ := sh.free_app hq hf hne
        have := Alloc.info_unique sh.nodup hj hmem (by rw [hof]; rfl)
        rw [this] at hkm
        cases hkm
        exact maskOf_wide (by have := pos_of_two_le (hasks hf v hv) hnk; omega)
      · obtain ⟨ap, i, a, m, _, _, _, ham, hnk, -, hmem⟩ := sh.free_mach hc hq hf hv
        have := Alloc.info_unique sh.nodup hj hmem (by rw [hof]; rfl)
        rw [this] at hkm
        cases hkm
        exact maskOf_wide (pos_of_two_le (hasks hf v hv) hnk)
    | some akm =>
      have hword : ∀ w : Word, w ≠ 0xFFFFFFFF#32 → w.toNat ≠ 0xFFFFFFFF := by
        intro w hw' he
        exact hw' (BitVec.eq_of_toNat_eq (by rw [he]; rfl))
      have hakm : akm.2 ≠ 0xFFFFFFFF#32 := hw.app q.pre q.ident akm (by rw [← hseen.fixed]; exact hf)
      rcases hs with rfl | ⟨v, hv, rfl⟩
      · obtain ⟨mm', nb, mi, hmem⟩ := sh.fixed_app hq hf hne
        have := Alloc.info_unique sh.nodup hj hmem (by rw [hof]; rfl)
        rw [this] at hkm
        cases hkm
        exact hword _ hakm
      · obtain ⟨i, hmem⟩ := sh.fixed_mach hq hf hv
        have := Alloc.info_unique sh.nodup hj hmem (by rw [hof]; rfl)
        rw [this] at hkm
        cases hkm
        refine hword _ ?_
        cases hvf : v.fixed with
        | none => exact hakm
        | some km =>
          rw [s2] at hv
          obtain ⟨x, hx, rfl⟩ := List.mem_map.mp hv
          exact hw.mach x q.ident km hvf
  obtain ⟨x, y, h1, h2, h3⟩ := two_keys hg.key hg.mask hg.valid hmm
  exact ⟨x, y, h1, (hg.owns sh.nodup _ x).2 h2, (hg.owns sh.nodup _ y).2 h3⟩

/-- C133: if whatever sends packets asks for at least two keys, none of the tables made for the graph, by either
generator, has an entry for a single key. -/
theorem C133_spread (hN : NetContract N) (hn : NoReturns N.base) (hK : KeyContract N K) (hw : Spread N K)
    (hp : Positive N.base.T) (h : Router.routeGraph N fuel = .ok S) (ha : Allocated N K infos)
    (hg : generate g same (ofInfos infos N.base.appOf) S = .ok tm) :
    ∀ t ∈ tablesOf tm, ∀ e ∈ t.entries, e.mask ≠ 0xFFFFFFFF#32 := by
  obtain ⟨ps, hps, hal⟩ := allocated_ok ha
  obtain ⟨tm0, j1, hmade, hkeys⟩ := generate_ok g same hN hn hK hp h ha
  rw [hg] at j1
  cases j1
  have ht := Router.routeGraph_tidy hN hn h
  intro t htm e he hm
  obtain ⟨p, hpm, rfl⟩ := List.mem_map.mp htm
  have hk : p.1 ∈ S.map (fun x => place x.1) := by rw [← hkeys]; exact List.mem_map_of_mem hpm
  obtain ⟨x, hx, hpx⟩ := List.mem_map.mp hk
  have hget := Dict.get?_of_mem ht.chips hx
  obtain ⟨t', h1, h2⟩ := hmade.table x.1 x.2 hget
  have hnd : (Dict.keys tm).Nodup := by
    have := hmade.once
    unfold Driver.OnePerChip tablesOf at this
    rw [List.map_map] at this
    have he : tm.map (Tables.Table.xy ∘ (·.2)) = Dict.keys tm := by
      unfold Dict.keys
      exact List.map_congr_left (fun p hp => hmade.xy p hp)
    rw [he] at this
    exact this
  have h3 := Dict.get?_of_mem hnd hpm
  rw [← hpx, h1] at h3
  injection h3 with h3
  rw [← h3] at he
  obtain ⟨it, hit, hone⟩ := h2.single e he hm
  have hpres : Router.Present S it.1.2 it.1.1 x.1 := by
    have : Dict.get? x.2 (it.1.1, it.1.2) = some it.2 := Dict.get?_of_mem (ht.sources x hx) hit
    unfold Router.Present ByPart.entryOn ByPart.entriesFor
    rw [show ((x.1.1, x.1.2) : Int × Int) = x.1 from rfl, hget]
    simp only [this]
    rfl
  obtain ⟨q, hq, hne, hfp⟩ := present_part hN hK h hps hpres
  obtain ⟨y, z, hyz, o1, o2⟩ := spread_two hN hK hw hps hal hq hne hfp
  exact hyz (hone y z o1 o2)

theorem C133_odd (hN : NetContract N) (hn : NoReturns N.base) (hK : KeyContract N K) (hw : Spread N K)
    (hp : Positive N.base.T) (h : Router.routeGraph N fuel = .ok S) (ha : Allocated N K infos)
    (hg : generate g same (ofInfos infos N.base.appOf) S = .ok tm) :
    ∀ t ∈ tablesOf tm, Range.OddSingles t.entries :=
  fun t ht e he hm => absurd hm (C133_spread hN hn hK hw hp h ha hg t ht e he)

end

/-! ### The theorems at work -/

theorem row_spread : Spread rowN lineK :=
  ⟨(fun _ _ _ _ _ _ _ => show 2 ≤ 10 by omega), (by intro _ _ _ h; cases h), (by intro _ _ _ h; cases h)⟩

/-- Machine vertices that ask for ten keys each. -/
example : ∀ t ∈ tablesOf rowBasic, ∀ e ∈ t.entries, e.mask ≠ 0xFFFFFFFF#32 :=
  C133_spread row_net row_noReturns row_keys row_spread row_positive row_routed row_allocated row_basic

theorem row_masks : ∀ t ∈ tablesOf rowBasic, t.entries ≠ [] ∧ ∀ e ∈ t.entries, Range.Contiguous e.mask := by
  have : ∀ t ∈ tablesOf rowBasic, t.entries ≠ [] ∧ ∀ e ∈ t.entries, e.mask = BitVec.ofNat 32 (2 ^ 32 - 2 ^ 4) ∨
      e.mask = BitVec.ofNat 32 (2 ^ 32 - 2 ^ 6) := by decide +kernel
  refine fun t ht => ⟨(this t ht).1, fun e he => ?_⟩
  rcases (this t ht).2 e he with h | h
  · exact ⟨4, by omega, h⟩
  · exact ⟨6, by omega, h⟩

def rowRange : TablesMap :=
  match Driver.rangeCompressor rowEnv false rowBasic with
  | .ok tm => tm
  | .error _ => []

theorem row_range : Driver.rangeCompressor rowEnv false rowBasic = .ok rowRange := by decide +kernel

def rowTwice : TablesMap :=
  match Driver.pairCompressor rowEnv true false true true rowRange with
  | .ok tm => tm
  | .error _ => []

def rowTwiceOC : TablesMap :=
  match Driver.ocCompressor rowEnv rowRange with
  | .ok tm => tm
  | .error _ => []

theorem row_twice : Driver.pairCompressor rowEnv true false true true rowRange = .ok rowTwice := by decide +kernel

theorem row_twiceOC : Driver.ocCompressor rowEnv rowRange = .ok rowTwiceOC := by decide +kernel

/-- A packet of machine vertex 1 travels as before. -/
example : SameTrips rowN (sceneOf rowN.base.T rowBasic) (sceneOf rowN.base.T rowTwice) 21 1 :=
  C133_pair_partial row_net row_noReturns row_allSend row_outside row_keys row_positive row_routed row_allocated row_basic
    row_masks (C133_odd row_net row_noReturns row_keys row_spread row_positive row_routed row_allocated row_basic)
    row_range row_twice row_leaves row_sends row_key

example : SameTrips rowN (sceneOf rowN.base.T rowBasic) (sceneOf rowN.base.T rowTwiceOC) 21 1 :=
  C133_covering_partial row_net row_noReturns row_allSend row_outside row_flag row_keys row_positive row_routed
    row_allocated row_basic row_masks row_range row_twiceOC row_leaves row_sends row_key

/-- The second compressor leaves out the entries on the fourth chip, the first one put those on the third together. -/
example : (rowBasic.get? (2, 0)).map (·.entries.length) = some 3 ∧ (rowRange.get? (2, 0)).map (·.entries.length) = some 1 ∧
    (rowRange.get? (3, 0)).map (·.entries.length) = some 1 ∧ (rowTwiceOC.get? (3, 0)).map (·.entries.length) = some 0 := by
  decide +kernel

/-! ### Where packets are lost -/

/-- Two chips. Application vertex 0 has a machine vertex on the first and three on the second, application vertex 1 has
one on each. An edge leads from 0 to 1, and each machine vertex asks for one key. -/
def oneN : Net := miniN false (miniT [(0, 0), (1, 0)] [((0, 0), 0), ((1, 0), 3)]) (0, 0)
  [⟨0, (0, 0), 1, true⟩, ⟨0, (1, 0), 1, true⟩, ⟨0, (1, 0), 2, true⟩, ⟨0, (1, 0), 3, true⟩, ⟨1, (0, 0), 4, true⟩,
    ⟨1, (1, 0), 4, true⟩] [⟨0, 0, [1]⟩] [0, 1]

def oneK : Keys := ⟨fun _ _ => none, fun _ _ => 1, fun _ _ => none, fun m => m, fun m => m, []⟩

def oneS : ByPart.State :=
  [((0, 0), [((.mach 0, 0), ⟨1025, false⟩), ((.mach 1, 0), ⟨1024, false⟩), ((.mach 2, 0), ⟨1024, false⟩),
    ((.mach 3, 0), ⟨1024, false⟩)]),
   ((1, 0), [((.mach 0, 0), ⟨1024, false⟩), ((.mach 1, 0), ⟨1032, false⟩), ((.mach 2, 0), ⟨1032, false⟩),
    ((.mach 3, 0), ⟨1032, false⟩)])]

def oneInfos : Infos :=
  [.mach 0 0 0 4294967295 0, .mach 0 1 1 4294967295 1, .mach 0 2 2 4294967295 2, .mach 0 3 3 4294967295 3,
   .app 0 0 0 4294967292 4294967295 0 3]

def oneBasic : TablesMap :=
  match generate .basic (fun _ _ => true) (ofInfos oneInfos oneN.base.appOf) oneS with
  | .ok tm => tm
  | .error _ => []

/-- The second entry takes in the key of the first, which comes before it. -/
def oneRange : TablesMap :=
  [((0, 0), .c ⟨0, 0, [⟨0, 0xffffffff, 1025, false⟩, ⟨0, 0xfffffffc, 1024, false⟩], 0⟩),
   ((1, 0), .c ⟨1, 0, [⟨0, 0xffffffff, 1024, false⟩, ⟨0, 0xfffffffc, 1032, false⟩], 0⟩)]

/-- Now it comes first. -/
def oneTwice : TablesMap :=
  [((0, 0), .c ⟨0, 0, [⟨0, 0xfffffffc, 1024, false⟩, ⟨0, 0xffffffff, 1025, false⟩], 0⟩),
   ((1, 0), .c ⟨1, 0, [⟨0, 0xfffffffc, 1032, false⟩, ⟨0, 0xffffffff, 1024, false⟩], 0⟩)]

theorem one_keys : KeyContract oneN oneK := by
  refine ⟨?_, (by intro _ _ _ h; cases h), (by intro _ _ _ h; cases h), (fun _ _ _ _ => rfl), ?_,
    (fun _ _ _ _ _ h => absurd rfl h), (by intro _ _ _ _ _ _ _ _ h; cases h),
    (by intro _ _ _ _ _ _ _ _ _ h; cases h), ?_⟩
  · intro ident a ms h
    simp only [oneN, miniN] at h
    cases h
    exact List.Pairwise.filter _ List.nodup_range
  · intro a ident ms _ h1 _ h2
    cases ms with
    | nil => exact Nat.zero_le _
    | cons m ms => have := h2 m List.mem_cons_self; cases this
  · intro a is h i hi
    simp only [oneN, miniN] at h
    cases h
    cases hi

theorem one_net : NetContract oneN := mini_net (by decide) (by decide) (by decide)
theorem one_wants : NetWants oneN 0 0 0 5 :=
  Or.inl ⟨⟨0, 0, [1]⟩, by simp [oneN, miniN], rfl, rfl, 1, by simp, (5, [.app 0]), by decide +kernel, rfl,
    .app 0, by simp, Or.inr ⟨rfl, [0, 1, 2, 3], by decide +kernel, by decide⟩⟩

/-- A packet of machine vertex 0 does not leave its chip any more. -/
theorem one_stays {w : List Nat} {c : XY} (h : Travels oneN (sceneOf oneN.base.T oneTwice) 0 0 w c) :
    w = [] ∧ c = (0, 0) := by
  unfold Travels at h
  have h1 : (oneN.base.locate 0).1 = (0, 0) := by decide
  have h2 : Router.heading (oneN.base.locate 0) = none := by decide
  have h3 : lookup ((sceneOf oneN.base.T oneTwice).entries (0, 0)) 0 = some ⟨0, 0xfffffffc, 1024, false⟩ := by
    decide +kernel
  rw [h1, h2] at h
  induction h with
  | start => exact ⟨rfl, rfl⟩
  | hop _ ho hl _ ih =>
    obtain ⟨rfl, rfl⟩ := ih
    rcases ho with ⟨e, e1, e2⟩ | ⟨e1, _⟩
    · rw [h3] at e1
      cases e1
      have : ∀ l, l < 6 → Nat.testBit 1024 l = false := by decide
      simp only at e2
      rw [this _ hl] at e2
      cases e2
    · rw [h3] at e1; cases e1

/-- With ordered covering after the range compressor it travels as before: the entries keep their order. -/
def oneOC : TablesMap :=
  match Driver.ocCompressor rowEnv oneRange with
  | .ok tm => tm
  | .error _ => []

example : SameTrips oneN (sceneOf oneN.base.T oneBasic) (sceneOf oneN.base.T oneOC) 0 0 := by
  refine C133_covering_partial (fuel := 20) (S := oneS) (infos := oneInfos) (same := fun _ _ => true) (tm1 := oneRange)
    (before := rowEnv) (env := rowEnv) (over := false) (a := 0) (ident := 0) one_net
    (mini_noReturns _ (by decide +kernel) _ _ _ _) (mini_allSend _ (by decide) _ _) (mini_outside _ _ _ _ _ _)
    (mini_flag _ _ _ _ _ _) one_keys (mini_positive (by decide)) (by decide +kernel) (.flexible (by decide +kernel))
    (by decide +kernel) ?_ (by decide +kernel) (by decide +kernel) ?_ ?_ ⟨0, 4294967295, 0, by decide, by decide⟩
  · have : ∀ t ∈ tablesOf oneBasic, t.entries ≠ [] ∧ ∀ e ∈ t.entries, e.mask = BitVec.ofNat 32 (2 ^ 32 - 2 ^ 0) := by
      decide +kernel
    exact fun t ht => ⟨(this t ht).1, fun e he => ⟨0, by omega, (this t ht).2 e he⟩⟩
  · exact Or.inl ⟨⟨0, 0, [1]⟩, by simp [oneN, miniN], rfl, rfl⟩
  · exact Or.inl ⟨[0, 1, 2, 3], by decide +kernel, by decide⟩

/-- C133 is false, though nothing failed: the last entries of a range take in what lies before them, the pair compressor
sorts the entries, and then those come first. -/
theorem C133_false : ¬ C133_full := by
  intro h
  obtain ⟨w, hw⟩ := h oneN oneK 20 oneS oneInfos (fun _ _ => true) oneBasic oneRange oneTwice rowEnv rowEnv false one_net
    (mini_noReturns _ (by decide +kernel) _ _ _ _) (mini_allSend _ (by decide) _ _) (mini_outside _ _ _ _ _ _)
    (mini_flag _ _ _ _ _ _) one_keys (mini_positive (by decide)) ⟨(by intro _ _ _ h; cases h), (by intro _ _ _ h; cases h)⟩
    (by decide +kernel) (.flexible (by decide +kernel)) (by decide +kernel) (by decide +kernel)
    (Or.inr ⟨true, false, true, true, by decide +kernel⟩) 0 0 0 5 0 one_wants ⟨0, 4294967295, 0, by decide, by decide⟩
  have := (one_stays hw.1).2
  revert this
  decide

end Pacman.Pipe
