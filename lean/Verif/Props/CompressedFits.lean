import Verif.Props.CompressorFits
import Verif.Props.Compressed
import Verif.Proofs.TableSize
/-
C119 for the tables of a graph: how many entries they have, and that the compressors return.
-/

namespace Pacman.Pipe

open Alloc (VId Infos)
open Router (Net NetContract NoReturns NetSends Leaves)
open Tables (TablesMap tablesOf)
open Gen (ofInfos)
open Driver (Fit)

/-- Each of the compressors, in each of its modes, returns tables that fit; the range compressor where `blocks` holds. And
so do the others for what the range compressor returned, for routers of whatever size. -/
structure AllReturn (env : Driver.Env) (blocks : Prop) (tm : TablesMap) : Prop where
  pair : ∀ ordered overflow verify cSort, ∃ tm',
    Driver.pairCompressor env ordered overflow verify cSort tm = .ok tm' ∧ Fit env tm'
  range : blocks → ∀ overflow, ∃ tm', Driver.rangeCompressor env overflow tm = .ok tm' ∧ Fit env tm'
  covering : ∃ tm', Driver.ocCompressor env tm = .ok tm' ∧ Fit env tm'
  after : blocks → ∀ before over tm1, Driver.rangeCompressor before over tm = .ok tm1 →
    (∀ ordered overflow verify cSort, ∃ tm',
      Driver.pairCompressor env ordered overflow verify cSort tm1 = .ok tm' ∧ Fit env tm') ∧
    ∃ tm', Driver.ocCompressor env tm1 = .ok tm' ∧ Fit env tm'

section
variable {N : Net} {K : Keys} {fuel : Nat} {S : ByPart.State} {infos : Infos} {g : Generator}
  {same : Entry → Entry → Bool} {tm : TablesMap} {env : Driver.Env}

/-- C119: a table has no more entries than there are sources with an entry on some chip, whatever the infos. -/
theorem C119_sources {w : Gen.World} (hg : generate g same w S = .ok tm) :
    ∀ t ∈ tablesOf tm, ∃ x ∈ S, t.numberOfEntries ≤ x.2.length := by
  intro t ht
  rcases generateLoop_length S [] tm hg t ht with h | h
  · cases h
  · exact h

/-- The application vertex of a machine vertex that sends. -/
theorem sends_app (hN : NetContract N) {a ident m : Nat} (h : NetSends N a ident m) : N.base.appOf m = some a := by
  rcases h with ⟨l, h1, h2⟩ | ⟨is, h1, i, h2, -, rfl⟩
  · exact hN.sends ident a l m h1 h2
  · exact hN.within a is h1 i h2

open Classical in
/-- A machine vertex that sends for a source. -/
noncomputable def speaker (N : Net) (src : VId × Nat) : Nat × Nat :=
  match src with
  | (.mach m, p) => (m, p)
  | (.app a, p) => if h : ∃ m, NetSends N a p m then (Classical.choose h, p) else (0, p)

/-- C119: if `L` has all machine vertices that send, with the identifiers for which they do, then no table made for the
graph has more entries than `L`. -/
theorem C119_bound (hN : NetContract N) (hn : NoReturns N.base) (h : Router.routeGraph N fuel = .ok S) {w : Gen.World}
    (hg : generate g same w S = .ok tm) {L : List (Nat × Nat)}
    (hL : ∀ a ident m, Leaves N a ident → NetSends N a ident m → (m, ident) ∈ L) :
    ∀ t ∈ tablesOf tm, t.numberOfEntries ≤ L.length := by
  intro t ht
  obtain ⟨x, hx, hlen⟩ := C119_sources hg t ht
  refine Nat.le_trans hlen ?_
  have htidy := Router.routeGraph_tidy hN hn h
  have hu := Router.C79_unmixed hN h
  have hget : S.get? x.1 = some x.2 := Dict.get?_of_mem htidy.chips hx
  have hon : ∀ v p, (v, p) ∈ Dict.keys x.2 → (ByPart.entryOn S v p x.1.1 x.1.2).isSome = true := by
    intro v p hv
    obtain ⟨it, hit, he⟩ := List.mem_map.mp hv
    have : Dict.get? x.2 (v, p) = some it.2 := by
      rw [← he]
      exact Dict.get?_of_mem (htidy.sources x hx) hit
    unfold ByPart.entryOn ByPart.entriesFor
    rw [show ((x.1.1, x.1.2) : Int × Int) = x.1 from rfl, hget]
    simp only [this]
    rfl
  have hsp : ∀ v p, (v, p) ∈ Dict.keys x.2 → ∃ a m, speaker N (v, p) = (m, p) ∧ Leaves N a p ∧ NetSends N a p m ∧
      (v = .app a ∨ v = .mach m) := by
    intro v p hv
    obtain ⟨a, h1, h2, h3⟩ := Router.routeGraph_senders hN h (c := x.1) (hon v p hv)
    rcases h3 with rfl | ⟨m, rfl, h3⟩
    · refine ⟨a, Classical.choose h2, ?_, h1, Classical.choose_spec h2, Or.inl rfl⟩
      simp only [speaker]
      rw [dif_pos h2]
    · exact ⟨a, m, rfl, h1, h3, Or.inr rfl⟩
  have hkeys : (Dict.keys x.2).length = x.2.length := by unfold Dict.keys; rw [List.length_map]
  rw [← hkeys, ← List.length_map (f := speaker N)]
  refine List.Nodup.length_le_of_subset ?_ ?_
  · rw [List.Nodup, List.pairwise_map]
    refine List.Pairwise.imp_of_mem ?_ (htidy.sources x hx)
    rintro ⟨v, p⟩ ⟨v', p'⟩ hv hv' hne he
    obtain ⟨a, m, h1, -, h3, h4⟩ := hsp v p hv
    obtain ⟨a', m', k1, -, k3, k4⟩ := hsp v' p' hv'
    rw [h1, k1] at he
    injection he with e1 e2
    subst e1 e2
    have ha := sends_app hN h3
    rw [sends_app hN k3] at ha
    injection ha with ha
    subst ha
    have happ := sends_app hN h3
    rcases h4 with rfl | rfl <;> rcases k4 with rfl | rfl
    · exact hne rfl
    · exact hu _ _ p x.1.1 x.1.2 happ ⟨hon _ _ hv, hon _ _ hv'⟩
    · exact hu _ _ p x.1.1 x.1.2 happ ⟨hon _ _ hv', hon _ _ hv⟩
    · exact hne rfl
  · intro y hy
    obtain ⟨⟨v, p⟩, hv, rfl⟩ := List.mem_map.mp hy
    obtain ⟨a, m, h1, h2, h3, -⟩ := hsp v p hv
    rw [h1]
    exact hL a p m h2 h3

/-- The tables are for chips of the machine. -/
theorem tables_placed (hN : NetContract N) (hn : NoReturns N.base) (hK : KeyContract N K) (hp : Positive N.base.T)
    (h : Router.routeGraph N fuel = .ok S) (ha : Allocated N K infos)
    (hg : generate g same (ofInfos infos N.base.appOf) S = .ok tm) :
    ∀ t ∈ tablesOf tm, ∃ c ∈ N.base.T.chips, t.xy = place c := by
  obtain ⟨tm0, j1, hmade, hkeys⟩ := generate_ok g same hN hn hK hp h ha
  rw [hg] at j1
  cases j1
  have ht := Router.routeGraph_tidy hN hn h
  intro t htm
  obtain ⟨p, hpm, rfl⟩ := List.mem_map.mp htm
  have hk : p.1 ∈ S.map (fun x => place x.1) := by rw [← hkeys]; exact List.mem_map_of_mem hpm
  obtain ⟨x, hx, hpx⟩ := List.mem_map.mp hk
  exact ⟨x.1, ht.within x hx, by rw [hmade.xy p hpm, ← hpx]⟩

/-- C119: what the range compressor returns for tables that fit also fits, whatever it was told of the routers, and the
other compressors return tables that fit for it. -/
theorem C119_after_range {before : Driver.Env} {over : Bool} {tm1 : TablesMap} (hm : Driver.OnePerChip tm) (hf : Fit env tm)
    (ht : ∀ t ∈ tablesOf tm, AllValid t.entries ∧ t.entries ≠ [] ∧ ∀ e ∈ t.entries, Range.Contiguous e.mask)
    (ho : ∀ t ∈ tablesOf tm, Orthogonal t.entries) (hr : Driver.rangeCompressor before over tm = .ok tm1) :
    (∀ ordered overflow verify cSort, ∃ tm',
      Driver.pairCompressor env ordered overflow verify cSort tm1 = .ok tm' ∧ Fit env tm') ∧
    ∃ tm', Driver.ocCompressor env tm1 = .ok tm' ∧ Fit env tm' := by
  obtain ⟨hr1, hchip⟩ := range_accepts (tablesOf tm) [] tm1 hr
  obtain ⟨r1, r2, -, r3⟩ := Driver.C13_range_apart before tm tm1 hm hchip ht ho hr1
  obtain ⟨tm0, q1, q2, -⟩ := Driver.C13_range_all_chips before tm hm hchip ht
  have hq : tm0 = tm1 := by
    rw [show Driver.rangeCompressor before true tm = .ok tm1 from hr1] at q1
    cases q1; rfl
  subst hq
  have hf1 : Fit env tm0 := Driver.fit_of_each hm hf q2 (fun t h => by
    obtain ⟨nt, -, k2, k3, -, k5, -⟩ := r3 t h
    exact ⟨nt, k3, k2, k5⟩)
  have hne : ∀ nt ∈ tablesOf tm0, nt.entries ≠ [] := by
    intro nt hnt
    obtain ⟨p, hp, rfl⟩ := List.mem_map.mp hnt
    have hk : p.1 ∈ Dict.keys tm0 := List.mem_map_of_mem hp
    rw [q2] at hk
    obtain ⟨t, htm, hxy⟩ := List.mem_map.mp hk
    obtain ⟨nt, -, -, k3, k4, -⟩ := r3 t htm
    have hnd : (Dict.keys tm0).Nodup := by rw [q2]; exact hm
    have e1 := Dict.get?_of_mem hnd (show (p.1, p.2) ∈ tm0 from hp)
    rw [← hxy, k3] at e1
    cases e1
    intro h0
    obtain ⟨h1, h2, -⟩ := ht t htm
    cases he : t.entries with
    | nil => exact h2 he
    | cons e l =>
      have hem : e ∈ t.entries := by rw [he]; exact List.mem_cons_self
      have hmt : e.Matches e.key := h1 e hem
      have hro := Gen.lookup_orth (ho t htm) hem hmt
      have := k4 e.key (by unfold routeOf; rw [hro]; simp)
      rw [h0] at this
      unfold routeOf at this
      rw [hro] at this
      simp [lookup] at this
  exact ⟨Driver.C119_pair r1 hf1 (fun t ht => ⟨(r2 t ht).1, hne t ht⟩), Driver.C119_ordered_covering r1 hf1 hne⟩

/-- C119 for the tables of a graph: if they fit, then each of the compressors, in each of its modes, returns tables that
fit. Missing: fixed keys whose masks are not ones followed by zeros with the range compressor, which may not return. -/
theorem C119_return_partial (hN : NetContract N) (hn : NoReturns N.base) (hK : KeyContract N K)
    (hp : Positive N.base.T) (h : Router.routeGraph N fuel = .ok S) (ha : Allocated N K infos)
    (hg : generate g same (ofInfos infos N.base.appOf) S = .ok tm) (hf : Fit env tm) : AllReturn env (FixedBlocks K) tm := by
  obtain ⟨tm0, j1, hmade, -⟩ := generate_ok g same hN hn hK hp h ha
  rw [hg] at j1
  cases j1
  have hm := tables_some hN hn hK hp h ha hg
  exact ⟨Driver.C119_pair hmade.once hf (fun t ht => ⟨(hmade.good t ht).1, hm t ht⟩),
    fun hB => Driver.C119_range hmade.once hf (fun t ht => ⟨(hmade.good t ht).1, hm t ht, (C118_masks hN hn hK hB hp h ha hg t ht).2⟩),
    Driver.C119_ordered_covering hmade.once hf hm,
    fun hB before over tm1 hr => C119_after_range hmade.once hf
      (fun t ht => ⟨(hmade.good t ht).1, hm t ht, (C118_masks hN hn hK hB hp h ha hg t ht).2⟩)
      (fun t ht => (hmade.good t ht).2) hr⟩

/-- C119, with the number of entries: if no router of the machine takes fewer entries than there are pairs in `L`, which
has all that send, then the tables fit and each of the compressors returns tables that fit.
Missing: as in `C119_return_partial`. -/
theorem C119_few_partial (hN : NetContract N) (hn : NoReturns N.base) (hK : KeyContract N K)
    (hp : Positive N.base.T) (h : Router.routeGraph N fuel = .ok S) (ha : Allocated N K infos)
    (hg : generate g same (ofInfos infos N.base.appOf) S = .ok tm) {L : List (Nat × Nat)}
    (hL : ∀ a ident m, Leaves N a ident → NetSends N a ident m → (m, ident) ∈ L)
    (he : ∀ c ∈ N.base.T.chips, ∃ n, env.target (place c) = some n ∧ L.length ≤ n) : Fit env tm ∧ AllReturn env (FixedBlocks K) tm := by
  have hf : Fit env tm := by
    intro t ht
    obtain ⟨c, hc, hxy⟩ := tables_placed hN hn hK hp h ha hg t ht
    obtain ⟨n, h1, h2⟩ := he c hc
    exact ⟨n, by rw [hxy]; exact h1, Nat.le_trans (C119_bound hN hn h hg hL t ht) h2⟩
  exact ⟨hf, C119_return_partial hN hn hK hp h ha hg hf⟩

end

/-- The two tables of the demonstration, by the range compressor for routers that take nothing, then for two entries. -/
example : ∃ tm1, Driver.rangeCompressor ⟨fun _ => some 0, true⟩ true Driver.demoTables = .ok tm1 ∧
    ∃ tm', Driver.ocCompressor Driver.fitEnv tm1 = .ok tm' ∧ Fit Driver.fitEnv tm' := by
  obtain ⟨tm1, h1, -⟩ := Driver.C13_range_all_chips ⟨fun _ => some 0, true⟩ Driver.demoTables Driver.demo_one
    (fun _ _ => ⟨0, rfl⟩) Driver.demo_fine
  exact ⟨tm1, h1, (C119_after_range Driver.demo_one Driver.demo_fit Driver.demo_fine
    (fun t ht => OC.orthogonal_of_one_mask (Driver.demo_fine t ht).1
      (by revert t; decide +kernel) (by revert t; decide +kernel)) h1).2⟩

/-- The vertices that send in the row of chips. -/
theorem row_list {a ident m : Nat} (hs : NetSends rowN a ident m) (hl : Leaves rowN a ident) :
    (m, ident) ∈ [(0, 0), (1, 0), (2, 0)] := by
  rcases hl with ⟨p, hp, rfl, rfl⟩ | ⟨-, is, h1, i, h2, -⟩
  · simp only [rowN, miniN, List.mem_singleton] at hp
    subst hp
    rcases hs with ⟨ms, h1, h2⟩ | ⟨is, h1, i, h2, -⟩
    · have : rowN.outgoing 0 0 = some [0, 1, 2] := by decide +kernel
      rw [this] at h1
      cases h1
      simp only [List.mem_cons, List.not_mem_nil, or_false] at h2
      rcases h2 with rfl | rfl | rfl <;> decide
    · cases h1; cases h2
  · cases h1; cases h2

/-- Three machine vertices send along a row of chips, and each router takes three entries. -/
example (asFar : Bool) : Fit ⟨fun _ => some 3, asFar⟩ rowBasic ∧ AllReturn ⟨fun _ => some 3, asFar⟩ (FixedBlocks lineK) rowBasic :=
  C119_few_partial row_net row_noReturns row_keys row_positive row_routed row_allocated row_basic
    (fun _ _ _ hl hs => row_list hs hl) (fun _ _ => ⟨3, rfl, Nat.le_refl _⟩)

/-- The bound is met at (2, 0). -/
example : (∀ t ∈ tablesOf rowBasic, t.numberOfEntries ≤ 3) ∧ ∃ t ∈ tablesOf rowBasic, t.numberOfEntries = 3 :=
  ⟨C119_bound row_net row_noReturns row_routed row_basic (fun _ _ _ hl hs => row_list hs hl), by decide +kernel⟩

end Pacman.Pipe
