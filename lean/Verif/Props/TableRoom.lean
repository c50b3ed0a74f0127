import Verif.Proofs.PairCounts
import Verif.Props.PairCompressorFull
import Verif.Props.CompressorFits
/-
C143: how much room compressed tables need in a router, at least and at most.
-/

namespace Pacman.Pair

/-- What is known of how many entries the routes get. -/
theorem compressTable_having (o useC : Bool) (n : Nat) (t t' : List Entry) (hv : AllValid t)
    (h : compressTable o useC n t = .ok t') (p : Nat → Bool) : having p t' ≤ having p t := by
  obtain ⟨es, hp, hc⟩ := compressTable_perm o useC n t t' h
  have h1 := compressSorted_having o es t' (fun e he => hv e (hp.mem_iff.1 he)) hc p
  have h2 : having p es = having p t := hp.countP_eq _
  omega

theorem uses_having (t : List Entry) (r : Nat) : uses t r = having (fun x => x == r) t := by
  rw [← occurs_uses]; rfl

theorem uses_others (t : List Entry) (r : Nat) : uses t r + having (fun x => !(x == r)) t = t.length := by
  rw [uses_having]
  unfold having
  rw [List.length_eq_countP_add_countP (fun e : Entry => e.route == r)]
  congr 1
  apply List.countP_congr
  intro x _
  simp

theorem uses_pos {t : List Entry} {r : Nat} : 0 < uses t r ↔ ∃ e ∈ t, e.route = r := by
  unfold uses
  rw [List.length_pos_iff_exists_mem]
  constructor
  · rintro ⟨p, hp⟩
    rw [List.mem_filter] at hp
    exact ⟨p, hp.1, of_decide_eq_true hp.2⟩
  · rintro ⟨p, hp, h⟩
    exact ⟨p, List.mem_filter.2 ⟨hp, decide_eq_true h⟩⟩

/-- **C143.** Each route that the table has is kept, with no more entries than before, and no route
is added. -/
theorem C143_each_route (o useC : Bool) (n : Nat) (t t' : List Entry) (hv : AllValid t)
    (h : compressTable o useC n t = .ok t') (r : Nat) :
    uses t' r ≤ uses t r ∧ (0 < uses t r → 0 < uses t' r) := by
  refine ⟨?_, ?_⟩
  · rw [uses_having, uses_having]; exact compressTable_having o useC n t t' hv h _
  · intro hr
    obtain ⟨pos, es, hp, hinv, _, _⟩ := compressTable_full o useC n t t' hv h
    obtain ⟨e, he, hr⟩ := uses_pos.1 hr
    obtain ⟨w, hw, hwr⟩ := hinv.cover e (hp.mem_iff.2 he)
    exact uses_pos.2 ⟨w, hw, by rw [hwr, hr]⟩

/-- **C143**, ordered results: whatever the keys are, all entries of a route but one are saved, for
the route where this saves most. -/
theorem C143_ordered (useC : Bool) (n : Nat) (t t' : List Entry) (hv : AllValid t)
    (hne : t ≠ []) (h : compressTable true useC n t = .ok t') (r : Nat) :
    t'.length + uses t r ≤ t.length + 1 := by
  obtain ⟨I, e, h0, hI, hmax⟩ := C140_most_frequent useC n t t' hv hne h
  have h1 := compressTable_having true useC n t t' hv h (fun x => !(x == e.route))
  have h2 := uses_others t e.route
  have h3 := uses_others t' e.route
  have h4 : uses t' e.route = 1 := by
    rw [h0]; unfold uses
    rw [List.filter_append, List.filter_eq_nil_iff.2 (fun i hi => by simpa using hI i hi)]
    simp
  have := hmax r
  omega

/-- A table has an entry for each route that it sends some key. -/
theorem routes_sent (t' : List Entry) (rs : List Nat) (h : ∀ r ∈ rs, ∃ k, routeOf t' k = some r) :
    rs.eraseDups.length ≤ t'.length := by
  have : ∀ r ∈ rs.eraseDups, r ∈ t'.map (·.route) := by
    intro r hr
    rw [List.mem_eraseDups] at hr
    obtain ⟨k, hk⟩ := h r hr
    obtain ⟨w, hw, _, hwr⟩ := routeOf_some_mem hk
    exact List.mem_map.2 ⟨w, hw, hwr⟩
  have h3 := nodup_le_of_subset _ _ (nodup_eraseDups' rs) this
  rwa [List.length_map] at h3

/-- **C143**, what no compressor can do: a table that sends the keys of a table of disjoint
routes where that one sends them has at least one entry for each of its routes. -/
theorem C143_least (t t' : List Entry) (hv : AllValid t) (hd : RouteDisjoint t) (h : RoutesSame t t') :
    (t.map (·.route)).eraseDups.length ≤ t'.length := by
  apply routes_sent
  intro r hr
  obtain ⟨e, he, rfl⟩ := List.mem_map.1 hr
  have hm : e.Matches e.key := hv e he
  have h1 : routeOf t e.key = some e.route := by
    apply routeOf_eq_some_of
    · exact ⟨e, he, hm⟩
    · intro e' he' hm'
      apply Classical.byContradiction
      intro hne
      exact hd e he e' he' (fun h => hne h.symm) ⟨e.key, hm, hm'⟩
  exact ⟨e.key, by rw [h e.key (by rw [h1]; exact Option.some_ne_none _), h1]⟩

/-- The routes of a table are no more than one and the entries of the others. -/
theorem routes_le (t : List Entry) (r : Nat) :
    (t.map (·.route)).eraseDups.length + uses t r ≤ t.length + 1 := by
  have h1 := nodup_le_of_subset (t.map (·.route)).eraseDups
    (r :: (t.filter (fun e => !(e.route == r))).map (·.route)) (nodup_eraseDups' _) (by
      intro x hx
      rw [List.mem_eraseDups] at hx
      obtain ⟨e, he, rfl⟩ := List.mem_map.1 hx
      by_cases hr : e.route = r
      · rw [hr]; exact List.mem_cons_self
      · exact List.mem_cons_of_mem _ (List.mem_map.2 ⟨e, List.mem_filter.2 ⟨he, by simpa using hr⟩, rfl⟩))
  have h2 := uses_others t r
  unfold having at h2
  rw [List.countP_eq_length_filter] at h2
  dsimp only at h2
  rw [List.length_cons, List.length_map] at h1
  omega

/-- With more routes than the router has entries there is no result. -/
theorem routes_needed (o useC : Bool) (n : Nat) (t t' : List Entry)
    (h : compressTable o useC n t = .ok t') : (t.map (·.route)).eraseDups.length ≤ n := by
  unfold compressTable at h
  cases hh : histogram n t with
  | error e => simp [hh, bind, Except.bind] at h
  | ok hist =>
    have hi := histogram_inv n t hist hh
    have h1 := nodup_le_of_subset (t.map (·.route)).eraseDups (hist.map (·.1)) (nodup_eraseDups' _) (by
      intro x hx
      rw [List.mem_eraseDups] at hx
      obtain ⟨e, he, rfl⟩ := List.mem_map.1 hx
      exact hi.mem e he)
    rw [List.length_map] at h1
    exact Nat.le_trans h1 hi.len

/-- Route 1 has four of the eight entries and gets one; no entry of another route is saved, so the
bound is met. -/
example : AllValid threeRoutes ∧ threeRoutes ≠ [] ∧ uses threeRoutes 1 = 4 ∧ threeRoutes.length = 8 ∧
    ∃ t', compressTable true false 1023 threeRoutes = .ok t' ∧ t'.length = 5 ∧ uses t' 1 = 1 ∧ uses t' 2 = 3 :=
  ⟨by unfold AllValid; decide, by decide, by decide, by decide,
    [⟨0x8, 0xFFFFFFFF, 4, false⟩, ⟨0x1, 0xFFFFFFFF, 2, false⟩, ⟨0x2, 0xFFFFFFFF, 2, false⟩,
      ⟨0xF, 0xFFFFFFFF, 2, false⟩, ⟨0x0, 0xFFFFFFF0, 1, false⟩], by decide +kernel, by decide, by decide, by decide⟩

/-- Four entries with two routes, and a table of two entries that does the same. -/
example : AllValid demo ∧ RouteDisjoint demo ∧ (demo.map (·.route)).eraseDups.length = 2 ∧
    RoutesSame demo [⟨0x8, 0xFFFFFFFF, 2, false⟩, ⟨0x4, 0xFFFFFFFC, 1, false⟩] :=
  ⟨demo_valid, demo_disjoint, by decide,
    C03_pair_preserves_routing false false 1023 demo _ demo_valid demo_disjoint (by decide +kernel)⟩

end Pacman.Pair

namespace Pacman.Driver

open Tables

section
variable {env : Env} {m : TablesMap}

/-- The table is for a chip that exists, and there is a route such that the router has room for one
entry and all those of the other routes. -/
def SavesEnough (env : Env) (t : Table) : Prop :=
  ∃ n r, env.target t.xy = some n ∧ t.entries.length + 1 ≤ n + Pair.uses t.entries r

/-- **C143**, fitting: with ordered results the tables returned fit if for each of them there is room
for one entry and all those of the routes but one. -/
theorem C143_fits (hm : OnePerChip m)
    (ht : ∀ t ∈ tablesOf m, AllValid t.entries ∧ t.entries ≠ [] ∧ SavesEnough env t)
    (overflow verify cSort : Bool) :
    ∃ m', pairCompressor env true overflow verify cSort m = .ok m' ∧ Fit env m' := by
  have hone : ∀ t ∈ tablesOf m, ∃ n es, env.target t.xy = some n ∧
      pairTable env true cSort t = .ok es ∧ es.length ≤ n := by
    intro t htm
    obtain ⟨h1, h2, n, r, h3, h4⟩ := ht t htm
    have h5 := Pair.routes_le t.entries r
    have h6 : n ≠ 0 := by
      have := Pair.uses_others t.entries r
      omega
    obtain ⟨es, h7, -⟩ := Pair.C05_pair_succeeds true cSort n t.entries h1 h6 (by omega)
    have h8 := Pair.C143_ordered cSort n t.entries es h1 h2 h7 r
    refine ⟨n, es, h3, ?_, by omega⟩
    unfold pairTable Env.targetE
    rw [h3]
    exact h7
  have hall : ∃ m', compressTables env true overflow (pairTable env true cSort) m = .ok m' ∧ Fit env m' := by
    rcases C13_compress_tables env true overflow (pairTable env true cSort) m hm with
      ⟨m', h1, h2, h3, -⟩ | ⟨-, -, -, t, h1, -, es, n, h2, h3, h4⟩ | ⟨e, -, t, h1, ⟨-, h2⟩ | ⟨-, h2⟩⟩
    · refine ⟨m', h1, ?_⟩
      intro t htm
      obtain ⟨p, hp, rfl⟩ := List.mem_map.mp htm
      have j1 : p.1 ∈ (tablesOf m).map (·.xy) := by rw [← h2]; exact List.mem_map_of_mem hp
      obtain ⟨t0, j2, j3⟩ := List.mem_map.mp j1
      obtain ⟨nt, j4, j5, j6⟩ := h3 t0 j2
      have hnd : (Dict.keys m').Nodup := by rw [h2]; exact hm
      have j7 := Dict.get?_of_mem hnd hp
      rw [← j3, j4] at j7
      injection j7 with j7
      subst j7
      obtain ⟨n, es, k1, k2, k3⟩ := hone t0 j2
      refine ⟨n, by rw [j5]; exact k1, ?_⟩
      rcases j6 with ⟨⟨-, n', k4, k5⟩, rfl⟩ | ⟨-, k4, -⟩
      · rw [k1] at k4
        injection k4 with k4
        subst k4; exact k5
      · rw [k2] at k4
        injection k4 with k4
        rw [numberOfEntries_eq, ← k4]; exact k3
    · obtain ⟨n', es', k1, k2, k3⟩ := hone t h1
      rw [k2] at h2
      injection h2 with h2
      rw [k1] at h3
      injection h3 with h3
      subst h2 h3
      omega
    · obtain ⟨n, es, k1, -⟩ := hone t h1
      rw [k1] at h2; cases h2
    · obtain ⟨n, es, -, k1, -⟩ := hone t h1
      rw [k1] at h2; cases h2
  obtain ⟨m', h1, h2⟩ := hall
  refine ⟨m', ?_, h2⟩
  unfold pairCompressor
  rw [h1]
  simp only [bind, Except.bind, pure, Except.pure]
  rw [verifyLengths_fit h2]
  cases verify <;> rfl

/-- **C143**, not fitting: with a table of more routes than its router has entries the pair
compressors fail in each mode, even where tables that are too long are accepted. -/
theorem C143_too_many (hm : OnePerChip m) {t : Table} (ht : t ∈ tablesOf m) {n : Nat}
    (hn : env.target t.xy = some n) (hr : n < (t.entries.map (·.route)).eraseDups.length)
    (ordered overflow verify cSort : Bool) :
    ∃ e, pairCompressor env ordered overflow verify cSort m = .error e := by
  cases hc : compressTables env ordered overflow (pairTable env ordered cSort) m with
  | error e => exact ⟨e, by unfold pairCompressor; rw [hc]; rfl⟩
  | ok m' =>
    exfalso
    rcases C13_compress_tables env ordered overflow (pairTable env ordered cSort) m hm with
      ⟨m2, h1, h2, h3, -⟩ | ⟨h1, -⟩ | ⟨e, h1, -⟩
    · obtain ⟨nt, -, -, h4⟩ := h3 t ht
      rcases h4 with ⟨⟨-, n', k1, k2⟩, -⟩ | ⟨-, k1, -⟩
      · rw [hn] at k1
        injection k1 with k1
        subst k1
        have := eraseDups_length_le (t.entries.map (·.route))
        rw [List.length_map] at this
        rw [numberOfEntries_eq] at k2
        omega
      · unfold pairTable Env.targetE at k1
        rw [hn] at k1
        have := Pair.routes_needed ordered cSort n t.entries nt.entries k1
        omega
    · rw [hc] at h1; cases h1
    · rw [hc] at h1; cases h1

/-- **C143**, ordered covering: it fails for tables whose entries that are not defaultable have more
routes than the router has entries. -/
theorem C143_covering_too_many (hm : OnePerChip m)
    (hv : ∀ t ∈ tablesOf m, AllValid t.entries ∧ Orthogonal t.entries)
    {t : Table} (ht : t ∈ tablesOf m) {n : Nat} (hn : env.target t.xy = some n)
    (hr : n < ((t.entries.filter (fun e => !e.defaultable)).map (·.route)).eraseDups.length) :
    ∃ e, ocCompressor env m = .error e := by
  cases hc : ocCompressor env m with
  | error e => exact ⟨e, rfl⟩
  | ok m' =>
    exfalso
    obtain ⟨-, h1⟩ := C13_ordered_covering_all_chips env m m' hm hv hc
    obtain ⟨nt, n', -, h2, h3, h4⟩ := h1 t ht
    rw [hn] at h2
    injection h2 with h2
    subst h2
    have := Pair.routes_sent nt.entries ((t.entries.filter (fun e => !e.defaultable)).map (·.route)) (by
      intro r hr
      obtain ⟨e, he, rfl⟩ := List.mem_map.1 hr
      obtain ⟨he, hd⟩ := List.mem_filter.1 he
      have hm : e.Matches e.key := (hv t ht).1 e he
      rcases h4 e he e.key hm with h5 | ⟨-, h5⟩
      · exact ⟨e.key, h5⟩
      · rw [h5] at hd; cases hd)
    rw [numberOfEntries_eq] at h3
    omega

/-- **C143**, range compressor: without overflow it raises `MinimisationFailedError` for tables with
more routes than the router has entries. -/
theorem C143_range_too_many (hm : OnePerChip m) (hchip : ∀ t ∈ tablesOf m, ∃ n, env.target t.xy = some n)
    (hv : ∀ t ∈ tablesOf m, AllValid t.entries ∧ t.entries ≠ [] ∧ ∀ e ∈ t.entries, Range.Contiguous e.mask)
    {t : Table} (ht : t ∈ tablesOf m) (hd : RouteDisjoint t.entries) {n : Nat} (hn : env.target t.xy = some n)
    (hr : n < (t.entries.map (·.route)).eraseDups.length) :
    rangeCompressor env false m = .error .minimisationFailed := by
  obtain ⟨m', h1, h2, h3⟩ := C13_range_all_chips env m hm hchip hv
  refine (C13_range_overflow env m m' hm hchip hv h1).2 ?_
  obtain ⟨nt, h4, h5, -⟩ := h3 t ht
  have hnd : (Dict.keys m').Nodup := by rw [h2]; exact hm
  have := Pair.C143_least t.entries nt.entries (hv t ht).1 hd h5
  exact ⟨t, ht, nt, n, Dict.get?_of_mem hnd h4, hn, by rw [numberOfEntries_eq]; omega⟩

end

/-- Tables for two chips: six entries of which four are for route 1, and three of one route. -/
def crowdedTables : TablesMap :=
  [((0, 0), .u ⟨0, 0, [((0x0, 0xFFFFFFFF), ⟨0x0, 0xFFFFFFFF, 1, false⟩), ((0x9, 0xFFFFFFFF), ⟨0x9, 0xFFFFFFFF, 1, false⟩),
     ((0x6, 0xFFFFFFFF), ⟨0x6, 0xFFFFFFFF, 1, true⟩), ((0x3, 0xFFFFFFFF), ⟨0x3, 0xFFFFFFFF, 1, false⟩),
     ((0x1, 0xFFFFFFFF), ⟨0x1, 0xFFFFFFFF, 2, false⟩), ((0x8, 0xFFFFFFFF), ⟨0x8, 0xFFFFFFFF, 4, false⟩)], 1⟩),
   ((0, 1), .u ⟨0, 1, [((0x10, 0xFFFFFFFF), ⟨0x10, 0xFFFFFFFF, 3, false⟩),
     ((0x11, 0xFFFFFFFF), ⟨0x11, 0xFFFFFFFF, 3, false⟩), ((0x1F, 0xFFFFFFFF), ⟨0x1F, 0xFFFFFFFF, 3, false⟩)], 0⟩)]

/-- Routers of three entries have room for them once compressed. -/
example : OnePerChip crowdedTables ∧
    (∀ t ∈ tablesOf crowdedTables, AllValid t.entries ∧ t.entries ≠ [] ∧ SavesEnough ⟨fun _ => some 3, false⟩ t) := by
  refine ⟨by unfold OnePerChip; decide, ?_⟩
  intro t ht
  have h : (AllValid t.entries ∧ t.entries ≠ []) ∧
      (t.entries.length + 1 ≤ 3 + Pair.uses t.entries 1 ∨ t.entries.length + 1 ≤ 3 + Pair.uses t.entries 3) := by
    revert t; unfold AllValid; decide
  rcases h.2 with h' | h'
  · exact ⟨h.1.1, h.1.2, 3, 1, rfl, h'⟩
  · exact ⟨h.1.1, h.1.2, 3, 3, rfl, h'⟩

/-- Routers of two entries do not: the first table has three routes, also without the entry that is
defaultable. -/
example : OnePerChip crowdedTables ∧
    (∀ t ∈ tablesOf crowdedTables, AllValid t.entries ∧ Orthogonal t.entries ∧ RouteDisjoint t.entries ∧
      t.entries ≠ [] ∧ ∀ e ∈ t.entries, Range.Contiguous e.mask) ∧
    ∃ t ∈ tablesOf crowdedTables, 2 < (t.entries.map (·.route)).eraseDups.length ∧
      2 < ((t.entries.filter (fun e => !e.defaultable)).map (·.route)).eraseDups.length := by
  refine ⟨by unfold OnePerChip; decide, ?_, by decide⟩
  intro t ht
  have hv : AllValid t.entries := by revert t; unfold AllValid; decide
  have hc : t.entries.Pairwise (fun a b => ¬ (a.key &&& b.mask) = (b.key &&& a.mask)) ∧
      t.entries ≠ [] ∧ (∀ e ∈ t.entries, e.mask = 0xFFFFFFFF#32) ∧
      ∀ a ∈ t.entries, ∀ b ∈ t.entries, a.route ≠ b.route → ¬ (a.key &&& b.mask) = (b.key &&& a.mask) := by
    clear hv; revert t; decide
  refine ⟨hv, hc.1.imp_of_mem ?_, ?_, hc.2.1, fun e he => by rw [hc.2.2.1 e he]; exact ⟨0, by omega, by decide⟩⟩
  · intro a b ha hb h
    rw [Entry.meets_iff (hv a ha) (hv b hb)]; exact h
  · intro a ha b hb hr
    rw [Entry.meets_iff (hv a ha) (hv b hb)]; exact hc.2.2.2 a ha b hb hr

end Pacman.Driver
