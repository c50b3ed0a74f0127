import Verif.Props.CompressorDriver
/-
C119: the compressors return for tables that fit.
-/

namespace Pacman.Driver

open Tables

/-- The tables are for chips that exist and have no more entries than the routers take. -/
def Fit (env : Env) (m : TablesMap) : Prop :=
  ∀ t ∈ tablesOf m, ∃ n, env.target t.xy = some n ∧ t.numberOfEntries ≤ n

section
variable {env : Env} {m m' : TablesMap}

/-- With a table for each chip of another collection, none with more entries, the tables fit. -/
theorem fit_of_each (hm : OnePerChip m) (hf : Fit env m) (hk : Dict.keys m' = (tablesOf m).map (·.xy))
    (h : ∀ t ∈ tablesOf m, ∃ nt, m'.get? t.xy = some nt ∧ nt.xy = t.xy ∧ nt.entries.length ≤ t.entries.length) :
    Fit env m' := by
  intro t ht
  obtain ⟨p, hp, rfl⟩ := List.mem_map.mp ht
  have h1 : p.1 ∈ (tablesOf m).map (·.xy) := by rw [← hk]; exact List.mem_map_of_mem hp
  obtain ⟨t0, h2, h3⟩ := List.mem_map.mp h1
  obtain ⟨nt, h4, h5, h6⟩ := h t0 h2
  have hnd : (Dict.keys m').Nodup := by rw [hk]; exact hm
  have h7 := Dict.get?_of_mem hnd hp
  rw [← h3, h4] at h7
  injection h7 with h7
  subst h7
  obtain ⟨n, h8, h9⟩ := hf t0 h2
  rw [numberOfEntries_eq] at h9
  exact ⟨n, by rw [h5]; exact h8, by rw [numberOfEntries_eq]; omega⟩

/-- If a compressor for a single table always returns, with no more entries, then so does that for all. -/
theorem compressTables_fit {ordered overflow : Bool} {compress : Table → Except PyErr (List Entry)}
    (hm : OnePerChip m) (hf : Fit env m)
    (h : ∀ t ∈ tablesOf m, ∃ es, compress t = .ok es ∧ es.length ≤ t.entries.length) :
    ∃ m', compressTables env ordered overflow compress m = .ok m' ∧ Fit env m' := by
  rcases C13_compress_tables env ordered overflow compress m hm with
    ⟨m', h1, h2, h3, -⟩ | ⟨-, -, -, t, h1, -, es, n, h2, h3, h4⟩ | ⟨e, -, t, h1, ⟨-, h2⟩ | ⟨-, h2⟩⟩
  · refine ⟨m', h1, fit_of_each hm hf h2 (fun t ht => ?_)⟩
    obtain ⟨nt, k1, k2, k3⟩ := h3 t ht
    refine ⟨nt, k1, k2, ?_⟩
    rcases k3 with ⟨-, rfl⟩ | ⟨-, k3, -⟩
    · exact Nat.le_refl _
    · obtain ⟨es, j1, j2⟩ := h t ht
      rw [j1] at k3
      injection k3 with k3
      rw [← k3]; exact j2
  · obtain ⟨es', j1, j2⟩ := h t h1
    rw [j1] at h2
    injection h2 with h2
    subst h2
    obtain ⟨n', k1, k2⟩ := hf t h1
    rw [h3] at k1
    injection k1 with k1
    rw [numberOfEntries_eq] at k2
    omega
  · obtain ⟨n, k1, -⟩ := hf t h1
    rw [h2] at k1; cases k1
  · obtain ⟨es, j1, -⟩ := h t h1
    rw [j1] at h2; cases h2

theorem eraseDups_length_le {α : Type} [DecidableEq α] (l : List α) : l.eraseDups.length ≤ l.length := by
  have : ∀ (n : Nat) (l : List α), l.length ≤ n → l.eraseDups.length ≤ l.length := by
    intro n
    induction n with
    | zero => intro l h; cases l with
      | nil => simp
      | cons a l => simp at h
    | succ n ih =>
      intro l h
      cases l with
      | nil => simp
      | cons a l =>
        rw [List.eraseDups_cons]
        simp only [List.length_cons] at h ⊢
        have h1 := List.length_filter_le (fun b => !b == a) l
        have h2 := ih (l.filter (fun b => !b == a)) (by omega)
        omega
  exact this _ l (Nat.le_refl _)

theorem verifyLengths_fit (hf : Fit env m) : verifyLengths env m = .ok () := by
  have key : ∀ l : List Table, (∀ t ∈ l, ∃ n, env.target t.xy = some n ∧ t.numberOfEntries ≤ n) →
      ∃ bs, l.mapM (fun t => do let n ← env.targetE t.xy; pure (decide (t.numberOfEntries > n))) =
        (.ok bs : Except PyErr (List Bool)) ∧ bs.any id = false := by
    intro l
    induction l with
    | nil => intro _; exact ⟨[], rfl, rfl⟩
    | cons t l ih =>
      intro h
      obtain ⟨n, h1, h2⟩ := h t List.mem_cons_self
      obtain ⟨bs, h3, h4⟩ := ih (fun t ht => h t (List.mem_cons_of_mem _ ht))
      refine ⟨false :: bs, ?_, by simpa using h4⟩
      rw [List.mapM_cons, h3]
      unfold Env.targetE
      rw [h1]
      simp only [bind, Except.bind, pure, Except.pure]
      rw [decide_eq_false (by omega)]
  obtain ⟨bs, h1, h2⟩ := key (tablesOf m) hf
  unfold verifyLengths
  rw [h1]
  simp only [bind, Except.bind]
  rw [h2]
  rfl

/-- C119, pair compressors: on tables that are not empty and fit, in any mode, they return tables that fit. -/
theorem C119_pair (hm : OnePerChip m) (hf : Fit env m) (ht : ∀ t ∈ tablesOf m, AllValid t.entries ∧ t.entries ≠ [])
    (ordered overflow verify cSort : Bool) :
    ∃ m', pairCompressor env ordered overflow verify cSort m = .ok m' ∧ Fit env m' := by
  obtain ⟨m', h1, h2⟩ := compressTables_fit (ordered := ordered) (overflow := overflow)
    (compress := pairTable env ordered cSort) hm hf (by
      intro t htm
      obtain ⟨n, h1, h2⟩ := hf t htm
      obtain ⟨h3, h4⟩ := ht t htm
      rw [numberOfEntries_eq] at h2
      have h5 : 0 < t.entries.length := List.length_pos_iff.2 h4
      obtain ⟨es, h6, h7⟩ := Pair.C05_pair_succeeds ordered cSort n t.entries h3 (by omega) (by
        have := eraseDups_length_le (t.entries.map (·.route))
        rw [List.length_map] at this
        omega)
      refine ⟨es, ?_, h7⟩
      unfold pairTable Env.targetE
      rw [h1]
      exact h6)
  refine ⟨m', ?_, h2⟩
  unfold pairCompressor
  rw [h1]
  simp only [bind, Except.bind, pure, Except.pure]
  rw [verifyLengths_fit h2]
  cases verify <;> rfl

theorem keep_length (t : List Entry) : (OC.removeDefaultRoutes.keep t).length ≤ t.length :=
  (OC.keep_sublist t).length_le

theorem kept_length (t : List Entry) (check : Bool) : (OC.kept t check).length ≤ t.length := by
  unfold OC.kept
  split
  · exact keep_length t
  · exact List.length_filter_le _ _

/-- C119, ordered covering: on tables that are not empty and fit it returns tables that fit. -/
theorem C119_ordered_covering (hm : OnePerChip m) (hf : Fit env m) (ht : ∀ t ∈ tablesOf m, t.entries ≠ []) :
    ∃ m', ocCompressor env m = .ok m' ∧ Fit env m' := by
  refine compressTables_fit hm hf (fun t htm => ?_)
  obtain ⟨n, h1, h2⟩ := hf t htm
  rw [numberOfEntries_eq] at h2
  have key : ∀ target : Option Nat, (∀ n, target = some n → t.entries.length ≤ n) →
      ∃ es, OC.compressTable (t.entries.length + 1) t.entries target = .ok es ∧ es.length ≤ t.entries.length := by
    intro target htar
    obtain ⟨t', a', h3, h4⟩ := OC.C09_oc_returns (t.entries.length + 1) t.entries target [] (by omega) (Or.inl (ht t htm))
    unfold OC.compressTable
    rw [h3]
    simp only [bind, Except.bind]
    rw [OC.remove_eq]
    have h5 := kept_length t' true
    rw [if_neg]
    · exact ⟨_, rfl, by omega⟩
    · cases target with
      | none => simp
      | some n =>
        have := htar n rfl
        simp only [Option.any_some, decide_eq_true_eq]
        omega
  unfold ocTable
  split
  · exact key none (by intro n h; cases h)
  · unfold Env.targetE
    rw [h1]
    exact key (some n) (by intro n' h; cases h; exact h2)

/-- What the range compressor returns if overflow is accepted it also returns if no table grows and all fit. -/
theorem rangeLoop_fit {overflow : Bool} (ts : List Table) : ∀ m m' : TablesMap,
    (∀ t ∈ ts, ∃ nt n, rangeTable env t = .ok nt ∧ env.target t.xy = some n ∧ nt.numberOfEntries ≤ n) →
    rangeLoop env true ts m = .ok m' → rangeLoop env overflow ts m = .ok m' := by
  induction ts with
  | nil => intro m m' _ h; exact h
  | cons t ts ih =>
    intro m m' hts h
    obtain ⟨nt, n, h1, h2, h3⟩ := hts t List.mem_cons_self
    simp only [rangeLoop, bind, Except.bind, h1, Env.targetE, h2] at h ⊢
    rw [if_neg (by simp)] at h
    rw [if_neg (by omega)]
    cases h4 : addTable m nt with
    | error e => rw [h4] at h; cases h
    | ok m1 =>
      rw [h4] at h
      exact ih _ _ (fun t ht => hts t (List.mem_cons_of_mem _ ht)) h

/-- The table made is for the same chip. -/
theorem rangeTable_xy {t nt : Table} (h : rangeTable env t = .ok nt) : nt.xy = t.xy := by
  unfold rangeTable at h
  simp only [bind, Except.bind, pure, Except.pure] at h
  split at h
  · cases h
  · split at h
    · cases h; rfl
    · split at h
      · cases h
      · split at h
        · split at h
          · cases h
          · cases h; exact newTable_xy _ _
        · cases h; rfl

theorem rangeLoop_xy {overflow : Bool} (ts : List Table) : ∀ m m' : TablesMap, (∀ p ∈ m, p.2.xy = p.1) →
    rangeLoop env overflow ts m = .ok m' → ∀ p ∈ m', p.2.xy = p.1 := by
  induction ts with
  | nil => intro m m' h0 h; cases h; exact h0
  | cons t ts ih =>
    intro m m' h0 h
    simp only [rangeLoop, bind, Except.bind] at h
    split at h
    · cases h
    · split at h
      · cases h
      · split at h
        · cases h
        · split at h
          · cases h
          · rename_i nt _ _ _ _ _ _ m1 h4
            refine ih m1 m' ?_ h
            by_cases hm : nt.xy ∈ Dict.keys m
            · cases h5 : m.get? nt.xy with
              | none => exact absurd hm (Dict.get?_eq_none.1 h5)
              | some t' => unfold addTable at h4; rw [h5] at h4; cases h4
            · rw [addTable_new hm] at h4
              cases h4
              intro p hp
              rcases List.mem_append.mp hp with hp | hp
              · exact h0 p hp
              · rw [List.mem_singleton] at hp; rw [hp]

/-- C119, range compressor: on tables that are not empty and fit, whose masks are ones followed by zeros, it returns
tables that fit, whether or not overflow is accepted. -/
theorem C119_range (hm : OnePerChip m) (hf : Fit env m)
    (ht : ∀ t ∈ tablesOf m, AllValid t.entries ∧ t.entries ≠ [] ∧ ∀ e ∈ t.entries, Range.Contiguous e.mask)
    (overflow : Bool) : ∃ m', rangeCompressor env overflow m = .ok m' ∧ Fit env m' := by
  have hone : ∀ t ∈ tablesOf m, ∃ nt, rangeTable env t = .ok nt ∧ nt.xy = t.xy ∧
      RoutesSame t.entries nt.entries ∧ nt.entries.length ≤ t.entries.length := by
    intro t htm
    obtain ⟨n, h1, -⟩ := hf t htm
    obtain ⟨h2, h3, h4⟩ := ht t htm
    exact rangeTable_ok h1 h2 h3 h4
  obtain ⟨m', h1, h2, h3⟩ := C13_range_all_chips env m hm (fun t ht => (hf t ht).imp fun _ h => h.1) ht
  have hnd : (Dict.keys m').Nodup := by rw [h2]; exact hm
  refine ⟨m', ?_, ?_⟩
  · refine rangeLoop_fit _ _ _ (fun t htm => ?_) h1
    obtain ⟨nt, k1, k2, -, k3⟩ := hone t htm
    obtain ⟨n, j1, j2⟩ := hf t htm
    rw [numberOfEntries_eq] at j2
    exact ⟨nt, n, k1, j1, by rw [numberOfEntries_eq]; omega⟩
  · have hxy : ∀ p ∈ m', p.2.xy = p.1 := rangeLoop_xy _ _ _ (by intro p hp; cases hp) h1
    refine fit_of_each hm hf h2 (fun t htm => ?_)
    obtain ⟨nt, k1, -, k2⟩ := h3 t htm
    exact ⟨nt, Dict.get?_of_mem hnd k1, hxy _ k1, k2⟩

end

/-- Two tables, of one and of two entries, with routers that take two; all is compressed as far as possible. -/
def fitEnv : Env := ⟨fun _ => some 2, true⟩

theorem demo_fit : Fit fitEnv demoTables := by
  intro t ht
  refine ⟨2, rfl, ?_⟩
  revert t
  decide

theorem demo_one : OnePerChip demoTables := by unfold OnePerChip; decide

theorem demo_fine : ∀ t ∈ tablesOf demoTables, AllValid t.entries ∧ t.entries ≠ [] ∧
    ∀ e ∈ t.entries, Range.Contiguous e.mask := by
  have h : ∀ t ∈ tablesOf demoTables, AllValid t.entries ∧ t.entries ≠ [] ∧
      ∀ e ∈ t.entries, e.mask = BitVec.ofNat 32 (2 ^ 32 - 2 ^ 0) := by unfold AllValid; decide
  intro t ht
  obtain ⟨h1, h2, h3⟩ := h t ht
  exact ⟨h1, h2, fun e he => ⟨0, by omega, h3 e he⟩⟩

example : (∃ m', pairCompressor fitEnv true false true true demoTables = .ok m' ∧ Fit fitEnv m') ∧
    (∃ m', ocCompressor fitEnv demoTables = .ok m' ∧ Fit fitEnv m') ∧
    (∃ m', rangeCompressor fitEnv false demoTables = .ok m' ∧ Fit fitEnv m') :=
  ⟨C119_pair demo_one demo_fit (fun t ht => ⟨(demo_fine t ht).1, (demo_fine t ht).2.1⟩) true false true true,
    C119_ordered_covering demo_one demo_fit (fun t ht => (demo_fine t ht).2.1),
    C119_range demo_one demo_fit demo_fine false⟩

/-- A table without entries fits any router, and yet no compressor returns if told to compress as far as possible; the
pair compressor does unless the router takes none. -/
theorem C119_empty_false :
    Fit fitEnv [((0, 0), .u (UTable.empty 0 0))] ∧
    ocCompressor fitEnv [((0, 0), .u (UTable.empty 0 0))] = .error .indexError ∧
    rangeCompressor fitEnv true [((0, 0), .u (UTable.empty 0 0))] = .error .indexError ∧
    ∃ m', pairCompressor fitEnv true false true false [((0, 0), .u (UTable.empty 0 0))] = .ok m' := by
  refine ⟨?_, by decide +kernel, by decide +kernel, _, rfl⟩
  intro t ht
  refine ⟨2, rfl, ?_⟩
  revert t
  decide

end Pacman.Driver
