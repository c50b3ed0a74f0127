import Verif.Proofs.CompressorDriver
import Verif.Props.PairCompressor
import Verif.Props.RangeCompressor
import Verif.Props.OrderedCovering
/-
Properties of running a compressor over all chips.
-/

namespace Pacman.Driver

open Pacman.Tables

/-- A collection of tables as `MulticastRoutingTables` keeps it (see C16): one table per chip. -/
def OnePerChip (m : TablesMap) : Prop :=
  ((tablesOf m).map (·.xy)).Nodup

/-! ### C13 -/

/-- **C13.** Compressing a collection of tables ends in one of three ways.  It returns a table for
exactly the chips that had one, each the untouched original (if that fitted and compression was not
forced) or made of exactly the entries the compressor returned; unless overflow is accepted, each
of them fits its router if the compressor is ordered.  Or it raises `MinimisationFailedError`, just
if some compressed table is too big, the compressor is ordered and overflow is not accepted.  Or it
raises what the compressor raised on one table, or fails for a chip which does not exist. -/
theorem C13_compress_tables (env : Env) (ordered acceptOverflow : Bool)
    (compress : Table → Except PyErr (List Entry)) (m : TablesMap) (hm : OnePerChip m) :
    (∃ m', compressTables env ordered acceptOverflow compress m = .ok m' ∧
      Dict.keys m' = (tablesOf m).map (·.xy) ∧
      (∀ t ∈ tablesOf m, ∃ nt, m'.get? t.xy = some nt ∧ nt.xy = t.xy ∧
        ((Untouched env t ∧ nt = t) ∨
         (¬ Untouched env t ∧ compress t = .ok nt.entries ∧
          nt.numberOfDefaultable = nt.entries.countP (·.defaultable)))) ∧
      (ordered = true → acceptOverflow = false → ∀ t ∈ tablesOf m, ∀ nt n,
        m'.get? t.xy = some nt → env.target t.xy = some n → nt.numberOfEntries ≤ n)) ∨
    (compressTables env ordered acceptOverflow compress m = .error .minimisationFailed ∧
      ordered = true ∧ acceptOverflow = false ∧
      ∃ t ∈ tablesOf m, ¬ Untouched env t ∧ ∃ es n, compress t = .ok es ∧
        env.target t.xy = some n ∧ n < es.length) ∨
    (∃ e, compressTables env ordered acceptOverflow compress m = .error e ∧
      ∃ t ∈ tablesOf m, (e = .keyError ∧ env.target t.xy = none) ∨
        (¬ Untouched env t ∧ compress t = .error e)) := by
  unfold compressTables
  rcases loop_cases env compress (tablesOf m) [] [] (by simpa [Dict.keys, OnePerChip] using hm) with
    ⟨m', ps', h1, h2, h3, h4⟩ | ⟨e, h1, h2⟩
  · rw [h1]
    simp only [bind, Except.bind, pure, Except.pure, List.nil_append]
    have hnd : (Dict.keys m').Nodup := by rw [h2]; exact hm
    by_cases hp : ps' = []
    · have hno := h4.1 hp
      left
      refine ⟨m', by simp [hp], h2, ?_, ?_⟩
      · intro t ht
        obtain ⟨nt, k1, k2, k3⟩ := h3 t ht
        refine ⟨nt, Dict.get?_of_mem hnd k1, k2, ?_⟩
        rcases k3 with k3 | ⟨k3, es, k4, rfl⟩
        · exact .inl k3
        · exact .inr ⟨k3, by rw [newTable_entries]; exact k4, by rw [newTable_eq]; rfl⟩
      · intro _ _ t ht nt n hnt hn
        obtain ⟨nt', k1, k2, k3⟩ := h3 t ht
        rw [Dict.get?_of_mem hnd k1] at hnt
        simp only [Option.some.injEq] at hnt
        subst hnt
        rcases k3 with ⟨⟨_, n', k4, k5⟩, rfl⟩ | ⟨k3, es, k4, rfl⟩
        · rw [hn] at k4
          simp only [Option.some.injEq] at k4
          omega
        · rw [newTable_n]
          apply Classical.byContradiction
          intro hlt
          exact hno t ht ⟨k3, es, n, k4, hn, by omega⟩
    · have hover : ∃ t ∈ tablesOf m, Over env compress t := by
        apply Classical.byContradiction
        intro hno
        apply hp
        apply h4.2
        intro t ht ho
        exact hno ⟨t, ht, ho⟩
      by_cases hc : ordered = true ∧ acceptOverflow = false
      · right; left
        obtain ⟨t, ht, ho⟩ := hover
        refine ⟨?_, hc.1, hc.2, t, ht, ho⟩
        rw [hc.1, hc.2]
        cases ps' with
        | nil => exact absurd rfl hp
        | cons => rfl
      · left
        refine ⟨m', ?_, h2, ?_, fun h h' => absurd ⟨h, h'⟩ hc⟩
        · rw [if_neg]
          intro h
          simp only [Bool.and_eq_true, Bool.not_eq_true'] at h
          exact hc h.2
        · intro t ht
          obtain ⟨nt, k1, k2, k3⟩ := h3 t ht
          refine ⟨nt, Dict.get?_of_mem hnd k1, k2, ?_⟩
          rcases k3 with k3 | ⟨k3, es, k4, rfl⟩
          · exact .inl k3
          · exact .inr ⟨k3, by rw [newTable_entries]; exact k4, by rw [newTable_eq]; rfl⟩
  · rw [h1]
    exact .inr (.inr ⟨e, rfl, h2⟩)

/-- Two chips: the first table fits and is untouched, the second is compressed. -/
def demoTables : TablesMap :=
  [((0, 0), .u ⟨0, 0, [((0x10, 0xFFFFFFFF), ⟨0x10, 0xFFFFFFFF, 3, false⟩)], 0⟩),
   ((0, 1), .u ⟨0, 1, [((0x10, 0xFFFFFFFF), ⟨0x10, 0xFFFFFFFF, 3, false⟩),
     ((0x11, 0xFFFFFFFF), ⟨0x11, 0xFFFFFFFF, 3, false⟩)], 0⟩)]

def demoEnv : Env := ⟨fun _ => some 1, false⟩

example : OnePerChip demoTables ∧ pairCompressor demoEnv true false true false demoTables =
    .ok [((0, 0), .u ⟨0, 0, [((0x10, 0xFFFFFFFF), ⟨0x10, 0xFFFFFFFF, 3, false⟩)], 0⟩),
      ((0, 1), .c ⟨0, 1, [⟨0x10, 0xFFFFFFFE, 3, false⟩], 0⟩)] := by
  constructor
  · unfold OnePerChip; decide
  · decide +kernel

/-! ### The compressors over all chips -/

/-- **C13 with C03.** Whatever `pair_compressor` returns, in any mode, has for each chip exactly one
table, which routes each key as the table given for the chip. -/
theorem C13_pair_all_chips (env : Env) (ordered acceptOverflow verify cSort : Bool) (m m' : TablesMap)
    (hm : OnePerChip m)
    (ht : ∀ t ∈ tablesOf m, AllValid t.entries ∧ RouteDisjoint t.entries)
    (h : pairCompressor env ordered acceptOverflow verify cSort m = .ok m') :
    Dict.keys m' = (tablesOf m).map (·.xy) ∧
    ∀ t ∈ tablesOf m, ∃ nt, m'.get? t.xy = some nt ∧ RoutesSame t.entries nt.entries ∧
      nt.entries.length ≤ t.entries.length := by
  have h' : compressTables env ordered acceptOverflow (pairTable env ordered cSort) m = .ok m' := by
    unfold pairCompressor at h
    cases hc : compressTables env ordered acceptOverflow (pairTable env ordered cSort) m with
    | error e => rw [hc] at h; simp [bind, Except.bind] at h
    | ok m2 =>
      rw [hc] at h
      simp only [bind, Except.bind, pure, Except.pure] at h
      split at h
      · split at h
        · simp at h
        · simp only [Except.ok.injEq] at h; rw [h]
      · simp only [Except.ok.injEq] at h; rw [h]
  rcases C13_compress_tables env ordered acceptOverflow (pairTable env ordered cSort) m hm with
    ⟨m2, h1, h2, h3, _⟩ | ⟨h1, _⟩ | ⟨e, h1, _⟩
  · rw [h'] at h1
    simp only [Except.ok.injEq] at h1
    subst h1
    refine ⟨h2, ?_⟩
    intro t htm
    obtain ⟨nt, k1, _, k3⟩ := h3 t htm
    refine ⟨nt, k1, ?_⟩
    rcases k3 with ⟨_, rfl⟩ | ⟨_, k4, _⟩
    · exact ⟨fun _ _ => rfl, Nat.le_refl _⟩
    · unfold pairTable Env.targetE at k4
      cases hn : env.target t.xy with
      | none => rw [hn] at k4; simp [bind, Except.bind] at k4
      | some n =>
        rw [hn] at k4
        simp only [bind, Except.bind] at k4
        exact ⟨Pair.C03_pair_preserves_routing ordered cSort n _ _ (ht t htm).1 (ht t htm).2 k4,
          Pair.C05_pair_never_grows ordered cSort n _ _ (ht t htm).1 k4⟩
  · rw [h'] at h1; simp at h1
  · rw [h'] at h1; simp at h1

/-- With `verify`, a result of `pair_compressor` fits every router, in every mode. -/
theorem C13_pair_verified_fits (env : Env) (ordered acceptOverflow cSort : Bool) (m m' : TablesMap)
    (h : pairCompressor env ordered acceptOverflow true cSort m = .ok m') :
    ∀ t ∈ tablesOf m', ∃ n, env.target t.xy = some n ∧ t.numberOfEntries ≤ n := by
  have hv : verifyLengths env m' = .ok () := by
    unfold pairCompressor at h
    cases hc : compressTables env ordered acceptOverflow (pairTable env ordered cSort) m with
    | error e => rw [hc] at h; simp [bind, Except.bind] at h
    | ok m2 =>
      rw [hc] at h
      simp only [bind, Except.bind, pure, Except.pure, if_true] at h
      cases hv : verifyLengths env m2 with
      | error e => rw [hv] at h; simp at h
      | ok u => rw [hv] at h; simp only [Except.ok.injEq] at h; rw [← h]; exact hv
  intro t ht
  have key : ∀ (l : List Table) (bs : List Bool),
      l.mapM (fun t => do let n ← env.targetE t.xy; pure (decide (t.numberOfEntries > n))) =
        (.ok bs : Except PyErr (List Bool)) → bs.any id = false →
      ∀ t ∈ l, ∃ n, env.target t.xy = some n ∧ t.numberOfEntries ≤ n := by
    intro l
    induction l with
    | nil => simp
    | cons a l ih =>
      intro bs hb hany
      rw [List.mapM_cons] at hb
      unfold Env.targetE at hb
      cases ha : env.target a.xy with
      | none => rw [ha] at hb; simp [bind, Except.bind] at hb
      | some n =>
        rw [ha] at hb
        simp only [bind, Except.bind, pure, Except.pure] at hb
        split at hb
        · simp at hb
        · rename_i bs' hbs'
          simp only [Except.ok.injEq] at hb
          subst hb
          simp only [List.any_cons, id, Bool.or_eq_false_iff, decide_eq_false_iff_not] at hany
          intro t ht
          rw [List.mem_cons] at ht
          rcases ht with rfl | ht
          · exact ⟨n, ha, by omega⟩
          · exact ih bs' hbs' hany.2 t ht
  unfold verifyLengths at hv
  cases hs : (tablesOf m').mapM (fun t => do
      let n ← env.targetE t.xy; pure (decide (t.numberOfEntries > n))) with
  | error e => rw [hs] at hv; simp [bind, Except.bind] at hv
  | ok bs =>
    rw [hs] at hv
    simp only [bind, Except.bind] at hv
    cases hb : bs.any id with
    | true => rw [hb] at hv; simp at hv
    | false => exact key _ bs hs hb t ht

/-- **C13 with C08 and C10.** Whatever the ordered covering compressor returns has for each chip
exactly one table, which fits, and which handles each key as its first match in the given table says, if that is ordered
as in C08, or leaves it to default routing where the first match is defaultable. -/
theorem C13_ordered_covering_narrow (env : Env) (m m' : TablesMap) (hm : OnePerChip m)
    (ht : ∀ t ∈ tablesOf m, AllValid t.entries ∧ NarrowFirst t.entries)
    (h : ocCompressor env m = .ok m') :
    Dict.keys m' = (tablesOf m).map (·.xy) ∧
    ∀ t ∈ tablesOf m, ∃ nt n, m'.get? t.xy = some nt ∧ env.target t.xy = some n ∧
      nt.numberOfEntries ≤ n ∧
      ∀ k o, lookup t.entries k = some o →
        routeOf nt.entries k = some o.route ∨
          (lookup nt.entries k = none ∧ o.defaultable = true) := by
  unfold ocCompressor at h
  rcases C13_compress_tables env true false (ocTable env) m hm with
    ⟨m2, h1, h2, h3, h4⟩ | ⟨h1, _⟩ | ⟨e, h1, _⟩
  · rw [h] at h1
    simp only [Except.ok.injEq] at h1
    subst h1
    refine ⟨h2, ?_⟩
    intro t htm
    obtain ⟨nt, k1, _, k3⟩ := h3 t htm
    have hn : ∃ n, env.target t.xy = some n := by
      cases hn : env.target t.xy with
      | some n => exact ⟨n, rfl⟩
      | none =>
        exfalso
        have hloop : ∀ (ts : List Table) (mm : TablesMap) ps r, t ∈ ts →
            compressLoop env (ocTable env) ts mm ps = .ok r → False := by
          intro ts
          induction ts with
          | nil => intro mm ps r h; simp at h
          | cons a ts ih =>
            intro mm ps r hmem hl
            rw [compressLoop] at hl
            rw [List.mem_cons] at hmem
            rcases hmem with rfl | hmem
            · unfold compressOne Env.targetE at hl
              rw [hn] at hl
              simp [bind, Except.bind] at hl
            · cases h1 : compressOne env (ocTable env) a with
              | error e => rw [h1] at hl; simp [bind, Except.bind] at hl
              | ok q =>
                rw [h1] at hl
                simp only [bind, Except.bind] at hl
                split at hl
                · simp at hl
                · exact ih _ _ _ hmem hl
        unfold compressTables at h
        cases hl : compressLoop env (ocTable env) (tablesOf m) [] [] with
        | error e => rw [hl] at h; simp [bind, Except.bind] at h
        | ok r => exact hloop _ _ _ r htm hl
    obtain ⟨n, hn⟩ := hn
    refine ⟨nt, n, k1, hn, h4 rfl rfl t htm nt n k1 hn, ?_⟩
    intro k o hk
    rcases k3 with ⟨_, rfl⟩ | ⟨_, k4, _⟩
    · left
      unfold routeOf
      rw [hk]
      rfl
    · unfold ocTable at k4
      split at k4
      · exact (OC.C08_compressor_preserves_routing _ _ none (ht t htm).1 (ht t htm).2
          (Nat.lt_succ_self _) _ k4).1 k o hk
      · unfold Env.targetE at k4
        rw [hn] at k4
        simp only [bind, Except.bind] at k4
        exact (OC.C08_compressor_preserves_routing _ _ (some n) (ht t htm).1 (ht t htm).2
          (Nat.lt_succ_self _) _ k4).1 k o hk
  · rw [h] at h1; simp at h1
  · rw [h] at h1; simp at h1

/-- **C13 with C08 and C10.** Whatever the ordered covering compressor returns has for each chip
exactly one table, which fits, and which handles each key of each entry of an orthogonal given table
as that entry says, or leaves it to default routing where the entry is defaultable. -/
theorem C13_ordered_covering_all_chips (env : Env) (m m' : TablesMap) (hm : OnePerChip m)
    (ht : ∀ t ∈ tablesOf m, AllValid t.entries ∧ Orthogonal t.entries)
    (h : ocCompressor env m = .ok m') :
    Dict.keys m' = (tablesOf m).map (·.xy) ∧
    ∀ t ∈ tablesOf m, ∃ nt n, m'.get? t.xy = some nt ∧ env.target t.xy = some n ∧
      nt.numberOfEntries ≤ n ∧
      ∀ o ∈ t.entries, ∀ k, o.Matches k →
        routeOf nt.entries k = some o.route ∨
          (lookup nt.entries k = none ∧ o.defaultable = true) := by
  obtain ⟨h1, h2⟩ := C13_ordered_covering_narrow env m m' hm
    (fun t htm => ⟨(ht t htm).1, narrow_of_orthogonal (ht t htm).1 (ht t htm).2⟩) h
  refine ⟨h1, fun t htm => ?_⟩
  obtain ⟨nt, n, k1, k2, k3, k4⟩ := h2 t htm
  exact ⟨nt, n, k1, k2, k3, fun o ho k hk => k4 k o (OC.lookup_orthogonal (ht t htm).2 ho hk)⟩

example : ocCompressor demoEnv demoTables =
    .ok [((0, 0), .u ⟨0, 0, [((0x10, 0xFFFFFFFF), ⟨0x10, 0xFFFFFFFF, 3, false⟩)], 0⟩),
      ((0, 1), .c ⟨0, 1, [⟨0x10, 0xFFFFFFFE, 3, false⟩], 0⟩)] := by decide +kernel

/-- The range compressor returns for a table with an entry and contiguous masks. -/
theorem rangeTable_ok {env : Env} {t : Table} {n : Nat} (hn : env.target t.xy = some n) (hv : AllValid t.entries)
    (hne : t.entries ≠ []) (hc : ∀ e ∈ t.entries, Range.Contiguous e.mask) :
    ∃ nt, rangeTable env t = .ok nt ∧ nt.xy = t.xy ∧ RoutesSame t.entries nt.entries ∧
      nt.entries.length ≤ t.entries.length := by
  unfold rangeTable
  have hval : ∃ b, Range.validate (stableSort (fun a b => decide (a.key.toNat ≤ b.key.toNat)) t.entries)
      (stableSort (fun a b => decide (a.key.toNat ≤ b.key.toNat)) t.entries).length 0 = .ok b := by
    obtain ⟨t', h1, _⟩ := Range.C06_range_preserves_routing t.entries.length true 0 t.entries hv hc
      hne (Nat.le_refl _)
    unfold Range.compressTable at h1
    simp only [Bool.true_eq_false, false_and, if_false] at h1
    split at h1
    · simp at h1
    · rename_i h; exact ⟨_, h⟩
    · rename_i h; exact ⟨_, h⟩
  obtain ⟨b, hval⟩ := hval
  have hnn : ∃ n', rangeTarget env t.xy = .ok n' := by
    unfold rangeTarget Env.targetE
    rw [hn]
    split
    · exact ⟨0, rfl⟩
    · exact ⟨n, rfl⟩
  obtain ⟨n', hn'⟩ := hnn
  rw [hn']
  simp only [bind, Except.bind, pure, Except.pure]
  split
  · exact ⟨t, rfl, rfl, fun _ _ => rfl, Nat.le_refl _⟩
  · rw [hval]
    simp only
    cases b with
    | false =>
      exact ⟨t, rfl, rfl, fun _ _ => rfl, Nat.le_refl _⟩
    | true =>
      obtain ⟨t', h1, h2, h3, _⟩ := Range.C06_range_preserves_routing t.entries.length env.asFar n'
        t.entries hv hc hne (Nat.le_refl _)
      simp only [if_true]
      rw [h1]
      refine ⟨newTable t.xy t', rfl, newTable_xy _ _, ?_, ?_⟩
      · rw [newTable_entries]; exact h2
      · rw [newTable_entries]; exact h3

/-- **C13 with C06.** On tables with contiguous masks that are not empty, `range_compressor` with
overflow accepted always returns, for each chip one table with the same routing. -/
theorem C13_range_all_chips (env : Env) (m : TablesMap) (hm : OnePerChip m)
    (hchip : ∀ t ∈ tablesOf m, ∃ n, env.target t.xy = some n)
    (ht : ∀ t ∈ tablesOf m, AllValid t.entries ∧ t.entries ≠ [] ∧
      ∀ e ∈ t.entries, Range.Contiguous e.mask) :
    ∃ m', rangeCompressor env true m = .ok m' ∧
      Dict.keys m' = (tablesOf m).map (·.xy) ∧
      ∀ t ∈ tablesOf m, ∃ nt, (t.xy, nt) ∈ m' ∧ RoutesSame t.entries nt.entries ∧
        nt.entries.length ≤ t.entries.length := by
  have hone : ∀ t ∈ tablesOf m, ∃ nt, rangeTable env t = .ok nt ∧ nt.xy = t.xy ∧
      RoutesSame t.entries nt.entries ∧ nt.entries.length ≤ t.entries.length := by
    intro t htm
    obtain ⟨n, hn⟩ := hchip t htm
    obtain ⟨hv, hne, hc⟩ := ht t htm
    exact rangeTable_ok hn hv hne hc
  have hloop : ∀ (ts : List Table) (mm : TablesMap),
      (∀ t ∈ ts, t ∈ tablesOf m) → (Dict.keys mm ++ ts.map (·.xy)).Nodup →
      ∃ m', rangeLoop env true ts mm = .ok (mm ++ m') ∧ Dict.keys m' = ts.map (·.xy) ∧
        ∀ t ∈ ts, ∃ nt, (t.xy, nt) ∈ m' ∧ RoutesSame t.entries nt.entries ∧
          nt.entries.length ≤ t.entries.length := by
    intro ts
    induction ts with
    | nil => intro mm _ _; exact ⟨[], by simp [rangeLoop], rfl, by simp⟩
    | cons t ts ih =>
      intro mm hsub hn
      obtain ⟨nt, k1, k2, k3, k4⟩ := hone t (hsub t (by simp))
      obtain ⟨n, hnt⟩ := hchip t (hsub t (by simp))
      rw [rangeLoop, k1]
      have htE : env.targetE t.xy = .ok n := by unfold Env.targetE; rw [hnt]
      simp only [bind, Except.bind]
      rw [htE]
      simp only [Bool.true_eq_false, and_false, if_false]
      have hnew : nt.xy ∉ Dict.keys mm := by
        rw [k2]
        rw [List.map_cons] at hn
        exact nodup_append_cons hn
      rw [addTable_new hnew]
      simp only
      obtain ⟨m', j1, j2, j3⟩ := ih (mm ++ [(nt.xy, nt)]) (fun t ht => hsub t (by simp [ht])) (by
        simp only [Dict.keys, List.map_append, List.map_cons, List.map_nil, List.append_assoc,
          List.singleton_append, k2] at hn ⊢
        exact hn)
      refine ⟨(nt.xy, nt) :: m', ?_, ?_, ?_⟩
      · rw [j1]; simp
      · simp only [Dict.keys, List.map_cons] at j2 ⊢
        rw [j2, k2]
      · intro t' ht'
        rw [List.mem_cons] at ht'
        rcases ht' with rfl | ht'
        · exact ⟨nt, by rw [k2]; simp, k3, k4⟩
        · obtain ⟨nt', i1, i2⟩ := j3 t' ht'
          exact ⟨nt', by simp [i1], i2⟩
  obtain ⟨m', h1, h2, h3⟩ := hloop (tablesOf m) [] (fun _ h => h) (by simpa [Dict.keys, OnePerChip] using hm)
  exact ⟨m', by simpa [rangeCompressor] using h1, h2, h3⟩

example : rangeCompressor ⟨fun _ => some 1, true⟩ true
    [((0, 1), .u ⟨0, 1, [((0x10, 0xFFFFFFFE), ⟨0x10, 0xFFFFFFFE, 3, false⟩),
      ((0x12, 0xFFFFFFFE), ⟨0x12, 0xFFFFFFFE, 3, false⟩)], 0⟩)] =
    .ok [((0, 1), .c ⟨0, 1, [⟨0x10, 0xFFFFFFFC, 3, false⟩], 0⟩)] := by decide +kernel

theorem rangeLoop_overflow {env : Env} : ∀ (ts : List Table) (mm m' : TablesMap), (∀ t ∈ ts, ∃ n, env.target t.xy = some n) →
    rangeLoop env true ts mm = .ok m' →
    ((∀ t ∈ ts, ∀ nt n, rangeTable env t = .ok nt → env.target t.xy = some n → nt.numberOfEntries ≤ n) →
      rangeLoop env false ts mm = .ok m') ∧
    ((∃ t ∈ ts, ∃ nt n, rangeTable env t = .ok nt ∧ env.target t.xy = some n ∧ n < nt.numberOfEntries) →
      rangeLoop env false ts mm = .error .minimisationFailed)
  | [], mm, m', _, h => ⟨fun _ => h, fun ⟨t, ht, _⟩ => by cases ht⟩
  | t :: ts, mm, m', hc, h => by
    obtain ⟨n, hn⟩ := hc t List.mem_cons_self
    have htE : env.targetE t.xy = .ok n := by unfold Env.targetE; rw [hn]
    rw [rangeLoop] at h ⊢
    cases hr : rangeTable env t with
    | error e => rw [hr] at h; simp [bind, Except.bind] at h
    | ok nt =>
      rw [hr] at h
      simp only [bind, Except.bind, htE, Bool.true_eq_false, and_false, if_false] at h
      simp only [bind, Except.bind, htE, and_true]
      cases ha : addTable mm nt with
      | error e => rw [ha] at h; cases h
      | ok m1 =>
        rw [ha] at h
        obtain ⟨i1, i2⟩ := rangeLoop_overflow ts m1 m' (fun t' ht' => hc t' (List.mem_cons_of_mem _ ht')) h
        constructor
        · intro hall
          rw [if_neg (by have := hall t List.mem_cons_self nt n hr hn; omega)]
          exact i1 (fun t' ht' => hall t' (List.mem_cons_of_mem _ ht'))
        · rintro ⟨t', ht', nt', n', k1, k2, k3⟩
          by_cases hb : nt.numberOfEntries > n
          · rw [if_pos hb]
          · rw [if_neg hb]
            rcases List.mem_cons.1 ht' with rfl | ht'
            · rw [hr] at k1
              rw [hn] at k2
              cases k1; cases k2
              omega
            · exact i2 ⟨t', ht', nt', n', k1, k2, k3⟩

theorem rangeLoop_tables {env : Env} : ∀ (ts : List Table) (mm m' : TablesMap),
    (∀ t ∈ ts, ∀ nt, rangeTable env t = .ok nt → nt.xy = t.xy) → rangeLoop env true ts mm = .ok m' →
    (∀ p ∈ mm, p ∈ m') ∧ ∀ t ∈ ts, ∃ nt, rangeTable env t = .ok nt ∧ (t.xy, nt) ∈ m'
  | [], mm, m', _, h => by
    rw [rangeLoop] at h
    cases h
    exact ⟨fun _ hp => hp, fun t ht => by cases ht⟩
  | t :: ts, mm, m', hx, h => by
    rw [rangeLoop] at h
    cases hr : rangeTable env t with
    | error e => rw [hr] at h; simp [bind, Except.bind] at h
    | ok nt =>
      rw [hr] at h
      simp only [bind, Except.bind, Bool.true_eq_false, and_false, if_false] at h
      split at h
      · cases h
      · cases ha : addTable mm nt with
        | error e => rw [ha] at h; cases h
        | ok m1 =>
          rw [ha] at h
          obtain ⟨i1, i2⟩ := rangeLoop_tables ts m1 m' (fun t' ht' => hx t' (List.mem_cons_of_mem _ ht')) h
          have hm1 : m1 = mm ++ [(nt.xy, nt)] := by
            have hk : nt.xy ∉ Dict.keys mm := by
              intro hk
              unfold addTable at ha
              cases hg : mm.get? nt.xy with
              | some x => rw [hg] at ha; cases ha
              | none => exact (Dict.get?_eq_none.1 hg) hk
            rw [addTable_new hk] at ha
            cases ha
            rfl
          have hxy := hx t List.mem_cons_self nt hr
          refine ⟨fun p hp => i1 p (by rw [hm1]; exact List.mem_append_left _ hp), fun t' ht' => ?_⟩
          rcases List.mem_cons.1 ht' with rfl | ht'
          · exact ⟨nt, hr, i1 _ (by rw [hm1, hxy]; exact List.mem_append_right _ List.mem_cons_self)⟩
          · exact i2 t' ht'

/-- **C13 with C06.** On the same tables, what `range_compressor` returns with overflow accepted it returns without, too, if all
of the tables fit the routers; and it raises `MinimisationFailedError` if one does not. -/
theorem C13_range_overflow (env : Env) (m m' : TablesMap) (hm : OnePerChip m)
    (hchip : ∀ t ∈ tablesOf m, ∃ n, env.target t.xy = some n)
    (ht : ∀ t ∈ tablesOf m, AllValid t.entries ∧ t.entries ≠ [] ∧
      ∀ e ∈ t.entries, Range.Contiguous e.mask)
    (h : rangeCompressor env true m = .ok m') :
    ((∀ t ∈ tablesOf m, ∀ nt n, m'.get? t.xy = some nt → env.target t.xy = some n → nt.numberOfEntries ≤ n) →
      rangeCompressor env false m = .ok m') ∧
    ((∃ t ∈ tablesOf m, ∃ nt n, m'.get? t.xy = some nt ∧ env.target t.xy = some n ∧ n < nt.numberOfEntries) →
      rangeCompressor env false m = .error .minimisationFailed) := by
  obtain ⟨m1, h1, h2, -⟩ := C13_range_all_chips env m hm hchip ht
  rw [h] at h1
  cases h1
  have hnd : (Dict.keys m').Nodup := by rw [h2]; exact hm
  have hx : ∀ t ∈ tablesOf m, ∀ nt, rangeTable env t = .ok nt → nt.xy = t.xy := by
    intro t htm nt hr
    obtain ⟨n, hn⟩ := hchip t htm
    obtain ⟨nt', k1, k2, -⟩ := rangeTable_ok hn (ht t htm).1 (ht t htm).2.1 (ht t htm).2.2
    rw [hr] at k1
    cases k1
    exact k2
  obtain ⟨-, hall⟩ := rangeLoop_tables (tablesOf m) [] m' hx h
  obtain ⟨o1, o2⟩ := rangeLoop_overflow (tablesOf m) [] m' hchip h
  constructor
  · intro hf
    refine o1 (fun t htm nt n hr hn => ?_)
    obtain ⟨nt', k1, k2⟩ := hall t htm
    rw [hr] at k1
    cases k1
    exact hf t htm nt n (Dict.get?_of_mem hnd k2) hn
  · rintro ⟨t, htm, nt, n, hg, hn, hlt⟩
    obtain ⟨nt', k1, k2⟩ := hall t htm
    rw [Dict.get?_of_mem hnd k2] at hg
    cases hg
    exact o2 ⟨t, htm, nt, n, k1, hn, hlt⟩

example : rangeCompressor ⟨fun _ => some 0, true⟩ false
    [((0, 1), .u ⟨0, 1, [((0x10, 0xFFFFFFFE), ⟨0x10, 0xFFFFFFFE, 3, false⟩),
      ((0x12, 0xFFFFFFFE), ⟨0x12, 0xFFFFFFFE, 3, false⟩)], 0⟩)] = .error .minimisationFailed := by decide +kernel

/-- **C13 with C06.** Asked to compress as far as possible, the range compressor compresses tables that fit, too: each table
gets the entries that C06 speaks of. -/
theorem C13_range_as_far (env : Env) (hf : env.asFar = true) (t nt : Table) (h : rangeTable env t = .ok nt) :
    Range.compressTable t.entries.length true 0 t.entries = .ok nt.entries := by
  unfold rangeTable rangeTarget at h
  rw [hf] at h
  simp only [bind, Except.bind, pure, Except.pure, if_true, Bool.true_eq_false, false_and, if_false] at h
  unfold Range.compressTable at h ⊢
  simp only [Bool.true_eq_false, false_and, if_false] at h ⊢
  split at h
  · cases h
  · rename_i b hv
    rw [hv]
    cases b with
    | false =>
      simp only [Bool.false_eq_true, if_false] at h
      cases h
      rfl
    | true =>
      simp only [if_true] at h
      rw [hv] at h
      simp only at h
      split at h
      · cases h
      · rename_i es he
        cases h
        rw [newTable_entries]
        exact he

theorem rangeTable_apart {env : Env} {t nt : Table} (hv : AllValid t.entries) (hne : t.entries ≠ [])
    (hc : ∀ e ∈ t.entries, Range.Contiguous e.mask) (ho : Orthogonal t.entries)
    (h : rangeTable env t = .ok nt) :
    AllValid nt.entries ∧ NarrowFirst nt.entries ∧ (∀ e ∈ nt.entries, e.defaultable = true → e ∈ t.entries) ∧
      (Range.OddSingles t.entries → Orthogonal nt.entries) := by
  unfold rangeTable at h
  cases hn : rangeTarget env t.xy with
  | error e => rw [hn] at h; cases h
  | ok n =>
    rw [hn] at h
    simp only [bind, Except.bind, pure, Except.pure] at h
    split at h
    · cases h; exact ⟨hv, narrow_of_orthogonal hv ho, fun e he _ => he, fun _ => ho⟩
    · split at h
      · cases h
      · split at h
        · split at h
          · cases h
          · rename_i es hes
            cases h
            rw [newTable_entries]
            obtain ⟨t', h1, -, -, h3, -⟩ := Range.C06_range_preserves_routing t.entries.length env.asFar n t.entries hv hc
              hne (Nat.le_refl _)
            rw [hes] at h1
            cases h1
            obtain ⟨k1, k2⟩ := Range.C134_range_narrow_first _ _ _ _ _ hv hc hne (Nat.le_refl _) ho hes
            exact ⟨h3, k1, k2, fun h2 =>
              (Range.C07_range_output_disjoint_partial _ _ _ _ _ hv hc hne (Nat.le_refl _) ho h2 hes).2.1⟩
        · cases h; exact ⟨hv, narrow_of_orthogonal hv ho, fun e he _ => he, fun _ => ho⟩

/-- **C13 with C07.** On such tables, in which no key is matched twice, what `range_compressor` returns may be given to
ordered covering: there is one table for each chip, where a key is matched twice in it the later entry looks at no more
bits, and what is defaultable in it was so in the table given. If no entry is for a single even key, no key is matched
twice in it, so it may be given to any compressor. -/
theorem C13_range_apart (env : Env) (m m' : TablesMap) (hm : OnePerChip m)
    (hchip : ∀ t ∈ tablesOf m, ∃ n, env.target t.xy = some n)
    (ht : ∀ t ∈ tablesOf m, AllValid t.entries ∧ t.entries ≠ [] ∧ ∀ e ∈ t.entries, Range.Contiguous e.mask)
    (ho : ∀ t ∈ tablesOf m, Orthogonal t.entries)
    (h : rangeCompressor env true m = .ok m') :
    OnePerChip m' ∧ (∀ nt ∈ tablesOf m', AllValid nt.entries ∧ NarrowFirst nt.entries) ∧
    ((∀ t ∈ tablesOf m, Range.OddSingles t.entries) → ∀ nt ∈ tablesOf m', Orthogonal nt.entries) ∧
    ∀ t ∈ tablesOf m, ∃ nt, nt ∈ tablesOf m' ∧ nt.xy = t.xy ∧ m'.get? t.xy = some nt ∧ RoutesSame t.entries nt.entries ∧
      nt.entries.length ≤ t.entries.length ∧ ∀ e ∈ nt.entries, e.defaultable = true → e ∈ t.entries := by
  obtain ⟨m1, h1, h2, h3⟩ := C13_range_all_chips env m hm hchip ht
  rw [h] at h1
  cases h1
  have hnd : (Dict.keys m').Nodup := by rw [h2]; exact hm
  have hx : ∀ t ∈ tablesOf m, ∀ nt, rangeTable env t = .ok nt → nt.xy = t.xy := by
    intro t htm nt hr
    obtain ⟨n, hn⟩ := hchip t htm
    obtain ⟨nt', k1, k2, -⟩ := rangeTable_ok hn (ht t htm).1 (ht t htm).2.1 (ht t htm).2.2
    rw [hr] at k1
    cases k1
    exact k2
  obtain ⟨-, hall⟩ := rangeLoop_tables (tablesOf m) [] m' hx h
  have hfrom : ∀ p ∈ m', ∃ t ∈ tablesOf m, p.1 = t.xy ∧ rangeTable env t = .ok p.2 := by
    intro p hp
    have : p.1 ∈ Dict.keys m' := List.mem_map.mpr ⟨p, hp, rfl⟩
    rw [h2] at this
    obtain ⟨t, htm, hxy⟩ := List.mem_map.mp this
    obtain ⟨nt, k1, k2⟩ := hall t htm
    have e1 := Dict.get?_of_mem hnd k2
    have e2 := Dict.get?_of_mem hnd (show (p.1, p.2) ∈ m' from hp)
    rw [← hxy, e1] at e2
    cases e2
    exact ⟨t, htm, hxy.symm, k1⟩
  have hxys : (tablesOf m').map (·.xy) = Dict.keys m' := by
    unfold tablesOf Dict.keys
    rw [List.map_map]
    refine List.map_congr_left (fun p hp => ?_)
    obtain ⟨t, htm, e1, e2⟩ := hfrom p hp
    show p.2.xy = p.1
    rw [e1]
    exact hx t htm _ e2
  refine ⟨by unfold OnePerChip; rw [hxys]; exact hnd, fun nt hnt => ?_, fun hodd nt hnt => ?_, fun t htm => ?_⟩
  · obtain ⟨p, hp, rfl⟩ := List.mem_map.mp hnt
    obtain ⟨t, htm, -, e2⟩ := hfrom p hp
    obtain ⟨k1, k2, -⟩ := rangeTable_apart (ht t htm).1 (ht t htm).2.1 (ht t htm).2.2 (ho t htm) e2
    exact ⟨k1, k2⟩
  · obtain ⟨p, hp, rfl⟩ := List.mem_map.mp hnt
    obtain ⟨t, htm, -, e2⟩ := hfrom p hp
    obtain ⟨-, -, -, k4⟩ := rangeTable_apart (ht t htm).1 (ht t htm).2.1 (ht t htm).2.2 (ho t htm) e2
    exact k4 (hodd t htm)
  · obtain ⟨nt, k1, k2⟩ := hall t htm
    obtain ⟨nt', i1, i2, i3⟩ := h3 t htm
    have e1 := Dict.get?_of_mem hnd k2
    rw [Dict.get?_of_mem hnd i1] at e1
    cases e1
    obtain ⟨-, -, j3, -⟩ := rangeTable_apart (ht t htm).1 (ht t htm).2.1 (ht t htm).2.2 (ho t htm) k1
    exact ⟨nt, List.mem_map.mpr ⟨_, k2, rfl⟩, hx t htm _ k1, Dict.get?_of_mem hnd k2, i2, i3, j3⟩

/-- Three of the four entries become one, whose keys are more than theirs. -/
def twiceTables : TablesMap :=
  [((0, 1), .u ⟨0, 1, [((0x10, 0xFFFFFFFE), ⟨0x10, 0xFFFFFFFE, 3, false⟩),
    ((0x12, 0xFFFFFFFE), ⟨0x12, 0xFFFFFFFE, 3, true⟩), ((0x15, 0xFFFFFFFF), ⟨0x15, 0xFFFFFFFF, 3, true⟩),
    ((0x1C, 0xFFFFFFFC), ⟨0x1C, 0xFFFFFFFC, 5, true⟩)], 2⟩)]

example : OnePerChip twiceTables ∧ (∀ t ∈ tablesOf twiceTables, Range.OddSingles t.entries) ∧
    rangeCompressor ⟨fun _ => some 1, true⟩ true twiceTables =
      .ok [((0, 1), .c ⟨0, 1, [⟨0x10, 0xFFFFFFF8, 3, false⟩, ⟨0x1C, 0xFFFFFFFC, 5, true⟩], 1⟩)] := by
  refine ⟨by unfold OnePerChip; decide, ?_, by decide +kernel⟩
  unfold Range.OddSingles
  decide

/-- **C134.** Range compression followed by ordered covering and the removal of default routes: whatever comes out
for a table in which no key is matched twice handles each key of each entry as the entry says, or leaves it unmatched
where the entry is defaultable. -/
theorem C134_range_then_covering (fuel fuel' : Nat) (asFar : Bool) (target : Nat) (n : Option Nat) (t t' t'' : List Entry)
    (hv : AllValid t) (hc : ∀ e ∈ t, Range.Contiguous e.mask) (hne : t ≠ []) (hfuel : t.length ≤ fuel)
    (hfuel' : t.length < fuel') (ho : Orthogonal t) (h : Range.compressTable fuel asFar target t = .ok t')
    (h' : OC.compressTable fuel' t' n = .ok t'') :
    ∀ o ∈ t, ∀ k, o.Matches k →
      routeOf t'' k = some o.route ∨ (lookup t'' k = none ∧ o.defaultable = true) := by
  intro o hot k hk
  obtain ⟨t1, h1, hs, hlen, hv', _⟩ := Range.C06_range_preserves_routing fuel asFar target t hv hc hne hfuel
  rw [h] at h1; cases h1
  obtain ⟨hn, hd⟩ := Range.C134_range_narrow_first fuel asFar target t t' hv hc hne hfuel ho h
  have hlk := OC.lookup_orthogonal ho hot hk
  have hro : routeOf t k = some o.route := by unfold routeOf; rw [hlk]; rfl
  have hrn : routeOf t' k = some o.route := by rw [hs k (by rw [hro]; simp), hro]
  unfold routeOf at hrn
  cases hln : lookup t' k with
  | none => rw [hln] at hrn; cases hrn
  | some e =>
    rw [hln] at hrn
    simp only [Option.map_some, Option.some.injEq] at hrn
    have hen : e ∈ t' := by unfold lookup at hln; exact List.mem_of_find?_eq_some hln
    have hex : e.Matches k := by unfold lookup at hln; simpa using List.find?_some hln
    rcases (OC.C08_compressor_preserves_routing fuel' t' n hv' hn (by omega) t'' h').1 k e hln with q | ⟨q1, q2⟩
    · exact Or.inl (by rw [q, hrn])
    · have := OC.lookup_orthogonal ho (hd e hen q2) hex
      rw [hlk] at this
      cases this
      exact Or.inr ⟨q1, q2⟩

/-- A table whose range compressed entries share key 4, as in `C07_range_then_pair_misroutes`. -/
example : Orthogonal Range.demo ∧ Range.compressTable 4 true 1023 Range.demo =
      .ok [⟨4, 0xFFFFFFFF, 1, false⟩, ⟨4, 0xFFFFFFFC, 2, false⟩] ∧
    OC.compressTable 5 [⟨4, 0xFFFFFFFF, 1, false⟩, ⟨4, 0xFFFFFFFC, 2, false⟩] none =
      .ok [⟨4, 0xFFFFFFFF, 1, false⟩, ⟨4, 0xFFFFFFFC, 2, false⟩] :=
  ⟨Range.C07_range_then_pair_misroutes.2.2.1, by decide +kernel, by decide +kernel⟩

end Pacman.Driver
