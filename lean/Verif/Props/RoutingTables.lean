import Verif.Proofs.RoutingTables
/-
Properties of routing tables and collections of them. `same` is `MulticastRoutingEntry.__eq__`.
-/

namespace Pacman.Tables

/-! ### C14 -/

/-- A sequence of additions, exceptions caught: the table and what each call did. -/
def runAdds (same : Entry → Entry → Bool) : UTable → List Entry → UTable × List (Except PyErr Unit)
  | t, [] => (t, [])
  | t, e :: es =>
    match t.add same e with
    | .ok t' => let r := runAdds same t' es; (r.1, .ok () :: r.2)
    | .error x => let r := runAdds same t es; (r.1, .error x :: r.2)

/-- The specification: a partial function from key/mask to entry, in which an entry once accepted
stays, an equal one is accepted without effect and a different one is refused. -/
def specAdds (same : Entry → Entry → Bool) : (Word × Word → Option Entry) → List Entry →
    (Word × Word → Option Entry) × List (Except PyErr Unit)
  | f, [] => (f, [])
  | f, e :: es =>
    match f (e.key, e.mask) with
    | none =>
      let r := specAdds same (fun km => if km = (e.key, e.mask) then some e else f km) es
      (r.1, .ok () :: r.2)
    | some old =>
      let r := specAdds same f es
      (r.1, (if same old e then .ok () else .error .alreadyExists) :: r.2)

theorem runAdds_spec (same : Entry → Entry → Bool) :
    ∀ (es : List Entry) (t : UTable) (f : Word × Word → Option Entry), UInv t →
      (∀ km, t.entries.get? km = f km) →
      UInv (runAdds same t es).1 ∧ (runAdds same t es).2 = (specAdds same f es).2 ∧
      (∀ km, (runAdds same t es).1.entries.get? km = (specAdds same f es).1 km) ∧
      (runAdds same t es).1.x = t.x ∧ (runAdds same t es).1.y = t.y := by
  intro es
  induction es with
  | nil => intro t f hI hf; exact ⟨hI, rfl, hf, rfl, rfl⟩
  | cons e es ih =>
    intro t f hI hf
    rw [runAdds, specAdds, ← hf]
    cases hg : t.entries.get? (e.key, e.mask) with
    | none =>
      have hadd : t.add same e = .ok { t with
          entries := t.entries.set (e.key, e.mask) e
          nDefaulted := if e.defaultable then t.nDefaulted + 1 else t.nDefaulted } := by
        unfold UTable.add; rw [hg]
      rw [hadd]
      simp only
      have := ih _ (fun km => if km = (e.key, e.mask) then some e else f km) (uinv_add hI hadd) (by
        intro km
        simp only [Dict.get?_set]
        by_cases h : km = (e.key, e.mask)
        · rw [if_pos h.symm, if_pos h]
        · rw [if_neg (Ne.symm h), if_neg h, hf])
      refine ⟨this.1, ?_, this.2.2.1, this.2.2.2⟩
      rw [this.2.1]
    | some old =>
      simp only
      have hadd : t.add same e = if same old e then .ok t else .error .alreadyExists := by
        unfold UTable.add; rw [hg]
      rw [hadd]
      have := ih t f hI hf
      cases hs : same old e
      · simp only [Bool.false_eq_true, if_false]
        refine ⟨this.1, ?_, this.2.2⟩
        rw [this.2.1]
      · simp only [if_true]
        refine ⟨this.1, ?_, this.2.2⟩
        rw [this.2.1]

/-- **C14.** After any sequence of additions an uncompressed table is the map of the specification,
each call returned or raised as the specification says, the entries listed are exactly those of
the map, one per key/mask, and the counts are right. -/
theorem C14_uncompressed_is_map (same : Entry → Entry → Bool) (x y : Nat) (es : List Entry) :
    let t := (runAdds same (UTable.empty x y) es).1
    let f := (specAdds same (fun _ => none) es).1
    (runAdds same (UTable.empty x y) es).2 = (specAdds same (fun _ => none) es).2 ∧
    (∀ e, e ∈ t.values ↔ f (e.key, e.mask) = some e) ∧
    (t.values.map (fun e => (e.key, e.mask))).Nodup ∧
    (Table.u t).numberOfEntries = t.values.length ∧
    (Table.u t).numberOfDefaultable = t.values.countP (·.defaultable) ∧
    (Table.u t).xy = (x, y) := by
  obtain ⟨hI, ho, hf, hx, hy⟩ := runAdds_spec same es (UTable.empty x y) (fun _ => none)
    (uinv_empty x y) (fun km => rfl)
  simp only
  refine ⟨ho, ?_, ?_, ?_, ?_, ?_⟩
  · intro e
    rw [← hf]
    constructor
    · intro he
      unfold UTable.values at he
      obtain ⟨p, hp, rfl⟩ := List.mem_map.1 he
      rw [← hI.own p hp]
      exact Dict.get?_of_mem hI.nodup hp
    · intro he
      exact List.mem_map.2 ⟨_, Dict.mem_of_get? he, rfl⟩
  · rw [← keys_eq_of_uinv hI]; exact hI.nodup
  · simp [Table.numberOfEntries, UTable.values]
  · simp only [Table.numberOfDefaultable, hI.count, UTable.values, List.countP_map]
    rfl
  · simp only [Table.xy, hx, hy]; rfl

/-- **C14**, one call: an addition that raises leaves the table unchanged (the model returns no
table then), one with an equal entry returns the same table. -/
theorem C14_repeat_unchanged (same : Entry → Entry → Bool) (t t' : UTable) (e : Entry)
    (hr : same e e = true) (h : t.add same e = .ok t') : t'.add same e = .ok t' := by
  unfold UTable.add at h
  split at h
  · rename_i old ho
    split at h
    · rename_i hs
      simp only [Except.ok.injEq] at h
      subst h
      unfold UTable.add
      rw [ho]; simp [hs]
    · simp at h
  · simp only [Except.ok.injEq] at h
    subst h
    unfold UTable.add
    simp only [Dict.get?_set_self, hr, if_true]

/-- Three calls: accepted, accepted without effect, refused. -/
example : (runAdds (fun a b => decide (a = b)) (UTable.empty 0 1)
    [⟨0x10, 0xFFFFFFF0, 1, true⟩, ⟨0x10, 0xFFFFFFF0, 1, true⟩, ⟨0x10, 0xFFFFFFF0, 2, true⟩]) =
    (⟨0, 1, [((0x10, 0xFFFFFFF0), ⟨0x10, 0xFFFFFFF0, 1, true⟩)], 1⟩,
      [.ok (), .ok (), .error .alreadyExists]) := by decide +kernel

/-! ### C15 -/

/-- **C15** is false of the code: tables of different chips in the same column (or row) are equal if
their entries are, compressed or not. -/
theorem C15_different_chips_equal (same : Entry → Entry → Bool) (hr : ∀ e, same e e = true) :
    ∃ a b : UTable, (a.x, a.y) ≠ (b.x, b.y) ∧ UTable.eq same a b = true ∧
    ∃ c d : CTable, (c.x, c.y) ≠ (d.x, d.y) ∧ CTable.eq same c d = true := by
  refine ⟨⟨0, 0, [((1, 1), ⟨1, 1, 1, false⟩)], 0⟩, ⟨0, 5, [((1, 1), ⟨1, 1, 1, false⟩)], 0⟩,
    by decide, ?_, ⟨0, 0, [⟨1, 1, 1, false⟩], 0⟩, ⟨0, 5, [⟨1, 1, 1, false⟩], 0⟩, by decide, ?_⟩
  · simp [UTable.eq, dictEq, Dict.get?, hr]
  · simp [CTable.eq, hr]

/-- **C15**, what holds: equal uncompressed tables share a coordinate, and hold the same key/masks with equal
entries. Missing from C15: that both coordinates agree, which is false. -/
theorem C15_equal_tables_partial (same : Entry → Entry → Bool) (a b : UTable) (ha : UInv a)
    (h : UTable.eq same a b = true) :
    (a.x = b.x ∨ a.y = b.y) ∧
    (∀ km e, a.entries.get? km = some e → ∃ e', b.entries.get? km = some e' ∧ same e e' = true) ∧
    (∀ km, a.entries.get? km = none → b.entries.get? km = none) := by
  unfold UTable.eq at h
  split at h
  · simp at h
  · rename_i hc
    unfold dictEq at h
    simp only [Bool.and_eq_true, beq_iff_eq, List.all_eq_true] at h
    have h2 : ∀ km e, a.entries.get? km = some e →
        ∃ e', b.entries.get? km = some e' ∧ same e e' = true := by
      intro km e he
      have := h.2 (km, e) (Dict.mem_of_get? he)
      simp only at this
      split at this
      · rename_i v hv; exact ⟨v, hv, this⟩
      · simp at this
    refine ⟨by omega, h2, ?_⟩
    intro km hkm
    rw [Dict.get?_eq_none] at hkm ⊢
    have hsub : Dict.keys a.entries ⊆ Dict.keys b.entries := by
      intro k hk
      cases hg : a.entries.get? k with
      | none => exact absurd hk (Dict.get?_eq_none.1 hg)
      | some e =>
        obtain ⟨e', he', _⟩ := h2 k e hg
        exact List.mem_map.2 ⟨_, Dict.mem_of_get? he', rfl⟩
    intro hb'
    have hlen := List.Nodup.length_le_of_subset (l₁ := km :: Dict.keys a.entries)
      (l₂ := Dict.keys b.entries) (List.nodup_cons.2 ⟨hkm, ha.nodup⟩)
      (List.cons_subset.2 ⟨hb', hsub⟩)
    simp only [List.length_cons, Dict.keys, List.length_map] at hlen
    omega

/-- **C15**, compressed tables: equal ones share a coordinate and hold equal entries in the same
order. -/
theorem C15_equal_compressed_partial (same : Entry → Entry → Bool) (a b : CTable)
    (h : CTable.eq same a b = true) :
    (a.x = b.x ∨ a.y = b.y) ∧ a.entries.length = b.entries.length ∧
    ∀ (i : Nat) (e e' : Entry), a.entries[i]? = some e → b.entries[i]? = some e' → same e e' = true := by
  unfold CTable.eq at h
  split at h
  · simp at h
  · rename_i hc
    simp only [Bool.and_eq_true, beq_iff_eq, List.all_eq_true] at h
    refine ⟨by omega, h.1, ?_⟩
    intro i e e' he he'
    have : (e, e') ∈ a.entries.zip b.entries := by
      rw [List.mem_iff_getElem?]
      exact ⟨i, by rw [List.getElem?_zip_eq_some]; exact ⟨he, he'⟩⟩
    exact h.2 _ this

example : UTable.eq (fun a b => decide (a = b))
    ⟨0, 0, [((1, 1), ⟨1, 1, 1, false⟩), ((2, 2), ⟨2, 2, 3, false⟩)], 0⟩
    ⟨0, 0, [((2, 2), ⟨2, 2, 3, false⟩), ((1, 1), ⟨1, 1, 1, false⟩)], 0⟩ = true := by decide +kernel

/-! ### C16 -/

/-- A sequence of additions of tables, exceptions caught. -/
def runTables : TablesMap → List Table → TablesMap × List (Except PyErr Unit)
  | m, [] => (m, [])
  | m, t :: ts =>
    match addTable m t with
    | .ok m' => let r := runTables m' ts; (r.1, .ok () :: r.2)
    | .error x => let r := runTables m ts; (r.1, .error x :: r.2)

/-- The specification: the first table for a chip is kept, later ones are refused. -/
def specTables : (XY → Option Table) → List Table → (XY → Option Table) × List (Except PyErr Unit)
  | f, [] => (f, [])
  | f, t :: ts =>
    match f t.xy with
    | none =>
      let r := specTables (fun xy => if xy = t.xy then some t else f xy) ts
      (r.1, .ok () :: r.2)
    | some _ =>
      let r := specTables f ts
      (r.1, .error .alreadyExists :: r.2)

theorem runTables_spec : ∀ (ts : List Table) (m : TablesMap) (f : XY → Option Table), MInv m →
      (∀ xy, m.get? xy = f xy) →
      MInv (runTables m ts).1 ∧ (runTables m ts).2 = (specTables f ts).2 ∧
      (∀ xy, (runTables m ts).1.get? xy = (specTables f ts).1 xy) := by
  intro ts
  induction ts with
  | nil => intro m f hI hf; exact ⟨hI, rfl, hf⟩
  | cons t ts ih =>
    intro m f hI hf
    rw [runTables, specTables, ← hf]
    cases hg : m.get? t.xy with
    | none =>
      have hadd : addTable m t = .ok (m.set t.xy t) := by unfold addTable; rw [hg]
      rw [hadd]
      simp only
      have := ih _ (fun xy => if xy = t.xy then some t else f xy) (minv_add hI hadd) (by
        intro xy
        rw [Dict.get?_set]
        by_cases h : xy = t.xy
        · rw [if_pos h.symm, if_pos h]
        · rw [if_neg (Ne.symm h), if_neg h, hf])
      refine ⟨this.1, ?_, this.2.2⟩
      rw [this.2.1]
    | some old =>
      have hadd : addTable m t = .error .alreadyExists := by unfold addTable; rw [hg]
      rw [hadd]
      simp only
      have := ih m f hI hf
      refine ⟨this.1, ?_, this.2.2⟩
      rw [this.2.1]

/-- **C16.** After any sequence of additions the collection has at most one table per chip, lookup
gives the table accepted for the chip, the tables listed are exactly the accepted ones, and the
maximum and total are those of the tables listed. -/
theorem C16_one_table_per_chip (ts : List Table) :
    let m := (runTables [] ts).1
    let f := (specTables (fun _ => none) ts).1
    (runTables [] ts).2 = (specTables (fun _ => none) ts).2 ∧
    (∀ xy, tableFor m xy = f xy) ∧
    (∀ t, t ∈ tablesOf m ↔ f t.xy = some t) ∧
    ((tablesOf m).map (·.xy)).Nodup ∧
    (∀ t ∈ tablesOf m, t.numberOfEntries ≤ maxNumberOfEntries m) ∧
    (tablesOf m ≠ [] → ∃ t ∈ tablesOf m, t.numberOfEntries = maxNumberOfEntries m) ∧
    (tablesOf m = [] → maxNumberOfEntries m = 0) ∧
    totalNumberOfEntries m = ((tablesOf m).map (·.numberOfEntries)).sum := by
  obtain ⟨hI, ho, hf⟩ := runTables_spec ts [] (fun _ => none) minv_nil (fun _ => rfl)
  simp only
  refine ⟨ho, hf, ?_, ?_, ?_, ?_, ?_, ?_⟩
  · intro t
    rw [← hf]
    constructor
    · intro ht
      obtain ⟨p, hp, rfl⟩ := List.mem_map.1 ht
      rw [← hI.own p hp]
      exact Dict.get?_of_mem hI.nodup hp
    · intro ht
      exact List.mem_map.2 ⟨_, Dict.mem_of_get? ht, rfl⟩
  · have h1 := hI.nodup
    have h2 : (tablesOf (runTables [] ts).1).map (·.xy) = Dict.keys (runTables [] ts).1 := by
      unfold tablesOf Dict.keys
      rw [List.map_map]
      apply List.map_congr_left
      intro p hp
      exact (hI.own p hp).symm
    rw [h2]; exact h1
  · intro t ht
    unfold maxNumberOfEntries
    split
    · rename_i he
      rw [List.isEmpty_iff] at he
      rw [he] at ht
      simp [tablesOf] at ht
    · exact (maxOf_spec _).1 _ (List.mem_map.2 ⟨t, ht, rfl⟩)
  · intro hne
    unfold maxNumberOfEntries
    split
    · rename_i he
      rw [List.isEmpty_iff] at he
      rw [he] at hne
      simp [tablesOf] at hne
    · obtain ⟨t, ht, he⟩ := List.mem_map.1 ((maxOf_spec ((tablesOf (runTables [] ts).1).map
        (·.numberOfEntries))).2 (by simpa using hne))
      exact ⟨t, ht, he⟩
  · intro he
    unfold maxNumberOfEntries
    rw [he]
    split <;> rfl
  · unfold totalNumberOfEntries
    split
    · rename_i he
      rw [List.isEmpty_iff] at he
      rw [he]; rfl
    · rfl

example : (runTables [] [.c ⟨0, 0, [⟨1, 1, 1, false⟩], 0⟩, .c ⟨0, 1, [], 0⟩, .c ⟨0, 0, [], 0⟩]) =
    ([((0, 0), .c ⟨0, 0, [⟨1, 1, 1, false⟩], 0⟩), ((0, 1), .c ⟨0, 1, [], 0⟩)],
      [.ok (), .ok (), .error .alreadyExists]) := by decide +kernel

/-! ### C54, routing tables -/

/-- **C54**, routing tables: reading back the JSON of a collection of uncompressed tables gives the
same collection: same chips in the same order, with the same entries in the same order. -/
theorem C54_tables_round_trip (same : Entry → Entry → Bool) (m : TablesMap) (hm : MInv m)
    (h : ∀ p ∈ m, ∃ u, p.2 = .u u ∧ UInv u ∧ ∀ e ∈ u.values, e.key &&& e.mask = e.key) :
    fromJson same [] (toJson m) = .ok m := by
  have := fromJson_ok same m [] (by simpa using hm) h
  simpa using this

/-- The hypotheses are met by every collection made by `runTables` from tables made by `runAdds`
from valid entries. -/
theorem C54_tables_reachable (same : Entry → Entry → Bool) (ts : List (Nat × Nat × List Entry))
    (hv : ∀ t ∈ ts, ∀ e ∈ t.2.2, e.key &&& e.mask = e.key) :
    let m := (runTables [] (ts.map (fun t => .u (runAdds same (UTable.empty t.1 t.2.1) t.2.2).1))).1
    fromJson same [] (toJson m) = .ok m := by
  simp only
  have hall := C16_one_table_per_chip
    (ts.map (fun t => Table.u (runAdds same (UTable.empty t.1 t.2.1) t.2.2).1))
  simp only at hall
  have key : ∀ (l : List Table) (f : XY → Option Table) (Q : Table → Prop),
      (∀ xy t, f xy = some t → Q t) → (∀ t ∈ l, Q t) → ∀ xy t, (specTables f l).1 xy = some t → Q t := by
    intro l
    induction l with
    | nil => intro f Q hf _ xy t h; exact hf xy t h
    | cons a l ih =>
      intro f Q hf hl
      rw [specTables]
      split
      · apply ih _ Q _ (fun t ht => hl t (by simp [ht]))
        intro xy t h
        split at h
        · simp only [Option.some.injEq] at h; subst h; exact hl _ (by simp)
        · exact hf xy t h
      · exact ih f Q hf (fun t ht => hl t (by simp [ht]))
  have keyE : ∀ (l : List Entry) (f : Word × Word → Option Entry) (Q : Entry → Prop),
      (∀ km e, f km = some e → Q e) → (∀ e ∈ l, Q e) → ∀ km e, (specAdds same f l).1 km = some e → Q e := by
    intro l
    induction l with
    | nil => intro f Q hf _ km e h; exact hf km e h
    | cons a l ih =>
      intro f Q hf hl
      rw [specAdds]
      split
      · apply ih _ Q _ (fun t ht => hl t (by simp [ht]))
        intro km e h
        split at h
        · simp only [Option.some.injEq] at h; subst h; exact hl _ (by simp)
        · exact hf km e h
      · exact ih f Q hf (fun t ht => hl t (by simp [ht]))
  obtain ⟨hI, _, _⟩ := runTables_spec
    (ts.map (fun t => Table.u (runAdds same (UTable.empty t.1 t.2.1) t.2.2).1)) [] (fun _ => none)
    minv_nil (fun _ => rfl)
  refine C54_tables_round_trip same _ hI ?_
  intro p hp
  have hpm : p.2 ∈ tablesOf (runTables [] (ts.map (fun t =>
      Table.u (runAdds same (UTable.empty t.1 t.2.1) t.2.2).1))).1 := List.mem_map.2 ⟨p, hp, rfl⟩
  have hf := (hall.2.2.1 p.2).1 hpm
  refine key _ (fun _ => none) (fun t => ∃ u, t = .u u ∧ UInv u ∧ ∀ e ∈ u.values, e.key &&& e.mask = e.key)
    (by simp) ?_ _ _ hf
  intro t ht
  obtain ⟨a, ha, rfl⟩ := List.mem_map.1 ht
  refine ⟨_, rfl, (runAdds_spec same a.2.2 _ (fun _ => none) (uinv_empty _ _) (fun _ => rfl)).1, ?_⟩
  intro e he
  have := (C14_uncompressed_is_map same a.1 a.2.1 a.2.2).2.1 e
  exact keyE a.2.2 (fun _ => none) (fun e => e.key &&& e.mask = e.key) (by simp) (hv a ha) _ _
    (this.1 he)

example : toJson [((3, 4), .u ⟨3, 4, [((0x10, 0xFFFFFFF0), ⟨0x10, 0xFFFFFFF0, 9, true⟩)], 1⟩)] =
    [⟨3, 4, [(16, 4294967280, true, 9)]⟩] := by decide +kernel

end Pacman.Tables
