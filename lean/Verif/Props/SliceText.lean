import Verif.Proofs.SliceText
import Verif.Props.Slices
/-
C113 and C114: slices as strings, and equality of slices.
-/

namespace Pacman.SliceText

open Text

/-! ### C113 -/

/-- Slices that the constructors make are those of the specification, and the other way round. -/
theorem made_iff (s : S) :
    Made s ↔ (∃ lo hi, mkSlice lo hi = .ok s) ∨ ∃ lo hi shape start atoms, mkMD lo hi shape start atoms = .ok s := by
  have hmk : ∀ lo n : Nat, 0 < n → mkSlice lo ((lo : Int) + n - 1) = .ok ⟨lo, n, none⟩ := by
    intro lo n hn
    unfold mkSlice
    rw [if_neg (by omega), if_neg (by omega)]
    have h1 : ((lo : Int)).toNat = lo := by omega
    have h2 : ((lo : Int) + n - 1 - lo + 1).toNat = n := by omega
    rw [h1, h2]
  have hinv : ∀ {lo hi : Int} {s : S}, mkSlice lo hi = .ok s → 0 < s.n ∧ s.md = none := by
    intro lo hi s h
    unfold mkSlice at h
    split at h
    · cases h
    · split at h
      · cases h
      · cases h
        refine ⟨?_, rfl⟩
        show 0 < (hi - lo + 1).toNat
        omega
  constructor
  · intro h
    cases hd : s.md with
    | none =>
      refine Or.inl ⟨s.lo, (s.lo : Int) + s.n - 1, ?_⟩
      rw [hmk _ _ h.1, ← hd]
    | some d =>
      refine Or.inr ⟨s.lo, (s.lo : Int) + s.n - 1, d.shape, d.start, d.atoms, ?_⟩
      unfold mkMD
      rw [hmk _ _ h.1]
      dsimp only
      rw [if_neg (fun hne => hne (h.2 d hd))]
      cases s
      cases hd
      rfl
  · rintro (⟨lo, hi, h⟩ | ⟨lo, hi, shape, start, atoms, h⟩)
    · obtain ⟨h1, h2⟩ := hinv h
      refine ⟨h1, fun d hd => ?_⟩
      rw [h2] at hd
      cases hd
    · unfold mkMD at h
      cases h1 : mkSlice lo hi with
      | error e => rw [h1] at h; cases h
      | ok t =>
        rw [h1] at h
        dsimp only at h
        split at h
        · cases h
        · rename_i hlen
          cases h
          refine ⟨(hinv h1).1, fun d hd => ?_⟩
          cases hd
          exact Decidable.of_not_not hlen

/-- C113, one dimension: the string of a `Slice` is read back as the same slice, by both classes. -/
theorem C113_plain {s : S} (hs : Made s) (hd : s.md = none) :
    fromString s.str = .ok s ∧ fromStringMD s.str = .ok s := by
  have hstr : s.str = rangeStr s.lo ((s.lo : Int) + s.n - 1) := by
    unfold S.str
    rw [hd]
  have hf : fromString s.str = .ok s := by
    rw [hstr, fromString_range]
    have hn := hs.1
    unfold mkSlice
    rw [if_neg (by omega), if_neg (by omega)]
    have h1 : ((s.lo : Int)).toNat = s.lo := by omega
    have h2 : ((s.lo : Int) + s.n - 1 - s.lo + 1).toNat = s.n := by omega
    rw [h1, h2, ← hd]
  refine ⟨hf, ?_⟩
  rw [← hf, hstr, rangeStr_eq]
  unfold fromStringMD
  dsimp only
  rw [if_pos rfl]

example : Made ⟨7, 12, none⟩ ∧ (S.str ⟨7, 12, none⟩ = lit "(7:18)") ∧ fromString (lit "(7:18)") = .ok ⟨7, 12, none⟩ := by
  refine ⟨⟨by decide, fun d hd => by cases hd⟩, by decide, by decide⟩

/-- C113, several dimensions: the string of an `MDSlice` is read back as the same slice exactly if the vertex has at least two
dimensions and the slice as many atoms as its sizes say. -/
theorem C113_md_iff {s : S} {d : Dims} (hs : Made s) (hd : s.md = some d) :
    fromStringMD s.str = .ok s ↔ 2 ≤ d.atoms.length ∧ prod d.shape = (s.n : Int) := by
  rw [fromStringMD_str hs hd]
  by_cases h2 : d.atoms.length < 2
  · rw [if_pos h2]
    constructor
    · intro h; cases h
    · intro h; omega
  · rw [if_neg h2]
    have hlen := hs.2 d hd
    have hn := hs.1
    unfold mkMD mkSlice
    rw [if_neg (by omega)]
    by_cases hp : prod d.shape ≤ 0
    · rw [if_pos (by omega)]
      constructor
      · intro h; cases h
      · intro h; omega
    · rw [if_neg (by omega)]
      dsimp only
      rw [if_neg (fun hne => hne hlen)]
      have h1 : ((s.lo : Int)).toNat = s.lo := by omega
      rw [h1]
      constructor
      · intro h
        injection h with h
        refine ⟨by omega, ?_⟩
        have : s.n = ((s.lo : Int) + prod d.shape - 1 - s.lo + 1).toNat := by rw [← h]
        omega
      · rintro ⟨-, h⟩
        have h3 : ((s.lo : Int) + prod d.shape - 1 - s.lo + 1).toNat = s.n := by omega
        rw [h3]
        cases s
        cases hd
        rfl

example : Made ⟨9, 9, some ⟨[3, 3], [3, 0], [6, 12]⟩⟩ ∧
    S.str ⟨9, 9, some ⟨[3, 3], [3, 0], [6, 12]⟩⟩ = lit "9(6, 12)(3:6)(0:3)" ∧
    fromStringMD (lit "9(6, 12)(3:6)(0:3)") = .ok ⟨9, 9, some ⟨[3, 3], [3, 0], [6, 12]⟩⟩ := by
  refine ⟨⟨by decide, fun d hd => by cases hd; rfl⟩, by decide, by decide⟩

/-- C113, what happens otherwise: a vertex of one dimension (whose tuple is written with a comma at the end) raises, and `Slice`
reads no string of an `MDSlice`. -/
theorem C113_raises {s : S} {d : Dims} (hs : Made s) (hd : s.md = some d) :
    (d.atoms.length < 2 → fromStringMD s.str = .error .valueError) ∧
    (2 ≤ d.atoms.length → prod d.shape ≤ 0 → fromStringMD s.str = .error .pacmanValueError) ∧
    fromString s.str = .error .notImplemented := by
  refine ⟨fun h => ?_, fun h hp => ?_, ?_⟩
  · rw [fromStringMD_str hs hd, if_pos h]
  · rw [fromStringMD_str hs hd, if_neg (by omega)]
    unfold mkMD mkSlice
    rw [if_neg (by omega), if_pos (by omega)]
  · have hne := intStr_ne_nil (s.lo : Int)
    have hm := not_mem_intStr (a := (s.lo : Int)) (c := '(') (by decide) (by decide)
    unfold S.str
    rw [hd]
    dsimp only
    generalize intStr (s.lo : Int) = l at hne hm
    cases l with
    | nil => exact absurd rfl hne
    | cons c cs =>
      unfold fromString
      exact if_pos (fun he : c = '(' => hm (by rw [← he]; exact List.mem_cons_self ..))

/-- C113 is false: an `MDSlice` of a vertex with one dimension is written to a string that cannot be read. -/
theorem C113_one_dimension_false :
    mkMD 0 4 [5] [0] [5] = .ok ⟨0, 5, some ⟨[5], [0], [5]⟩⟩ ∧ S.str ⟨0, 5, some ⟨[5], [0], [5]⟩⟩ = lit "0(5,)(0:5)" ∧
    fromStringMD (lit "0(5,)(0:5)") = .error .valueError := by decide

/-- C113 is false: an `MDSlice` whose number of atoms is not the product of its sizes (as in test_mdslice.py:82) is read back as
another slice. -/
theorem C113_size_false :
    mkMD 22 89 [2, 3, 2] [4, 3, 0] [6, 9, 4] = .ok ⟨22, 68, some ⟨[2, 3, 2], [4, 3, 0], [6, 9, 4]⟩⟩ ∧
    fromStringMD (S.str ⟨22, 68, some ⟨[2, 3, 2], [4, 3, 0], [6, 9, 4]⟩⟩)
      = .ok ⟨22, 12, some ⟨[2, 3, 2], [4, 3, 0], [6, 9, 4]⟩⟩ := by decide

theorem prod_cast (l : List Nat) : prod (l.map (fun a : Nat => (a : Int))) = ((Slices.prod l : Nat) : Int) := by
  induction l with
  | nil => rfl
  | cons a l ih =>
    rw [List.map_cons, prod, ih, Slices.prod, Int.natCast_mul]

/-- C113, partial: slices that have the atoms of their sizes are read back, if their vertex has several dimensions. Missing: the
others, for which it is false. -/
theorem C113_partial {s : S} (hs : Made s) (hf : Full s) (h2 : Several s) : fromStringMD s.str = .ok s := by
  cases hd : s.md with
  | none => exact (C113_plain hs hd).2
  | some d => exact (C113_md_iff hs hd).mpr ⟨h2 d hd, hf d hd⟩

theorem mem_contiguous {lo : Nat} {ss : List Slices.Slice} (h : Slices.Contiguous lo ss) : ∀ s ∈ ss, 0 < s.n := by
  induction ss generalizing lo with
  | nil => intro s hs; cases hs
  | cons a ss ih =>
    intro s hs
    rcases List.mem_cons.mp hs with h1 | h1
    · rw [h1]; exact h.2.1
    · exact ih h.2.2.2 s h1

theorem singleLoop_plain {n total : Nat} (k lo : Nat) {ss : List Slices.Slice} (h : Slices.singleLoop n total k lo = .ok ss) :
    ∀ s ∈ ss, 0 < s.n ∧ s.dims = none := by
  induction k generalizing lo ss with
  | zero => cases h; intro s hs; cases hs
  | succ k ih =>
    rw [Slices.singleLoop] at h
    cases h1 : Slices.mkSlice lo (min n (lo + total)) none with
    | error e => rw [h1] at h; cases h
    | ok t =>
      rw [h1] at h
      dsimp only at h
      cases h2 : Slices.singleLoop n total k (min n (lo + total)) with
      | error e => rw [h2] at h; cases h
      | ok ts =>
        rw [h2] at h
        cases h
        intro s hs
        rcases List.mem_cons.mp hs with h3 | h3
        · unfold Slices.mkSlice at h1
          split at h1
          · cases h1
          · cases h1
            rw [h3]
            refine ⟨?_, rfl⟩
            show 0 < min n (lo + total) - lo
            omega
        · exact ih _ h2 s h3

theorem singleSlices_plain {v : Slices.Vertex} {ss : List Slices.Slice} (h : Slices.singleSlices v = .ok ss) :
    ∀ s ∈ ss, 0 < s.n ∧ s.dims = none := by
  unfold Slices.singleSlices at h
  cases h1 : Slices.maxAtoms v with
  | error e => rw [h1] at h; cases h
  | ok m =>
    rw [h1] at h
    dsimp only [bind, Except.bind] at h
    split at h
    · cases h2 : Slices.mkSlice 0 v.nAtoms none with
      | error e => rw [h2] at h; cases h
      | ok t =>
        rw [h2] at h
        cases h
        unfold Slices.mkSlice at h2
        split at h2
        · cases h2
        · cases h2
          intro s hs
          rw [List.mem_singleton.mp hs]
          refine ⟨?_, rfl⟩
          show 0 < v.nAtoms - 0
          omega
    · cases h2 : Slices.maxPerDim v with
      | error e => rw [h2] at h; cases h
      | ok per =>
        rw [h2] at h
        dsimp only at h
        cases h3 : getE per 0 with
        | error e => rw [h3] at h; cases h
        | ok t =>
          rw [h3] at h
          dsimp only at h
          split at h
          · cases h
          · exact singleLoop_plain _ _ h

/-- C113 for the slices of vertices: every slice that the slicing of a vertex makes is written to a string that is read back as the
same slice. -/
theorem C113_vertices {v : Slices.Vertex} {ss : List Slices.Slice} (h : Slices.multiSlices v = .ok ss) (h0 : v.shape ≠ []) :
    ∀ s ∈ ss, fromStringMD (ofSlice s).str = .ok (ofSlice s) := by
  intro s hs
  by_cases hl : v.shape.length = 1
  · have h1 : Slices.singleSlices v = .ok ss := by
      unfold Slices.multiSlices at h
      cases h1 : Slices.maxPerDim v with
      | error e => rw [h1] at h; cases h
      | ok per =>
        rw [h1] at h
        dsimp only [bind, Except.bind] at h
        split at h
        · cases h
        · exact h
    obtain ⟨hn, hd⟩ := singleSlices_plain h1 s hs
    have hm : (ofSlice s).md = none := by unfold ofSlice; rw [hd]; rfl
    exact (C113_plain ⟨hn, fun d hd' => by rw [hm] at hd'; cases hd'⟩ hm).2
  · have hv := Slices.C44_only_valid h
    obtain ⟨ss', h1, -, h2, h3, -⟩ := Slices.C44_slices_tile hv hl
    rw [h] at h1
    cases h1
    have hn := mem_contiguous h2 s hs
    obtain ⟨hw, hp⟩ := h3 s hs
    have hlen : ∀ {a : Nat}, v.shape.length = a → 2 ≤ a := by
      intro a ha
      cases hsh : v.shape with
      | nil => exact absurd hsh h0
      | cons x xs =>
        cases xs with
        | nil => rw [hsh] at hl; exact absurd rfl hl
        | cons y ys => rw [← ha, hsh]; simp only [List.length_cons]; omega
    refine C113_partial ⟨hn, ?_⟩ ?_ ?_
    · intro d hd
      unfold ofSlice at hd
      cases hdims : s.dims with
      | none => rw [hdims] at hd; cases hd
      | some ds => rw [hdims] at hd; cases hd; simp only [List.length_map]
    · intro d hd
      unfold ofSlice at hd
      cases hdims : s.dims with
      | none => rw [hdims] at hd; cases hd
      | some ds =>
        rw [hdims] at hd
        cases hd
        show prod (ds.map (fun d => (d.2.1 : Int))) = (s.n : Int)
        rw [(hp ds hdims).1, ← prod_cast, List.map_map]
        rfl
    · intro d hd
      unfold ofSlice at hd
      cases hdims : s.dims with
      | none => rw [hdims] at hd; cases hd
      | some ds =>
        rw [hdims] at hd
        cases hd
        show 2 ≤ (ds.map (fun d => (d.2.2 : Int))).length
        rw [List.length_map, (hw.2 ds hdims).1, Slices.per_length hv]
        exact hlen rfl

/-- C113: different slices of a vertex have different strings. -/
theorem C113_strings_differ {v : Slices.Vertex} {ss : List Slices.Slice} (h : Slices.multiSlices v = .ok ss) (h0 : v.shape ≠ [])
    {s t : Slices.Slice} (hs : s ∈ ss) (ht : t ∈ ss) (he : (ofSlice s).str = (ofSlice t).str) : ofSlice s = ofSlice t := by
  have h1 := C113_vertices h h0 s hs
  have h2 := C113_vertices h h0 t ht
  rw [he, h2] at h1
  injection h1 with h1
  exact h1.symm

example : ∃ ss, Slices.multiSlices ⟨[6, 4], some [3, 2]⟩ = .ok ss ∧ ss.map (fun s => (ofSlice s).str)
    = [lit "0(6, 4)(0:3)(0:2)", lit "6(6, 4)(3:6)(0:2)", lit "12(6, 4)(0:3)(2:4)", lit "18(6, 4)(3:6)(2:4)"] := by
  refine ⟨_, rfl, ?_⟩
  decide +kernel

/-! ### C114 -/

/-- C114: two slices are equal (by `==`) exactly if all of their fields are and they are of the same class; so equality is
reflexive, symmetric and transitive. -/
theorem C114_eq_iff (a b : S) : eq a b = true ↔ a = b := by
  have hplain : ∀ {a b : S}, eqSlice a b = true → a.lo = b.lo ∧ a.shape = b.shape ∧ a.start = b.start ∧ a.n = b.n := by
    intro a b h
    unfold eqSlice at h
    split at h
    · cases h
    · split at h
      · cases h
      · split at h
        · cases h
        · rename_i h1 h2 h3
          exact ⟨Decidable.of_not_not h1, Decidable.of_not_not h2, Decidable.of_not_not h3, of_decide_eq_true h⟩
  have hrefl : ∀ a : S, eqSlice a a = true := by
    intro a
    unfold eqSlice
    rw [if_neg (fun h => h rfl), if_neg (fun h => h rfl), if_neg (fun h => h rfl)]
    exact decide_eq_true rfl
  constructor
  · intro h
    unfold eq at h
    obtain ⟨lo, n, md⟩ := a
    obtain ⟨lo', n', md'⟩ := b
    cases md with
    | none =>
      cases md' with
      | none =>
        obtain ⟨h1, -, -, h4⟩ := hplain h
        cases h1
        cases h4
        rfl
      | some e => cases h
    | some d =>
      cases md' with
      | none => cases h
      | some e =>
        unfold eqMD at h
        dsimp only at h
        split at h
        · cases h
        · rename_i h1
          obtain ⟨h2, h3, h4, h5⟩ := hplain (Bool.of_not_eq_false h1)
          obtain ⟨sh, st, at_⟩ := d
          obtain ⟨sh', st', at_'⟩ := e
          have h6 : sh = sh' := h3
          have h7 : st = st' := h4
          have h8 : at_ = at_' := of_decide_eq_true h
          have h9 : lo = lo' := h2
          have h10 : n = n' := h5
          rw [h6, h7, h8, h9, h10]
  · intro h
    rw [← h]
    unfold eq
    obtain ⟨lo, n, md⟩ := a
    cases md with
    | none => exact hrefl _
    | some d =>
      unfold eqMD
      dsimp only
      rw [if_neg (by rw [hrefl]; decide)]
      exact decide_eq_true rfl

example : eq ⟨0, 5, none⟩ ⟨0, 5, some ⟨[5], [0], [5]⟩⟩ = false ∧ eq ⟨0, 5, some ⟨[5], [0], [5]⟩⟩ ⟨0, 5, none⟩ = false ∧
    eq ⟨0, 5, some ⟨[5], [0], [5]⟩⟩ ⟨0, 5, some ⟨[5], [0], [5]⟩⟩ = true := by decide

/-- C114: equal slices have equal hashes. -/
theorem C114_hash {a b : S} (h : eq a b = true) : hash a = hash b := by rw [(C114_eq_iff a b).mp h]

/-- C114: slices that are written to the same string and can be read back are equal. -/
theorem C114_string {a b : S} (ha : Made a) (hfa : Full a) (h2a : Several a) (hb : Made b) (hfb : Full b) (h2b : Several b) :
    eq a b = true ↔ a.str = b.str := by
  rw [C114_eq_iff]
  constructor
  · intro h; rw [h]
  · intro h
    have h1 := C113_partial ha hfa h2a
    rw [h, C113_partial hb hfb h2b] at h1
    injection h1 with h1
    exact h1.symm

/-- C114, the end: in a `Slice` it is one after the last index, in an `MDSlice` the last index of each dimension. -/
theorem C114_end (s : S) :
    (s.md = none → s.end_ = s.dimension.map (·.2)) ∧ (∀ d, s.md = some d → s.end_ = s.dimension.map (fun x => x.2 - 1)) := by
  refine ⟨fun h => ?_, fun d h => ?_⟩
  · unfold S.end_ S.dimension S.start S.shape
    rw [h]
    rfl
  · unfold S.end_ S.dimension S.start S.shape
    rw [h]
    dsimp only
    rw [List.map_map]
    rfl

/-- C114, the ends of the same atoms differ between the two classes. -/
theorem C114_end_false : S.end_ ⟨0, 5, none⟩ = [5] ∧ S.end_ ⟨0, 5, some ⟨[5], [0], [5]⟩⟩ = [4] ∧
    S.dimension ⟨0, 5, none⟩ = S.dimension ⟨0, 5, some ⟨[5], [0], [5]⟩⟩ := by decide

end Pacman.SliceText
