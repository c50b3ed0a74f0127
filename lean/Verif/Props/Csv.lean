import Verif.Proofs.Csv
import Verif.Props.RoutingTables
import Verif.Props.RouteWord
/-
C115 and C116: reading and writing routing entries as text.
-/

namespace Pacman.Csv

open Text Tables

/-! ### C115 -/

/-- No two entries have the same key and mask but not the same route. -/
def Agree (es : List (Word × Word × Nat)) : Prop := ∀ a ∈ es, ∀ b ∈ es, a.1 = b.1 → a.2.1 = b.2.1 → a = b

theorem mem_values {t : UTable} (hI : UInv t) (e : Entry) : e ∈ t.values ↔ t.entries.get? (e.key, e.mask) = some e := by
  constructor
  · intro he
    unfold UTable.values at he
    obtain ⟨p, hp, rfl⟩ := List.mem_map.1 he
    rw [← hI.own p hp]
    exact Dict.get?_of_mem hI.nodup hp
  · intro he
    exact List.mem_map.2 ⟨_, Dict.mem_of_get? he, rfl⟩

/-- Reading on from a table: what is in the table afterwards, and when there is one. -/
theorem rows_spec {same : Entry → Entry → Bool} (hsame : ∀ a b, same a b = true ↔ a = b)
    {mk : Int → Int → Int → Except PyErr Entry} (hmk : Contract mk) {rs : List (List Str)} {es : List (Word × Word × Nat)}
    (h : Read rs es) (t : UTable) (hI : UInv t) :
    ((∃ t', rows same mk t rs = .ok t') ↔ (∀ e ∈ es, Fits e) ∧ Agree es ∧
      ∀ e ∈ es, ∀ x, t.entries.get? (e.1, e.2.1) = some x → x = entry e) ∧
    (∀ t', rows same mk t rs = .ok t' → UInv t' ∧ t'.x = t.x ∧ t'.y = t.y ∧
      ∀ x, x ∈ t'.values ↔ x ∈ t.values ∨ ∃ e ∈ es, entry e = x) := by
  induction h generalizing t with
  | nil =>
    refine ⟨⟨fun _ => ⟨fun e he => (nomatch he), fun a ha => (nomatch ha), fun e he => (nomatch he)⟩, fun _ => ⟨t, rfl⟩⟩, ?_⟩
    intro t' ht
    rw [rows] at ht
    cases ht
    refine ⟨hI, rfl, rfl, fun x => ⟨Or.inl, ?_⟩⟩
    rintro (h | ⟨e, he, -⟩)
    · exact h
    · cases he
  | other ho _ ih =>
    rw [rows_other ho]
    exact ih t hI
  | @holds r rs es k m w hh hr ih =>
    by_cases hf : Fits (k, m, w)
    · rw [rows_holds hmk hh hf]
      cases hg : t.entries.get? (k, m) with
      | some old =>
        by_cases hs : old = entry (k, m, w)
        · have hadd : t.add same (entry (k, m, w)) = .ok t := by
            unfold UTable.add
            rw [show t.entries.get? ((entry (k, m, w)).key, (entry (k, m, w)).mask) = some old from hg]
            exact if_pos ((hsame _ _).mpr hs)
          rw [hadd]
          show ((∃ t', rows same mk t rs = .ok t') ↔ _) ∧ (∀ t', rows same mk t rs = .ok t' → _)
          obtain ⟨ih1, ih2⟩ := ih t hI
          have hin : entry (k, m, w) ∈ t.values := by
            rw [mem_values hI]
            show t.entries.get? (k, m) = _
            rw [hg, hs]
          refine ⟨?_, ?_⟩
          · rw [ih1]
            constructor
            · rintro ⟨h1, h2, h3⟩
              have hk : ∀ e ∈ es, (k, m, w).1 = e.1 → (k, m, w).2.1 = e.2.1 → (k, m, w) = e := by
                intro e he hk1 hk2
                have := h3 e he old (by rw [← hk1, ← hk2]; exact hg)
                rw [hs] at this
                obtain ⟨ek, em, ew⟩ := e
                unfold entry at this
                injection this with a1 a2 a3
                rw [show k = ek from a1, show m = em from a2, show w = ew from a3]
              refine ⟨?_, ?_, ?_⟩
              · intro e he
                rcases List.mem_cons.mp he with rfl | he
                · exact hf
                · exact h1 e he
              · intro a ha b hb hab1 hab2
                rcases List.mem_cons.mp ha with rfl | ha
                · rcases List.mem_cons.mp hb with rfl | hb
                  · rfl
                  · exact hk b hb hab1 hab2
                · rcases List.mem_cons.mp hb with rfl | hb
                  · exact (hk a ha hab1.symm hab2.symm).symm
                  · exact h2 a ha b hb hab1 hab2
              · intro e he x hx
                rcases List.mem_cons.mp he with rfl | he
                · have hx' : t.entries.get? (k, m) = some x := hx
                  rw [hg] at hx'
                  cases hx'
                  exact hs
                · exact h3 e he x hx
            · rintro ⟨h1, h2, h3⟩
              exact ⟨fun e he => h1 e (List.mem_cons_of_mem _ he),
                fun a ha b hb => h2 a (List.mem_cons_of_mem _ ha) b (List.mem_cons_of_mem _ hb),
                fun e he => h3 e (List.mem_cons_of_mem _ he)⟩
          · intro t' ht
            obtain ⟨j1, j2, j3, j4⟩ := ih2 t' ht
            refine ⟨j1, j2, j3, fun x => ?_⟩
            rw [j4]
            constructor
            · rintro (h | ⟨e, he, h⟩)
              · exact Or.inl h
              · exact Or.inr ⟨e, List.mem_cons_of_mem _ he, h⟩
            · rintro (h | ⟨e, he, h⟩)
              · exact Or.inl h
              · rcases List.mem_cons.mp he with rfl | he
                · exact Or.inl (h ▸ hin)
                · exact Or.inr ⟨e, he, h⟩
        · have hadd : t.add same (entry (k, m, w)) = .error .alreadyExists := by
            unfold UTable.add
            rw [show t.entries.get? ((entry (k, m, w)).key, (entry (k, m, w)).mask) = some old from hg]
            exact if_neg (fun he => hs ((hsame _ _).mp he))
          rw [hadd]
          refine ⟨⟨?_, ?_⟩, ?_⟩
          · rintro ⟨t', ht⟩
            cases ht
          · rintro ⟨-, -, h3⟩
            exact absurd (h3 _ (List.mem_cons_self ..) old hg) hs
          · intro t' ht
            cases ht
      | none =>
        have hadd : t.add same (entry (k, m, w)) = .ok { t with
            entries := t.entries.set (k, m) (entry (k, m, w))
            nDefaulted := t.nDefaulted } := by
          unfold UTable.add
          rw [show t.entries.get? ((entry (k, m, w)).key, (entry (k, m, w)).mask) = none from hg]
          rfl
        have hI' := uinv_add hI hadd
        rw [hadd]
        generalize ht1 : ({ t with
            entries := t.entries.set (k, m) (entry (k, m, w))
            nDefaulted := t.nDefaulted } : UTable) = t1 at hI'
        have hget : ∀ km, t1.entries.get? km = if (k, m) = km then some (entry (k, m, w)) else t.entries.get? km := by
          intro km
          rw [← ht1]
          exact Dict.get?_set ..
        have hx1 : t1.x = t.x := by rw [← ht1]
        have hy1 : t1.y = t.y := by rw [← ht1]
        have hv1 : ∀ x, x ∈ t1.values ↔ x ∈ t.values ∨ entry (k, m, w) = x := by
          intro x
          rw [mem_values hI', mem_values hI, hget]
          by_cases hkm : (k, m) = (x.key, x.mask)
          · rw [if_pos hkm, ← hkm, hg]
            constructor
            · intro h; injection h with h; exact Or.inr h
            · rintro (h | h)
              · cases h
              · rw [h]
          · rw [if_neg hkm]
            constructor
            · exact Or.inl
            · rintro (h | h)
              · exact h
              · rw [← h] at hkm
                exact absurd rfl hkm
        show ((∃ t', rows same mk t1 rs = .ok t') ↔ _) ∧ (∀ t', rows same mk t1 rs = .ok t' → _)
        obtain ⟨ih1, ih2⟩ := ih t1 hI'
        refine ⟨?_, ?_⟩
        · rw [ih1]
          constructor
          · rintro ⟨h1, h2, h3⟩
            have hk : ∀ e ∈ es, (k, m, w).1 = e.1 → (k, m, w).2.1 = e.2.1 → (k, m, w) = e := by
              intro e he hk1 hk2
              obtain ⟨ek, em, ew⟩ := e
              have h5 : k = ek := hk1
              have h6 : m = em := hk2
              have := h3 (ek, em, ew) he (entry (k, m, w)) (by rw [hget, if_pos (by rw [h5, h6])])
              unfold entry at this
              injection this with a1 a2 a3
              rw [show k = ek from a1, show m = em from a2, show w = ew from a3]
            refine ⟨?_, ?_, ?_⟩
            · intro e he
              rcases List.mem_cons.mp he with rfl | he
              · exact hf
              · exact h1 e he
            · intro a ha b hb hab1 hab2
              rcases List.mem_cons.mp ha with rfl | ha
              · rcases List.mem_cons.mp hb with rfl | hb
                · rfl
                · exact hk b hb hab1 hab2
              · rcases List.mem_cons.mp hb with rfl | hb
                · exact (hk a ha hab1.symm hab2.symm).symm
                · exact h2 a ha b hb hab1 hab2
            · intro e he x hx
              rcases List.mem_cons.mp he with rfl | he
              · have hx' : t.entries.get? (k, m) = some x := hx
                rw [hg] at hx'
                cases hx'
              · refine h3 e he x ?_
                rw [hget, if_neg, hx]
                intro hkm
                rw [← hkm, hg] at hx
                cases hx
          · rintro ⟨h1, h2, h3⟩
            refine ⟨fun e he => h1 e (List.mem_cons_of_mem _ he),
              fun a ha b hb => h2 a (List.mem_cons_of_mem _ ha) b (List.mem_cons_of_mem _ hb), ?_⟩
            intro e he x hx
            rw [hget] at hx
            split at hx
            · rename_i hkm
              cases hx
              injection hkm with a1 a2
              rw [h2 (k, m, w) (List.mem_cons_self ..) e (List.mem_cons_of_mem _ he) a1 a2]
            · exact h3 e (List.mem_cons_of_mem _ he) x hx
        · intro t' ht
          obtain ⟨j1, j2, j3, j4⟩ := ih2 t' ht
          refine ⟨j1, j2.trans hx1, j3.trans hy1, fun x => ?_⟩
          rw [j4, hv1]
          constructor
          · rintro ((h | h) | ⟨e, he, h⟩)
            · exact Or.inl h
            · exact Or.inr ⟨_, List.mem_cons_self .., h⟩
            · exact Or.inr ⟨e, List.mem_cons_of_mem _ he, h⟩
          · rintro (h | ⟨e, he, h⟩)
            · exact Or.inl (Or.inl h)
            · rcases List.mem_cons.mp he with rfl | he
              · exact Or.inl (Or.inr h)
              · exact Or.inr ⟨e, he, h⟩
    · have hrow : rows same mk t (r :: rs) = .error .invalidParameter := by
        rw [rows, row_holds hh, hmk, if_neg (show ¬ k &&& m = k from hf)]
        rfl
      rw [hrow]
      refine ⟨⟨?_, ?_⟩, ?_⟩
      · rintro ⟨t', ht⟩
        cases ht
      · rintro ⟨h1, -, -⟩
        exact absurd (h1 _ (List.mem_cons_self ..)) hf
      · intro t' ht
        cases ht

/-- C115: a file is read exactly if no key of its entries has bits outside of its mask and no two entries have the same key and
mask but not the same route. -/
theorem C115_read_iff {same : Entry → Entry → Bool} (hsame : ∀ a b, same a b = true ↔ a = b)
    {mk : Int → Int → Int → Except PyErr Entry} (hmk : Contract mk) {rs : List (List Str)} {es : List (Word × Word × Nat)}
    (h : Read rs es) : (∃ t, fromCsv same mk rs = .ok t) ↔ (∀ e ∈ es, Fits e) ∧ Agree es := by
  unfold fromCsv
  rw [(rows_spec hsame hmk h _ (uinv_empty 0 0)).1]
  exact ⟨fun ⟨h1, h2, _⟩ => ⟨h1, h2⟩, fun ⟨h1, h2⟩ => ⟨h1, h2, fun e _ x hx => by cases hx⟩⟩

/-- C115: the table that is read has exactly the entries of the file, each once, whatever other rows there are; it is at (0, 0)
and no entry is defaultable. -/
theorem C115_entries {same : Entry → Entry → Bool} (hsame : ∀ a b, same a b = true ↔ a = b)
    {mk : Int → Int → Int → Except PyErr Entry} (hmk : Contract mk) {rs : List (List Str)} {es : List (Word × Word × Nat)}
    (h : Read rs es) {t : UTable} (ht : fromCsv same mk rs = .ok t) :
    (∀ x, x ∈ t.values ↔ ∃ e ∈ es, (⟨e.1, e.2.1, e.2.2, false⟩ : Entry) = x) ∧
    (t.values.map (fun e => (e.key, e.mask))).Nodup ∧ (Table.u t).numberOfDefaultable = 0 ∧ t.x = 0 ∧ t.y = 0 := by
  obtain ⟨hI, hx, hy, hv⟩ := (rows_spec hsame hmk h _ (uinv_empty 0 0)).2 t ht
  have hmem : ∀ x, x ∈ t.values ↔ ∃ e ∈ es, (⟨e.1, e.2.1, e.2.2, false⟩ : Entry) = x := by
    intro x
    rw [hv]
    constructor
    · rintro (h | h)
      · cases h
      · exact h
    · exact Or.inr
  refine ⟨hmem, ?_, ?_, hx, hy⟩
  · rw [← keys_eq_of_uinv hI]; exact hI.nodup
  · have h1 : (Table.u t).numberOfDefaultable = t.values.countP (·.defaultable) := by
      simp only [Table.numberOfDefaultable, hI.count, UTable.values, List.countP_map]
      rfl
    rw [h1, List.countP_eq_zero]
    intro x hx
    obtain ⟨e, -, rfl⟩ := (hmem x).mp hx
    exact Bool.false_ne_true

/-- A constructor as assumed. -/
def exampleMk (k m w : Int) : Except PyErr Entry :=
  if BitVec.ofInt 32 k &&& BitVec.ofInt 32 m = BitVec.ofInt 32 k then .ok ⟨BitVec.ofInt 32 k, BitVec.ofInt 32 m, w.toNat, false⟩
  else .error .invalidParameter

theorem exampleMk_contract : Contract exampleMk := by
  intro k m w
  unfold exampleMk
  have h : ∀ x : Word, BitVec.ofInt 32 (x.toNat : Int) = x := by
    intro x
    rw [BitVec.ofInt_natCast, BitVec.ofNat_toNat, BitVec.setWidth_eq]
  rw [h, h]
  rfl

/-- A file with a header, rows of six columns and of three, and a remark. -/
def exampleRows : List (List Str) :=
  [[lit "Index", lit "Key", lit "Mask", lit "Route", lit "Default", lit "Sources"],
   [lit "0", lit "0x00010000", lit "0xFFFF0000", lit "0x000000C1", lit "1", lit "[1] [E]"],
   [lit "2fff0", lit " 0xfffffff0", lit "80 "], [lit "end of table"]]

example : Read exampleRows [(0x10000, 0xFFFF0000, 0xC1), (0x2fff0, 0xfffffff0, 0x80)] := by
  refine .other (Or.inr ⟨_, _, _, Or.inr ⟨_, _, _, rfl⟩, Or.inl (Or.inr ⟨'K', by decide, by decide⟩)⟩) (.holds ?_ (.holds ?_
    (.other (Or.inl ⟨by decide, by decide⟩) .nil)))
  · exact ⟨_, _, _, Or.inr ⟨_, _, _, rfl⟩,
      ⟨[], lit "0x", lit "00010000", [], by decide, by decide, by decide, by decide, by decide, by decide, by decide⟩,
      ⟨[], lit "0x", lit "FFFF0000", [], by decide, by decide, by decide, by decide, by decide, by decide, by decide⟩,
      ⟨[], lit "0x", lit "000000C1", [], by decide, by decide, by decide, by decide, by decide, by decide, by decide⟩⟩
  · exact ⟨_, _, _, Or.inl rfl,
      ⟨[], [], lit "2fff0", [], by decide, by decide, by decide, by decide, by decide, by decide, by decide⟩,
      ⟨lit " ", lit "0x", lit "fffffff0", [], by decide, by decide, by decide, by decide, by decide, by decide, by decide⟩,
      ⟨[], [], lit "80", lit " ", by decide, by decide, by decide, by decide, by decide, by decide, by decide⟩⟩

example : fromCsv (fun a b => decide (a = b)) exampleMk exampleRows = .ok ⟨0, 0,
    [((0x10000, 0xFFFF0000), ⟨0x10000, 0xFFFF0000, 0xC1, false⟩), ((0x2fff0, 0xfffffff0), ⟨0x2fff0, 0xfffffff0, 0x80, false⟩)], 0⟩ := by
  decide +kernel

/-- C115 is false: one row whose key has a bit outside of its mask, or that contradicts another, and nothing of the file is read. -/
theorem C115_false :
    fromCsv (fun a b => decide (a = b)) exampleMk [[lit "1", lit "1", lit "1"], [lit "3", lit "1", lit "2"]]
      = .error .invalidParameter ∧
    fromCsv (fun a b => decide (a = b)) exampleMk [[lit "1", lit "1", lit "1"], [lit "1", lit "1", lit "2"]]
      = .error .alreadyExists ∧
    fromCsv (fun a b => decide (a = b)) exampleMk [[lit "1", lit "1", lit "1"], [lit "q", lit "1", lit "2"]]
      = .ok ⟨0, 0, [((1, 1), ⟨1, 1, 1, false⟩)], 0⟩ := by decide +kernel

/-- C115, partial: files whose keys are in their masks and whose entries agree. Missing: the others, which raise. -/
theorem C115_partial {same : Entry → Entry → Bool} (hsame : ∀ a b, same a b = true ↔ a = b)
    {mk : Int → Int → Int → Except PyErr Entry} (hmk : Contract mk) {rs : List (List Str)} {es : List (Word × Word × Nat)}
    (h : Read rs es) (hf : ∀ e ∈ es, Fits e) (ha : Agree es) :
    ∃ t, fromCsv same mk rs = .ok t ∧ ∀ x, x ∈ t.values ↔ ∃ e ∈ es, (⟨e.1, e.2.1, e.2.2, false⟩ : Entry) = x := by
  obtain ⟨t, ht⟩ := (C115_read_iff hsame hmk h).mpr ⟨hf, ha⟩
  exact ⟨t, ht, (C115_entries hsame hmk h ht).1⟩

/-! ### C116 -/

theorem value_append (a b : Str) : value (a ++ b) = b.foldl (fun x c => 16 * x + hexDigit c) (value a) := by
  unfold value
  rw [List.foldl_append]

theorem upper_digit {d : Nat} (h : d < 16) : (Nat.digitChar d).toUpper ∈ hexChars ∧ hexDigit (Nat.digitChar d).toUpper = d := by
  have : ∀ d : Fin 16, (Nat.digitChar d).toUpper ∈ hexChars ∧ hexDigit (Nat.digitChar d).toUpper = d := by decide +kernel
  exact this ⟨d, h⟩

theorem hex_digits (n : Nat) : (∀ c ∈ (Nat.toDigits 16 n).map Char.toUpper, c ∈ hexChars) ∧
    value ((Nat.toDigits 16 n).map Char.toUpper) = n := by
  induction n using Nat.strongRecOn with
  | _ n ih =>
    rw [Nat.toDigits_eq_if (by omega)]
    by_cases h : n < 16
    · rw [if_pos h]
      obtain ⟨h1, h2⟩ := upper_digit h
      refine ⟨?_, ?_⟩
      · intro c hc
        rw [List.mem_singleton.mp hc]
        exact h1
      · show 16 * 0 + hexDigit _ = n
        rw [h2]
        omega
    · rw [if_neg h, List.map_append]
      obtain ⟨h1, h2⟩ := upper_digit (Nat.mod_lt n (by omega : 16 > 0))
      obtain ⟨i1, i2⟩ := ih (n / 16) (by omega)
      refine ⟨?_, ?_⟩
      · intro c hc
        rcases List.mem_append.mp hc with hc | hc
        · exact i1 c hc
        · rw [List.mem_singleton.mp hc]
          exact h1
      · rw [value_append, i2]
        show 16 * (n / 16) + hexDigit _ = n
        rw [h2]
        omega

theorem value_zeros (k : Nat) (l : Str) : value (List.replicate k '0' ++ l) = value l := by
  have h : value (List.replicate k '0') = 0 := by
    induction k with
    | zero => rfl
    | succ k ih =>
      rw [List.replicate_succ', value_append, ih]
      rfl
  rw [value_append, h]
  rfl

theorem hex8_chars (n : Nat) : ∀ c ∈ hex8 n, c ∈ hexChars := by
  intro c hc
  rcases List.mem_append.mp hc with h | h
  · rw [(List.mem_replicate.mp h).2]
    decide
  · exact (hex_digits n).1 c h

theorem hex8_hex (n : Nat) : Hex (lit "0x" ++ hex8 n) n := by
  refine ⟨[], lit "0x", hex8 n, [], ?_, ?_, Or.inr (Or.inl rfl), ?_, hex8_chars n, ?_, ?_⟩
  · rw [List.nil_append, List.append_nil]
  · intro c hc; cases hc
  · intro h
    have := (List.append_eq_nil_iff.mp h).2
    exact Nat.toDigits_ne_nil (List.map_eq_nil_iff.mp this)
  · intro c hc; cases hc
  · unfold hex8
    dsimp only
    rw [value_zeros, (hex_digits n).2]

theorem hex8_length {n : Nat} (h : n < 2 ^ 32) : (lit "0x" ++ hex8 n).length = 10 := by
  have h1 : (Nat.toDigits 16 n).length ≤ 8 := by
    rw [Nat.length_toDigits_le_iff (by omega) (by omega)]
    exact h
  unfold hex8 lit
  dsimp only
  rw [List.length_append, List.length_append, List.length_replicate, List.length_map]
  show 2 + _ = 10
  omega

theorem hex8_blank (n : Nat) : ' ' ∉ lit "0x" ++ hex8 n := by
  intro h
  rcases List.mem_append.mp h with h | h
  · exact absurd h (by decide)
  · exact absurd (hex8_chars n _ h) (by decide)

theorem linkLabels_ok {ls : List Nat} (h : ∀ l ∈ ls, l < 6) : ∃ ss, linkLabels ls = .ok ss := by
  induction ls with
  | nil => exact ⟨[], rfl⟩
  | cons l ls ih =>
    obtain ⟨ss, hs⟩ := ih (fun x hx => h x (List.mem_cons_of_mem _ hx))
    have h1 : ∀ l : Fin 6, ∃ s, linkLabel l = .ok s := by
      intro l
      match l with
      | 0 => exact ⟨_, rfl⟩
      | 1 => exact ⟨_, rfl⟩
      | 2 => exact ⟨_, rfl⟩
      | 3 => exact ⟨_, rfl⟩
      | 4 => exact ⟨_, rfl⟩
      | 5 => exact ⟨_, rfl⟩
    obtain ⟨s, h2⟩ := h1 ⟨l, h l (List.mem_cons_self ..)⟩
    have h3 : linkLabel l = .ok s := h2
    refine ⟨s :: ss, ?_⟩
    rw [linkLabels, h3, hs]
    rfl

/-- C116: the line of an entry has key, mask and route as its first three words, as hexadecimal numbers of ten characters that are
read back as they were (by `int(word, 16)`), and then 1 or 0 for defaultable. -/
theorem C116_words (key mask : Word) (ps ls : List Nat) (df : Bool) (h6 : ∀ l ∈ ls, l < 6) :
    ∃ s a b c rest, formatRoute key mask ps ls df = .ok s ∧ split ' ' s = a :: b :: c :: lit (if df then "1" else "0") :: rest ∧
      Hex a key.toNat ∧ Hex b mask.toNat ∧ Hex c (RouteWord.reduceRoute ps ls) ∧
      pyInt 16 a = .ok (key.toNat : Int) ∧ pyInt 16 b = .ok (mask.toNat : Int) ∧
      pyInt 16 c = .ok ((RouteWord.reduceRoute ps ls : Nat) : Int) ∧
      a.length = 10 ∧ b.length = 10 ∧ (RouteWord.reduceRoute ps ls < 2 ^ 32 → c.length = 10) := by
  obtain ⟨ss, hss⟩ := linkLabels_ok h6
  have hexp : ∃ e, expand ps ls = .ok e := by
    unfold expand
    rw [hss]
    exact ⟨_, rfl⟩
  obtain ⟨e, he⟩ := hexp
  have hf : ∃ r, flag df = lit (if df then "1" else "0") ++ ' ' :: r := by
    cases df with
    | true => exact ⟨_, rfl⟩
    | false => exact ⟨_, rfl⟩
  obtain ⟨fr, hfr⟩ := hf
  have hstr : formatRoute key mask ps ls df = .ok ((lit "0x" ++ hex8 key.toNat) ++ ' ' :: ((lit "0x" ++ hex8 mask.toNat) ++ ' ' ::
      ((lit "0x" ++ hex8 (RouteWord.reduceRoute ps ls)) ++ ' ' :: (lit (if df then "1" else "0") ++ ' ' :: (fr ++ lit " " ++ e))))) := by
    unfold formatRoute
    rw [he, hfr]
    show Except.ok _ = Except.ok _
    congr 1
    have h0 : lit " 0x" = ' ' :: lit "0x" := rfl
    have h1 : lit " " = [' '] := rfl
    rw [h0, h1]
    simp only [List.append_assoc, List.cons_append, List.nil_append]
  have hflag : ' ' ∉ lit (if df then "1" else "0") := by
    cases df with
    | true => decide
    | false => decide
  refine ⟨_, _, _, _, split ' ' (fr ++ lit " " ++ e), hstr, ?_, hex8_hex _, hex8_hex _, hex8_hex _, pyInt_hex (hex8_hex _), pyInt_hex (hex8_hex _),
    pyInt_hex (hex8_hex _), hex8_length key.isLt, hex8_length mask.isLt, hex8_length⟩
  rw [split_append (hex8_blank _), split_append (hex8_blank _), split_append (hex8_blank _), split_append hflag]

example : formatRoute 0x10000 0xFFFF0000 [1, 17] [0, 5] true = .ok (lit "0x00010000 0xFFFF0000 0x008000A1 1       [1, 17] [E, S]") := by
  decide +kernel

/-- C116: a link with a number that no link has raises. -/
theorem C116_raises (key mask : Word) (ps ls : List Nat) (df : Bool) {l : Nat} (hl : l ∈ ls) (h6 : 6 ≤ l) :
    formatRoute key mask ps ls df = .error .keyError := by
  have h : linkLabels ls = .error .keyError := by
    induction ls with
    | nil => cases hl
    | cons x xs ih =>
      rw [linkLabels]
      cases hx : linkLabel x with
      | error e =>
        have : e = .keyError := by
          unfold linkLabel at hx
          split at hx
          all_goals cases hx
          rfl
        rw [this]
        rfl
      | ok s =>
        rcases List.mem_cons.mp hl with h | h
        · exfalso
          rw [h] at h6
          unfold linkLabel at hx
          split at hx
          all_goals first | omega | cases hx
        · rw [ih h]
          rfl
  unfold formatRoute expand
  rw [h]
  rfl

/-- C116: two entries are written to the same line only if they are the same entry. -/
theorem C116_injective {key mask key' mask' : Word} {ps ls ps' ls' : List Nat} {df df' : Bool} (hp : ps.Nodup) (hl : ls.Nodup)
    (hp' : ps'.Nodup) (hl' : ls'.Nodup) (h6 : ∀ l ∈ ls, l < 6) (h6' : ∀ l ∈ ls', l < 6)
    (h : formatRoute key mask ps ls df = formatRoute key' mask' ps' ls' df') :
    key = key' ∧ mask = mask' ∧ ps.Perm ps' ∧ ls.Perm ls' ∧ df = df' := by
  obtain ⟨s, a, b, c, r, hs, hsp, -, -, -, ha, hb, hc, -⟩ := C116_words key mask ps ls df h6
  obtain ⟨s', a', b', c', r', hs', hsp', -, -, -, ha', hb', hc', -⟩ := C116_words key' mask' ps' ls' df' h6'
  rw [hs, hs'] at h
  injection h with h
  rw [h, hsp'] at hsp
  injection hsp with e1 e2
  injection e2 with e2 e3
  injection e3 with e3 e4
  injection e4 with e4 e5
  rw [e1, ha] at ha'
  rw [e2, hb] at hb'
  rw [e3, hc] at hc'
  injection ha' with ha'
  injection hb' with hb'
  injection hc' with hc'
  have hw := (RouteWord.C55_word_determines ps ls ps' ls' hp hl hp' hl' h6 h6').mp (Int.ofNat.inj hc')
  refine ⟨BitVec.eq_of_toNat_eq (Int.ofNat.inj ha'), BitVec.eq_of_toNat_eq (Int.ofNat.inj hb'), hw.1, hw.2, ?_⟩
  cases df with
  | true =>
    cases df' with
    | true => rfl
    | false => exact absurd e4 (by decide)
  | false =>
    cases df' with
    | true => exact absurd e4 (by decide)
    | false => rfl

end Pacman.Csv
