import Verif.Props.Generators
/-
How many entries the merged table generator writes (app_vertex_routing_info.py:58-107,
merged_routing_table_generator.py:52-175).
-/

namespace Pacman.Gen

open Alloc (VId clog2)
open ByPart (REntry)
open Tables (UTable)

/-- The machine vertices follow one another, from number `i0`. -/
def Consecutive (i0 : Nat) (entries : List (REntry × MInfo)) : Prop :=
  ∀ j (h : j < entries.length), entries[j].2.index = i0 + j

/-! ### Rounds of the loops -/

theorem log2_le_log2 {a b : Nat} (h : a ≤ b) : a.log2 ≤ b.log2 := by
  by_cases ha : a = 0
  · subst ha; simp
  · have hb : b ≠ 0 := by omega
    exact (Nat.le_log2 hb).2 (Nat.le_trans (Nat.log2_self_le ha) h)

theorem splitLoop_short (app : AppInfo) (entries : List (REntry × MInfo)) :
    ∀ (fuel i toGo : Nat) (xs : List Entry), splitLoop app entries fuel i toGo = .ok xs →
      xs.length ≤ toGo ∧ (0 < toGo → xs.length ≤ toGo.log2 + 1) := by
  intro fuel
  induction fuel with
  | zero => intro i toGo xs h; cases h
  | succ fuel ih =>
    intro i toGo xs h
    unfold splitLoop at h
    by_cases h0 : toGo = 0
    · rw [if_pos h0] at h; cases h; simp
    · rw [if_neg h0] at h
      cases h1 : yieldOne app entries i (2 ^ toGo.log2) with
      | error e => simp only [h1, bind, Except.bind] at h; cases h
      | ok e =>
        cases h2 : splitLoop app entries fuel (i + 2 ^ toGo.log2) (toGo - 2 ^ toGo.log2) with
        | error e => simp only [h1, h2, bind, Except.bind] at h; cases h
        | ok rest =>
          simp only [h1, h2, bind, Except.bind, pure, Except.pure, Except.ok.injEq] at h
          subst h
          obtain ⟨r1, r2⟩ := ih _ _ _ h2
          have hp := Nat.log2_self_le h0
          have hpos := Nat.two_pow_pos toGo.log2
          have hlt := Nat.lt_log2_self (n := toGo)
          rw [Nat.pow_succ] at hlt
          refine ⟨by simp only [List.length_cons]; omega, fun _ => ?_⟩
          simp only [List.length_cons]
          by_cases h3 : toGo - 2 ^ toGo.log2 = 0
          · omega
          · have h4 := r2 (by omega)
            have h5 : (toGo - 2 ^ toGo.log2).log2 < toGo.log2 := (Nat.log2_lt h3).2 (by omega)
            omega

theorem nSequential_pos (i n : Nat) : 0 < nSequential i n := by
  unfold nSequential
  split
  · next h =>
    obtain ⟨t, q, rfl⟩ := lowBit_spec i h
    rw [lowBit_eq]
    exact Nat.two_pow_pos t
  · exact Nat.two_pow_pos _

theorem mergeLoop_le (app : AppInfo) (entries : List (REntry × MInfo)) (isLast : Bool) :
    ∀ (fuel i : Nat) (xs : List Entry), mergeLoop app entries isLast fuel i = .ok xs →
      xs.length ≤ entries.length - i := by
  intro fuel
  induction fuel with
  | zero => intro i xs h; cases h
  | succ fuel ih =>
    intro i xs h
    unfold mergeLoop at h
    by_cases hi : i < entries.length
    · rw [if_pos hi] at h
      have hg : getE entries i = .ok entries[i] := by simp [getE, hi]
      simp only [hg, bind, Except.bind] at h
      split at h
      · cases h1 : yieldOne app entries i (nSequential entries[i].2.index entries.length) with
        | error e => rw [h1] at h; cases h
        | ok e =>
          cases h2 : mergeLoop app entries isLast fuel
              (i + nSequential entries[i].2.index entries.length) with
          | error e => simp only [h1, h2] at h; cases h
          | ok rest =>
            simp only [h1, h2, pure, Except.pure, Except.ok.injEq] at h
            subst h
            have := ih _ _ h2
            have := nSequential_pos entries[i].2.index entries.length
            simp only [List.length_cons]
            omega
      · exact (splitLoop_short app entries _ _ _ _ h).1
    · rw [if_neg hi] at h; cases h; simp

theorem mergeLoop_end {app : AppInfo} {entries : List (REntry × MInfo)} {isLast : Bool} {fuel i : Nat}
    {xs : List Entry} (h : mergeLoop app entries isLast fuel i = .ok xs) (hi : entries.length ≤ i) :
    xs = [] := by
  have := mergeLoop_le app entries isLast fuel i xs h
  exact List.eq_nil_of_length_eq_zero (by omega)

/-- `s` entries written so far, or more than that many bits of the number known to be 0. -/
theorem mergeLoop_few (app : AppInfo) (entries : List (REntry × MInfo)) (isLast : Bool) (i0 : Nat)
    (hc : Consecutive i0 entries) :
    ∀ (fuel i s : Nat) (xs : List Entry), mergeLoop app entries isLast fuel i = .ok xs →
      i ≤ entries.length → 2 ^ s ∣ i0 + i → 0 < i0 + i →
      xs.length ≤ 2 * (entries.length - i + 2 ^ s).log2 - s := by
  intro fuel
  induction fuel with
  | zero => intro i s xs h; cases h
  | succ fuel ih =>
    intro i s xs h hil hd hpos
    unfold mergeLoop at h
    by_cases hi : i < entries.length
    · rw [if_pos hi] at h
      have hg : getE entries i = .ok entries[i] := by simp [getE, hi]
      have hidx := hc i hi
      have hsp := Nat.two_pow_pos s
      have hs : s ≤ (entries.length - i + 2 ^ s).log2 := (Nat.le_log2 (by omega)).2 (by omega)
      have hone : 1 ≤ 2 * (entries.length - i + 2 ^ s).log2 - s := by
        by_cases h0 : s = 0
        · subst h0
          have : 1 ≤ (entries.length - i + 2 ^ 0).log2 := (Nat.le_log2 (by omega)).2 (by omega)
          omega
        · omega
      obtain ⟨t, q, htq⟩ := lowBit_spec (i0 + i) hpos
      have hn : nSequential entries[i].2.index entries.length = 2 ^ t := by
        unfold nSequential
        rw [hidx, if_pos hpos, htq, lowBit_eq]
      have hst : s ≤ t := by
        apply Nat.le_of_not_lt
        intro hlt
        obtain ⟨d, hd'⟩ := Nat.exists_eq_add_of_lt hlt
        rw [htq, hd', show t + d + 1 = t + (d + 1) by omega, Nat.pow_add] at hd
        have := Nat.dvd_of_mul_dvd_mul_left (Nat.two_pow_pos t) hd
        have h2 : 2 ∣ 2 * q + 1 := Nat.dvd_trans ⟨2 ^ d, by rw [Nat.pow_succ, Nat.mul_comm]⟩ this
        omega
      have htp := Nat.two_pow_pos t
      simp only [hg, bind, Except.bind, hn] at h
      split at h
      · next hcase =>
        cases h1 : yieldOne app entries i (2 ^ t) with
        | error e => rw [h1] at h; cases h
        | ok e =>
          cases h2 : mergeLoop app entries isLast fuel (i + 2 ^ t) with
          | error e => simp only [h1, h2] at h; cases h
          | ok rest =>
            simp only [h1, h2, pure, Except.pure, Except.ok.injEq] at h
            subst h
            by_cases hend : entries.length ≤ i + 2 ^ t
            · rw [mergeLoop_end h2 hend]
              simpa using hone
            · have hstep := ih (i + 2 ^ t) (s + 1) rest h2 (by omega)
                (by
                  rw [← Nat.add_assoc, htq]
                  have : 2 ^ t * (2 * q + 1) + 2 ^ t = 2 ^ (t + 1) * (q + 1) := by
                    rw [Nat.pow_succ, Nat.mul_assoc, show 2 * (q + 1) = (2 * q + 1) + 1 by omega,
                      Nat.mul_add (2 ^ t) (2 * q + 1), Nat.mul_one]
                  rw [this]
                  exact Nat.dvd_trans (Nat.pow_dvd_pow 2 (by omega)) ⟨_, rfl⟩)
                (by omega)
              have hs1 : (2 : Nat) ^ (s + 1) = 2 * 2 ^ s := by rw [Nat.pow_succ]; omega
              have hle : entries.length - (i + 2 ^ t) + 2 ^ (s + 1) ≤ entries.length - i + 2 ^ s := by
                rcases Nat.lt_or_ge s t with h3 | h3
                · have : 2 ^ (s + 1) ≤ 2 ^ t := Nat.pow_le_pow_right (by omega) h3
                  omega
                · have : s = t := by omega
                  subst this
                  omega
              have hlog := log2_le_log2 hle
              have hs2 : s + 1 ≤ (entries.length - (i + 2 ^ t) + 2 ^ (s + 1)).log2 :=
                (Nat.le_log2 (by omega)).2 (by omega)
              simp only [List.length_cons]
              omega
      · next hcase =>
        have hsh := (splitLoop_short app entries _ _ _ _ h).2 (by omega)
        have hN := log2_le_log2 (show entries.length - i ≤ entries.length - i + 2 ^ s by omega)
        rcases Nat.lt_or_eq_of_le hs with h3 | h3
        · omega
        · have h4 : (entries.length - i + 2 ^ s).log2 < s + 1 := by omega
          have h5 := (Nat.log2_lt (by omega)).1 h4
          rw [Nat.pow_succ] at h5
          have h6 : (entries.length - i).log2 < s := (Nat.log2_lt (by omega)).2 (by omega)
          omega
    · rw [if_neg hi] at h; cases h; simp

/-! ### Claims about `merge_machine_entries` -/

/-- **C142.** Merging gives no more entries than were given. -/
theorem C142_no_more {app : AppInfo} {entries : List (REntry × MInfo)} {xs : List Entry}
    (h : mergeEntries app entries = .ok xs) : xs.length ≤ entries.length := by
  unfold mergeEntries at h
  cases hl : entries.getLast? with
  | none => rw [hl] at h; cases h
  | some p =>
    rw [hl] at h
    have := mergeLoop_le app entries _ _ _ _ h
    omega

/-- **C142**, second part: for `n` machine vertices that follow one another it gives at most
`2 * log2 (n + 1)`. -/
theorem C142_few {app : AppInfo} {entries : List (REntry × MInfo)} {xs : List Entry} {i0 : Nat}
    (hc : Consecutive i0 entries) (h : mergeEntries app entries = .ok xs) :
    xs.length ≤ 2 * (entries.length + 1).log2 := by
  unfold mergeEntries at h
  cases hl : entries.getLast? with
  | none => rw [hl] at h; cases h
  | some p =>
    rw [hl] at h
    have hpos : 0 < entries.length := by
      cases entries with
      | nil => simp at hl
      | cons a l => simp
    by_cases h0 : 0 < i0
    · have := mergeLoop_few app entries _ i0 hc _ 0 0 xs h (by omega) (by simp) (by omega)
      simpa using this
    · have hi0 : i0 = 0 := by omega
      subst hi0
      have hlog : 1 ≤ (entries.length + 1).log2 := (Nat.le_log2 (by omega)).2 (by omega)
      simp only at h
      unfold mergeLoop at h
      rw [if_pos hpos] at h
      have hg : getE entries 0 = .ok entries[0] := by simp [getE, hpos]
      have hidx : entries[0].2.index = 0 := hc 0 hpos
      have hn : nSequential entries[0].2.index entries.length = 2 ^ clog2 entries.length := by
        unfold nSequential
        rw [hidx, if_neg (by omega)]
      have hge := Alloc.le_two_pow_clog2 entries.length
      simp only [hg, bind, Except.bind, hn] at h
      split at h
      · cases h1 : yieldOne app entries 0 (2 ^ clog2 entries.length) with
        | error e => rw [h1] at h; cases h
        | ok e =>
          cases h2 : mergeLoop app entries (decide ((p.2.index : Int) = app.maxIndex)) entries.length
              (0 + 2 ^ clog2 entries.length) with
          | error e => simp only [h1, h2] at h; cases h
          | ok rest =>
            simp only [h1, h2, pure, Except.pure, Except.ok.injEq] at h
            subst h
            rw [mergeLoop_end h2 (by omega)]
            simp only [List.length_cons, List.length_nil]
            omega
      · have hsh := (splitLoop_short app entries _ _ _ _ h).2 (by omega)
        have := log2_le_log2 (show entries.length - 0 ≤ entries.length + 1 by omega)
        omega

/-- **C142**, third part: all machine vertices of an application vertex become one entry. -/
theorem C142_whole {app : AppInfo} {entries : List (REntry × MInfo)} {xs : List Entry}
    (hc : Consecutive 0 entries) (hall : (entries.length : Int) = app.maxIndex + 1)
    (h : mergeEntries app entries = .ok xs) : xs.length = 1 := by
  unfold mergeEntries at h
  cases hl : entries.getLast? with
  | none => rw [hl] at h; cases h
  | some p =>
    rw [hl] at h
    have hpos : 0 < entries.length := by
      cases entries with
      | nil => simp at hl
      | cons a l => simp
    have hlast : (p.2.index : Int) = app.maxIndex := by
      rw [List.getLast?_eq_getElem?, List.getElem?_eq_getElem (by omega)] at hl
      have h1 := hc (entries.length - 1) (by omega)
      cases hl
      omega
    simp only [hlast, decide_true] at h
    unfold mergeLoop at h
    rw [if_pos hpos] at h
    have hg : getE entries 0 = .ok entries[0] := by simp [getE, hpos]
    have hidx : entries[0].2.index = 0 := hc 0 hpos
    have hn : nSequential entries[0].2.index entries.length = 2 ^ clog2 entries.length := by
      unfold nSequential
      rw [hidx, if_neg (by omega)]
    have hge := Alloc.le_two_pow_clog2 entries.length
    simp only [hg, bind, Except.bind, hn, or_true, if_true] at h
    cases h1 : yieldOne app entries 0 (2 ^ clog2 entries.length) with
    | error e => rw [h1] at h; cases h
    | ok e =>
      cases h2 : mergeLoop app entries true entries.length (0 + 2 ^ clog2 entries.length) with
      | error e => simp only [h1, h2] at h; cases h
      | ok rest =>
        simp only [h1, h2, pure, Except.pure, Except.ok.injEq] at h
        subst h
        rw [mergeLoop_end h2 (by omega)]
        rfl

/-! ### Claims about the generators -/

theorem set_new {κ α : Type} [DecidableEq κ] (d : Dict κ α) (k : κ) (v : α) (h : d.get? k = none) :
    (d.set k v).length = d.length + 1 := by
  induction d with
  | nil => rfl
  | cons p d ih =>
    rw [Dict.get?_cons] at h
    rw [Dict.set]
    by_cases h1 : p.1 = k
    · rw [if_pos h1] at h; cases h
    · rw [if_neg h1] at h
      rw [if_neg h1]
      simp only [List.length_cons, ih h]

theorem addAll_le (same : Entry → Entry → Bool) : ∀ (xs : List Entry) (t t' : UTable),
    UTable.addAll same t xs = .ok t' → t'.entries.length ≤ t.entries.length + xs.length := by
  intro xs
  induction xs with
  | nil => intro t t' h; cases h; simp
  | cons e xs ih =>
    intro t t' h
    rw [UTable.addAll] at h
    cases h1 : t.add same e with
    | error x => rw [h1] at h; cases h
    | ok t1 =>
      rw [h1] at h
      have h2 := ih _ _ h
      have h3 : t1.entries.length ≤ t.entries.length + 1 := by
        unfold UTable.add at h1
        cases hg : t.entries.get? (e.key, e.mask) with
        | some old =>
          rw [hg] at h1
          simp only at h1
          split at h1
          · cases h1; omega
          · cases h1
        | none =>
          rw [hg] at h1
          cases h1
          simp only [set_new _ _ _ hg]
          omega
      simp only [List.length_cons]
      omega

theorem takeRun_count {w : World} {app : AppInfo} (items : List Item) :
    ∀ {v p : Nat} {info : MInfo} {e : REntry} {es : List (REntry × MInfo)} {rest : List Item},
      takeRun w app v p info e items = .ok (es, rest) → es.length + rest.length = items.length := by
  induction items with
  | nil =>
    intro v p info e es rest h
    rw [takeRun] at h
    cases h
    rfl
  | cons it items ih =>
    obtain ⟨⟨next, np⟩, ne⟩ := it
    intro v p info e es rest h
    rw [takeRun] at h
    simp only [bind, Except.bind] at h
    cases hm : matchNext w v p info e app (((next, np), ne) :: items) with
    | error x => simp only [hm] at h; cases h
    | ok b =>
      simp only [hm] at h
      cases b with
      | false =>
        simp only [pure, Except.pure, Except.ok.injEq, Prod.mk.injEq] at h
        obtain ⟨rfl, rfl⟩ := h
        simp
      | true =>
        cases next with
        | app a =>
          simp only [pure, Except.pure, Except.ok.injEq, Prod.mk.injEq] at h
          obtain ⟨rfl, rfl⟩ := h
          simp
        | mach nv =>
          simp only at h
          cases hn : w.mach nv np with
          | error x => simp only [hn] at h; cases h
          | ok ninfo =>
            simp only [hn] at h
            cases hr : takeRun w app nv np ninfo ne items with
            | error x => simp only [hr] at h; cases h
            | ok q =>
              obtain ⟨es', rest'⟩ := q
              simp only [hr, pure, Except.pure, Except.ok.injEq, Prod.mk.injEq] at h
              obtain ⟨rfl, rfl⟩ := h
              have := ih hr
              simp only [List.length_cons]
              omega

theorem mergedKeysAndMasks_le {app : AppInfo} {entries : List (REntry × MInfo)} {xs : List Entry}
    (h : mergedKeysAndMasks app entries = .ok xs) : xs.length ≤ entries.length := by
  match entries, h with
  | [], h => cases h; simp
  | [(e, info)], h =>
    unfold mergedKeysAndMasks at h
    cases h1 : mkEntry info.key info.mask e with
    | error x => simp only [h1, bind, Except.bind] at h; cases h
    | ok x => simp only [h1, bind, Except.bind, pure, Except.pure] at h; cases h; simp
  | a :: b :: es, h => exact C142_no_more h

theorem mergedRound_count {w : World} {src : VId × Nat} {e : REntry} {items rest : List Item}
    {xs : List Entry} (h : mergedRound w src e items = .ok (xs, rest)) :
    xs.length + rest.length ≤ items.length + 1 := by
  unfold mergedRound at h
  simp only [bind, Except.bind, pure, Except.pure] at h
  cases hsrc : src.1 with
  | app a =>
    simp only [hsrc] at h
    split at h
    · cases h
    · split at h
      · cases h
      · cases h
        simp only [List.length_cons, List.length_nil]; omega
  | mach v =>
    simp only [hsrc] at h
    split at h
    · cases h
    · cases ho : w.appOf v with
      | none =>
        simp only [ho] at h
        split at h
        · cases h
        · cases h
          simp only [List.length_cons, List.length_nil]; omega
      | some a =>
        simp only [ho] at h
        split at h
        · cases h
        · split at h
          · cases h
          · next hr =>
            split at h
            · cases h
            · next hx =>
              cases h
              have h1 := takeRun_count items hr
              have h2 := mergedKeysAndMasks_le hx
              simp only [List.length_cons] at h2
              omega

theorem mergedLoop_count (same : Entry → Entry → Bool) {w : World} (fuel : Nat) :
    ∀ {items : List Item} {s : Sources} {t t' : UTable}, mergedLoop same w fuel items s t = .ok t' →
      t'.entries.length ≤ t.entries.length + items.length := by
  induction fuel with
  | zero => intro items s t t' h; rw [mergedLoop] at h; cases h
  | succ fuel ih =>
    intro items s t t' h
    cases items with
    | nil => rw [mergedLoop] at h; cases h; simp
    | cons it items =>
      obtain ⟨src, e⟩ := it
      rw [mergedLoop] at h
      simp only [bind, Except.bind] at h
      cases hk : w.keyMask src.1 src.2 with
      | error x => simp only [hk] at h; cases h
      | ok km =>
        simp only [hk] at h
        cases hs : checkSource s km src with
        | error x => simp only [hs] at h; cases h
        | ok s1 =>
          simp only [hs] at h
          cases hm : mergedRound w src e items with
          | error x => simp only [hm] at h; cases h
          | ok q =>
            obtain ⟨xs, rest⟩ := q
            simp only [hm] at h
            cases ht : UTable.addAll same t xs with
            | error x => simp only [ht] at h; cases h
            | ok t1 =>
              simp only [ht] at h
              have h1 := ih h
              have h2 := addAll_le same xs t t1 ht
              have h3 := mergedRound_count hm
              simp only [List.length_cons]
              omega

theorem basicLoop_count (same : Entry → Entry → Bool) {w : World} (items : List Item) :
    ∀ {s : Sources} {t t' : UTable} (seen : List (VId × Nat)),
      basicLoop same w items s t = .ok t' → (items.map (·.1)).Nodup →
      (∀ src ∈ items.map (·.1), src ∉ seen) → (∀ km o, s.get? km = some o → o ∈ seen) →
      (∀ km, s.get? km = none → t.entries.get? km = none) →
      t'.entries.length = t.entries.length + items.length := by
  induction items with
  | nil => intro s t t' seen h _ _ _ _; rw [basicLoop] at h; cases h; simp
  | cons it items ih =>
    obtain ⟨src, e⟩ := it
    intro s t t' seen h hn hnew hseen hnone
    rw [List.map_cons, List.nodup_cons] at hn
    rw [basicLoop] at h
    simp only [bind, Except.bind] at h
    cases hk : w.keyMask src.1 src.2 with
    | error x => simp only [hk] at h; cases h
    | ok km =>
      simp only [hk] at h
      have hfresh : s.get? km = none := by
        cases hg : s.get? km with
        | none => rfl
        | some o =>
          have ho := hseen km o hg
          have hne : o ≠ src := by
            rintro rfl
            exact hnew o (by simp) ho
          unfold checkSource at h
          simp only [hg] at h
          rw [if_pos hne] at h
          cases h
      have hs : checkSource s km src = .ok (s.set km src) := by
        unfold checkSource; rw [hfresh]
      simp only [hs] at h
      cases hm : mkEntry km.1 km.2 e with
      | error x => simp only [hm] at h; cases h
      | ok en =>
        simp only [hm] at h
        have hen : (en.key, en.mask) = km := by
          unfold mkEntry at hm
          split at hm
          · cases hm; rfl
          · cases hm
        have ht : t.add same en = .ok { t with
            entries := t.entries.set (en.key, en.mask) en
            nDefaulted := if en.defaultable then t.nDefaulted + 1 else t.nDefaulted } := by
          unfold UTable.add
          rw [hen, hnone km hfresh]
        simp only [ht] at h
        have := ih (src :: seen) h hn.2
          (by intro src' hsrc' hin
              rcases List.mem_cons.1 hin with rfl | hin
              · exact hn.1 hsrc'
              · exact hnew src' (by rw [List.map_cons]; exact List.mem_cons_of_mem _ hsrc') hin)
          (by intro km' o ho
              rw [Dict.get?_set] at ho
              split at ho
              · cases ho; exact List.mem_cons_self
              · exact List.mem_cons_of_mem _ (hseen km' o ho))
          (by intro km' ho
              rw [Dict.get?_set] at ho
              rw [hen, Dict.get?_set]
              split at ho
              · cases ho
              · next hne =>
                rw [if_neg hne]
                exact hnone km' ho)
        rw [this, hen, set_new _ _ _ (hnone km hfresh)]
        simp only [List.length_cons]
        omega

/-- **C142**, of the generators: where both make a table, that of the merged generator is not longer
than that of the basic one, which has one entry for each source. -/
theorem C142_generators (same : Entry → Entry → Bool) {w : World} {items : List Item} {x y : Nat}
    {tb tm : UTable} (hn : (items.map (·.1)).Nodup) (hb : createBasic same w x y items = .ok tb)
    (hm : createMerged same w x y items = .ok tm) :
    tb.values.length = items.length ∧ tm.values.length ≤ tb.values.length := by
  have h1 := basicLoop_count same items [] hb hn (by simp) (by intro km o h; cases h)
    (by intro km _; rfl)
  have h2 := mergedLoop_count same _ hm
  simp only [UTable.empty, List.length_nil, Nat.zero_add] at h1 h2
  unfold UTable.values
  simp only [List.length_map]
  omega

/-! ### Cases -/

/-- Machine vertices 1 to 6 of the application vertex of `sample`. -/
def six : List (REntry × MInfo) := (⟨5, false⟩, ⟨0x410, 0xFFFFFFF0, 1⟩) :: sample

theorem six_consecutive : Consecutive 1 six := by
  intro j h
  match j, h with
  | 0, _ | 1, _ | 2, _ | 3, _ | 4, _ | 5, _ => rfl
  | j + 6, h => exact absurd h (by simp [six, sample])

/-- The bound of `C142_few` is reached: four entries for six vertices. -/
example : (∃ xs, mergeEntries sampleApp six = .ok xs ∧ xs.length ≤ 2 * (6 + 1 : Nat).log2 ∧
    xs.length = 4) ∧ 2 * (6 + 1 : Nat).log2 = 4 := by
  refine ⟨⟨[⟨0x410, 0xFFFFFFF0, 5, false⟩, ⟨0x420, 0xFFFFFFE0, 5, false⟩,
    ⟨0x440, 0xFFFFFFE0, 5, false⟩, ⟨0x460, 0xFFFFFFF0, 5, false⟩], by decide +kernel, ?_, rfl⟩,
    by decide +kernel⟩
  exact C142_few (app := sampleApp) (entries := six) six_consecutive (by decide +kernel)

/-- The same vertices, if there is one more before and none behind them, become one entry. -/
example : (∃ xs, mergeEntries { sampleApp with maxIndex := 6 }
      ((⟨5, false⟩, ⟨0x400, 0xFFFFFFF0, 0⟩) :: six) = .ok xs ∧ xs.length = 1) ∧
    mergeEntries { sampleApp with maxIndex := 6 } ((⟨5, false⟩, ⟨0x400, 0xFFFFFFF0, 0⟩) :: six) =
      .ok [⟨0x400, 0xFFFFFF80, 5, false⟩] := by
  have h : mergeEntries { sampleApp with maxIndex := 6 }
      ((⟨5, false⟩, ⟨0x400, 0xFFFFFFF0, 0⟩) :: six) = .ok [⟨0x400, 0xFFFFFF80, 5, false⟩] := by
    decide +kernel
  refine ⟨⟨_, h, C142_whole ?_ (by decide) h⟩, h⟩
  intro j hj
  match j, hj with
  | 0, _ | 1, _ | 2, _ | 3, _ | 4, _ | 5, _ | 6, _ => rfl
  | j + 7, h => exact absurd h (by simp [six, sample])

/-- Two sources in a table of two, and of one when merged. -/
example : ∃ tb tm, createBasic (fun _ _ => false) (ofInfos lineFixed mixedApp) 0 0 lineItems = .ok tb ∧
    createMerged (fun _ _ => false) (ofInfos lineFixed mixedApp) 0 0 lineItems = .ok tm ∧
    (tb.values.length = 2 ∧ tm.values.length ≤ tb.values.length) ∧ tm.values.length = 1 := by
  refine ⟨⟨0, 0, [((0x100, 0xFFFFFFF0), ⟨0x100, 0xFFFFFFF0, 6, false⟩),
    ((0x110, 0xFFFFFFF0), ⟨0x110, 0xFFFFFFF0, 6, false⟩)], 0⟩,
    ⟨0, 0, [((0x100, 0xFFFFFFE0), ⟨0x100, 0xFFFFFFE0, 6, false⟩)], 0⟩, by decide +kernel,
    by decide +kernel, ?_, rfl⟩
  exact C142_generators (fun _ _ => false) (w := ofInfos lineFixed mixedApp) (items := lineItems)
    (x := 0) (y := 0) (by decide) (by decide +kernel) (by decide +kernel)

/-- **C142**: how long the merged table is depends on the order in which the router came to the
sources: the two sources of `lineItems` the other way round are not merged. -/
theorem C142_order_matters :
    (createMerged (fun _ _ => false) (ofInfos lineFixed mixedApp) 0 0 lineItems.reverse).map
      (·.values.length) = .ok 2 ∧
    (createMerged (fun _ _ => false) (ofInfos lineFixed mixedApp) 0 0 lineItems).map
      (·.values.length) = .ok 1 := by
  decide +kernel

end Pacman.Gen
