import Verif.Spec.Validation
import Verif.Proofs.RangeCompressor
import Verif.Proofs.RouterGraph
import Verif.Proofs.Dict
/-
Lemmas about the route checker.
-/

namespace Pacman.Valid

open Alloc (VId)
open RPath (XY)

/-! ### Masks -/

theorem rangeMasks_fin : ∀ i : Fin 33, (BitVec.ofNat 32 (2 ^ 32 - 1 - (2 ^ i.val - 1)) : Word) = Range.maskP i.val := by
  decide +kernel

theorem maskP_toNat_fin : ∀ i : Fin 33, (Range.maskP i.val).toNat = 2 ^ 32 - 2 ^ i.val := by
  decide +kernel

theorem mem_rangeMasks {m : Word} : m ∈ rangeMasks ↔ ∃ p, p ≤ 32 ∧ m = Range.maskP p := by
  unfold rangeMasks
  rw [List.mem_map]
  constructor
  · rintro ⟨i, hi, rfl⟩
    have hi := List.mem_range.mp hi
    exact ⟨i, by omega, rangeMasks_fin ⟨i, hi⟩⟩
  · rintro ⟨p, hp, rfl⟩
    exact ⟨p, List.mem_range.mpr (by omega), rangeMasks_fin ⟨p, by omega⟩⟩

theorem rangeMask_iff {m : Word} : m ∈ rangeMasks ↔ BlockMask m := by
  rw [mem_rangeMasks]
  constructor
  · rintro ⟨p, hp, rfl⟩
    exact ⟨p, hp, maskP_toNat_fin ⟨p, by omega⟩⟩
  · rintro ⟨p, hp, h⟩
    refine ⟨p, hp, BitVec.eq_of_toNat_eq ?_⟩
    rw [h]
    exact (maskP_toNat_fin ⟨p, by omega⟩).symm

/-! ### One entry -/

/-- What `_locate_routing_entry` finds acceptable of one entry. -/
def Fine (key : Word) (n : Nat) (e : Entry) : Prop :=
  if e.Matches key then e.mask ∈ rangeMasks → ¬ (lastKey e : Int) < (key.toNat : Int) + n - 1
  else e.mask ∈ rangeMasks →
    ¬ min (lastKey e : Int) (key.toNat + n) - max (e.key.toNat : Int) key.toNat + 1 > 0

theorem matches_comm {e : Entry} {k : Word} : e.mask &&& k = e.key ↔ e.Matches k := by
  unfold Entry.Matches
  rw [BitVec.and_comm]

theorem locateLoop_ok {key : Word} {n : Nat} (es : List Entry) : ∀ {found r : Option Entry},
    (locateLoop key n es found = .ok r ↔
      (∀ e ∈ es, Fine key n e) ∧ r = (if found.isNone then lookup es key else found)) := by
  induction es with
  | nil =>
    intro found r
    simp only [locateLoop, lookup, List.find?_nil]
    cases found with
    | none => simp [eq_comm]
    | some e => simp [eq_comm]
  | cons e es ih =>
    intro found r
    simp only [locateLoop]
    have hl : lookup (e :: es) key = if e.Matches key then some e else lookup es key := by
      unfold lookup
      rw [List.find?_cons]
      by_cases h : e.Matches key
      · simp [h]
      · simp [h]
    by_cases hm : e.mask &&& key = e.key
    · have hm' := matches_comm.mp hm
      rw [if_pos hm]
      have hf : Fine key n e ↔ ¬ (e.mask ∈ rangeMasks ∧ (lastKey e : Int) < (key.toNat : Int) + n - 1) := by
        unfold Fine
        rw [if_pos hm']
        exact ⟨fun h h' => h h'.1 h'.2, fun h h1 h2 => h ⟨h1, h2⟩⟩
      by_cases hb : e.mask ∈ rangeMasks ∧ (lastKey e : Int) < (key.toNat : Int) + n - 1
      · rw [if_pos (by simpa using hb)]
        refine ⟨(fun h => by cases h), fun h => absurd hb (hf.mp (h.1 e List.mem_cons_self))⟩
      · rw [if_neg (by simpa using hb), ih, hl, if_pos hm', List.forall_mem_cons]
        cases found with
        | none => simp [hf, hb]
        | some f => simp [hf, hb]
    · have hm' : ¬ e.Matches key := fun h => hm (matches_comm.mpr h)
      rw [if_neg hm]
      have hf : Fine key n e ↔ ¬ (e.mask ∈ rangeMasks ∧
          min (lastKey e : Int) (key.toNat + n) - max (e.key.toNat : Int) key.toNat + 1 > 0) := by
        unfold Fine
        rw [if_neg hm']
        exact ⟨fun h h' => h h'.1 h'.2, fun h h1 h2 => h ⟨h1, h2⟩⟩
      by_cases hb : e.mask ∈ rangeMasks ∧
          min (lastKey e : Int) (key.toNat + n) - max (e.key.toNat : Int) key.toNat + 1 > 0
      · rw [if_pos (by simpa using hb)]
        refine ⟨(fun h => by cases h), fun h => absurd hb (hf.mp (h.1 e List.mem_cons_self))⟩
      · rw [if_neg (by simpa using hb), ih, hl, if_neg hm', List.forall_mem_cons]
        cases found with
        | none => simp [hf, hb]
        | some f => simp [hf, hb]

theorem locate_ok {t : List Entry} {key : Word} {n : Nat} {e : Entry} :
    locate t key n = .ok e ↔ (∀ x ∈ t, Fine key n x) ∧ lookup t key = some e := by
  unfold locate
  cases h : locateLoop key n t none with
  | error err =>
    refine ⟨(fun h' => by cases h'), fun h' => ?_⟩
    have := (locateLoop_ok (r := lookup t key) (found := none) t).mpr ⟨h'.1, by simp⟩
    rw [h] at this
    cases this
  | ok r =>
    obtain ⟨h1, h2⟩ := (locateLoop_ok t).mp h
    rw [if_pos (by rfl)] at h2
    cases r with
    | none =>
      refine ⟨(fun h' => by cases h'), fun h' => ?_⟩
      rw [h'.2] at h2
      cases h2
    | some x =>
      rw [← h2]
      simp only [Except.ok.injEq, Option.some.injEq]
      exact ⟨fun h => ⟨h1, h⟩, fun h => h.2⟩

/-- The last key of a block. -/
theorem lastKey_block {e : Entry} {low p : Nat} (h : Range.IsBlock e low p) :
    lastKey e + 1 = low + 2 ^ p := by
  have hpos : 0 < 2 ^ p := Nat.two_pow_pos p
  have hn := Range.not_maskP_fin ⟨p, by have := h.le; omega⟩
  simp only at hn
  unfold lastKey
  rw [h.mask, hn, h.key]
  omega

theorem matches_valid {e : Entry} {k : Word} (h : e.Matches k) : e.Valid := by
  unfold Entry.Valid
  unfold Entry.Matches at h
  rw [← h, BitVec.and_assoc, BitVec.and_self]

theorem key_add {key : Word} {n i : Nat} (hn : key.toNat + n ≤ 2 ^ 32) (hi : i < n) :
    (key + BitVec.ofNat 32 i).toNat = key.toNat + i := by
  rw [BitVec.toNat_add, BitVec.toNat_ofNat, Nat.mod_eq_of_lt (a := i) (by omega)]
  exact Nat.mod_eq_of_lt (by omega)

/-- An acceptable block treats all keys of the range alike. -/
theorem Fine.alike {key : Word} {n i : Nat} {e : Entry} (h : Fine key n e) (hm : BlockMask e.mask)
    (hn : key.toNat + n ≤ 2 ^ 32) (hi : i < n) :
    e.Matches (key + BitVec.ofNat 32 i) ↔ e.Matches key := by
  by_cases hv : e.Valid
  · obtain ⟨p, hp, hmp⟩ := mem_rangeMasks.mp (rangeMask_iff.mpr hm)
    have hb := Range.isBlock_of_valid hv hp hmp
    have hl := lastKey_block hb
    rw [hb.matches, hb.matches, key_add hn hi]
    have hpos : 0 < 2 ^ p := Nat.two_pow_pos p
    unfold Fine at h
    split at h
    · rename_i h1
      have h1 := (hb.matches _).mp h1
      have h2 := h (rangeMask_iff.mpr hm)
      constructor
      · intro _; exact h1
      · intro _; omega
    · rename_i h1
      have h1 := fun h => h1 ((hb.matches _).mpr h)
      have h2 := h (rangeMask_iff.mpr hm)
      constructor
      · intro h3; exfalso; omega
      · intro h3; exact absurd h3 h1
  · exact ⟨fun h => absurd (matches_valid h) hv, fun h => absurd (matches_valid h) hv⟩

/-- Every key of the range meets the entry that was found. -/
theorem locate_lookup {t : List Entry} {key : Word} {n i : Nat} {e : Entry} (h : locate t key n = .ok e)
    (hn : key.toNat + n ≤ 2 ^ 32) (hi : i < n)
    (ha : ∀ x ∈ t, ¬ BlockMask x.mask → (x.Matches key ↔ x.Matches (key + BitVec.ofNat 32 i))) :
    lookup t (key + BitVec.ofNat 32 i) = some e := by
  obtain ⟨h1, h2⟩ := locate_ok.mp h
  rw [← h2]
  unfold lookup
  have : ∀ x ∈ t, decide (x.Matches (key + BitVec.ofNat 32 i)) = decide (x.Matches key) := by
    intro x hx
    rw [decide_eq_decide]
    by_cases hm : BlockMask x.mask
    · exact (h1 x hx).alike hm hn hi
    · exact (ha x hx hm).symm
  clear h h1 h2 ha
  induction t with
  | nil => rfl
  | cons x t ih =>
    rw [List.find?_cons, List.find?_cons, this x List.mem_cons_self,
      ih (fun y hy => this y (List.mem_cons_of_mem _ hy))]

end Pacman.Valid
