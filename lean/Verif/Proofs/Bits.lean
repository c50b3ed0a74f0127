import Verif.Spec.Routing
/-
Bit-level lemmas on keys and masks.
-/

namespace Pacman

theorem word_ext {a b : Word} (h : ∀ i : Nat, i < 32 → a.getLsbD i = b.getLsbD i) : a = b :=
  BitVec.eq_of_getLsbD_eq (fun i hi => h i hi)

theorem word_bit {a b : Word} (h : a = b) (i : Nat) : a.getLsbD i = b.getLsbD i := by rw [h]

/-- Bitwise reading of a match. -/
theorem and_eq_iff {k m key : Word} :
    k &&& m = key ↔ ∀ i : Nat, i < 32 → (k.getLsbD i && m.getLsbD i) = key.getLsbD i := by
  constructor
  · intro h i _
    have := word_bit h i
    simpa using this
  · intro h
    exact word_ext (fun i hi => by simpa using h i hi)

/-- Two valid key/masks share a key iff `(ka & mb) = (kb & ma)`. -/
theorem meets_iff {ka ma kb mb : Word} (ha : ka &&& ma = ka) (hb : kb &&& mb = kb) :
    (∃ k, k &&& ma = ka ∧ k &&& mb = kb) ↔ ka &&& mb = kb &&& ma := by
  constructor
  · rintro ⟨k, h1, h2⟩
    rw [← h1, ← h2]
    apply word_ext; intro i _; simp only [BitVec.getLsbD_and]
    cases k.getLsbD i <;> cases ma.getLsbD i <;> cases mb.getLsbD i <;> rfl
  · intro h
    refine ⟨ka ||| kb, ?_, ?_⟩
    · rw [and_eq_iff]; intro i hi
      have h1 := and_eq_iff.1 ha i hi
      have h2 := and_eq_iff.1 hb i hi
      have h3 := word_bit h i
      simp only [BitVec.getLsbD_and, BitVec.getLsbD_or] at *
      revert h1 h2 h3
      cases ka.getLsbD i <;> cases ma.getLsbD i <;> cases mb.getLsbD i <;> cases kb.getLsbD i <;> simp
    · rw [and_eq_iff]; intro i hi
      have h1 := and_eq_iff.1 ha i hi
      have h2 := and_eq_iff.1 hb i hi
      have h3 := word_bit h i
      simp only [BitVec.getLsbD_and, BitVec.getLsbD_or] at *
      revert h1 h2 h3
      cases ka.getLsbD i <;> cases ma.getLsbD i <;> cases mb.getLsbD i <;> cases kb.getLsbD i <;> simp

theorem Entry.meets_iff {a b : Entry} (ha : a.Valid) (hb : b.Valid) :
    a.Meets b ↔ a.key &&& b.mask = b.key &&& a.mask := Pacman.meets_iff ha hb

theorem Entry.Meets.symm {a b : Entry} (h : a.Meets b) : b.Meets a :=
  let ⟨k, h1, h2⟩ := h; ⟨k, h2, h1⟩

theorem narrow_of_orthogonal {t : List Entry} (hv : AllValid t) (ho : Orthogonal t) : NarrowFirst t := by
  refine List.Pairwise.imp_of_mem ?_ ho
  intro a b ha hb h
  refine ⟨?_, fun hm => absurd hm h⟩
  intro he
  simp only [Prod.mk.injEq] at he
  refine h ⟨a.key, hv a ha, ?_⟩
  unfold Entry.Matches
  rw [← he.1, ← he.2]
  exact hv a ha

end Pacman
