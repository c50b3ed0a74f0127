import Verif.Proofs.PairFull
import Verif.Proofs.PairSort
/-
How many entries the pair compressor gives to each route.
-/

namespace Pacman.Pair

/-- How many entries of the table have a route with the property. -/
def having (p : Nat → Bool) (t : List Entry) : Nat := t.countP (fun e => p e.route)

theorem having_all {p : Nat → Bool} {P : List Entry} {r : Nat} (h : ∀ e ∈ P, e.route = r) (hp : p r = true) :
    having p P = P.length := by
  unfold having
  rw [List.countP_eq_length]
  intro e he; rw [h e he]; exact hp

theorem having_none {p : Nat → Bool} {P : List Entry} {r : Nat} (h : ∀ e ∈ P, e.route = r) (hp : p r = false) :
    having p P = 0 := by
  unfold having
  rw [List.countP_eq_zero]
  intro e he; rw [h e he, hp]; exact Bool.false_ne_true

/-- The routes with a property get no more entries than they had. -/
theorem outer_having (o : Bool) : ∀ (fuel : Nat) (W G R : List Entry), AllValid R → R.length ≤ fuel →
    ∃ Q Z, outer o fuel (W ++ G ++ R) W.length W.length (W.length + G.length) =
        .ok (W ++ Q ++ Z, (W ++ Q).length) ∧ ∀ p, having p Q ≤ having p R := by
  intro fuel
  induction fuel with
  | zero =>
    intro W G R hR hlen
    have : R = [] := List.eq_nil_of_length_eq_zero (by omega)
    subst this
    refine ⟨[], G, ?_, fun _ => Nat.le_refl _⟩
    unfold outer; simp
  | succ fuel ih =>
    intro W G R hR hlen
    cases R with
    | nil =>
      refine ⟨[], G, ?_, fun _ => Nat.le_refl _⟩
      unfold outer; simp
    | cons x R0 =>
      unfold outer
      have hlt : W.length + G.length < (W ++ G ++ x :: R0).length := by simp
      simp only [hlt, if_true]
      obtain ⟨P', R', hs, hsplit, hroutes⟩ := scanRight_spec (W ++ G) x [] R0
        (W.length + G.length) (W.length + G.length) (by simp) (by simp) (by simp)
      have hs' : scanRight (W ++ G ++ x :: R0) (W.length + G.length) (W.length + G.length) =
          .ok (W.length + G.length + P'.length) := by
        have e : W ++ G ++ [x] ++ R0 = W ++ G ++ x :: R0 := by simp
        rw [e] at hs; rw [hs]; simp
      rw [hs']
      simp only
      have hR0 : R0 = P' ++ R' := by simpa using hsplit
      have hPr : ∀ p ∈ x :: P', p.Valid ∧ p.route = x.route := by
        intro p hp
        refine ⟨hR p (by rw [hR0]; rcases List.mem_cons.1 hp with h | h <;> simp [h]), ?_⟩
        rcases List.mem_cons.1 hp with h | h
        · rw [h]
        · exact hroutes p h
      have hR't : AllValid R' := by intro r hr; apply hR; rw [hR0]; simp [hr]
      obtain ⟨Q, G', hq, hQlen, hQ, _, _, hle⟩ := compressByRoute_spec
        (fun e => e.Valid ∧ e.route = x.route)
        ⟨o, W.length, W.length + G.length + P'.length + 1⟩ W R' (fun _ h => h.1)
        (fun _ _ h h' => by rw [h.2, h'.2]) (fun a b ha _ _ => ⟨mergeE_valid a b, ha.2⟩)
        P'.length W G (x :: P') [] (by simp) hPr
        (by simp) (by simp) (by simp; omega)
      have hes : W ++ G ++ x :: R0 = W ++ G ++ x :: P' ++ [] ++ R' := by simp [hR0]
      rw [hes, hq]
      simp only
      obtain ⟨Q', Z, ho, hi⟩ := ih (W ++ Q) G' R' hR't
        (by rw [hR0] at hlen; simp at hlen; omega)
      refine ⟨Q ++ Q', Z, ?_, ?_⟩
      · rw [← List.append_assoc, ← ho]
        have : (W ++ Q).length + G'.length = W.length + G.length + P'.length + 1 := by
          rw [← List.length_append, hQlen]
        rw [this]
      · intro p
        have h1 : x :: R0 = (x :: P') ++ R' := by rw [hR0]; rfl
        have h2 : having p Q ≤ having p (x :: P') := by
          cases hp : p x.route with
          | true =>
            rw [having_all (fun e he => (hPr e he).2) hp, having_all (fun e he => (hQ e he).2) hp]
            exact hle
          | false => rw [having_none (fun e he => (hQ e he).2) hp]; exact Nat.zero_le _
        have h3 := hi p
        rw [h1]
        unfold having at h2 h3 ⊢
        rw [List.countP_append, List.countP_append]
        omega

theorem compressSorted_having (o : Bool) (t t' : List Entry) (hv : AllValid t)
    (h : compressSorted o t = .ok t') (p : Nat → Bool) : having p t' ≤ having p t := by
  obtain ⟨Q, Z, h1, h2⟩ := outer_having o t.length [] [] t hv (Nat.le_refl _)
  unfold compressSorted at h
  have : outer o t.length t 0 0 0 = .ok (Q ++ Z, Q.length) := by simpa using h1
  rw [this] at h
  simp [bind, Except.bind, pure, Except.pure] at h
  rw [← h]; exact h2 p


theorem nodup_eraseDups' {α : Type} [BEq α] [LawfulBEq α] (l : List α) : l.eraseDups.Nodup := by
  have : ∀ (n : Nat) (l : List α), l.length ≤ n → l.eraseDups.Nodup := by
    intro n
    induction n with
    | zero =>
      intro l h
      cases l with
      | nil => exact List.nodup_nil
      | cons a l => simp at h
    | succ n ih =>
      intro l h
      cases l with
      | nil => exact List.nodup_nil
      | cons a l =>
        rw [List.eraseDups_cons, List.nodup_cons]
        refine ⟨?_, ih _ (Nat.le_trans (List.length_filter_le _ _) (by simpa using h))⟩
        rw [List.mem_eraseDups]
        simp
  exact this _ l (Nat.le_refl _)

end Pacman.Pair
