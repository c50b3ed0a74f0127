import Verif.Spec.Sdram
import Verif.Proofs.Dict
/-
Helper lemmas for SDRAM costs.
-/

namespace Pacman.Sdram

theorem varTotal_err {f p t e} (h : varTotal f p t = .error e) : e = .configuration := by
  unfold varTotal at h
  split at h
  · cases h
  · split at h <;> cases h
    rfl

mutual
theorem total_err (t : Option Nat) : ∀ (c : Cost) (e : PyErr), total t c = .error e → e = .configuration
  | .const n, e, h => by rw [total] at h; cases h
  | .var f p, e, h => by rw [total] at h; exact varTotal_err h
  | .shared sh pc, e, h => by
    rw [total] at h
    cases hp : total t pc with
    | error e' => rw [hp] at h; cases h; exact total_err t pc _ hp
    | ok r => rw [hp] at h; exact totalSh_err t sh r e h
  | .multi c, e, h => by rw [total] at h; exact total_err t c e h
theorem totalSh_err (t : Option Nat) : ∀ (sh : List (String × Cost)) (r : Int) (e : PyErr),
    totalSh t r sh = .error e → e = .configuration
  | [], r, e, h => by rw [totalSh] at h; cases h
  | (k, c) :: l, r, e, h => by
    rw [totalSh] at h
    cases hp : total t c with
    | error e' => rw [hp] at h; cases h; exact total_err t c _ hp
    | ok n => rw [hp] at h; exact totalSh_err t l _ e h
end

theorem addE_comm3 (x y z : Except PyErr Int) : addE x (addE y z) = addE y (addE x z) := by
  cases x <;> cases y <;> cases z <;> simp only [addE]
  congr 1
  omega

theorem sumE_perm {l l' : List (Except PyErr Int)} (h : l.Perm l') : sumE l = sumE l' := by
  induction h with
  | nil => rfl
  | cons x _ ih => simp only [sumE, ih]
  | swap x y l => simp only [sumE]; exact addE_comm3 _ _ _
  | trans _ _ ih1 ih2 => exact ih1.trans ih2

theorem totalSh_eq (t : Option Nat) (r : Int) (sh : List (String × Cost)) :
    totalSh t r sh = sumE (.ok r :: sh.map (fun q => total t q.2)) := by
  induction sh generalizing r with
  | nil => rw [totalSh]; simp [sumE, addE]
  | cons q l ih =>
    obtain ⟨k, c⟩ := q
    rw [totalSh]
    simp only [List.map_cons, sumE]
    cases hc : total t c with
    | error e => rw [total_err t c e hc]; rfl
    | ok n =>
      simp only [ih, sumE]
      cases sumE (List.map (fun q => total t q.2) l) with
      | error e => rfl
      | ok s =>
        simp only [addE]
        congr 1
        omega

theorem Cost.ind {P : Cost → Prop} (h1 : ∀ n, P (.const n)) (h2 : ∀ f p, P (.var f p))
    (h3 : ∀ sh pc, P pc → P (.shared sh pc)) (h4 : ∀ c, P c → P (.multi c)) : ∀ c, P c
  | .const n => h1 n
  | .var f p => h2 f p
  | .shared sh pc => h3 sh pc (Cost.ind h1 h2 h3 h4 pc)
  | .multi c => h4 c (Cost.ind h1 h2 h3 h4 c)

theorem varTotal_zero (n : Int) (t : Option Nat) : varTotal n 0 t = .ok n := by
  unfold varTotal
  cases t with
  | none => simp
  | some m => simp [Rat.zero_mul, Rat.add_zero]

theorem total_plain {c : Cost} (h : Plain c) (t : Option Nat) : total t c = varTotal (own c).1 (own c).2 t := by
  induction c using Cost.ind with
  | h1 n => rw [total, own, varTotal_zero]
  | h2 f p => rw [total, own]
  | h3 sh pc _ => exact h.elim
  | h4 c ih => rw [total, own]; exact ih h

theorem sumE_append (l l' : List (Except PyErr Int)) : sumE (l ++ l') = addE (sumE l) (sumE l') := by
  have hz : ∀ l, sumE l = .error .configuration ∨ ∃ x, sumE l = .ok x := by
    intro l
    induction l with
    | nil => exact .inr ⟨0, rfl⟩
    | cons x l ih =>
      rw [sumE]
      cases x with
      | error e => exact .inl rfl
      | ok a => rcases ih with h | ⟨y, h⟩ <;> rw [h]
                · exact .inl rfl
                · exact .inr ⟨_, rfl⟩
  induction l with
  | nil =>
    rw [List.nil_append, sumE]
    rcases hz l' with h | ⟨y, h⟩ <;> rw [h]
    · rfl
    · simp [addE]
  | cons x l ih =>
    rw [List.cons_append, sumE, ih, sumE]
    cases x <;> rcases hz l with h | ⟨y, h⟩ <;> rcases hz l' with h' | ⟨y', h'⟩ <;> rw [h, h'] <;> simp [addE, Int.add_assoc]

/-- The total of a cost: its own part and its blocks. -/
theorem total_blocks (c : Cost) (t : Option Nat) :
    total t c = sumE (varTotal (own c).1 (own c).2 t :: (blocks c).map (fun q => total t q.2)) := by
  have one : ∀ x : Except PyErr Int, (∀ e, x = .error e → e = .configuration) → sumE [x] = x := by
    intro x hx
    cases x with
    | error e => rw [hx e rfl]; rfl
    | ok n => simp [sumE, addE]
  induction c using Cost.ind with
  | h1 n =>
    simp only [blocks, List.map_nil]
    rw [one _ (fun e => varTotal_err), total, own, varTotal_zero]
  | h2 f p =>
    simp only [blocks, List.map_nil]
    rw [one _ (fun e => varTotal_err), total, own]
  | h3 sh pc ih =>
    have e : sumE (varTotal (own (.shared sh pc)).1 (own (.shared sh pc)).2 t ::
        (blocks (.shared sh pc)).map (fun q => total t q.2)) =
        addE (sumE (varTotal (own pc).1 (own pc).2 t :: (blocks pc).map (fun q => total t q.2)))
          (sumE (sh.map (fun q => total t q.2))) := by
      rw [← sumE_append, own, blocks, List.map_append, List.map_map, List.map_map]
      exact sumE_perm (List.Perm.cons _ List.perm_append_comm)
    rw [e, ← ih, total]
    cases hv : total t pc with
    | error e => rw [total_err t pc e hv]; rfl
    | ok r => simp only; rw [totalSh_eq, sumE]
  | h4 c ih => rw [total, own, blocks]; exact ih

theorem total_other (t : Option Nat) (c : Cost) : total t (other c) = total t c := by
  cases c <;> simp [other, total]

theorem wf_other {c : Cost} (h : WF c) : WF (other c) := by
  cases h with
  | const n => exact .const n
  | var f p => exact .var f p
  | shared sh pc h1 h2 h3 => exact .shared sh pc h1 h2 h3
  | multi c h => exact h

theorem eqPlain_total {a b : Cost} (h : eqPlain a b = true) (t : Option Nat) : total t a = total t b := by
  unfold eqPlain at h
  split at h
  · simp only [decide_eq_true_eq] at h
    rw [h]
  · simp only [Bool.and_eq_true, decide_eq_true_eq] at h
    rw [h.1, h.2]
  · simp only [Bool.and_eq_true, decide_eq_true_eq] at h
    rw [total, total, h.1, h.2, varTotal_zero]
  · cases h

theorem eqSh_spec {sh sh' : List (String × Cost)} (h : eqSh sh sh' = true) :
    ∀ q ∈ sh, ∃ c', Dict.get? sh' q.1 = some c' ∧ eq q.2 c' = true := by
  induction sh with
  | nil => simp
  | cons q l ih =>
    obtain ⟨k, c⟩ := q
    rw [eqSh, Bool.and_eq_true] at h
    intro q hq
    rcases List.mem_cons.1 hq with rfl | hq
    · cases hg : Dict.get? sh' k with
      | none => rw [hg] at h; simp at h
      | some c' => rw [hg] at h; exact ⟨c', rfl, h.1⟩
    · exact ih h.2 q hq

theorem sizeOf_mem {sh : List (String × Cost)} {q : String × Cost} (h : q ∈ sh) : sizeOf q.2 < sizeOf sh := by
  have := List.sizeOf_lt_of_mem h
  obtain ⟨k, c⟩ := q
  simp at this ⊢
  omega

theorem subset_perm {α : Type} {l l' : List α} (hn : l.Nodup) (hn' : l'.Nodup) (hs : l ⊆ l')
    (hl : l.length = l'.length) : l.Perm l' := by
  rw [List.perm_ext_iff_of_nodup hn hn']
  intro a
  refine ⟨fun h => hs h, fun ha => Classical.byContradiction fun hna => ?_⟩
  have := List.Nodup.length_le_of_subset (List.nodup_cons.2 ⟨hna, hn⟩) (l₂ := l') (by
    intro x hx
    rcases List.mem_cons.1 hx with rfl | hx
    · exact ha
    · exact hs hx)
  simp at this
  omega

/-- Equal costs have the same total. -/
theorem eq_total : ∀ (n : Nat) (a b : Cost), sizeOf a ≤ n → WF a → WF b → eq a b = true → ∀ t, total t a = total t b := by
  intro n
  induction n with
  | zero => intro a b hs; cases a <;> simp at hs
  | succ n ih =>
    intro a b hs ha hb h t
    cases a with
    | const x => rw [eq] at h; exact eqPlain_total h t; all_goals simp
    | var f p => rw [eq] at h; exact eqPlain_total h t; all_goals simp
    | multi c =>
      rw [eq] at h
      cases ha with
      | multi _ hc =>
        rw [total, ← total_other t b]
        exact ih c (other b) (by simp at hs; omega) hc (wf_other hb) h t
    | shared sh pc =>
      cases b with
      | const x => simp [eq] at h
      | var f p => simp [eq] at h
      | multi c => simp [eq] at h
      | shared sh' pc' =>
        rw [eq] at h
        simp only [Bool.and_eq_true, beq_iff_eq] at h
        obtain ⟨⟨h1, h2⟩, h3⟩ := h
        cases ha with
        | shared _ _ a1 a2 a3 =>
        cases hb with
        | shared _ _ b1 b2 b3 =>
        simp at hs
        have e1 := ih pc pc' (by omega) a1 b1 h1 t
        have h3 := eqSh_spec h3
        have hkeys : (sh.map (·.1)).Perm (sh'.map (·.1)) := by
          refine subset_perm a2 b2 ?_ (by simpa using h2)
          intro k hk
          obtain ⟨q, hq, rfl⟩ := List.mem_map.1 hk
          obtain ⟨c', hc', _⟩ := h3 q hq
          exact List.mem_map.2 ⟨_, Dict.mem_of_get? hc', rfl⟩
        have e2 : ∀ (d : List (String × Cost)), (d.map (·.1)).Nodup →
            d.map (fun q => total t q.2) = (d.map (·.1)).map (fun k => match Dict.get? d k with
              | some c => total t c
              | none => .ok 0) := by
          intro d hd
          rw [List.map_map]
          apply List.map_congr_left
          intro q hq
          simp only [Function.comp_apply]
          rw [Dict.get?_of_mem hd (k := q.1) (v := q.2) hq]
        have e3 : sh.map (fun q => total t q.2) = (sh.map (·.1)).map (fun k => match Dict.get? sh' k with
              | some c => total t c
              | none => .ok 0) := by
          rw [List.map_map]
          apply List.map_congr_left
          intro q hq
          obtain ⟨c', hc', he⟩ := h3 q hq
          simp only [Function.comp_apply, hc']
          have hq2 := sizeOf_mem hq
          exact ih q.2 c' (by omega) (a3 q hq) (b3 _ (Dict.mem_of_get? hc')) he t
        rw [total, total, e1]
        cases total t pc' with
        | error e => rfl
        | ok r =>
          simp only
          rw [totalSh_eq, totalSh_eq, e3, e2 sh' b2]
          exact sumE_perm (List.Perm.cons _ (hkeys.map _))

theorem own_addPlain (c : Cost) (f : Int) (p : Option Rat) :
    own (addPlain c f p) = ((own c).1 + f, (own c).2 + p.getD 0) := by
  induction c using Cost.ind with
  | h1 n =>
    cases p with
    | none => simp [addPlain, own, Rat.add_zero]
    | some p => simp [addPlain, own, Rat.zero_add, Int.add_comm]
  | h2 g q => cases p <;> simp [addPlain, own, Rat.add_zero]
  | h3 sh pc ih => rw [addPlain, own, own]; exact ih
  | h4 c ih => rw [addPlain, own]; exact ih

theorem blocks_addPlain (c : Cost) (f : Int) (p : Option Rat) : blocks (addPlain c f p) = blocks c := by
  induction c using Cost.ind with
  | h1 n => cases p <;> simp [addPlain, blocks]
  | h2 g q => cases p <;> simp [addPlain, blocks]
  | h3 sh pc ih => rw [addPlain, blocks, blocks, ih]
  | h4 c ih => rw [addPlain, blocks]; exact ih

theorem plain_addPlain {c : Cost} (h : Plain c) (f : Int) (p : Option Rat) : Plain (addPlain c f p) := by
  induction c using Cost.ind with
  | h1 n => cases p <;> simp [addPlain, Plain]
  | h2 g q => cases p <;> simp [addPlain, Plain]
  | h3 sh pc ih => exact h.elim
  | h4 c ih => rw [addPlain]; exact ih h

theorem wf_addPlain {c : Cost} (h : WF c) (f : Int) (p : Option Rat) : WF (addPlain c f p) := by
  induction c using Cost.ind with
  | h1 n => cases p <;> simp only [addPlain] <;> constructor
  | h2 g q => cases p <;> simp only [addPlain] <;> constructor
  | h3 sh pc ih =>
    cases h with
    | shared _ _ a1 a2 a3 => rw [addPlain]; exact .shared _ _ (ih a1) a2 a3
  | h4 c ih =>
    cases h with
    | multi _ a1 => rw [addPlain]; exact ih a1

/-- The union of two dictionaries of blocks. -/
theorem mergeSh_ok {sh l : List (String × Cost)} (hn : (sh.map (·.1)).Nodup)
    (hagree : ∀ k v w, (k, v) ∈ l → (k, w) ∈ sh → eq v w = true) (hl : (l.map (·.1)).Nodup) :
    ∃ m, mergeSh sh l = .ok m ∧ (m.map (·.1)).Nodup ∧ (∀ q ∈ m, q ∈ sh ∨ q ∈ l) ∧
      (∀ k, k ∈ m.map (·.1) ↔ k ∈ sh.map (·.1) ∨ k ∈ l.map (·.1)) := by
  induction l generalizing sh with
  | nil => exact ⟨sh, rfl, hn, fun q hq => Or.inl hq, fun k => by simp⟩
  | cons q l ih =>
    obtain ⟨k, v⟩ := q
    rw [List.map_cons, List.nodup_cons] at hl
    rw [mergeSh]
    cases hg : Dict.get? sh k with
    | some w =>
      have hw := Dict.mem_of_get? hg
      simp only
      rw [if_pos (hagree k v w List.mem_cons_self hw)]
      obtain ⟨m, e1, e2, e3, e4⟩ := ih hn (fun k' v' w' h1 h2 => hagree k' v' w' (List.mem_cons_of_mem _ h1) h2) hl.2
      refine ⟨m, e1, e2, ?_, ?_⟩
      · intro q hq
        rcases e3 q hq with h | h
        · exact Or.inl h
        · exact Or.inr (List.mem_cons_of_mem _ h)
      · intro k'
        rw [e4, List.map_cons, List.mem_cons]
        have hk : k ∈ sh.map (·.1) := List.mem_map.2 ⟨_, hw, rfl⟩
        constructor
        · rintro (h | h)
          · exact Or.inl h
          · exact Or.inr (Or.inr h)
        · rintro (h | h | h)
          · exact Or.inl h
          · rw [h]; exact Or.inl hk
          · exact Or.inr h
    | none =>
      simp only
      have hmem : ∀ q, q ∈ Dict.set sh k v → q ∈ sh ∨ q = (k, v) := by
        intro q hq
        rw [Dict.set_absent hg] at hq
        rcases List.mem_append.1 hq with h | h
        · exact Or.inl h
        · exact Or.inr (List.mem_singleton.1 h)
      obtain ⟨m, e1, e2, e3, e4⟩ := ih (Dict.nodup_set hn k v) (by
        intro k' v' w' h1 h2
        rcases hmem _ h2 with h | h
        · exact hagree k' v' w' (List.mem_cons_of_mem _ h1) h
        · exfalso
          cases h
          exact hl.1 (List.mem_map.2 ⟨_, h1, rfl⟩)) hl.2
      refine ⟨m, e1, e2, ?_, ?_⟩
      · intro q hq
        rcases e3 q hq with h | h
        · rcases hmem q h with h | h
          · exact Or.inl h
          · rw [h]; exact Or.inr List.mem_cons_self
        · exact Or.inr (List.mem_cons_of_mem _ h)
      · intro k'
        rw [e4, List.map_cons, List.mem_cons]
        have : k' ∈ (Dict.set sh k v).map (·.1) ↔ k' ∈ sh.map (·.1) ∨ k' = k := by
          rw [Dict.set_absent hg, List.map_append]
          simp
        rw [this]
        constructor
        · rintro ((h | h) | h)
          · exact Or.inl h
          · exact Or.inr (Or.inl h)
          · exact Or.inr (Or.inr h)
        · rintro (h | h | h)
          · exact Or.inl (Or.inl h)
          · exact Or.inl (Or.inr h)
          · exact Or.inr h

end Pacman.Sdram
