import Verif.Model.OrderedCovering
import Verif.Proofs.Bits
import Verif.Proofs.Sort
/-
Lemmas on ordered covering.
-/

namespace Pacman.OC

/-- A key/mask matches a key. -/
def KM.Has (a : KM) (k : Word) : Prop := k &&& a.2 = a.1

/-- A key/mask with no key bit outside the mask. -/
def KM.Ok (a : KM) : Prop := a.1 &&& a.2 = a.1

/-- Two key/masks share a key. -/
def KM.Meet (a b : KM) : Prop := ∃ k, a.Has k ∧ b.Has k

/-- Each key of the first is one of the second. -/
def KM.Sub (a b : KM) : Prop := ∀ k, a.Has k → b.Has k

theorem KM.Ok.has {a : KM} (h : a.Ok) : a.Has a.1 := h

theorem KM.Meet.symm {a b : KM} (h : a.Meet b) : b.Meet a := let ⟨k, h1, h2⟩ := h; ⟨k, h2, h1⟩

theorem KM.Meet.mono {a a' b : KM} (h : a.Meet b) (hs : a.Sub a') : a'.Meet b :=
  let ⟨k, h1, h2⟩ := h; ⟨k, hs k h1, h2⟩

theorem intersect_iff {a b : KM} (ha : a.Ok) (hb : b.Ok) : intersect a b = true ↔ a.Meet b := by
  unfold intersect KM.Meet KM.Has
  rw [decide_eq_true_iff, ← meets_iff ha hb]

theorem getE_ok {α : Type} {l : List α} {i : Nat} (h : i < l.length) : getE l i = .ok l[i] := by
  simp [getE, h]

/-! ### Merged key/masks -/

theorem foldl_or_bit (es : List Entry) (w : Word) (i : Nat) :
    (es.foldl (fun w e => w ||| e.key) w).getLsbD i =
      (w.getLsbD i || es.any (fun e => e.key.getLsbD i)) := by
  induction es generalizing w with
  | nil => simp
  | cons e es ih => rw [List.foldl_cons, ih, BitVec.getLsbD_or, List.any_cons, Bool.or_assoc]

theorem foldl_and_bit (f : Entry → Word) (es : List Entry) (w : Word) (i : Nat) :
    (es.foldl (fun w e => w &&& f e) w).getLsbD i =
      (w.getLsbD i && es.all (fun e => (f e).getLsbD i)) := by
  induction es generalizing w with
  | nil => simp
  | cons e es ih => rw [List.foldl_cons, ih, BitVec.getLsbD_and, List.all_cons, Bool.and_assoc]

theorem mergeKM_mask (es : List Entry) (i : Nat) (hi : i < 32) :
    (mergeKM es).2.getLsbD i =
      (es.all (fun e => e.mask.getLsbD i) &&
        (es.any (fun e => e.key.getLsbD i) == es.all (fun e => e.key.getLsbD i))) := by
  unfold mergeKM
  simp only [BitVec.getLsbD_and, BitVec.getLsbD_xor, BitVec.getLsbD_not, foldl_or_bit,
    foldl_and_bit, BitVec.getLsbD_allOnes, hi, decide_true, Bool.true_and, BitVec.getLsbD_zero,
    Bool.false_or]
  cases es.any (fun e => e.key.getLsbD i) <;> cases es.all (fun e => e.key.getLsbD i) <;> simp

theorem mergeKM_key (es : List Entry) (i : Nat) (hi : i < 32) :
    (mergeKM es).1.getLsbD i =
      (es.all (fun e => e.key.getLsbD i) && (mergeKM es).2.getLsbD i) := by
  rw [mergeKM_mask es i hi]
  unfold mergeKM
  simp only [BitVec.getLsbD_and, BitVec.getLsbD_xor, BitVec.getLsbD_not, foldl_or_bit,
    foldl_and_bit, BitVec.getLsbD_allOnes, hi, decide_true, Bool.true_and, BitVec.getLsbD_zero,
    Bool.false_or]
  cases es.any (fun e => e.key.getLsbD i) <;> cases es.all (fun e => e.key.getLsbD i) <;> simp

theorem mergeKM_ok (es : List Entry) : (mergeKM es).Ok := by
  unfold KM.Ok
  rw [and_eq_iff]
  intro i hi
  rw [mergeKM_key es i hi]
  cases es.all (fun e => e.key.getLsbD i) <;> simp

/-- The merged key/mask matches everything its entries match. -/
theorem mergeKM_sub {es : List Entry} {e : Entry} (he : e ∈ es) : (kmOf e).Sub (mergeKM es) := by
  intro k hk
  unfold KM.Has kmOf at *
  simp only at hk
  rw [and_eq_iff] at *
  intro i hi
  have h1 := hk i hi
  have h2 := mergeKM_mask es i hi
  rw [mergeKM_key es i hi]
  cases hm : (mergeKM es).2.getLsbD i with
  | false => simp
  | true =>
    rw [hm] at h2
    have h2 := h2.symm
    rw [Bool.and_eq_true, beq_iff_eq, List.all_eq_true] at h2
    have h3 := h2.1 e he
    rw [h3, Bool.and_true] at h1
    rw [Bool.and_true, Bool.and_true, h1]
    cases hk : e.key.getLsbD i with
    | false =>
      symm
      rw [List.all_eq_false]
      exact ⟨e, he, by simp [hk]⟩
    | true =>
      rw [← h2.2]; symm
      rw [List.any_eq_true]
      exact ⟨e, he, hk⟩

theorem generality_mono {a b : KM} (ha : a.Ok) (hb : b.Ok)
    (h : ∀ i, i < 32 → b.2.getLsbD i = true → a.2.getLsbD i = true) :
    generality a ≤ generality b := by
  unfold generality
  apply List.countP_mono_left
  intro i hi hx
  have hi : i < 32 := by simpa using hi
  have h1 := h i hi
  have h2 := and_eq_iff.1 hb i hi
  simp only [BitVec.getLsbD_and, BitVec.getLsbD_not, hi, decide_true, Bool.true_and] at *
  revert h1 h2 hx
  cases a.2.getLsbD i <;> cases b.2.getLsbD i <;> cases b.1.getLsbD i <;> simp

/-- Fewer entries, but not none, give a merged key/mask that is not more general. -/
theorem mergeKM_generality {es es' : List Entry} (hs : ∀ e ∈ es', e ∈ es) (hne : es' ≠ []) :
    generality (mergeKM es') ≤ generality (mergeKM es) := by
  apply generality_mono (mergeKM_ok _) (mergeKM_ok _)
  intro i hi h
  rw [mergeKM_mask es i hi, Bool.and_eq_true, beq_iff_eq, List.all_eq_true] at h
  rw [mergeKM_mask es' i hi, Bool.and_eq_true, beq_iff_eq, List.all_eq_true]
  refine ⟨fun e he => h.1 e (hs e he), ?_⟩
  obtain ⟨h1, h2⟩ := h
  cases ha : es.all (fun e => e.key.getLsbD i) with
  | true =>
    rw [List.all_eq_true] at ha
    have : es'.all (fun e => e.key.getLsbD i) = true :=
      List.all_eq_true.2 (fun e he => ha e (hs e he))
    rw [this, List.any_eq_true]
    obtain ⟨e, he⟩ := List.exists_mem_of_ne_nil _ hne
    exact ⟨e, he, ha e (hs e he)⟩
  | false =>
    rw [ha] at h2
    have h3 : es'.any (fun e => e.key.getLsbD i) = false := by
      rw [List.any_eq_false] at h2 ⊢
      exact fun e he => h2 e (hs e he)
    rw [h3]
    symm
    rw [List.all_eq_false]
    rw [List.any_eq_false] at h3
    obtain ⟨e, he⟩ := List.exists_mem_of_ne_nil _ hne
    exact ⟨e, he, h3 e he⟩

/-! ### The insertion index -/

/-- The table is sorted by generality. -/
def Sorted (t : List Entry) : Prop :=
  t.Pairwise (fun a b => generality (kmOf a) ≤ generality (kmOf b))

theorem bsearch_ok {t : List Entry} {gen : Nat} :
    ∀ (fuel bottom top pos : Nat), top - bottom < fuel → bottom < top → top ≤ t.length →
    pos = bottom + (top - bottom) / 2 →
    (bottom = 0 ∨ ∃ h : bottom < t.length, generality (kmOf t[bottom]) < gen) →
    ∃ p, bsearch t gen fuel bottom top pos = .ok p ∧ p < t.length ∧
      (p = 0 ∨ ∃ h : p < t.length, generality (kmOf t[p]) < gen) := by
  intro fuel
  induction fuel with
  | zero => intro b t p h; omega
  | succ fuel ih =>
    intro bottom top pos hf hbt htl hpos hb
    have hp : pos < t.length := by omega
    have hge : bottom ≤ pos := by omega
    have hpt : pos < top := by omega
    rw [bsearch, getE_ok hp]
    simp only [bind, Except.bind, pure, Except.pure]
    split
    · rename_i hc
      split
      · rename_i hlt
        exact ih pos top _ (by omega) (by omega) htl rfl (.inr ⟨hp, by omega⟩)
      · exact ih bottom pos _ (by omega) (by omega) (by omega) rfl hb
    · rename_i hc
      refine ⟨pos, rfl, hp, ?_⟩
      by_cases h1 : generality (kmOf t[pos]) + 1 = gen
      · exact .inr ⟨hp, by omega⟩
      · have : pos = bottom := by
          rcases Nat.lt_or_ge bottom pos with h3 | h3
          · exact absurd ⟨h1, h3, hpt⟩ hc
          · exact Nat.le_antisymm h3 hge
        subst this
        exact hb

theorem insertionIndex_ok {t : List Entry} (gen : Nat) (ht : t ≠ []) :
    ∃ p, insertionIndex t gen = .ok p ∧ p ≤ t.length ∧
      (Sorted t → ∀ j (h : j < t.length), j < p ↔ generality (kmOf t[j]) < gen) := by
  have hl : 0 < t.length := List.length_pos_iff.2 ht
  obtain ⟨p, hp1, hp2, hp3⟩ := bsearch_ok (t := t) (gen := gen) (t.length + 1) 0 t.length
    (t.length / 2) (by omega) hl (Nat.le_refl _) (by omega) (.inl rfl)
  unfold insertionIndex
  rw [hp1]
  simp only [bind, Except.bind, pure, Except.pure]
  refine ⟨_, rfl, ?_, ?_⟩
  · have := (List.takeWhile_sublist (l := t.drop p) (fun e => decide (generality (kmOf e) < gen))).length_le
    rw [List.length_drop] at this
    omega
  · intro hs j hj
    generalize hw : (t.drop p).takeWhile (fun e => decide (generality (kmOf e) < gen)) = w
    have hpre : w <+: t.drop p := by rw [← hw]; exact List.takeWhile_prefix _
    obtain ⟨rest, hrest⟩ := hpre
    have hlen : w.length + rest.length = t.length - p := by
      rw [← List.length_append, hrest, List.length_drop]
    have hs' : ∀ a b (ha : a < t.length) (hb : b < t.length), a ≤ b →
        generality (kmOf t[a]) ≤ generality (kmOf t[b]) := by
      intro a b ha hb hab
      rcases Nat.lt_or_ge a b with h | h
      · exact List.pairwise_iff_getElem.1 hs a b ha hb h
      · have : a = b := by omega
        subst this; exact Nat.le_refl _
    constructor
    · intro hjp
      rcases Nat.lt_or_ge j p with h | h
      · rcases hp3 with rfl | ⟨hp, hpg⟩
        · omega
        · have := hs' j p hj hp (by omega)
          omega
      · have hjw : j - p < w.length := by omega
        have h1 : w[j - p] = t[j] := by
          have h2 : (w ++ rest)[j - p]'(by rw [List.length_append]; omega) = w[j - p] :=
            List.getElem_append_left hjw
          rw [← h2]
          have h3 : (t.drop p)[j - p]'(by rw [List.length_drop]; omega) = t[j] := by
            rw [List.getElem_drop]; congr 1; omega
          rw [← h3]
          congr 1
        have h2 : w[j - p] ∈ (t.drop p).takeWhile (fun e => decide (generality (kmOf e) < gen)) := by
          rw [hw]; exact List.getElem_mem _
        have := List.all_takeWhile (l := t.drop p) (p := fun e => decide (generality (kmOf e) < gen))
        rw [List.all_eq_true] at this
        have := this _ h2
        rw [h1] at this
        simpa using this
    · intro hg
      rcases Nat.lt_or_ge j (p + w.length) with h | h
      · exact h
      · exfalso
        have hr : 0 < rest.length := by omega
        have hpw : p + w.length < t.length := by omega
        have h1 : ¬ generality (kmOf t[p + w.length]) < gen := by
          have h2 : (t.drop p)[w.length]? = some (t[p + w.length]) := by
            rw [List.getElem?_drop, List.getElem?_eq_getElem hpw]
          intro hlt
          have : ∀ (l : List Entry) (x : Entry), 
              l[(l.takeWhile (fun e => decide (generality (kmOf e) < gen))).length]? = some x →
              ¬ generality (kmOf x) < gen := by
            intro l
            induction l with
            | nil => simp
            | cons a l ih =>
              intro x
              rw [List.takeWhile_cons]
              split
              · simpa using ih x
              · rename_i hn; intro hx; simp at hx; subst hx; simpa using hn
          exact this (t.drop p) _ (by rw [hw]; exact h2) hlt
        have := hs' (p + w.length) j hpw hj h
        omega

/-! ### Merges -/

theorem getAll_ok {t : List Entry} {is : List Nat} (h : ∀ i ∈ is, i < t.length) :
    ∃ es, getAll t is = .ok es ∧ es.length = is.length ∧
      (∀ e, e ∈ es ↔ ∃ i ∈ is, t[i]? = some e) := by
  induction is with
  | nil => exact ⟨[], rfl, rfl, by simp⟩
  | cons i is ih =>
    obtain ⟨es, h1, h2, h3⟩ := ih (fun j hj => h j (by simp [hj]))
    have hi := h i (by simp)
    refine ⟨t[i] :: es, ?_, by simp [h2], ?_⟩
    · rw [getAll, getE_ok hi, h1]; rfl
    · intro e
      rw [List.mem_cons, h3]
      constructor
      · rintro (rfl | ⟨j, hj, he⟩)
        · exact ⟨i, by simp, List.getElem?_eq_getElem hi⟩
        · exact ⟨j, by simp [hj], he⟩
      · rintro ⟨j, hj, he⟩
        rw [List.mem_cons] at hj
        rcases hj with rfl | hj
        · left
          rw [List.getElem?_eq_getElem hi] at he
          exact (Option.some.inj he).symm
        · exact .inr ⟨j, hj, he⟩

/-- The facts about a merge of valid indices. -/
structure IsMerge (t : List Entry) (m : Merge) : Prop where
  made : mkMerge t m.entries = .ok m
  lt : ∀ i ∈ m.entries, i < t.length
  good : m.goodness = (m.entries.length : Int) - 1
  es : ∃ es : List Entry, (∀ e, e ∈ es ↔ ∃ i ∈ m.entries, t[i]? = some e) ∧ m.km = mergeKM es ∧
    m.defaultable = es.all (·.defaultable) ∧ es.length = m.entries.length
  insLe : m.insertionIndex ≤ t.length
  ins : Sorted t → ∀ j (h : j < t.length),
    j < m.insertionIndex ↔ generality (kmOf t[j]) < generality m.km

theorem mkMerge_ok {t : List Entry} {is : List Nat} (ht : t ≠ []) (h : ∀ i ∈ is, i < t.length) :
    ∃ m, mkMerge t is = .ok m ∧ m.entries = is ∧ IsMerge t m := by
  obtain ⟨es, h1, h2, h3⟩ := getAll_ok h
  obtain ⟨p, hp1, hp2, hp3⟩ := insertionIndex_ok (t := t) (generality (mergeKM es)) ht
  have hm : mkMerge t is = .ok ⟨is, mergeKM es, es.all (·.defaultable), (is.length : Int) - 1, p⟩ := by
    unfold mkMerge
    rw [h1]
    simp only [bind, Except.bind, pure, Except.pure]
    rw [hp1]
  exact ⟨_, hm, rfl, hm, h, rfl, ⟨es, h3, rfl, rfl, h2⟩, hp2, hp3⟩

theorem IsMerge.sub {t : List Entry} {m : Merge} (hm : IsMerge t m) {i : Nat} (hi : i ∈ m.entries)
    {e : Entry} (he : t[i]? = some e) : (kmOf e).Sub m.km := by
  obtain ⟨es, h1, h2, _⟩ := hm.es
  rw [h2]
  exact mergeKM_sub ((h1 e).2 ⟨i, hi, he⟩)

theorem IsMerge.okKM {t : List Entry} {m : Merge} (hm : IsMerge t m) : m.km.Ok := by
  obtain ⟨es, h1, h2, _⟩ := hm.es
  rw [h2]; exact mergeKM_ok es

theorem IsMerge.ins_mono {t : List Entry} {m m' : Merge} (hs : Sorted t) (hm : IsMerge t m)
    (hm' : IsMerge t m') (hsub : ∀ i ∈ m'.entries, i ∈ m.entries) (hne : m'.entries ≠ []) :
    m'.insertionIndex ≤ m.insertionIndex := by
  obtain ⟨es, h1, h2, _⟩ := hm.es
  obtain ⟨es', h1', h2', _, hl'⟩ := hm'.es
  have hg : generality m'.km ≤ generality m.km := by
    rw [h2, h2']
    apply mergeKM_generality
    · intro e he
      obtain ⟨i, hi, hie⟩ := (h1' e).1 he
      exact (h1 e).2 ⟨i, hsub i hi, hie⟩
    · intro h; apply hne; rw [h] at hl'; exact List.length_eq_zero_iff.1 hl'.symm
  rcases Nat.lt_or_ge m.insertionIndex m'.insertionIndex with h | h
  · exfalso
    have hlt : m.insertionIndex < t.length := by have := hm'.insLe; omega
    have a1 := (hm'.ins hs _ hlt).1 h
    have a2 := (hm.ins hs _ hlt).2 (by omega)
    omega
  · exact h

/-! ### The down-check -/

theorem bitsSet_length (w : Word) : (bitsSet w).length ≤ 32 := by
  unfold bitsSet
  have := List.length_filter_le (fun i => w.getLsbD i) (List.range 32)
  simpa using this

/-- What is known of the result of the loop over covered key/masks. -/
def StrInv (mask : Word) (s : Nat × List (Nat × Bool)) : Prop :=
  (∀ x ∈ s.2, x.1 < 32 ∧ mask.getLsbD x.1 = false) ∧ (s.1 ≠ 33 → s.1 ≠ 0 → s.2 ≠ [])

theorem stringent_inv {mask : Word} {s : Nat × List (Nat × Bool)} (h : StrInv mask s) (km : KM) :
    StrInv mask (stringent mask s km) ∧ (stringent mask s km).1 ≤ min s.1 32 := by
  have hset : ∀ b ∈ bitsSet (km.2 &&& ~~~mask), b < 32 ∧ mask.getLsbD b = false := by
    intro b hb
    unfold bitsSet at hb
    simp only [List.mem_filter, List.mem_range, BitVec.getLsbD_and, BitVec.getLsbD_not,
      Bool.and_eq_true, Bool.not_eq_true', decide_eq_true_eq] at hb
    exact ⟨hb.1, hb.2.2.2⟩
  have hlen := bitsSet_length (km.2 &&& ~~~mask)
  unfold stringent
  simp only
  generalize bitsSet (km.2 &&& ~~~mask) = st at *
  split
  · split
    · refine ⟨⟨?_, ?_⟩, ?_⟩
      · intro x hx
        obtain ⟨b, hb, rfl⟩ := List.mem_map.1 hx
        exact hset b hb
      · intro _ h0 hnil
        simp only [List.map_eq_nil_iff] at hnil
        subst hnil
        exact h0 rfl
      · simp only; omega
    · refine ⟨⟨?_, ?_⟩, ?_⟩
      · intro x hx
        rw [List.mem_append] at hx
        rcases hx with hx | hx
        · exact h.1 x hx
        · obtain ⟨b, hb, rfl⟩ := List.mem_map.1 hx
          exact hset b hb
      · intro h1 h0 hnil
        simp only [List.append_eq_nil_iff] at hnil
        exact h.2 h1 h0 hnil.1
      · simp only; omega
  · exact ⟨h, by omega⟩

theorem foldl_stringent {mask : Word} (l : List KM) (s : Nat × List (Nat × Bool))
    (h : StrInv mask s) :
    StrInv mask (l.foldl (stringent mask) s) ∧ (l.foldl (stringent mask) s).1 ≤ s.1 ∧
      (l ≠ [] → (l.foldl (stringent mask) s).1 ≤ 32) := by
  induction l generalizing s with
  | nil => exact ⟨h, Nat.le_refl _, fun h => absurd rfl h⟩
  | cons a l ih =>
    obtain ⟨h1, h2⟩ := stringent_inv h a
    obtain ⟨h3, h4, _⟩ := ih _ h1
    rw [List.foldl_cons]
    exact ⟨h3, by omega, fun _ => by omega⟩

theorem strInv_init (mask : Word) : StrInv mask (33, []) := by
  constructor <;> simp

theorem mem_sortedBits {s : List (Nat × Bool)} {x : Nat × Bool} (hx : x ∈ s) (h : x.1 < 32) :
    x ∈ sortedBits s := by
  unfold sortedBits
  rw [List.mem_filter]
  refine ⟨?_, by simpa using hx⟩
  rw [List.mem_flatMap]
  refine ⟨x.1, by simpa using h, ?_⟩
  obtain ⟨b, v⟩ := x
  cases v <;> simp

theorem sortedBits_mem {s : List (Nat × Bool)} {x : Nat × Bool} (hx : x ∈ sortedBits s) : x ∈ s := by
  unfold sortedBits at hx
  rw [List.mem_filter] at hx
  simpa using hx.2

theorem workingRemove_ok {t : List Entry} {bit : Nat} {val : Bool} {is : List Nat}
    (h : ∀ i ∈ is, i < t.length) :
    ∃ w, workingRemove t bit val is = .ok w ∧ (∀ i ∈ w, i ∈ is) ∧
      (∀ i ∈ is, ∀ e, t[i]? = some e → (e.mask.getLsbD bit = false ∨ e.key.getLsbD bit = !val) →
        i ∈ w) := by
  induction is with
  | nil => exact ⟨[], rfl, by simp, by simp⟩
  | cons i is ih =>
    obtain ⟨w, h1, h2, h3⟩ := ih (fun j hj => h j (by simp [hj]))
    have hi := h i (by simp)
    rw [workingRemove, getE_ok hi, h1]
    simp only [bind, Except.bind, pure, Except.pure]
    split
    · refine ⟨i :: w, rfl, ?_, ?_⟩
      · intro j hj
        rw [List.mem_cons] at hj ⊢
        rcases hj with rfl | hj
        · exact .inl rfl
        · exact .inr (h2 j hj)
      · intro j hj e he hb
        rw [List.mem_cons] at hj ⊢
        rcases hj with rfl | hj
        · exact .inl rfl
        · exact .inr (h3 j hj e he hb)
    · rename_i hn
      refine ⟨w, rfl, fun j hj => List.mem_cons_of_mem _ (h2 j hj), ?_⟩
      intro j hj e he hb
      rw [List.mem_cons] at hj
      rcases hj with rfl | hj
      · exfalso; apply hn
        rw [List.getElem?_eq_getElem hi] at he
        simp only [Option.some.injEq] at he
        subst he
        simpa using hb
      · exact h3 j hj e he hb

theorem removeLoop_ok {t : List Entry} (ht : t ≠ []) (bits : List (Nat × Bool)) :
    ∀ (remove : List Nat) (m : Merge), IsMerge t m →
    ∃ r, removeLoop t bits remove m = .ok r ∧ IsMerge t r ∧ r.entries.Sublist m.entries := by
  induction bits with
  | nil => intro remove m hm; exact ⟨m, rfl, hm, List.Sublist.refl _⟩
  | cons x bits ih =>
    obtain ⟨bit, val⟩ := x
    intro remove m hm
    obtain ⟨w, h1, h2, _⟩ := workingRemove_ok (bit := bit) (val := val) hm.lt
    rw [removeLoop, h1]
    simp only [bind, Except.bind]
    generalize (if remove = [] ∨ w.length < remove.length then w else remove) = rm
    obtain ⟨m', hm1, hm2, hm3⟩ := mkMerge_ok (is := m.entries.filter (fun i => decide (i ∉ rm))) ht
      (fun i hi => hm.lt i (List.mem_filter.1 hi).1)
    rw [hm1]
    simp only
    obtain ⟨r, hr1, hr2, hr3⟩ := ih rm m' hm3
    exact ⟨r, hr1, hr2, hr3.trans (by rw [hm2]; exact List.filter_sublist)⟩

theorem filter_length_lt {α : Type} {p : α → Bool} {l : List α} {a : α} (ha : a ∈ l)
    (hp : p a = false) : (l.filter p).length < l.length := by
  have h1 := List.length_eq_countP_add_countP p (l := l)
  rw [← List.countP_eq_length_filter]
  have : 0 < l.countP (fun a => decide (¬ p a = true)) := by
    rw [List.countP_pos_iff]; exact ⟨a, ha, by simp [hp]⟩
  omega

/-- Each pass of the down-check takes entries away. -/
theorem removeLoop_lt {t : List Entry} (ht : t ≠ []) {bits : List (Nat × Bool)} {m : Merge}
    (hm : IsMerge t m) (hne : m.entries ≠ []) (hbits : bits ≠ [])
    (hb : ∀ x ∈ bits, x.1 < 32 ∧ m.km.2.getLsbD x.1 = false) :
    ∃ r, removeLoop t bits [] m = .ok r ∧ IsMerge t r ∧ r.entries.Sublist m.entries ∧
      r.entries.length < m.entries.length := by
  cases bits with
  | nil => exact absurd rfl hbits
  | cons x bits =>
    obtain ⟨bit, val⟩ := x
    obtain ⟨w, h1, h2, h3⟩ := workingRemove_ok (bit := bit) (val := val) hm.lt
    rw [removeLoop, h1]
    simp only [bind, Except.bind, true_or, if_true]
    obtain ⟨m', hm1, hm2, hm3⟩ := mkMerge_ok (is := m.entries.filter (fun i => decide (i ∉ w))) ht
      (fun i hi => hm.lt i (List.mem_filter.1 hi).1)
    rw [hm1]
    simp only
    obtain ⟨r, hr1, hr2, hr3⟩ := removeLoop_ok ht bits w m' hm3
    refine ⟨r, hr1, hr2, hr3.trans (by rw [hm2]; exact List.filter_sublist), ?_⟩
    have hlen := hr3.length_le
    rw [hm2] at hlen
    -- an entry with an X in the bit, or entries with both values
    obtain ⟨es, he1, he2, _, he4⟩ := hm.es
    have hx := hb (bit, val) (by simp)
    simp only at hx
    rw [he2, mergeKM_mask es bit hx.1] at hx
    have : ∃ e ∈ es, e.mask.getLsbD bit = false ∨ e.key.getLsbD bit = !val := by
      rw [Bool.and_eq_false_iff] at hx
      rcases hx.2 with h | h
      · rw [List.all_eq_false] at h
        obtain ⟨e, he, h⟩ := h
        exact ⟨e, he, .inl (by simpa using h)⟩
      · cases hv : val with
        | true =>
          have : es.all (fun e => e.key.getLsbD bit) = false := by
            cases hall : es.all (fun e => e.key.getLsbD bit) with
            | false => rfl
            | true =>
              exfalso
              rw [hall] at h
              have hany : es.any (fun e => e.key.getLsbD bit) = false := by simpa using h
              have hes : es ≠ [] := by
                intro hnil; rw [hnil] at he4; exact hne (List.length_eq_zero_iff.1 he4.symm)
              obtain ⟨e, he⟩ := List.exists_mem_of_ne_nil _ hes
              rw [List.all_eq_true] at hall
              rw [List.any_eq_false] at hany
              exact hany e he (hall e he)
          rw [List.all_eq_false] at this
          obtain ⟨e, he, h⟩ := this
          exact ⟨e, he, .inr (by simpa using h)⟩
        | false =>
          have : es.any (fun e => e.key.getLsbD bit) = true := by
            cases hany : es.any (fun e => e.key.getLsbD bit) with
            | true => rfl
            | false =>
              exfalso
              rw [hany] at h
              have hall : es.all (fun e => e.key.getLsbD bit) = true := by simpa using h
              have hes : es ≠ [] := by
                intro hnil; rw [hnil] at he4; exact hne (List.length_eq_zero_iff.1 he4.symm)
              obtain ⟨e, he⟩ := List.exists_mem_of_ne_nil _ hes
              rw [List.all_eq_true] at hall
              rw [List.any_eq_false] at hany
              exact hany e he (hall e he)
          rw [List.any_eq_true] at this
          obtain ⟨e, he, h⟩ := this
          exact ⟨e, he, .inr (by simpa using h)⟩
    obtain ⟨e, he, hor⟩ := this
    obtain ⟨i, hi, hie⟩ := (he1 e).1 he
    have hiw := h3 i hi e hie hor
    have := filter_length_lt (p := fun i => decide (i ∉ w)) hi (by simp [hiw])
    omega

theorem IsMerge.ne_of_good {t : List Entry} {m : Merge} (hm : IsMerge t m) {g : Int} (hg : 0 ≤ g)
    (h : m.goodness > g) : m.entries ≠ [] := by
  intro hnil
  have := hm.good
  rw [hnil] at this
  simp at this
  omega

theorem downcheck_ok {t : List Entry} (ht : t ≠ []) (a : Aliases) {g : Int} (hg : 0 ≤ g) :
    ∀ (fuel : Nat) (m : Merge), IsMerge t m → m.entries.length < fuel →
    ∃ r, downcheck t a g fuel m = .ok r ∧ IsMerge t r ∧ r.entries.Sublist m.entries ∧
      (r.goodness > g → covered t a r = []) := by
  intro fuel
  induction fuel with
  | zero => intro m _ h; omega
  | succ fuel ih =>
    intro m hm hf
    obtain ⟨m0, h01, h02, h03⟩ := mkMerge_ok (is := []) ht (by simp)
    have hempty : ∃ r, mkMerge t [] = .ok r ∧ IsMerge t r ∧ r.entries.Sublist m.entries ∧
        (r.goodness > g → covered t a r = []) := by
      refine ⟨m0, h01, h03, by rw [h02]; exact List.nil_sublist _, ?_⟩
      intro hgood
      have := h03.good
      rw [h02] at this
      simp at this
      omega
    rw [downcheck]
    by_cases hc : m.goodness > g
    · rw [if_pos hc]
      simp only [bind, Except.bind, pure, Except.pure]
      obtain ⟨hs1, hs2, hs3⟩ := foldl_stringent (covered t a m) (33, []) (strInv_init m.km.2)
      generalize hS : (covered t a m).foldl (stringent m.km.2) (33, []) = s at *
      split
      · rename_i h33
        refine ⟨m, rfl, hm, List.Sublist.refl _, ?_⟩
        intro _
        cases hcov : covered t a m with
        | nil => rfl
        | cons x l =>
          have := hs3 (by rw [hcov]; simp)
          omega
      · rename_i h33
        split
        · exact hempty
        · rename_i h0
          have hne := hs1.2 h33 h0
          obtain ⟨x, hx⟩ := List.exists_mem_of_ne_nil _ hne
          obtain ⟨r, hr1, hr2, hr3, hr4⟩ := removeLoop_lt ht (bits := sortedBits s.2) hm
            (hm.ne_of_good hg hc)
            (List.ne_nil_of_mem (mem_sortedBits hx (hs1.1 x hx).1))
            (fun y hy => hs1.1 y (sortedBits_mem hy))
          rw [hr1]
          obtain ⟨r', k1, k2, k3, k4⟩ := ih r hr2 (by omega)
          exact ⟨r', k1, k2, k3.trans hr3, k4⟩
    · rw [if_neg hc]; exact hempty

/-! ### The up-check -/

/-- The entry at `i` meets nothing between it and the place of the merged entry. -/
def UpOk (t : List Entry) (m : Merge) (i : Nat) : Prop :=
  ∀ j, i < j → j < m.insertionIndex → ∀ a b, t[i]? = some a → t[j]? = some b →
    intersect (kmOf a) (kmOf b) = false

theorem UpOk.mono {t : List Entry} {m m' : Merge} {i : Nat} (h : UpOk t m i)
    (hi : m'.insertionIndex ≤ m.insertionIndex) : UpOk t m' i :=
  fun j h1 h2 => h j h1 (by omega)

theorem upcheckLoop_ok {t : List Entry} (ht : t ≠ []) (hs : Sorted t) {g : Int} (hg : 0 ≤ g)
    (is : List Nat) :
    ∀ (m : Merge) (ch : Bool), IsMerge t m → (∀ i ∈ is, i < t.length) →
    (∀ i ∈ m.entries, i ∈ is ∨ UpOk t m i) →
    ∃ r ch', upcheckLoop t g is m ch = .ok (r, ch') ∧ IsMerge t r ∧ r.entries.Sublist m.entries ∧
      (r.goodness > g → ∀ i ∈ r.entries, UpOk t r i) ∧ (ch' = false → r = m) := by
  induction is with
  | nil =>
    intro m ch hm _ hu
    refine ⟨m, ch, rfl, hm, List.Sublist.refl _, ?_, fun _ => rfl⟩
    intro _ i hi
    rcases hu i hi with h | h
    · simp at h
    · exact h
  | cons i is ih =>
    intro m ch hm hlt hu
    have hi := hlt i (by simp)
    rw [upcheckLoop, getE_ok hi]
    simp only [bind, Except.bind, pure, Except.pure]
    split
    · obtain ⟨m', h1, h2, h3⟩ := mkMerge_ok (is := m.entries.filter (fun j => decide (j ≠ i))) ht
        (fun i hi => hm.lt i (List.mem_filter.1 hi).1)
      rw [h1]
      simp only
      have hsub : m'.entries.Sublist m.entries := by rw [h2]; exact List.filter_sublist
      split
      · obtain ⟨m0, h01, h02, h03⟩ := mkMerge_ok (is := []) ht (by simp)
        rw [h01]
        refine ⟨m0, true, rfl, h03, by rw [h02]; exact List.nil_sublist _, ?_, by simp⟩
        rw [h02]; simp
      · rename_i hgood
        obtain ⟨r, ch', r1, r2, r3, r4, r5⟩ := ih m' true h3 (fun j hj => hlt j (by simp [hj])) (by
          intro j hj
          have hj' := hj
          rw [h2, List.mem_filter] at hj'
          rcases hu j hj'.1 with h | h
          · rw [List.mem_cons] at h
            rcases h with h | h
            · simp [h] at hj'
            · exact .inl h
          · exact .inr (h.mono (hm.ins_mono hs h3 (fun k hk => hsub.subset hk)
              (List.ne_nil_of_mem hj))))
        refine ⟨r, ch', r1, r2, r3.trans hsub, r4, ?_⟩
        intro hch
        -- `changed` stays true
        exfalso
        have key : ∀ (is : List Nat) (m : Merge) (r : Merge) (c : Bool),
            upcheckLoop t g is m true = .ok (r, c) → c = true := by
          intro is
          induction is with
          | nil => intro m r c h; simp [upcheckLoop] at h; exact h.2
          | cons k is ihk =>
            intro m r c h
            rw [upcheckLoop] at h
            simp only [bind, Except.bind, pure, Except.pure] at h
            split at h
            · simp at h
            · split at h
              · split at h
                · simp at h
                · split at h
                  · split at h
                    · simp at h
                    · simp at h; exact h.2
                  · exact ihk _ _ _ h
              · exact ihk _ _ _ h
        rw [key _ _ _ _ r1] at hch
        simp at hch
    · rename_i hany
      refine ih m ch hm (fun j hj => hlt j (by simp [hj])) ?_
      intro j hj
      rcases hu j hj with h | h
      · rw [List.mem_cons] at h
        rcases h with rfl | h
        · right
          intro k hjk hkins a b ha hb
          cases hint : intersect (kmOf a) (kmOf b) with
          | false => rfl
          | true =>
            exfalso; apply hany
            rw [List.any_eq_true]
            rw [List.getElem?_eq_getElem hi] at ha
            simp only [Option.some.injEq] at ha
            subst ha
            refine ⟨b, ?_, hint⟩
            apply List.mem_of_getElem? (i := k - (j + 1))
            rw [List.getElem?_drop, List.getElem?_take, if_pos (by omega)]
            rw [← hb]; congr 1; omega
        · exact .inl h
      · exact .inr h

theorem upcheck_ok {t : List Entry} (ht : t ≠ []) (hs : Sorted t) {g : Int} (hg : 0 ≤ g)
    {m : Merge} (hm : IsMerge t m) :
    ∃ r ch', upcheck t g m = .ok (r, ch') ∧ IsMerge t r ∧ r.entries.Sublist m.entries ∧
      (r.goodness > g → ∀ i ∈ r.entries, UpOk t r i) ∧ (ch' = false → r = m) := by
  unfold upcheck
  exact upcheckLoop_ok ht hs hg _ m false hm (fun i hi => hm.lt i (List.mem_reverse.1 hi))
    (fun i hi => .inl (List.mem_reverse.2 hi))

theorem refineMerge_ok {t : List Entry} (ht : t ≠ []) (hs : Sorted t) (a : Aliases) {g : Int}
    (hg : 0 ≤ g) {fuel : Nat} {m : Merge} (hm : IsMerge t m) (hf : m.entries.length < fuel) :
    ∃ r, refineMerge fuel t a g m = .ok r ∧ IsMerge t r ∧ r.entries.Sublist m.entries ∧
      (r.goodness > g → covered t a r = [] ∧ ∀ i ∈ r.entries, UpOk t r i) := by
  unfold refineMerge
  obtain ⟨m1, h1, h2, h3, h4⟩ := downcheck_ok ht a hg fuel m hm hf
  rw [h1]
  simp only [bind, Except.bind, pure, Except.pure]
  split
  · rename_i hgood
    obtain ⟨m2, ch, u1, u2, u3, u4, u5⟩ := upcheck_ok ht hs hg h2
    rw [u1]
    simp only
    split
    · rename_i hc
      obtain ⟨m3, d1, d2, d3, d4⟩ := downcheck_ok ht a hg fuel m2 u2 (by
        have := (u3.trans h3).length_le; omega)
      refine ⟨m3, d1, d2, d3.trans (u3.trans h3), ?_⟩
      intro hg3
      refine ⟨d4 hg3, ?_⟩
      intro i hi
      exact (u4 hc.2 i (d3.subset hi)).mono
        (u2.ins_mono hs d2 (fun k hk => d3.subset hk) (d2.ne_of_good hg hg3))
    · rename_i hc
      refine ⟨m2, rfl, u2, u3.trans h3, ?_⟩
      intro hg2
      have hch : ch = false := by
        cases ch with
        | false => rfl
        | true => exact absurd ⟨rfl, hg2⟩ hc
      refine ⟨?_, u4 hg2⟩
      rw [u5 hch]; exact h4 hgood
  · rename_i hgood
    exact ⟨m1, rfl, h2, h3, fun h => absurd h hgood⟩

/-! ### The best merge -/

/-- A set of indices of entries with one route. -/
structure Cand (t : List Entry) (c : List Nat) : Prop where
  lt : ∀ i ∈ c, i < t.length
  asc : c.Pairwise (· < ·)
  route : ∀ i ∈ c, ∀ j ∈ c, ∀ a b, t[i]? = some a → t[j]? = some b → a.route = b.route

theorem Cand.sublist {t : List Entry} {c c' : List Nat} (h : Cand t c) (hs : c'.Sublist c) :
    Cand t c' :=
  ⟨fun i hi => h.lt i (hs.subset hi), h.asc.sublist hs,
    fun i hi j hj => h.route i (hs.subset hi) j (hs.subset hj)⟩

theorem sameRoute_cand {t : List Entry} {i : Nat} {e : Entry} (he : t[i]? = some e) :
    Cand t (sameRoute t i e) := by
  have hi : i < t.length := by
    rcases Nat.lt_or_ge i t.length with h | h
    · exact h
    · rw [List.getElem?_eq_none h] at he; simp at he
  have hmem : ∀ j ∈ sameRoute t i e, i ≤ j ∧ j < t.length ∧ ∀ o, t[j]? = some o → e.route = o.route := by
    intro j hj
    unfold sameRoute at hj
    rw [List.mem_cons] at hj
    rcases hj with rfl | hj
    · refine ⟨Nat.le_refl _, hi, ?_⟩
      intro o ho; rw [he] at ho; simp only [Option.some.injEq] at ho; rw [ho]
    · rw [List.mem_filter] at hj
      obtain ⟨h1, h2⟩ := hj
      rw [List.mem_iff_getElem] at h1
      obtain ⟨n, hn, hn'⟩ := h1
      rw [List.getElem_drop, List.getElem_range] at hn'
      rw [List.length_drop, List.length_range] at hn
      refine ⟨by omega, by omega, ?_⟩
      intro o ho
      rw [ho] at h2
      simpa using h2
  refine ⟨fun j hj => (hmem j hj).2.1, ?_, ?_⟩
  · unfold sameRoute
    rw [List.pairwise_cons]
    constructor
    · intro j hj
      have hj' := (List.mem_filter.1 hj).1
      rw [List.mem_iff_getElem] at hj'
      obtain ⟨n, hn, hn'⟩ := hj'
      rw [List.getElem_drop, List.getElem_range] at hn'
      omega
    · exact (List.pairwise_lt_range.sublist (List.drop_sublist _ _)).sublist List.filter_sublist
  · intro j hj k hk a b ha hb
    rw [← (hmem j hj).2.2 a ha, (hmem k hk).2.2 b hb]

theorem allMerges_cand {t : List Entry} :
    ∀ (rest : List Entry) (i : Nat) (considered : List Nat), t.drop i = rest →
    ∀ c ∈ allMerges t i rest considered, Cand t c := by
  intro rest
  induction rest with
  | nil => intro i cs _ c hc; simp [allMerges] at hc
  | cons e rest ih =>
    intro i cs hd c hc
    have he : t[i]? = some e := by
      have : (t.drop i)[0]? = some e := by rw [hd]; rfl
      rw [List.getElem?_drop] at this; simpa using this
    have hd' : t.drop (i + 1) = rest := by
      rw [← List.drop_drop, hd]; rfl
    rw [allMerges] at hc
    split at hc
    · exact ih (i + 1) cs hd' c hc
    · simp only at hc
      split at hc
      · rw [List.mem_cons] at hc
        rcases hc with rfl | hc
        · exact sameRoute_cand he
        · exact ih (i + 1) _ hd' c hc
      · exact ih (i + 1) _ hd' c hc

/-- A merge which may be applied. -/
structure Usable (t : List Entry) (a : Aliases) (m : Merge) : Prop where
  isMerge : IsMerge t m
  cand : Cand t m.entries
  two : 2 ≤ m.entries.length
  down : covered t a m = []
  up : ∀ i ∈ m.entries, UpOk t m i

theorem bestLoop_ok {t : List Entry} (ht : t ≠ []) (hs : Sorted t) (a : Aliases) {fuel : Nat}
    (hf : t.length < fuel) (cs : List (List Nat)) :
    ∀ (best : Merge) (g : Int), (∀ c ∈ cs, Cand t c) → 0 ≤ g →
    (best.goodness > 0 → Usable t a best) →
    ∃ r, bestLoop fuel t a cs best g = .ok r ∧ (r.goodness > 0 → Usable t a r) := by
  induction cs with
  | nil => intro best g _ _ hb; exact ⟨best, rfl, hb⟩
  | cons c cs ih =>
    intro best g hc hg hb
    have hcc := hc c (by simp)
    have hcs : ∀ c ∈ cs, Cand t c := fun c h => hc c (by simp [h])
    obtain ⟨m, m1, m2, m3⟩ := mkMerge_ok (is := c) ht hcc.lt
    rw [bestLoop, m1]
    simp only [bind, Except.bind]
    split
    · exact ih best g hcs hg hb
    · have hlen : m.entries.length < fuel := by
        rw [m2]
        have : c.length ≤ t.length := by
          have h1 : c.Sublist (List.range t.length) := by
            have : ∀ (l : List Nat) (n s : Nat), l.Pairwise (· < ·) → (∀ i ∈ l, s ≤ i ∧ i < s + n) →
                l.Sublist (List.range' s n) := by
              intro l n
              induction n generalizing l with
              | zero =>
                intro s _ hl
                cases l with
                | nil => exact List.nil_sublist _
                | cons x l => have := hl x (by simp); omega
              | succ n ihn =>
                intro s hp hl
                rw [List.range'_succ]
                cases l with
                | nil => exact List.nil_sublist _
                | cons x l =>
                  rw [List.pairwise_cons] at hp
                  by_cases hx : x = s
                  · subst hx
                    refine (ihn l (x + 1) hp.2 ?_).cons₂ x
                    intro i hi
                    have := hp.1 i hi
                    have := hl i (by simp [hi])
                    omega
                  · refine (ihn (x :: l) (s + 1) (List.pairwise_cons.2 hp) ?_).cons s
                    intro i hi
                    have h1 := hl i hi
                    have h2 := hl x (by simp)
                    rw [List.mem_cons] at hi
                    rcases hi with rfl | hi
                    · omega
                    · have := hp.1 i hi; omega
            rw [List.range_eq_range']
            exact this c t.length 0 hcc.asc (fun i hi => ⟨Nat.zero_le _, by have := hcc.lt i hi; omega⟩)
          have := h1.length_le
          simpa using this
        omega
      obtain ⟨r, r1, r2, r3, r4⟩ := refineMerge_ok ht hs a hg m3 hlen
      rw [r1]
      simp only
      split
      · rename_i hgood
        refine ih r r.goodness hcs (by omega) ?_
        intro _
        have := r2.good
        obtain ⟨k1, k2⟩ := r4 hgood
        exact ⟨r2, hcc.sublist (by rw [← m2]; exact r3), by omega, k1, k2⟩
      · exact ih best g hcs hg hb

theorem bestMerge_ok {t : List Entry} (ht : t ≠ []) (hs : Sorted t) (a : Aliases) {fuel : Nat}
    (hf : t.length < fuel) :
    ∃ r, bestMerge fuel t a = .ok r ∧ (r.goodness > 0 → Usable t a r) := by
  obtain ⟨m0, h01, h02, h03⟩ := mkMerge_ok (is := []) ht (by simp)
  unfold bestMerge
  rw [h01]
  simp only [bind, Except.bind]
  apply bestLoop_ok ht hs a hf
  · exact allMerges_cand t 0 [] rfl
  · exact Int.le_refl _
  · intro h
    have := h03.good
    rw [h02] at this
    simp at this
    omega

end Pacman.OC
