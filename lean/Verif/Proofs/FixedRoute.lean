import Verif.Spec.FixedRoute
import Verif.Proofs.Dict
/-
Proofs about the fixed route router: after each round the routed chips are those at most that many
hops away from the Ethernet chip.
-/

namespace Pacman.FixedRoute

theorem toSet_aux (l : List XY) : ∀ s : List XY, s.Nodup →
    (l.foldl (fun s x => if x ∈ s then s else s ++ [x]) s).Nodup ∧
    ∀ c, c ∈ l.foldl (fun s x => if x ∈ s then s else s ++ [x]) s ↔ c ∈ s ∨ c ∈ l := by
  induction l with
  | nil => intro s hs; exact ⟨hs, by simp⟩
  | cons x l ih =>
    intro s hs
    rw [List.foldl_cons]
    by_cases h : x ∈ s
    · rw [if_pos h]
      obtain ⟨h1, h2⟩ := ih s hs
      refine ⟨h1, fun c => ?_⟩
      rw [h2]
      constructor
      · rintro (h' | h')
        · exact Or.inl h'
        · exact Or.inr (List.mem_cons_of_mem _ h')
      · rintro (h' | h')
        · exact Or.inl h'
        · rcases List.mem_cons.1 h' with h'' | h''
          · exact Or.inl (h'' ▸ h)
          · exact Or.inr h''
    · rw [if_neg h]
      obtain ⟨h1, h2⟩ := ih (s ++ [x]) (by
        rw [List.nodup_append]
        refine ⟨hs, by simp, ?_⟩
        intro a ha b hb
        rw [List.mem_singleton.1 hb]
        intro hab; exact h (hab ▸ ha))
      refine ⟨h1, fun c => ?_⟩
      rw [h2, List.mem_append, List.mem_singleton, List.mem_cons, or_assoc]

theorem toSet_nodup (l : List XY) : (toSet l).Nodup := (toSet_aux l [] (by simp)).1

theorem mem_toSet (l : List XY) (c : XY) : c ∈ toSet l ↔ c ∈ l := by
  unfold toSet
  rw [(toSet_aux l [] (by simp)).2 c]
  simp

theorem mem_linkOrder {l : Nat} : l ∈ linkOrder ↔ l < 6 := by
  unfold linkOrder
  simp only [List.mem_cons, List.not_mem_nil, or_false]
  omega

theorem firstLink_some {m : Mach} {R : List XY} {c : XY} {l : Nat} (h : firstLink m R c = some l) :
    l < 6 ∧ m.over c l ∈ R ∧ m.linkAt c l = true := by
  unfold firstLink at h
  have h1 := List.mem_of_find?_eq_some h
  have h2 := List.find?_some h
  rw [Bool.and_eq_true, decide_eq_true_eq] at h2
  exact ⟨mem_linkOrder.1 h1, h2⟩

theorem firstLink_first {m : Mach} {R : List XY} {c : XY} {l : Nat} (h : firstLink m R c = some l) :
    ∃ pre post, linkOrder = pre ++ l :: post ∧
      ∀ l' ∈ pre, m.over c l' ∈ R → ¬ m.linkAt c l' = true := by
  unfold firstLink at h
  obtain ⟨_, pre, post, h1, h2⟩ := List.find?_eq_some_iff_append.1 h
  refine ⟨pre, post, h1, fun l' hl' hR hlink => ?_⟩
  have := h2 l' hl'
  rw [hlink, Bool.and_true, decide_eq_true hR] at this
  cases this

theorem firstLink_none {m : Mach} {R : List XY} {c : XY} (h : firstLink m R c = none) {l : Nat}
    (hl : l < 6) (hR : m.over c l ∈ R) : m.linkAt c l = false := by
  unfold firstLink at h
  have h1 := List.find?_eq_none.1 h l (mem_linkOrder.2 hl)
  cases h2 : m.linkAt c l with
  | false => rfl
  | true => exact absurd (by rw [h2, Bool.and_true, decide_eq_true_eq]; exact hR) h1

theorem addEntry_ok {t t' : FTable} {k : XY} {ls ps : List Nat} (h : addEntry t k ls ps = .ok t') :
    t.get? k = none ∧ t' = t.set k ⟨ls, ps⟩ := by
  unfold addEntry at h
  cases hk : Dict.get? t k with
  | some v => rw [hk] at h; cases h
  | none => rw [hk] at h; cases h; exact ⟨rfl, rfl⟩

theorem addEntry_error {t : FTable} {k : XY} {ls ps : List Nat} {x : PyErr}
    (h : addEntry t k ls ps = .error x) : x = .alreadyExists ∧ t.get? k ≠ none := by
  unfold addEntry at h
  cases hk : Dict.get? t k with
  | some v => rw [hk] at h; cases h; exact ⟨rfl, by simp⟩
  | none => rw [hk] at h; cases h

theorem round_ok {m : Mach} {R : List XY} (L : List XY) : ∀ {t t' : FTable} {f f' : List XY},
    L.Nodup → round m R L t f = .ok (t', f') →
    f' = f ++ L.filter (fun c => (firstLink m R c).isSome) ∧
    (∀ c, c ∉ L → t'.get? c = t.get? c) ∧
    (∀ c ∈ L, ∀ l, firstLink m R c = some l → t.get? c = none ∧ t'.get? c = some ⟨[l], []⟩) ∧
    (∀ c, firstLink m R c = none → t'.get? c = t.get? c) := by
  induction L with
  | nil =>
    intro t t' f f' _ h
    simp only [round, Except.ok.injEq, Prod.mk.injEq] at h
    obtain ⟨h1, h2⟩ := h
    subst h1 h2
    exact ⟨by simp, fun _ _ => rfl, fun c hc => absurd hc (by simp), fun _ _ => rfl⟩
  | cons a L ih =>
    intro t t' f f' hn h
    obtain ⟨ha, hn'⟩ := List.nodup_cons.1 hn
    unfold round at h
    cases hf : firstLink m R a with
    | none =>
      rw [hf] at h
      obtain ⟨h1, h2, h3, h4⟩ := ih hn' h
      refine ⟨?_, fun c hc => h2 c (fun hh => hc (List.mem_cons_of_mem _ hh)), ?_, h4⟩
      · rw [h1, List.filter_cons, hf]; rfl
      · intro c hc l hl
        rcases List.mem_cons.1 hc with hca | hc
        · subst hca; rw [hf] at hl; cases hl
        · exact h3 c hc l hl
    | some l =>
      rw [hf] at h
      cases hadd : addEntry t a [l] [] with
      | error e => simp only [hadd] at h; cases h
      | ok t1 =>
        simp only [hadd] at h
        obtain ⟨hnone, ht1⟩ := addEntry_ok hadd
        obtain ⟨h1, h2, h3, h4⟩ := ih hn' h
        subst ht1
        refine ⟨?_, ?_, ?_, ?_⟩
        · rw [h1, List.filter_cons, hf]
          simp
        · intro c hc
          rw [h2 c (fun hh => hc (List.mem_cons_of_mem _ hh)), Dict.get?_set_ne]
          intro hac; exact hc (hac ▸ List.mem_cons_self)
        · intro c hc l' hl'
          rcases List.mem_cons.1 hc with hca | hc
          · subst hca
            rw [hf] at hl'; cases hl'
            exact ⟨hnone, by rw [h2 c ha, Dict.get?_set_self]⟩
          · have h5 := h3 c hc l' hl'
            refine ⟨?_, h5.2⟩
            rw [← h5.1, Dict.get?_set_ne]
            intro hac; exact ha (hac ▸ hc)
        · intro c hc
          rw [h4 c hc, Dict.get?_set_ne]
          intro hac; subst hac; rw [hf] at hc; cases hc

theorem round_error {m : Mach} {R : List XY} (L : List XY) : ∀ {t : FTable} {f : List XY} {x : PyErr},
    L.Nodup → round m R L t f = .error x →
    x = .alreadyExists ∧ ∃ c ∈ L, t.get? c ≠ none := by
  induction L with
  | nil => intro t f x _ h; cases h
  | cons a L ih =>
    intro t f x hn h
    obtain ⟨ha, hn'⟩ := List.nodup_cons.1 hn
    unfold round at h
    cases hf : firstLink m R a with
    | none =>
      rw [hf] at h
      obtain ⟨h1, c, h2, h3⟩ := ih hn' h
      exact ⟨h1, c, List.mem_cons_of_mem _ h2, h3⟩
    | some l =>
      rw [hf] at h
      cases hadd : addEntry t a [l] [] with
      | error e =>
        simp only [hadd, Except.error.injEq] at h
        subst h
        obtain ⟨h1, h2⟩ := addEntry_error hadd
        exact ⟨h1, a, List.mem_cons_self, h2⟩
      | ok t1 =>
        simp only [hadd] at h
        obtain ⟨hnone, ht1⟩ := addEntry_ok hadd
        obtain ⟨h1, c, h2, h3⟩ := ih hn' h
        subst ht1
        refine ⟨h1, c, List.mem_cons_of_mem _ h2, ?_⟩
        rwa [Dict.get?_set_ne] at h3
        intro hac; exact ha (hac ▸ h2)

/-- What holds after `n` rounds. -/
structure Inv (m : Mach) (B : List XY) (e : XY) (t0 : FTable) (n : Nat) (T R : List XY)
    (t : FTable) : Prop where
  nodup : T.Nodup
  all : ∀ c, c ∈ B ↔ c ∈ T ∨ c ∈ R
  apart : ∀ c ∈ T, c ∉ R
  eth : e ∈ R
  near : ∀ c, c ∈ R ↔ ∃ k, k ≤ n ∧ Way m B e c k
  entry : ∀ c ∈ R, c ≠ e → ∃ l k, t.get? c = some ⟨[l], []⟩ ∧ l < 6 ∧ m.linkAt c l = true ∧
    m.over c l ∈ R ∧ Way m B e (m.over c l) k ∧ (∀ j, Way m B e c j → k + 1 ≤ j) ∧
    ∃ pre post, linkOrder = pre ++ l :: post ∧
      ∀ l' ∈ pre, m.linkAt c l' = true → ¬ Way m B e (m.over c l') k
  fresh : ∀ c ∈ R, c ≠ e → t0.get? c = none
  rest : ∀ c, c ∉ R ∨ c = e → t.get? c = t0.get? c

theorem rounds_step {m : Mach} (ho : SetOrder m) {B : List XY} {e : XY} {t0 : FTable} {n : Nat}
    {T R : List XY} {t t' : FTable} {f : List XY} (hI : Inv m B e t0 n T R t)
    (h : round m R (m.order n T) t [] = .ok (t', f)) :
    Inv m B e t0 (n + 1) (T.filter (fun x => decide (x ∉ f))) (R ++ f) t' ∧
    ∀ c, c ∈ f ↔ c ∈ T ∧ (firstLink m R c).isSome := by
  have hp := ho n T
  obtain ⟨h1, h2, h3, h4⟩ := round_ok (m.order n T) (hp.nodup_iff.2 hI.nodup) h
  have hf : ∀ c, c ∈ f ↔ c ∈ T ∧ (firstLink m R c).isSome := by
    intro c
    rw [h1, List.nil_append, List.mem_filter, hp.mem_iff]
  have hsome : ∀ c, c ∈ f → c ∈ T ∧ ∃ l, firstLink m R c = some l := by
    intro c hc
    obtain ⟨h5, h6⟩ := (hf c).1 hc
    exact ⟨h5, Option.isSome_iff_exists.1 h6⟩
  refine ⟨⟨hI.nodup.filter _, ?_, ?_, ?_, ?_, ?_, ?_, ?_⟩, hf⟩
  · intro c
    rw [hI.all c, List.mem_filter, List.mem_append, decide_eq_true_eq]
    by_cases hc : c ∈ f
    · have := (hf c).1 hc
      simp [hc, this.1]
    · simp [hc]
  · intro c hc
    rw [List.mem_filter, decide_eq_true_eq] at hc
    rw [List.mem_append]
    rintro (h5 | h5)
    · exact hI.apart c hc.1 h5
    · exact hc.2 h5
  · exact List.mem_append_left _ hI.eth
  · intro c
    rw [List.mem_append]
    constructor
    · rintro (hc | hc)
      · obtain ⟨k, hk, hw⟩ := (hI.near c).1 hc
        exact ⟨k, by omega, hw⟩
      · obtain ⟨hT, l, hl⟩ := hsome c hc
        obtain ⟨hl6, hR, hlink⟩ := firstLink_some hl
        obtain ⟨k, hk, hw⟩ := (hI.near _).1 hR
        exact ⟨k + 1, by omega, .step ((hI.all c).2 (Or.inl hT)) hl6 hlink hw⟩
    · rintro ⟨k, hk, hw⟩
      by_cases hkn : k ≤ n
      · exact Or.inl ((hI.near c).2 ⟨k, hkn, hw⟩)
      · cases hw with
        | here => exact Or.inl hI.eth
        | @step _ l k' hB hl6 hlink hw' =>
          have hR := (hI.near _).2 ⟨k', by omega, hw'⟩
          rcases (hI.all c).1 hB with hT | hR'
          · right
            rw [hf]
            refine ⟨hT, ?_⟩
            cases hfl : firstLink m R c with
            | some _ => rfl
            | none => rw [firstLink_none hfl hl6 hR] at hlink; cases hlink
          · exact Or.inl hR'
  · intro c hc hce
    rcases List.mem_append.1 hc with hc | hc
    · obtain ⟨l, k, h5, h6, h7, h8, h9, h10⟩ := hI.entry c hc hce
      refine ⟨l, k, ?_, h6, h7, List.mem_append_left _ h8, h9, h10⟩
      rw [h2 c, h5]
      intro hh
      exact hI.apart c (hp.mem_iff.1 hh) hc
    · obtain ⟨hT, l, hl⟩ := hsome c hc
      obtain ⟨hl6, hR, hlink⟩ := firstLink_some hl
      obtain ⟨k, hk, hw⟩ := (hI.near _).1 hR
      refine ⟨l, k, (h3 c (hp.mem_iff.2 hT) l hl).2, hl6, hlink, List.mem_append_left _ hR, hw, ?_,
        ?_⟩
      · intro j hj
        by_cases hjn : j ≤ n
        · exact absurd ((hI.near c).2 ⟨j, hjn, hj⟩) (hI.apart c hT)
        · omega
      · obtain ⟨pre, post, h5, h6⟩ := firstLink_first hl
        refine ⟨pre, post, h5, fun l' hl' hlink' hw' => ?_⟩
        exact h6 l' hl' ((hI.near _).2 ⟨k, hk, hw'⟩) hlink'
  · intro c hc hce
    rcases List.mem_append.1 hc with hc | hc
    · exact hI.fresh c hc hce
    · obtain ⟨hT, l, hl⟩ := hsome c hc
      rw [← hI.rest c (Or.inl (hI.apart c hT))]
      exact (h3 c (hp.mem_iff.2 hT) l hl).1
  · intro c hc
    have hcR : c ∉ R ∨ c = e := by
      rcases hc with hc | hc
      · exact Or.inl (fun hh => hc (List.mem_append_left _ hh))
      · exact Or.inr hc
    rw [← hI.rest c hcR]
    by_cases hcT : c ∈ T
    · apply h4
      cases hfl : firstLink m R c with
      | none => rfl
      | some l =>
        have hcf : c ∈ f := (hf c).2 ⟨hcT, by rw [hfl]; rfl⟩
        rcases hc with hc | hc
        · exact absurd (List.mem_append_right _ hcf) hc
        · subst hc; exact absurd hI.eth (hI.apart c hcT)
    · exact h2 c (fun hh => hcT (hp.mem_iff.1 hh))

theorem rounds_ok {m : Mach} (ho : SetOrder m) {B : List XY} {e : XY} {t0 : FTable} (fuel : Nat) :
    ∀ {n : Nat} {T R : List XY} {t t' : FTable}, Inv m B e t0 n T R t →
    rounds m fuel n T R t = .ok t' → ∃ n' R', Inv m B e t0 n' [] R' t' := by
  induction fuel with
  | zero =>
    intro n T R t t' hI h
    cases T with
    | nil => simp only [rounds, Except.ok.injEq] at h; subst h; exact ⟨n, R, hI⟩
    | cons c T => simp only [rounds] at h; cases h
  | succ fuel ih =>
    intro n T R t t' hI h
    cases T with
    | nil => simp only [rounds, Except.ok.injEq] at h; subst h; exact ⟨n, R, hI⟩
    | cons c T =>
      simp only [rounds] at h
      cases hr : round m R (m.order n (c :: T)) t [] with
      | error x => simp only [hr] at h; cases h
      | ok p =>
        obtain ⟨t1, f⟩ := p
        simp only [hr] at h
        by_cases hf : f.length = 0
        · rw [if_pos hf] at h; cases h
        · rw [if_neg hf] at h
          exact ih (rounds_step ho hI hr).1 h

theorem stuck {m : Mach} {B : List XY} {e : XY} {t0 : FTable} {n : Nat} {T R : List XY}
    {t : FTable} (hI : Inv m B e t0 n T R t) (h : ∀ c ∈ T, firstLink m R c = none) {c : XY} {k : Nat}
    (hw : Way m B e c k) : c ∈ R := by
  induction hw with
  | here => exact hI.eth
  | @step c l k hB hl6 hlink _ ih =>
    rcases (hI.all c).1 hB with hT | hR
    · rw [firstLink_none (h c hT) hl6 ih] at hlink; cases hlink
    · exact hR

theorem rounds_error {m : Mach} (ho : SetOrder m) {B : List XY} {e : XY} {t0 : FTable} (fuel : Nat) :
    ∀ {n : Nat} {T R : List XY} {t : FTable} {x : PyErr}, Inv m B e t0 n T R t → T.length ≤ fuel →
    rounds m fuel n T R t = .error x →
    (x = .routing ∧ ∃ c ∈ B, ∀ k, ¬ Way m B e c k) ∨
    (x = .alreadyExists ∧ ∃ c ∈ B, t0.get? c ≠ none) := by
  induction fuel with
  | zero =>
    intro n T R t x hI hlen h
    cases T with
    | nil => simp only [rounds] at h; cases h
    | cons c T => simp at hlen
  | succ fuel ih =>
    intro n T R t x hI hlen h
    cases T with
    | nil => simp only [rounds] at h; cases h
    | cons c T =>
      simp only [rounds] at h
      cases hr : round m R (m.order n (c :: T)) t [] with
      | error y =>
        simp only [hr, Except.error.injEq] at h
        subst h
        have hp := ho n (c :: T)
        obtain ⟨h1, a, h2, h3⟩ := round_error _ (hp.nodup_iff.2 hI.nodup) hr
        have haT := hp.mem_iff.1 h2
        refine Or.inr ⟨h1, a, (hI.all a).2 (Or.inl haT), ?_⟩
        rwa [hI.rest a (Or.inl (hI.apart a haT))] at h3
      | ok p =>
        obtain ⟨t1, f⟩ := p
        simp only [hr] at h
        obtain ⟨hI', hfm⟩ := rounds_step ho hI hr
        by_cases hf : f.length = 0
        · rw [if_pos hf] at h
          simp only [Except.error.injEq] at h
          have hf0 : f = [] := List.length_eq_zero_iff.1 hf
          refine Or.inl ⟨h.symm, c, (hI.all c).2 (Or.inl List.mem_cons_self), ?_⟩
          intro k hw
          refine hI.apart c List.mem_cons_self (stuck hI ?_ hw)
          intro a ha
          cases hfl : firstLink m R a with
          | none => rfl
          | some l =>
            have := (hfm a).2 ⟨ha, by rw [hfl]; rfl⟩
            rw [hf0] at this; cases this
        · rw [if_neg hf] at h
          refine ih hI' ?_ h
          have hex : ∃ a, a ∈ f := by
            cases f with
            | nil => simp at hf
            | cons a f => exact ⟨a, List.mem_cons_self⟩
          obtain ⟨a, ha⟩ := hex
          have haT := ((hfm a).1 ha).1
          have hlt : ((c :: T).filter (fun x => decide (x ∉ f))).length < (c :: T).length := by
            apply Nat.lt_of_le_of_ne (List.length_filter_le _ _)
            intro heq
            have := List.length_filter_eq_length_iff.1 heq a haT
            simp [ha] at this
          omega

theorem inv_start {m : Mach} {e : XY} {t : FTable} (he : e ∈ m.board e) :
    Inv m (m.board e) e t 0 ((toSet (m.board e)).filter (fun x => decide (x ≠ e))) [e] t := by
  refine ⟨(toSet_nodup _).filter _, ?_, ?_, by simp, ?_, ?_, ?_, fun _ _ => rfl⟩
  · intro c
    rw [List.mem_filter, mem_toSet, decide_eq_true_eq, List.mem_singleton]
    constructor
    · intro hc
      by_cases hce : c = e
      · exact Or.inr hce
      · exact Or.inl ⟨hc, hce⟩
    · rintro (hc | hc)
      · exact hc.1
      · rw [hc]; exact he
  · intro c hc
    rw [List.mem_filter, decide_eq_true_eq] at hc
    rw [List.mem_singleton]; exact hc.2
  · intro c
    rw [List.mem_singleton]
    constructor
    · intro hc; subst hc; exact ⟨0, Nat.le_refl _, .here⟩
    · rintro ⟨k, hk, hw⟩
      cases hw with
      | here => rfl
      | step => omega
  · intro c hc hce; exact absurd (List.mem_singleton.1 hc) hce
  · intro c hc hce; exact absurd (List.mem_singleton.1 hc) hce

/-- The entry of `c` is the first link that leads one hop nearer. -/
def First (m : Mach) (t : FTable) (B : List XY) (e c : XY) (k : Nat) : Prop :=
  ∃ l, t.get? c = some ⟨[l], []⟩ ∧ m.linkAt c l = true ∧ Way m B e (m.over c l) k ∧
    ∃ pre post, linkOrder = pre ++ l :: post ∧
      ∀ l' ∈ pre, m.linkAt c l' = true → ¬ Way m B e (m.over c l') k

theorem min_way {m : Mach} {B : List XY} {e c : XY} (h : ∃ k, Way m B e c k) :
    ∃ k, Way m B e c k ∧ ∀ j, Way m B e c j → k ≤ j := by
  obtain ⟨k, hk⟩ := h
  induction k using Nat.strongRecOn with
  | _ k ih =>
    by_cases h' : ∃ j, j < k ∧ Way m B e c j
    · obtain ⟨j, hj, hw⟩ := h'
      exact ih j hj hw
    · refine ⟨k, hk, fun j hj => ?_⟩
      by_cases hlt : j < k
      · exact absurd ⟨j, hlt, hj⟩ h'
      · omega

theorem locate_ok {m : Mach} {e : XY} {p : Nat} (h : locate m e = .ok p) : (m.dests e).head? = some p := by
  unfold locate at h
  cases hd : m.dests e with
  | nil => rw [hd] at h; cases h
  | cons q l => rw [hd] at h; cases h; rfl

theorem routeBoard_ok {m : Mach} (ho : SetOrder m) {e : XY} {t t' : FTable}
    (h : routeBoard m t e = .ok t') :
    e ∈ m.board e ∧ (∀ c ∈ m.board e, t.get? c = none) ∧
    (∀ c, c ∉ m.board e → t'.get? c = t.get? c) ∧
    ∃ p, (m.dests e).head? = some p ∧ ∀ c ∈ m.board e, ∃ n, Delivered m t' (m.board e) c n e p ∧
      (Way m (m.board e) e c n ∧ ∀ j, Way m (m.board e) e c j → n ≤ j) ∧
      (c ≠ e → First m t' (m.board e) e c (n - 1)) := by
  unfold routeBoard at h
  simp only [mem_toSet] at h
  by_cases he : e ∈ m.board e
  · rw [if_neg (fun hh => hh he)] at h
    generalize hT : (toSet (m.board e)).filter (fun x => decide (x ≠ e)) = T at h
    have hI : Inv m (m.board e) e t 0 T [e] t := by rw [← hT]; exact inv_start he
    cases hr : rounds m T.length 0 T [e] t with
    | error x => simp only [hr] at h; cases h
    | ok t1 =>
      simp only [hr] at h
      obtain ⟨n, R, hJ⟩ := rounds_ok ho T.length hI hr
      have hBR : ∀ c, c ∈ m.board e ↔ c ∈ R := by
        intro c; rw [hJ.all]; simp
      cases hl : locate m e with
      | error x => simp only [hl] at h; cases h
      | ok p =>
        simp only [hl] at h
        obtain ⟨hnone, ht'⟩ := addEntry_ok h
        have het : t.get? e = none := by rw [← hJ.rest e (Or.inr rfl)]; exact hnone
        refine ⟨he, ?_, ?_, p, locate_ok hl, ?_⟩
        · intro c hc
          by_cases hce : c = e
          · rw [hce]; exact het
          · exact hJ.fresh c ((hBR c).1 hc) hce
        · intro c hc
          rw [ht', Dict.get?_set_ne, hJ.rest c (Or.inl (fun hh => hc ((hBR c).2 hh)))]
          intro hec; exact hc (hec ▸ he)
        · have key : ∀ k c, c ∈ m.board e → Way m (m.board e) e c k →
              (∀ j, Way m (m.board e) e c j → k ≤ j) → Delivered m t' (m.board e) c k e p := by
            intro k
            induction k with
            | zero =>
              intro c hc hw _
              cases hw
              exact .core he (by rw [ht', Dict.get?_set_self])
            | succ k ih =>
              intro c hc hw hmin
              have hce : c ≠ e := by
                intro hce
                have := hmin 0 (hce ▸ .here)
                omega
              obtain ⟨l, k', h5, h6, h7, h8, h9, h10, _⟩ := hJ.entry c ((hBR c).1 hc) hce
              have hk' : k' = k := by
                have h11 := h10 (k + 1) hw
                have h12 := hmin (k' + 1) (.step hc h6 h7 h9)
                omega
              subst hk'
              refine .hop hc ?_ h6 h7 (ih _ ((hBR _).2 h8) h9 ?_)
              · rw [ht', Dict.get?_set_ne]
                · exact h5
                · exact fun hh => hce hh.symm
              · intro j hj
                have := hmin (j + 1) (.step hc h6 h7 hj)
                omega
          intro c hc
          obtain ⟨k, _, hw⟩ := (hJ.near c).1 ((hBR c).1 hc)
          obtain ⟨k, hk, hmin⟩ := min_way ⟨k, hw⟩
          refine ⟨k, key k c hc hk hmin, ⟨hk, hmin⟩, fun hce => ?_⟩
          obtain ⟨l, k', h5, h6, h7, h8, h9, h10, h11⟩ := hJ.entry c ((hBR c).1 hc) hce
          have hk' : k' = k - 1 := by
            have h12 := h10 k hk
            have h13 := hmin (k' + 1) (.step hc h6 h7 h9)
            omega
          subst hk'
          refine ⟨l, ?_, h7, h9, h11⟩
          rw [ht', Dict.get?_set_ne]
          · exact h5
          · exact fun hh => hce hh.symm
  · rw [if_pos he] at h; cases h

theorem routeBoard_error {m : Mach} (ho : SetOrder m) {e : XY} {t : FTable} {x : PyErr}
    (h : routeBoard m t e = .error x) :
    (x = .keyError ∧ e ∉ m.board e) ∨
    (x = .routing ∧ ∃ c ∈ m.board e, ∀ k, ¬ Way m (m.board e) e c k) ∨
    (x = .alreadyExists ∧ ∃ c ∈ m.board e, t.get? c ≠ none) ∨
    (x = .configuration ∧ m.dests e = []) := by
  unfold routeBoard at h
  simp only [mem_toSet] at h
  by_cases he : e ∈ m.board e
  · rw [if_neg (fun hh => hh he)] at h
    right
    generalize hT : (toSet (m.board e)).filter (fun x => decide (x ≠ e)) = T at h
    have hI : Inv m (m.board e) e t 0 T [e] t := by rw [← hT]; exact inv_start he
    cases hr : rounds m T.length 0 T [e] t with
    | error y =>
      simp only [hr, Except.error.injEq] at h
      subst h
      rcases rounds_error ho T.length hI (Nat.le_refl _) hr with h1 | h1
      · exact Or.inl h1
      · exact Or.inr (Or.inl h1)
    | ok t1 =>
      simp only [hr] at h
      obtain ⟨n, R, hJ⟩ := rounds_ok ho T.length hI hr
      cases hl : locate m e with
      | error y =>
        simp only [hl, Except.error.injEq] at h
        subst h
        right; right
        unfold locate at hl
        cases hd : m.dests e with
        | nil => rw [hd] at hl; cases hl; exact ⟨rfl, rfl⟩
        | cons q l => rw [hd] at hl; cases hl
      | ok p =>
        simp only [hl] at h
        obtain ⟨h1, h2⟩ := addEntry_error h
        rw [hJ.rest e (Or.inr rfl)] at h2
        exact Or.inr (Or.inl ⟨h1, e, he, h2⟩)
  · rw [if_pos he] at h
    cases h
    exact Or.inl ⟨rfl, he⟩

theorem delivered_mono {m : Mach} {t t' : FTable} {B : List XY}
    (h : ∀ c ∈ B, t'.get? c = t.get? c) {c e : XY} {n p : Nat} (hd : Delivered m t B c n e p) :
    Delivered m t' B c n e p := by
  induction hd with
  | core he hg => exact .core he (by rw [h _ he]; exact hg)
  | hop hc hg h6 h7 _ ih => exact .hop hc (by rw [h _ hc]; exact hg) h6 h7 ih

theorem delivered_mem {m : Mach} {t : FTable} {B : List XY} {c e : XY} {n p : Nat}
    (hd : Delivered m t B c n e p) : t.get? c ≠ none := by
  cases hd with
  | core he hg => rw [hg]; simp
  | hop hc hg h6 h7 _ => rw [hg]; simp

theorem buildFrom_ok {m : Mach} (ho : SetOrder m) (es : List XY) : ∀ {t t' : FTable},
    buildFrom m t es = .ok t' →
    es.Nodup ∧ (∀ e ∈ es, e ∈ m.board e ∧ ∀ c ∈ m.board e, t.get? c = none) ∧
    (∀ e ∈ es, ∀ f ∈ es, ∀ c, c ∈ m.board e → c ∈ m.board f → e = f) ∧
    (∀ c, (∀ e ∈ es, c ∉ m.board e) → t'.get? c = t.get? c) ∧
    ∀ e ∈ es, ∃ p, (m.dests e).head? = some p ∧ ∀ c ∈ m.board e, ∃ n,
      Delivered m t' (m.board e) c n e p ∧
      (Way m (m.board e) e c n ∧ ∀ j, Way m (m.board e) e c j → n ≤ j) ∧
      (c ≠ e → First m t' (m.board e) e c (n - 1)) := by
  induction es with
  | nil =>
    intro t t' h
    simp only [buildFrom, Except.ok.injEq] at h
    subst h
    exact ⟨by simp, fun e he => absurd he (by simp), fun e he => absurd he (by simp),
      fun _ _ => rfl, fun e he => absurd he (by simp)⟩
  | cons e es ih =>
    intro t t' h
    simp only [buildFrom] at h
    cases hb : routeBoard m t e with
    | error x => simp only [hb] at h; cases h
    | ok t1 =>
      simp only [hb] at h
      obtain ⟨a1, a2, a3, p, a4, a5⟩ := routeBoard_ok ho hb
      obtain ⟨b1, b2, b3, b4, b5⟩ := ih h
      have hapart : ∀ f ∈ es, ∀ c, c ∈ m.board e → c ∉ m.board f := by
        intro f hf c hce hcf
        obtain ⟨n, hd, _⟩ := a5 c hce
        exact delivered_mem hd ((b2 f hf).2 c hcf)
      refine ⟨?_, ?_, ?_, ?_, ?_⟩
      · rw [List.nodup_cons]
        exact ⟨fun he => hapart e he e a1 a1, b1⟩
      · intro f hf
        rcases List.mem_cons.1 hf with hfe | hf
        · subst hfe; exact ⟨a1, a2⟩
        · refine ⟨(b2 f hf).1, fun c hc => ?_⟩
          rw [← a3 c (fun hce => hapart f hf c hce hc)]
          exact (b2 f hf).2 c hc
      · intro f hf g hg c hcf hcg
        rcases List.mem_cons.1 hf with hfe | hf
        · rcases List.mem_cons.1 hg with hge | hg
          · rw [hfe, hge]
          · exact absurd hcg (hapart g hg c (hfe ▸ hcf))
        · rcases List.mem_cons.1 hg with hge | hg
          · exact absurd hcf (hapart f hf c (hge ▸ hcg))
          · exact b3 f hf g hg c hcf hcg
      · intro c hc
        rw [b4 c (fun f hf => hc f (List.mem_cons_of_mem _ hf)), a3 c (hc e List.mem_cons_self)]
      · intro f hf
        rcases List.mem_cons.1 hf with hfe | hf
        · subst hfe
          refine ⟨p, a4, fun c hc => ?_⟩
          obtain ⟨n, hd, hw, hfirst⟩ := a5 c hc
          refine ⟨n, delivered_mono (fun c' hc' => b4 c' (fun g hg => hapart g hg c' hc')) hd, hw,
            fun hce => ?_⟩
          obtain ⟨l, h1, h2⟩ := hfirst hce
          exact ⟨l, by rw [b4 c (fun g hg => hapart g hg c hc)]; exact h1, h2⟩
        · exact b5 f hf

theorem buildFrom_error {m : Mach} (ho : SetOrder m) (es : List XY) : ∀ {t : FTable} {x : PyErr},
    buildFrom m t es = .error x →
    (x = .keyError ∧ ∃ e ∈ es, e ∉ m.board e) ∨
    (x = .routing ∧ ∃ e ∈ es, ∃ c ∈ m.board e, ∀ k, ¬ Way m (m.board e) e c k) ∨
    (x = .configuration ∧ ∃ e ∈ es, m.dests e = []) ∨
    (x = .alreadyExists ∧ ((∃ e ∈ es, ∃ c ∈ m.board e, t.get? c ≠ none) ∨ ¬ es.Nodup ∨
      ∃ e ∈ es, ∃ f ∈ es, ∃ c, c ∈ m.board e ∧ c ∈ m.board f ∧ e ≠ f)) := by
  induction es with
  | nil => intro t x h; cases h
  | cons e es ih =>
    intro t x h
    simp only [buildFrom] at h
    cases hb : routeBoard m t e with
    | error y =>
      simp only [hb, Except.error.injEq] at h
      subst h
      rcases routeBoard_error ho hb with h1 | h1 | h1 | h1
      · exact Or.inl ⟨h1.1, e, List.mem_cons_self, h1.2⟩
      · exact Or.inr (Or.inl ⟨h1.1, e, List.mem_cons_self, h1.2⟩)
      · exact Or.inr (Or.inr (Or.inr ⟨h1.1, Or.inl ⟨e, List.mem_cons_self, h1.2⟩⟩))
      · exact Or.inr (Or.inr (Or.inl ⟨h1.1, e, List.mem_cons_self, h1.2⟩))
    | ok t1 =>
      simp only [hb] at h
      obtain ⟨a1, a2, a3, p, a4, a5⟩ := routeBoard_ok ho hb
      rcases ih h with ⟨h1, f, hf, h2⟩ | ⟨h1, f, hf, h2⟩ | ⟨h1, f, hf, h2⟩ | ⟨h1, h2⟩
      · exact Or.inl ⟨h1, f, List.mem_cons_of_mem _ hf, h2⟩
      · exact Or.inr (Or.inl ⟨h1, f, List.mem_cons_of_mem _ hf, h2⟩)
      · exact Or.inr (Or.inr (Or.inl ⟨h1, f, List.mem_cons_of_mem _ hf, h2⟩))
      · refine Or.inr (Or.inr (Or.inr ⟨h1, ?_⟩))
        rcases h2 with ⟨f, hf, c, hc, h3⟩ | h2 | ⟨f, hf, g, hg, h2⟩
        · by_cases hce : c ∈ m.board e
          · by_cases hef : e = f
            · exact Or.inr (Or.inl (fun hn => (List.nodup_cons.1 hn).1 (hef ▸ hf)))
            · exact Or.inr (Or.inr ⟨e, List.mem_cons_self, f, List.mem_cons_of_mem _ hf, c, hce, hc,
                hef⟩)
          · rw [a3 c hce] at h3
            exact Or.inl ⟨f, List.mem_cons_of_mem _ hf, c, hc, h3⟩
        · exact Or.inr (Or.inl (fun hn => h2 (List.nodup_cons.1 hn).2))
        · exact Or.inr (Or.inr ⟨f, List.mem_cons_of_mem _ hf, g, List.mem_cons_of_mem _ hg, h2⟩)

end Pacman.FixedRoute
