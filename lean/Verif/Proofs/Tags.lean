import Verif.Spec.Tags
import Verif.Proofs.Dict
/-
Lemmas on the tags.
-/

namespace Pacman.TagAlloc

theorem ipReqs_append (a b : List Op) (k : BT) : ipReqs (a ++ b) k = ipReqs a k ++ ipReqs b k := by
  simp [ipReqs, List.filterMap_append]

theorem revReqs_append (a b : List Op) (k : BT) : revReqs (a ++ b) k = revReqs a k ++ revReqs b k := by
  simp [revReqs, List.filterMap_append]

theorem ipReqs_ip (t : IPTag) (v : Nat) (k : BT) :
    ipReqs [.ip t v] k = if (t.board, t.tag) = k then [t] else [] := by
  unfold ipReqs
  by_cases h : (t.board, t.tag) = k
  · simp [h]
  · simp [h]

theorem ipReqs_rev (t : RevTag) (v : Nat) (k : BT) : ipReqs [.rev t v] k = [] := rfl

theorem revReqs_ip (t : IPTag) (v : Nat) (k : BT) : revReqs [.ip t v] k = [] := rfl

theorem revReqs_rev (t : RevTag) (v : Nat) (k : BT) :
    revReqs [.rev t v] k = if (t.board, t.tag) = k then [t] else [] := by
  unfold revReqs
  by_cases h : (t.board, t.tag) = k
  · simp [h]
  · simp [h]

theorem mem_ipReqs {acc : List Op} {k : BT} {t : IPTag} :
    t ∈ ipReqs acc k ↔ (t.board, t.tag) = k ∧ ∃ v, Op.ip t v ∈ acc := by
  unfold ipReqs
  rw [List.mem_filterMap]
  constructor
  · rintro ⟨o, ho, h⟩
    cases o with
    | rev _ _ => simp at h
    | ip t' v =>
      simp only [Option.ite_none_right_eq_some, Option.some.injEq] at h
      obtain ⟨h1, rfl⟩ := h
      exact ⟨h1, v, ho⟩
  · rintro ⟨h, v, hv⟩
    exact ⟨_, hv, by simp [h]⟩

theorem mem_revReqs {acc : List Op} {k : BT} {t : RevTag} :
    t ∈ revReqs acc k ↔ (t.board, t.tag) = k ∧ ∃ v, Op.rev t v ∈ acc := by
  unfold revReqs
  rw [List.mem_filterMap]
  constructor
  · rintro ⟨o, ho, h⟩
    cases o with
    | ip _ _ => simp at h
    | rev t' v =>
      simp only [Option.ite_none_right_eq_some, Option.some.injEq] at h
      obtain ⟨h1, rfl⟩ := h
      exact ⟨h1, v, ho⟩
  · rintro ⟨h, v, hv⟩
    exact ⟨_, hv, by simp [h]⟩

theorem equalOrNone_iff (a b : Option Nat) : equalOrNone a b = true ↔ PortsAgree a b := by
  unfold equalOrNone PortsAgree
  cases a <;> cases b <;> simp

/-- The state stands for the accepted requests. -/
structure Inv (s : Tags) (acc : List Op) : Prop where
  ip : ∀ k, s.ip.get? k = joined (ipReqs acc k)
  rev : ∀ k, s.rev.get? k = (revReqs acc k).head?
  ipBy : s.ipBy = ipUses acc
  revBy : s.revBy = revUses acc
  ports : ∀ b p, (b, p) ∈ s.ports ↔ ∃ t v, Op.rev t v ∈ acc ∧ t.board = b ∧ t.port = some p
  fits : acc.Pairwise Fits

theorem inv_empty : Inv Tags.empty [] := by
  refine ⟨fun _ => rfl, fun _ => rfl, rfl, rfl, ?_, List.Pairwise.nil⟩
  intro b p
  simp [Tags.empty]

theorem joined_none {l : List IPTag} : joined l = none ↔ l = [] := by
  cases l <;> simp [joined]

theorem findSome_port {l : List IPTag} {p : Nat} (h : l.findSome? (·.port) = some p) :
    ∃ t ∈ l, t.port = some p := by
  exact List.exists_of_findSome?_eq_some h

/-- Requests sharing a tag have the same address and strip flag and agreeing ports. -/
theorem Inv.shared {s : Tags} {acc : List Op} (h : Inv s acc) {k : BT} {a b : IPTag}
    (ha : a ∈ ipReqs acc k) (hb : b ∈ ipReqs acc k) :
    a.ip = b.ip ∧ a.strip = b.strip ∧ PortsAgree a.port b.port := by
  obtain ⟨ka, va, ha⟩ := mem_ipReqs.1 ha
  obtain ⟨kb, vb, hb⟩ := mem_ipReqs.1 hb
  obtain ⟨i, hi, hia⟩ := List.getElem_of_mem ha
  obtain ⟨j, hj, hjb⟩ := List.getElem_of_mem hb
  rcases Nat.lt_trichotomy i j with hij | hij | hij
  · have := List.pairwise_iff_getElem.1 h.fits i j hi hj hij
    rw [hia, hjb] at this
    exact this (ka.trans kb.symm)
  · subst hij
    rw [hia] at hjb
    cases hjb
    refine ⟨rfl, rfl, ?_⟩
    intro p q hp hq
    rw [hp] at hq
    exact Option.some.inj hq
  · have := List.pairwise_iff_getElem.1 h.fits j i hj hi hij
    rw [hia, hjb] at this
    obtain ⟨h1, h2, h3⟩ := this (kb.trans ka.symm)
    exact ⟨h1.symm, h2.symm, fun p q hp hq => (h3 q p hq hp).symm⟩

/-- What is stored is compatible with a new tag exactly if all the requests are. -/
theorem Inv.compatible_iff {s : Tags} {acc : List Op} (h : Inv s acc) {k : BT} {old t : IPTag}
    (ho : joined (ipReqs acc k) = some old) :
    compatible old t = true ↔ ∀ a ∈ ipReqs acc k, a.ip = t.ip ∧ a.strip = t.strip ∧
      PortsAgree a.port t.port := by
  have hsh : ∀ a ∈ ipReqs acc k, ∀ b ∈ ipReqs acc k, a.ip = b.ip ∧ a.strip = b.strip ∧
      PortsAgree a.port b.port := fun a ha b hb => h.shared ha hb
  revert ho hsh
  generalize ipReqs acc k = l
  intro ho hsh
  cases l with
  | nil => simp [joined] at ho
  | cons c l =>
    simp only [joined, Option.some.injEq] at ho
    subst ho
    unfold compatible
    simp only [Bool.and_eq_true, decide_eq_true_eq]
    rw [equalOrNone_iff]
    constructor
    · rintro ⟨⟨h1, h2⟩, h3⟩ a ha
      obtain ⟨e1, e2, _⟩ := hsh a ha c List.mem_cons_self
      refine ⟨e1.trans h1, e2.trans h3, ?_⟩
      intro p q hp hq
      cases hf : (c :: l).findSome? (·.port) with
      | none =>
        have := List.findSome?_eq_none_iff.1 hf a ha
        rw [hp] at this
        simp at this
      | some p' =>
        obtain ⟨b, hb, hbp⟩ := findSome_port hf
        have e := (hsh a ha b hb).2.2 p p' hp hbp
        rw [e]
        exact h2 p' q hf hq
    · intro hall
      obtain ⟨h1, h2, _⟩ := hall c List.mem_cons_self
      refine ⟨⟨h1, ?_⟩, h2⟩
      intro p q hp hq
      obtain ⟨b, hb, hbp⟩ := findSome_port hp
      exact (hall b hb).2.2 p q hbp hq

theorem joined_snoc {l : List IPTag} {old t : IPTag} (ho : joined l = some old) :
    joined (l ++ [t]) =
      some (if old.port.isNone ∧ t.port.isSome then { old with port := t.port } else old) := by
  cases l with
  | nil => simp [joined] at ho
  | cons c l =>
    simp only [joined, Option.some.injEq] at ho
    subst ho
    simp only [List.cons_append, joined]
    have e : (c :: (l ++ [t])).findSome? (·.port) =
        ((c :: l).findSome? (·.port)).or t.port := by
      rw [← List.cons_append, List.findSome?_append]
      cases (c :: l).findSome? (·.port) with
      | some p => rfl
      | none => cases ht : t.port <;> simp [ht]
    rw [e]
    cases (c :: l).findSome? (·.port) with
    | some p => simp
    | none => cases ht : t.port <;> simp

theorem pairwise_snoc {acc : List Op} {o : Op} (h : acc.Pairwise Fits) (ho : ∀ a ∈ acc, Fits a o) :
    (acc ++ [o]).Pairwise Fits := by
  rw [List.pairwise_append]
  refine ⟨h, by simp, ?_⟩
  intro a ha b hb
  rw [List.mem_singleton] at hb
  subst hb
  exact ho a ha

theorem Inv.no_rev {s : Tags} {acc : List Op} (h : Inv s acc) {k : BT} :
    (s.rev.get? k).isSome = false ↔ ∀ t v, Op.rev t v ∈ acc → (t.board, t.tag) ≠ k := by
  rw [h.rev]
  constructor
  · intro hn t v hv hk
    have : t ∈ revReqs acc k := mem_revReqs.2 ⟨hk, v, hv⟩
    cases hl : revReqs acc k with
    | nil => rw [hl] at this; simp at this
    | cons a l => rw [hl] at hn; simp at hn
  · intro hall
    cases hl : revReqs acc k with
    | nil => rfl
    | cons a l =>
      obtain ⟨hk, v, hv⟩ := mem_revReqs.1 (by rw [hl]; exact List.mem_cons_self : a ∈ revReqs acc k)
      exact absurd hk (hall a v hv)

theorem Inv.no_ip {s : Tags} {acc : List Op} (h : Inv s acc) {k : BT} :
    (s.ip.get? k).isSome = false ↔ ∀ t v, Op.ip t v ∈ acc → (t.board, t.tag) ≠ k := by
  rw [h.ip]
  constructor
  · intro hn t v hv hk
    have : t ∈ ipReqs acc k := mem_ipReqs.2 ⟨hk, v, hv⟩
    cases hl : ipReqs acc k with
    | nil => rw [hl] at this; simp at this
    | cons a l => rw [hl] at hn; simp [joined] at hn
  · intro hall
    cases hl : ipReqs acc k with
    | nil => rfl
    | cons a l =>
      obtain ⟨hk, v, hv⟩ := mem_ipReqs.1 (by rw [hl]; exact List.mem_cons_self : a ∈ ipReqs acc k)
      exact absurd hk (hall a v hv)

/-- Adding an IP tag. -/
theorem addIp_inv {s : Tags} {acc : List Op} (h : Inv s acc) (t : IPTag) (v : Nat) :
    (∀ s', addIp s t v = .ok s' → (∀ a ∈ acc, Fits a (.ip t v)) ∧ Inv s' (acc ++ [.ip t v])) ∧
    (∀ e, addIp s t v = .error e → e = .invalidParameter ∧ ¬ ∀ a ∈ acc, Fits a (.ip t v)) := by
  have hfit : (∀ a ∈ acc, Fits a (.ip t v)) ↔
      (s.rev.get? (t.board, t.tag)).isSome = false ∧
      ∀ a ∈ ipReqs acc (t.board, t.tag), a.ip = t.ip ∧ a.strip = t.strip ∧ PortsAgree a.port t.port := by
    constructor
    · intro hall
      refine ⟨h.no_rev.2 (fun r w hw => hall _ hw), ?_⟩
      intro a ha
      obtain ⟨hk, w, hw⟩ := mem_ipReqs.1 ha
      exact hall _ hw hk
    · rintro ⟨h1, h2⟩ a ha
      cases a with
      | ip a w => exact fun hk => h2 a (mem_ipReqs.2 ⟨hk, w, ha⟩)
      | rev a w => exact h.no_rev.1 h1 a w ha
  have hrest : ∀ s' : Tags, (∀ a ∈ acc, Fits a (.ip t v)) →
      (∀ k, s'.ip.get? k = joined (ipReqs (acc ++ [.ip t v]) k)) → s'.rev = s.rev →
      s'.ipBy = s.ipBy ++ [(v, (t.board, t.tag))] → s'.revBy = s.revBy → s'.ports = s.ports →
      Inv s' (acc ++ [.ip t v]) := by
    intro s' hf h1 h2 h3 h4 h5
    refine ⟨h1, ?_, ?_, ?_, ?_, pairwise_snoc h.fits hf⟩
    · intro k
      rw [h2, h.rev, revReqs_append, revReqs_ip, List.append_nil]
    · rw [h3, h.ipBy]; simp [ipUses, List.filterMap_append]
    · rw [h4, h.revBy]; simp [revUses, List.filterMap_append]
    · intro b p
      rw [h5, h.ports]
      simp
  cases hg : s.ip.get? (t.board, t.tag) with
  | some old =>
    have hj := hg
    rw [h.ip] at hj
    have hc := h.compatible_iff (t := t) hj
    unfold addIp
    simp only [hg]
    by_cases hcomp : compatible old t = false
    · rw [if_pos hcomp]
      refine ⟨fun _ hh => (by cases hh), ?_⟩
      intro e he
      cases he
      refine ⟨rfl, ?_⟩
      rw [hfit]
      rintro ⟨_, h2⟩
      rw [hc.2 h2] at hcomp
      cases hcomp
    · rw [if_neg hcomp]
      by_cases hr : (s.rev.get? (t.board, t.tag)).isSome = true
      · rw [if_pos hr]
        refine ⟨fun _ hh => (by cases hh), ?_⟩
        intro e he
        cases he
        refine ⟨rfl, ?_⟩
        rw [hfit]
        rintro ⟨h1, _⟩
        rw [h1] at hr
        cases hr
      · rw [if_neg hr]
        refine ⟨?_, fun _ hh => by cases hh⟩
        intro s' hs
        cases hs
        have hf := hfit.2 ⟨by simpa using hr, hc.1 (by simpa using hcomp)⟩
        refine ⟨hf, hrest _ hf ?_ rfl rfl rfl rfl⟩
        intro k
        rw [ipReqs_append, ipReqs_ip]
        by_cases hk : (t.board, t.tag) = k
        · subst hk
          rw [if_pos rfl, joined_snoc hj]
          by_cases hp : old.port.isNone = true ∧ t.port.isSome = true
          · simp only [if_pos hp, Dict.get?_set_self]
          · simp only [if_neg hp, hg]
        · rw [if_neg hk, List.append_nil, ← h.ip]
          by_cases hp : old.port.isNone = true ∧ t.port.isSome = true
          · simp only [if_pos hp, Dict.get?_set_ne _ _ hk]
          · simp only [if_neg hp]
  | none =>
    have hj := hg
    rw [h.ip, joined_none] at hj
    unfold addIp
    simp only [hg]
    by_cases hr : (s.rev.get? (t.board, t.tag)).isSome = true
    · rw [if_pos hr]
      refine ⟨fun _ hh => (by cases hh), ?_⟩
      intro e he
      cases he
      refine ⟨rfl, ?_⟩
      rw [hfit]
      rintro ⟨h1, _⟩
      rw [h1] at hr
      cases hr
    · rw [if_neg hr]
      refine ⟨?_, fun _ hh => by cases hh⟩
      intro s' hs
      cases hs
      have hf := hfit.2 ⟨by simpa using hr, by rw [hj]; simp⟩
      refine ⟨hf, hrest _ hf ?_ rfl rfl rfl rfl⟩
      intro k
      rw [ipReqs_append, ipReqs_ip]
      by_cases hk : (t.board, t.tag) = k
      · subst hk
        rw [if_pos rfl, hj]
        simp only [Dict.get?_set_self]
        simp only [joined, List.nil_append]
        congr 1
        obtain ⟨_, _, _, p, _⟩ := t
        cases p <;> rfl
      · rw [if_neg hk, List.append_nil, ← h.ip]
        simp only [Dict.get?_set_ne _ _ hk]

/-- Adding a reverse IP tag. -/
theorem addRev_inv {s : Tags} {acc : List Op} (h : Inv s acc) (t : RevTag) (v : Nat) :
    (∀ s', addRev s t v = .ok s' → (∀ a ∈ acc, Fits a (.rev t v)) ∧ Inv s' (acc ++ [.rev t v])) ∧
    (∀ e, addRev s t v = .error e → e = .invalidParameter ∧ ¬ ∀ a ∈ acc, Fits a (.rev t v)) := by
  have hfit : (∀ a ∈ acc, Fits a (.rev t v)) ↔
      (s.ip.get? (t.board, t.tag)).isSome = false ∧ (s.rev.get? (t.board, t.tag)).isSome = false ∧
      ∀ p, t.port = some p → (t.board, p) ∉ s.ports := by
    constructor
    · intro hall
      refine ⟨h.no_ip.2 (fun r w hw => hall _ hw), h.no_rev.2 (fun r w hw => (hall _ hw).1), ?_⟩
      intro p hp hm
      obtain ⟨r, w, hw, hb, hq⟩ := (h.ports _ _).1 hm
      exact (hall _ hw).2 hb p hq hp
    · rintro ⟨h1, h2, h3⟩ a ha
      cases a with
      | ip a w => exact h.no_ip.1 h1 a w ha
      | rev a w =>
        refine ⟨h.no_rev.1 h2 a w ha, ?_⟩
        intro hb p hp hq
        exact h3 p hq ((h.ports _ _).2 ⟨a, w, ha, hb, hp⟩)
  have hrest : ∀ s' : Tags, (∀ a ∈ acc, Fits a (.rev t v)) → s'.ip = s.ip →
      s'.rev = s.rev.set (t.board, t.tag) t →
      s'.ipBy = s.ipBy → s'.revBy = s.revBy ++ [(v, (t.board, t.tag))] →
      (∀ q, q ∈ s'.ports ↔ q ∈ s.ports ∨ ∃ p, t.port = some p ∧ q = (t.board, p)) →
      Inv s' (acc ++ [.rev t v]) := by
    intro s' hf h1 h2 h3 h4 h5
    refine ⟨?_, ?_, ?_, ?_, ?_, pairwise_snoc h.fits hf⟩
    · intro k
      rw [h1, h.ip, ipReqs_append, ipReqs_rev, List.append_nil]
    · intro k
      rw [h2, revReqs_append, revReqs_rev]
      by_cases hk : (t.board, t.tag) = k
      · subst hk
        rw [if_pos rfl, Dict.get?_set_self]
        have hn := (hfit.1 hf).2.1
        rw [h.rev] at hn
        cases hl : revReqs acc (t.board, t.tag) with
        | nil => rfl
        | cons a l => rw [hl] at hn; simp at hn
      · rw [if_neg hk, List.append_nil, Dict.get?_set_ne _ _ hk, h.rev]
    · rw [h3, h.ipBy]; simp [ipUses, List.filterMap_append]
    · rw [h4, h.revBy]; simp [revUses, List.filterMap_append]
    · intro b p
      rw [h5, h.ports]
      constructor
      · rintro (⟨r, w, hw, hb⟩ | ⟨p', hp', hq⟩)
        · exact ⟨r, w, List.mem_append_left _ hw, hb⟩
        · simp only [Prod.mk.injEq] at hq
          exact ⟨t, v, by simp, hq.1.symm, by rw [hp', hq.2]⟩
      · rintro ⟨r, w, hw, hb, hp⟩
        rw [List.mem_append, List.mem_singleton] at hw
        rcases hw with hw | hw
        · exact .inl ⟨r, w, hw, hb, hp⟩
        · cases hw
          exact .inr ⟨p, hp, by rw [hb]⟩
  unfold addRev
  by_cases hk : (s.ip.get? (t.board, t.tag)).isSome = true ∨ (s.rev.get? (t.board, t.tag)).isSome = true
  · simp only [if_pos hk]
    refine ⟨fun _ hh => (by cases hh), ?_⟩
    intro e he
    cases he
    refine ⟨rfl, ?_⟩
    rw [hfit]
    rintro ⟨h1, h2, _⟩
    rw [h1, h2] at hk
    simp at hk
  · simp only [if_neg hk]
    rw [not_or] at hk
    have hk1 : (s.ip.get? (t.board, t.tag)).isSome = false := by simpa using hk.1
    have hk2 : (s.rev.get? (t.board, t.tag)).isSome = false := by simpa using hk.2
    cases hp : t.port with
    | none =>
      refine ⟨?_, fun _ hh => (by cases hh)⟩
      intro s' hs
      cases hs
      have hf := hfit.2 ⟨hk1, hk2, by rw [hp]; intro p hh; cases hh⟩
      refine ⟨hf, hrest _ hf rfl rfl rfl rfl ?_⟩
      intro q
      rw [hp]
      simp
    | some p =>
      by_cases hm : (t.board, p) ∈ s.ports
      · simp only [if_pos hm]
        refine ⟨fun _ hh => (by cases hh), ?_⟩
        intro e he
        cases he
        refine ⟨rfl, ?_⟩
        rw [hfit]
        rintro ⟨_, _, h3⟩
        exact h3 p hp hm
      · simp only [if_neg hm]
        refine ⟨?_, fun _ hh => (by cases hh)⟩
        intro s' hs
        cases hs
        have hf := hfit.2 ⟨hk1, hk2, by rw [hp]; intro q hq; cases hq; exact hm⟩
        refine ⟨hf, hrest _ hf rfl rfl rfl rfl ?_⟩
        intro q
        rw [hp]
        simp only [List.mem_cons, Option.some.injEq, exists_eq_left']
        exact or_comm

theorem step_inv {s : Tags} {acc : List Op} (h : Inv s acc) (o : Op) :
    (∀ s', step s o = .ok s' → (∀ a ∈ acc, Fits a o) ∧ Inv s' (acc ++ [o])) ∧
    (∀ e, step s o = .error e → e = .invalidParameter ∧ ¬ ∀ a ∈ acc, Fits a o) := by
  cases o with
  | ip t v => exact addIp_inv h t v
  | rev t v => exact addRev_inv h t v

theorem run_inv {s : Tags} {acc : List Op} (h : Inv s acc) (os : List Op) :
    Inv (run s os) (acc ++ accepted s os) := by
  induction os generalizing s acc with
  | nil => simpa [run, accepted] using h
  | cons o os ih =>
    rw [run, accepted]
    cases hs : step s o with
    | ok s' =>
      have := ih ((step_inv h o).1 s' hs).2
      simpa [List.append_assoc] using this
    | error e => exact ih h

end Pacman.TagAlloc
