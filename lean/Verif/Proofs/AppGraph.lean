import Verif.Spec.AppGraph
import Verif.Proofs.Dict
/-
Lemmas on the application graph.
-/

namespace Pacman.AppGraph

open Parts (Edge singleAdd baseAdd)

/-! ### Labels -/

theorem digits_isDigit {n : Nat} {c : Char} (h : c ∈ digits n) : c.isDigit = true :=
  Nat.isDigit_of_mem_toDigits (by decide) (by decide) h

theorem digits_inj {m n : Nat} (h : digits m = digits n) : m = n := by
  have h1 : Nat.ofDigitChars 10 (Nat.toDigits 10 m) 0 = Nat.ofDigitChars 10 (Nat.toDigits 10 n) 0 := by
    unfold digits at h; rw [h]
  rwa [Nat.ofDigitChars_ten_toDigits, Nat.ofDigitChars_ten_toDigits] at h1

theorem digits_ne (n : Nat) : digits n ≠ [] := Nat.toDigits_ne_nil

theorem noDigit_rev {b : Label} (h : NoDigit b) : b.reverse.takeWhile Char.isDigit = [] := by
  unfold NoDigit at h
  rw [← List.head?_reverse] at h
  cases hb : b.reverse with
  | nil => rfl
  | cons c l =>
    rw [hb] at h
    rw [List.takeWhile_cons_of_neg]
    rw [h c rfl]; decide

theorem suffix_eq (b : Label) (h : NoDigit b) (n : Nat) :
    (b ++ digits n).reverse.takeWhile Char.isDigit = (digits n).reverse := by
  rw [List.reverse_append, List.takeWhile_append_of_pos, noDigit_rev h, List.append_nil]
  intro a ha
  exact digits_isDigit (List.mem_reverse.1 ha)

theorem gen_inj {b b' : Label} (h : NoDigit b) (h' : NoDigit b') {m n : Nat}
    (he : b ++ digits m = b' ++ digits n) : m = n := by
  have := suffix_eq b h m
  rw [he, suffix_eq b' h' n] at this
  exact (digits_inj (List.reverse_inj.1 this)).symm

theorem gen_not {b l : Label} (h : NoDigit b) (h' : NoDigit l) {m : Nat} (he : l = b ++ digits m) : False := by
  have := suffix_eq b h m
  rw [← he, noDigit_rev h'] at this
  exact digits_ne m (List.reverse_eq_nil_iff.1 this.symm)

theorem noDigit_cls (l : Label) : NoDigit (l ++ ['_']) := by
  intro c hc
  rw [List.getLast?_append] at hc
  simp at hc
  rw [← hc]; decide

/-! ### Vertices -/

/-- What holds of the vertices after some calls. -/
structure VInv (s : Graph × Objs) (acc : List Nat) : Prop where
  verts : s.1.byLabel.map (·.2) = acc
  nodupL : (Dict.keys s.1.byLabel).Nodup
  nodupA : acc.Nodup
  lab : ∀ v ∈ acc, s.2.added v = true ∧ ∃ l, s.2.label v = some l ∧ s.1.byLabel.get? l = some v ∧ l ≠ [] ∧
    (NoDigit l ∨ ∃ b c, NoDigit b ∧ c ≤ s.1.unlabelled ∧ l = b ++ digits c)
  other : ∀ v, v ∉ acc → ∀ l, s.2.label v = some l → NoDigit l
  own : ∀ l v, s.1.byLabel.get? l = some v → v ∈ acc ∧ s.2.label v = some l

theorem fresh {s : Graph × Objs} {acc : List Nat} (h : VInv s acc) {b : Label} (hb : NoDigit b) :
    s.1.byLabel.get? (b ++ digits (s.1.unlabelled + 1)) = none := by
  cases hg : s.1.byLabel.get? (b ++ digits (s.1.unlabelled + 1)) with
  | none => rfl
  | some v =>
    exfalso
    obtain ⟨hv, hl⟩ := h.own _ _ hg
    obtain ⟨_, l, hl', _, _, hs⟩ := h.lab v hv
    rw [hl] at hl'
    have hl' := Option.some.inj hl'
    rcases hs with hs | ⟨b', c, hb', hc, hs⟩
    · exact gen_not hb hs hl'.symm
    · rw [← hl'] at hs
      have := gen_inj hb hb' hs
      omega

theorem enter_inv {g : Graph} {o : Objs} {acc : List Nat} (h : VInv (g, o) acc) {v : Nat} {l : Label} {n : Nat}
    {f : Nat → Option Label} (hv : v ∉ acc) (hn : g.unlabelled ≤ n) (hf : ∀ w, w ≠ v → f w = o.label w)
    (hl : f v = some l) (hne : l ≠ []) (hg : g.byLabel.get? l = none)
    (hs : NoDigit l ∨ ∃ b c, NoDigit b ∧ c ≤ n ∧ l = b ++ digits c) :
    VInv (enter { g with unlabelled := n } { o with label := f } v) (acc ++ [v]) := by
  have he : enter { g with unlabelled := n } { o with label := f } v
      = ({ g with unlabelled := n, byLabel := g.byLabel ++ [(l, v)] }, Objs.setAdded { o with label := f } v) := by
    unfold enter
    simp only [hl, Dict.set_absent hg]
  rw [he]
  have hget : ∀ k, Dict.get? (g.byLabel ++ [(l, v)]) k = if l = k then some v else g.byLabel.get? k := by
    intro k; rw [← Dict.set_absent hg, Dict.get?_set]
  constructor
  · show List.map (·.2) (g.byLabel ++ [(l, v)]) = acc ++ [v]
    rw [List.map_append]
    have : g.byLabel.map (·.2) = acc := h.verts
    rw [this]; rfl
  · show (Dict.keys (g.byLabel ++ [(l, v)])).Nodup
    rw [← Dict.set_absent hg]
    exact Dict.nodup_set h.nodupL _ _
  · rw [List.nodup_append]
    refine ⟨h.nodupA, by simp, ?_⟩
    intro a ha b hb hab
    rw [List.mem_singleton] at hb
    rw [hab, hb] at ha
    exact hv ha
  · intro w hw
    rw [List.mem_append, List.mem_singleton] at hw
    by_cases hwv : w = v
    · rw [hwv]
      refine ⟨by simp [Objs.setAdded], l, hl, ?_, hne, hs⟩
      show Dict.get? (g.byLabel ++ [(l, v)]) l = some v
      rw [hget, if_pos rfl]
    · have hw : w ∈ acc := hw.resolve_right hwv
      obtain ⟨ha, l', hl', hg', hne', hs'⟩ := h.lab w hw
      refine ⟨?_, l', ?_, ?_, hne', ?_⟩
      · show (if w = v then true else o.added w) = true
        rw [if_neg hwv]; exact ha
      · show f w = some l'
        rw [hf w hwv]; exact hl'
      · show Dict.get? (g.byLabel ++ [(l, v)]) l' = some w
        rw [hget, if_neg]
        · exact hg'
        · intro hll
          have hg' : g.byLabel.get? l' = some w := hg'
          rw [← hll, hg] at hg'; cases hg'
      · rcases hs' with hs' | ⟨b, c, hb, hc, hs'⟩
        · exact .inl hs'
        · exact .inr ⟨b, c, hb, Nat.le_trans hc hn, hs'⟩
  · intro w hw l' hl'
    rw [List.mem_append, List.mem_singleton, not_or] at hw
    apply h.other w hw.1
    have hl' : f w = some l' := hl'
    rw [hf w hw.2] at hl'; exact hl'
  · intro l' w hw
    have hw : Dict.get? (g.byLabel ++ [(l, v)]) l' = some w := hw
    rw [hget] at hw
    split at hw
    · rename_i hll
      cases hw
      exact ⟨by simp, by rw [← hll]; exact hl⟩
    · obtain ⟨h1, h2⟩ := h.own l' w hw
      refine ⟨by simp [h1], ?_⟩
      show f w = some l'
      rw [hf w (fun hh => hv (hh ▸ h1))]; exact h2

theorem bump_inv {s : Graph × Objs} {acc : List Nat} (h : VInv s acc) {n : Nat} (hn : s.1.unlabelled ≤ n) :
    VInv ({ s.1 with unlabelled := n }, s.2) acc := by
  refine ⟨h.verts, h.nodupL, h.nodupA, ?_, h.other, h.own⟩
  intro v hv
  obtain ⟨ha, l, h1, h2, hne, hs⟩ := h.lab v hv
  refine ⟨ha, l, h1, h2, hne, ?_⟩
  rcases hs with hs | ⟨b, c, hb, hc, hs⟩
  · exact .inl hs
  · exact .inr ⟨b, c, hb, Nat.le_trans hc hn, hs⟩

/-- The accepted vertices after one more call. -/
def push (acc : List Nat) (v : Nat) : Except PyErr Unit → List Nat
  | .ok () => acc ++ [v]
  | .error _ => acc

theorem relabel_inv {s : Graph × Objs} {acc : List Nat} (h : VInv s acc) (v : Nat) {b : Label} (hb : NoDigit b) :
    VInv (relabel s.1 s.2 v b).1 (push acc v (relabel s.1 s.2 v b).2) := by
  unfold relabel Objs.setLabel
  by_cases ha : s.2.added v = true
  · simp only [if_pos ha, push]
    exact bump_inv h (Nat.le_succ _)
  · simp only [if_neg ha, push]
    have hv : v ∉ acc := fun hv => ha (h.lab v hv).1
    exact enter_inv (g := s.1) (o := s.2) h hv (Nat.le_succ _) (fun w hw => if_neg hw) (if_pos rfl)
      (fun hh => digits_ne _ (List.append_eq_nil_iff.1 hh).2) (fresh h hb) (.inr ⟨b, _, hb, Nat.le_refl _, rfl⟩)

theorem addVertex_inv {s : Graph × Objs} {acc : List Nat} (h : VInv s acc) (v : Nat) :
    VInv (addVertex s.1 s.2 v).1 (push acc v (addVertex s.1 s.2 v).2) := by
  unfold addVertex
  cases hl : s.2.label v with
  | none => exact relabel_inv h v (noDigit_cls _)
  | some l =>
    simp only
    by_cases he : l = []
    · rw [if_pos he]; exact relabel_inv h v (noDigit_cls _)
    · rw [if_neg he]
      cases hg : s.1.byLabel.get? l with
      | none =>
        have hv : v ∉ acc := by
          intro hv
          obtain ⟨_, l', h1, h2, _⟩ := h.lab v hv
          rw [hl] at h1
          cases h1
          rw [hg] at h2; cases h2
        exact enter_inv (g := s.1) (o := s.2) h hv (Nat.le_refl _) (fun w _ => rfl) hl he hg
          (.inl (h.other v hv l hl))
      | some w =>
        simp only
        by_cases hw : w = v
        · rw [if_pos hw]; exact h
        · rw [if_neg hw]
          have hv : v ∉ acc := by
            intro hv
            obtain ⟨_, l', h1, h2, _⟩ := h.lab v hv
            rw [hl] at h1
            cases h1
            rw [hg] at h2
            exact hw (Option.some.inj h2)
          exact relabel_inv h v (h.other v hv l hl)

theorem putEdge_byLabel (g : Graph) (e : Edge) (n : String) :
    (putEdge g e n).1.byLabel = g.byLabel ∧ (putEdge g e n).1.unlabelled = g.unlabelled := by
  unfold putEdge Graph.startingAt
  cases g.parts.get? e.pre with
  | none => exact ⟨rfl, rfl⟩
  | some l =>
    simp only
    cases l.find? (fun p => decide (p.ident = n)) <;> exact ⟨rfl, rfl⟩

theorem addEdge_byLabel (g : Graph) (o : Objs) (e : Edge) (n : String) :
    (addEdge g o e n).1.byLabel = g.byLabel ∧ (addEdge g o e n).1.unlabelled = g.unlabelled := by
  unfold addEdge
  cases checkEdge g o e with
  | error x => exact ⟨rfl, rfl⟩
  | ok _ => exact putEdge_byLabel g e n

theorem startingAt_byLabel (g : Graph) (v : Nat) :
    (g.startingAt v).2.byLabel = g.byLabel ∧ (g.startingAt v).2.unlabelled = g.unlabelled := by
  unfold Graph.startingAt
  cases g.parts.get? v <;> exact ⟨rfl, rfl⟩

theorem VInv.congr {s : Graph × Objs} {acc : List Nat} (h : VInv s acc) {g : Graph}
    (h1 : g.byLabel = s.1.byLabel) (h2 : g.unlabelled = s.1.unlabelled) : VInv (g, s.2) acc := by
  refine ⟨?_, ?_, h.nodupA, ?_, h.other, ?_⟩
  · show g.byLabel.map (·.2) = acc
    rw [h1]; exact h.verts
  · show (Dict.keys g.byLabel).Nodup
    rw [h1]; exact h.nodupL
  · show ∀ v ∈ acc, s.2.added v = true ∧ ∃ l, s.2.label v = some l ∧ g.byLabel.get? l = some v ∧ l ≠ [] ∧
      (NoDigit l ∨ ∃ b c, NoDigit b ∧ c ≤ g.unlabelled ∧ l = b ++ digits c)
    rw [h1, h2]; exact h.lab
  · show ∀ l v, g.byLabel.get? l = some v → v ∈ acc ∧ s.2.label v = some l
    rw [h1]; exact h.own

theorem userLabel_inv {s : Graph × Objs} {acc : List Nat} (h : VInv s acc) (v : Nat) {l : Label} (hl : NoDigit l) :
    VInv (userLabel s v l).1 acc := by
  unfold userLabel Objs.setLabel
  by_cases ha : s.2.added v = true
  · simp only [if_pos ha]; exact h
  · simp only [if_neg ha]
    have hv : ∀ w ∈ acc, w ≠ v := fun w hw hh => ha (hh ▸ (h.lab w hw).1)
    refine ⟨h.verts, h.nodupL, h.nodupA, ?_, ?_, ?_⟩
    · intro w hw
      obtain ⟨h1, l', h2, h3⟩ := h.lab w hw
      refine ⟨h1, l', ?_, h3⟩
      show (if w = v then some l else s.2.label w) = some l'
      rw [if_neg (hv w hw)]; exact h2
    · intro w hw l' hl'
      have hl' : (if w = v then some l else s.2.label w) = some l' := hl'
      split at hl'
      · cases hl'; exact hl
      · exact h.other w hw l' hl'
    · intro l' w hg
      obtain ⟨h1, h2⟩ := h.own l' w hg
      refine ⟨h1, ?_⟩
      show (if w = v then some l else s.2.label w) = some l'
      rw [if_neg (hv w h1)]; exact h2

theorem run_inv (ops : List Op) : ∀ (s : Graph × Objs) (acc : List Nat), VInv s acc → OpsOk ops →
    VInv (run s ops) (acc ++ accepted s ops) := by
  induction ops with
  | nil => intro s acc h _; simpa [run, accepted] using h
  | cons op ops ih =>
    intro s acc h hok
    have hok' : OpsOk ops := fun v l hm => hok v l (List.mem_cons_of_mem _ hm)
    cases op with
    | setLabel v l => exact ih _ acc (userLabel_inv h v (hok v l (by simp))) hok'
    | addEdge e n =>
      exact ih _ acc (h.congr (addEdge_byLabel _ _ _ _).1 (addEdge_byLabel _ _ _ _).2) hok'
    | startingAt v => exact ih _ acc (h.congr (startingAt_byLabel _ _).1 (startingAt_byLabel _ _).2) hok'
    | addVertex v =>
      have h1 := addVertex_inv h v
      rw [run, accepted]
      change VInv (run (addVertex s.1 s.2 v).1 ops) _
      cases hr : (step s (.addVertex v)).2 with
      | error x =>
        have hr' : (addVertex s.1 s.2 v).2 = .error x := hr
        rw [hr'] at h1
        exact ih _ acc h1 hok'
      | ok u =>
        have hr' : (addVertex s.1 s.2 v).2 = .ok () := hr
        rw [hr'] at h1
        have := ih _ _ h1 hok'
        rw [push, List.append_assoc] at this
        exact this

theorem new_inv (o : Objs) (h : ∀ v l, o.label v = some l → NoDigit l) : VInv (Graph.new, o) [] := by
  refine ⟨rfl, List.nodup_nil, List.nodup_nil, ?_, fun v _ l hl => h v l hl, ?_⟩
  · intro v hv; cases hv
  · intro l v hv; cases hv

end Pacman.AppGraph
