import Verif.Proofs.AppGraph
/-
Lemmas on the edges of the application graph.
-/

namespace Pacman.AppGraph

open Parts (Edge singleAdd baseAdd)

theorem part_snoc (acc : List (Edge × String)) (e : Edge) (m : String) (v : Nat) (n : String) :
    part (acc ++ [(e, m)]) v n = part acc v n ++ (if e.pre = v ∧ m = n then [e] else []) := by
  unfold part
  rw [List.filter_append, List.map_append]
  congr 1
  by_cases h : e.pre = v ∧ m = n
  · simp [h]
  · rw [if_neg h, List.filter_cons_of_neg]
    · rfl
    · simpa using h

theorem mem_part {acc : List (Edge × String)} {v : Nat} {n : String} {e : Edge} :
    e ∈ part acc v n ↔ (e, n) ∈ acc ∧ e.pre = v := by
  unfold part
  rw [List.mem_map]
  constructor
  · rintro ⟨⟨a, m⟩, h, rfl⟩
    rw [List.mem_filter] at h
    have h2 : a.pre = v ∧ m = n := by simpa using h.2
    rw [← h2.2]
    exact ⟨h.1, h2.1⟩
  · rintro ⟨h1, h2⟩
    exact ⟨(e, n), List.mem_filter.2 ⟨h1, by simpa using h2⟩, rfl⟩

theorem flatten_set {γ : Type} (f : List Partition → List γ) (h0 : f [] = []) (d : Dict Nat (List Partition))
    (k : Nat) (l' : List Partition) (x : List γ) (hx : (f l').Perm (f ((d.get? k).getD []) ++ x)) :
    (((d.set k l').map (fun p => f p.2)).flatten).Perm ((d.map (fun p => f p.2)).flatten ++ x) := by
  induction d with
  | nil =>
    rw [Dict.get?_nil, Option.getD_none, h0, List.nil_append] at hx
    simpa [Dict.set] using hx
  | cons p d ih =>
    rw [Dict.get?_cons] at hx
    rw [Dict.set]
    by_cases h : p.1 = k
    · rw [if_pos h] at hx ⊢
      rw [Option.getD_some] at hx
      simp only [List.map_cons, List.flatten_cons]
      refine (hx.append_right _).trans ?_
      rw [List.append_assoc, List.append_assoc]
      exact List.Perm.append_left _ List.perm_append_comm
    · rw [if_neg h] at hx ⊢
      simp only [List.map_cons, List.flatten_cons]
      rw [List.append_assoc]
      exact (ih hx).append_left _

/-- What holds of the partitions that start at a vertex. -/
def Good (acc : List (Edge × String)) (v : Nat) (l : List Partition) : Prop :=
  (l.map (·.ident)).Nodup ∧ ∀ p ∈ l, p.pre = v ∧ p.edges = part acc v p.ident ∧ p.edges ≠ []

/-- What holds of the edges after some calls. -/
structure EInv (g : Graph) (acc : List (Edge × String)) : Prop where
  nodup : (Dict.keys g.parts).Nodup
  good : ∀ v, Good acc v ((g.parts.get? v).getD [])
  has : ∀ x ∈ acc, x.2 ∈ ((g.parts.get? x.1.pre).getD []).map (·.ident)
  count : g.nParts = g.partitions.length
  perm : g.edges.Perm (acc.map (·.1))

theorem EInv.congr {g g' : Graph} {acc : List (Edge × String)} (h : EInv g acc) (h1 : g'.parts = g.parts)
    (h2 : g'.nParts = g.nParts) : EInv g' acc := by
  obtain ⟨a, b, c, d, e⟩ := h
  refine ⟨h1 ▸ a, h1 ▸ b, h1 ▸ c, ?_, ?_⟩
  · unfold Graph.partitions at *; rw [h1, h2]; exact d
  · unfold Graph.edges Graph.partitions at *; rw [h1]; exact e

theorem partitions_eq (g : Graph) : g.partitions = (g.parts.map (fun p => id p.2)).flatten := rfl

theorem edges_eq (g : Graph) :
    g.edges = (g.parts.map (fun p => (p.2.map (·.edges)).flatten)).flatten := by
  unfold Graph.edges Graph.partitions
  induction g.parts with
  | nil => rfl
  | cons p d ih =>
    simp only [List.map_cons, List.flatten_cons, List.map_append, List.flatten_append] at *
    rw [ih]

/-- Setting the partitions that start at a vertex. -/
theorem set_inv {g : Graph} {acc acc' : List (Edge × String)} (h : EInv g acc) {v : Nat} {l' : List Partition} {k : Nat}
    (hg : Good acc' v l') (hold : ∀ w n, w ≠ v → part acc' w n = part acc w n)
    (hhas : ∀ x ∈ acc', x.1.pre = v → x.2 ∈ l'.map (·.ident))
    (hmem : ∀ x ∈ acc', x.1.pre ≠ v → x ∈ acc)
    (hk : l'.length = ((g.parts.get? v).getD []).length + k)
    (x : List Edge) (hx : acc'.map (·.1) = acc.map (·.1) ++ x)
    (he : ((l'.map (·.edges)).flatten).Perm (((((g.parts.get? v).getD []).map (·.edges)).flatten) ++ x)) :
    EInv { g with parts := g.parts.set v l', nParts := g.nParts + k } acc' := by
  constructor
  · exact Dict.nodup_set h.nodup _ _
  · intro w
    show Good acc' w (((g.parts.set v l').get? w).getD [])
    rw [Dict.get?_set]
    by_cases hw : v = w
    · rw [if_pos hw, ← hw]; exact hg
    · rw [if_neg hw]
      obtain ⟨h1, h2⟩ := h.good w
      refine ⟨h1, ?_⟩
      intro p hp
      obtain ⟨h3, h4, h5⟩ := h2 p hp
      exact ⟨h3, by rw [hold w _ (fun hh => hw hh.symm)]; exact h4, h5⟩
  · intro y hy
    show y.2 ∈ (((g.parts.set v l').get? y.1.pre).getD []).map (·.ident)
    rw [Dict.get?_set]
    by_cases hw : v = y.1.pre
    · rw [if_pos hw]; exact hhas y hy hw.symm
    · rw [if_neg hw]; exact h.has y (hmem y hy (fun hh => hw hh.symm))
  · have hp := (flatten_set (fun l => l.map (fun _ => ())) rfl g.parts v l' (List.replicate k ()) (by
      simp only [List.map_const', hk]
      rw [← List.replicate_append_replicate])).length_eq
    have hlen : ∀ d : Dict Nat (List Partition),
        (d.map (fun p => p.2.map (fun _ => ()))).flatten.length = (d.map (fun p => p.2)).flatten.length := by
      intro d
      induction d with
      | nil => rfl
      | cons p d ih => simp only [List.map_cons, List.flatten_cons, List.length_append, List.length_map, ih]
    rw [List.length_append, hlen, hlen, List.length_replicate] at hp
    show g.nParts + k = ((g.parts.set v l').map (fun p => p.2)).flatten.length
    rw [hp, h.count]; rfl
  · rw [edges_eq]
    show ((g.parts.set v l').map (fun p => (p.2.map (·.edges)).flatten)).flatten.Perm _
    rw [hx]
    have hp := h.perm
    rw [edges_eq] at hp
    exact (flatten_set (fun l => (l.map (·.edges)).flatten) rfl g.parts v l' x he).trans (hp.append_right x)

theorem startingAt_fst (g : Graph) (v : Nat) : (g.startingAt v).1 = (g.parts.get? v).getD [] := by
  unfold Graph.startingAt
  cases g.parts.get? v <;> rfl

theorem startingAt_inv {g : Graph} {acc : List (Edge × String)} (h : EInv g acc) (v : Nat) :
    EInv (g.startingAt v).2 acc := by
  unfold Graph.startingAt
  cases hg : g.parts.get? v with
  | some l => exact h
  | none =>
    refine set_inv (k := 0) h ⟨by simp, by simp⟩ (fun _ _ _ => rfl) ?_ (fun x hx _ => hx) (by rw [hg]; rfl) []
      (by simp) (by rw [hg]; simp)
    intro x hx hv
    have := h.has x hx
    rw [hv, hg] at this
    cases this

theorem startingAt_get (g : Graph) (v : Nat) :
    ((g.startingAt v).2.parts.get? v).getD [] = (g.parts.get? v).getD [] := by
  unfold Graph.startingAt
  cases hg : g.parts.get? v with
  | some l => simp only [hg]
  | none => simp [Dict.get?_set_self]

theorem updFirst_ident (f : Partition → Partition) (hf : ∀ p, (f p).ident = p.ident) (n : String)
    (l : List Partition) : (updFirst f n l).map (·.ident) = l.map (·.ident) := by
  induction l with
  | nil => rfl
  | cons p l ih =>
    rw [updFirst]
    split
    · simp [hf]
    · simp [ih]

theorem mem_updFirst {f : Partition → Partition} {n : String} {l : List Partition}
    (hn : (l.map (·.ident)).Nodup) {q : Partition} (hq : q ∈ updFirst f n l) :
    (∃ p ∈ l, p.ident = n ∧ q = f p) ∨ (q ∈ l ∧ q.ident ≠ n) := by
  induction l with
  | nil => cases hq
  | cons p l ih =>
    rw [List.map_cons, List.nodup_cons] at hn
    rw [updFirst] at hq
    by_cases hp : p.ident = n
    · rw [if_pos hp, List.mem_cons] at hq
      rcases hq with hq | hq
      · exact .inl ⟨p, by simp, hp, hq⟩
      · refine .inr ⟨by simp [hq], ?_⟩
        intro hh
        apply hn.1
        rw [hp, ← hh]
        exact List.mem_map.2 ⟨q, hq, rfl⟩
    · rw [if_neg hp, List.mem_cons] at hq
      rcases hq with hq | hq
      · exact .inr ⟨by simp [hq], by rw [hq]; exact hp⟩
      · rcases ih hn.2 hq with ⟨p', h1, h2⟩ | ⟨h1, h2⟩
        · exact .inl ⟨p', by simp [h1], h2⟩
        · exact .inr ⟨by simp [h1], h2⟩

theorem updFirst_edges {f : Partition → Partition} {n : String} {l : List Partition} {p : Partition} {x : List Edge}
    (hf : l.find? (fun p => decide (p.ident = n)) = some p) (he : (f p).edges = p.edges ++ x) :
    (((updFirst f n l).map (·.edges)).flatten).Perm ((l.map (·.edges)).flatten ++ x) := by
  induction l with
  | nil => cases hf
  | cons q l ih =>
    rw [updFirst]
    by_cases hq : q.ident = n
    · rw [List.find?_cons_of_pos (by simpa using hq)] at hf
      cases hf
      rw [if_pos hq]
      simp only [List.map_cons, List.flatten_cons, he, List.append_assoc]
      exact List.Perm.append_left _ List.perm_append_comm
    · rw [List.find?_cons_of_neg (by simpa using hq)] at hf
      rw [if_neg hq]
      simp only [List.map_cons, List.flatten_cons, List.append_assoc]
      exact (ih hf).append_left _

theorem updFirst_self {f : Partition → Partition} {n : String} {l : List Partition}
    (hf : ∀ p, l.find? (fun p => decide (p.ident = n)) = some p → f p = p) : updFirst f n l = l := by
  induction l with
  | nil => rfl
  | cons q l ih =>
    rw [updFirst]
    by_cases hq : q.ident = n
    · rw [if_pos hq, hf q (List.find?_cons_of_pos (by simpa using hq))]
    · rw [if_neg hq, ih]
      intro p hp
      exact hf p (by rw [List.find?_cons_of_neg (by simpa using hq)]; exact hp)

theorem singleAdd_own {pre : Nat} {es : List Edge} {e : Edge} (ht : e.typeOk = true) (hp : e.pre = pre) :
    singleAdd pre es e = if e ∈ es then (es, .error .alreadyExists) else (es ++ [e], .ok ()) := by
  unfold singleAdd baseAdd
  rw [if_neg (by simp [ht])]
  by_cases h : e ∈ es
  · simp only [if_pos h]
  · simp only [if_neg h, ne_eq, hp, not_true_eq_false, if_false]

/-- The accepted edges after one more call. -/
def pushE (acc : List (Edge × String)) (e : Edge) (n : String) : Except PyErr Unit → List (Edge × String)
  | .ok () => acc ++ [(e, n)]
  | .error _ => acc

theorem find_ident {l : List Partition} {n : String} {p : Partition}
    (h : l.find? (fun p => decide (p.ident = n)) = some p) : p ∈ l ∧ p.ident = n :=
  ⟨List.mem_of_find?_eq_some h, by simpa using List.find?_some h⟩

theorem find_none {l : List Partition} {n : String}
    (h : l.find? (fun p => decide (p.ident = n)) = none) : n ∉ l.map (·.ident) := by
  intro hm
  obtain ⟨p, hp, hn⟩ := List.mem_map.1 hm
  have := List.find?_eq_none.1 h p hp
  simp [hn] at this

theorem parts_self {g : Graph} {v : Nat} {l : List Partition} (h : g.parts.get? v = some l) :
    g.parts.set v l = g.parts := by
  generalize g.parts = d at h
  induction d with
  | nil => cases h
  | cons p d ih =>
    rw [Dict.get?_cons] at h
    rw [Dict.set]
    by_cases hp : p.1 = v
    · rw [if_pos hp] at h ⊢
      cases h
      rw [← hp]
    · rw [if_neg hp] at h ⊢
      rw [ih h]

theorem putEdge_inv {g : Graph} {acc : List (Edge × String)} (h : EInv g acc) {e : Edge} (ht : e.typeOk = true)
    (n : String) : EInv (putEdge g e n).1 (pushE acc e n (putEdge g e n).2) ∧
      ((putEdge g e n).2 = .ok () ↔ (e, n) ∉ acc) := by
  have h1 := startingAt_inv h e.pre
  have h2 := startingAt_fst g e.pre
  have h3 := startingAt_get g e.pre
  unfold putEdge
  cases hs : g.startingAt e.pre with
  | mk l g1 =>
  rw [hs] at h1 h2 h3
  simp only at h1 h2 h3
  rw [← h2] at h3
  obtain ⟨hgn, hgp⟩ := h1.good e.pre
  rw [h3] at hgn hgp
  have hold : ∀ w m, w ≠ e.pre → part (acc ++ [(e, n)]) w m = part acc w m := by
    intro w m hw
    rw [part_snoc, if_neg, List.append_nil]
    exact fun hh => hw hh.1.symm
  have hmem : ∀ x ∈ acc ++ [(e, n)], x.1.pre ≠ e.pre → x ∈ acc := by
    intro x hx hne
    rw [List.mem_append, List.mem_singleton] at hx
    rcases hx with hx | hx
    · exact hx
    · rw [hx] at hne; exact absurd rfl hne
  simp only
  cases hf : l.find? (fun p => decide (p.ident = n)) with
  | some p =>
    obtain ⟨hpl, hpn⟩ := find_ident hf
    obtain ⟨hpp, hpe, _⟩ := hgp p hpl
    rw [hpn] at hpe
    have hsa : singleAdd p.pre p.edges e
        = if e ∈ p.edges then (p.edges, .error .alreadyExists) else (p.edges ++ [e], .ok ()) :=
      singleAdd_own ht hpp.symm
    simp only
    by_cases hin : e ∈ p.edges
    · rw [if_pos hin] at hsa
      have hacc : (e, n) ∈ acc := by rw [hpe] at hin; exact (mem_part.1 hin).1
      simp only [hsa, pushE]
      refine ⟨?_, by simp [hacc]⟩
      rw [updFirst_self]
      · have hl : g1.parts.get? e.pre = some l := by
          cases hgg : g1.parts.get? e.pre with
          | none => rw [hgg] at h3; rw [← h3] at hpl; cases hpl
          | some l' => rw [hgg] at h3; exact congrArg some h3
        rw [parts_self hl]
        exact h1
      · intro p' hp'
        rw [hf] at hp'
        cases hp'
        rw [hsa]
    · rw [if_neg hin] at hsa
      have hacc : (e, n) ∉ acc := by
        intro hh
        apply hin
        rw [hpe]
        exact mem_part.2 ⟨hh, rfl⟩
      simp only [hsa, pushE]
      refine ⟨?_, by simp [hacc]⟩
      refine set_inv (k := 0) h1 ?_ hold ?_ hmem ?_ [e] (by simp) ?_
      · refine ⟨by rw [updFirst_ident (fun p => { p with edges := (singleAdd p.pre p.edges e).1 }) (fun _ => rfl)]; exact hgn, ?_⟩
        intro q hq
        rcases mem_updFirst hgn hq with ⟨q', hq', hqn, rfl⟩ | ⟨hq', hqn⟩
        · obtain ⟨a, b, _⟩ := hgp q' hq'
          have hni : e ∉ q'.edges := by
            rw [b, hqn]
            intro hh
            exact hacc (mem_part.1 hh).1
          have hs2 := singleAdd_own (es := q'.edges) ht a.symm
          rw [if_neg hni] at hs2
          refine ⟨a, ?_, ?_⟩
          · show (singleAdd q'.pre q'.edges e).1 = part (acc ++ [(e, n)]) e.pre q'.ident
            rw [hs2, part_snoc, if_pos ⟨rfl, hqn.symm⟩, ← b]
          · show (singleAdd q'.pre q'.edges e).1 ≠ []
            rw [hs2]; simp
        · obtain ⟨a, b, c⟩ := hgp q hq'
          refine ⟨a, ?_, c⟩
          rw [part_snoc, if_neg (fun hh => hqn hh.2.symm), List.append_nil]
          exact b
      · intro x hx hxp
        rw [updFirst_ident (fun p => { p with edges := (singleAdd p.pre p.edges e).1 }) (fun _ => rfl)]
        rw [List.mem_append, List.mem_singleton] at hx
        rcases hx with hx | hx
        · have := h1.has x hx
          rwa [hxp, h3] at this
        · rw [hx]; exact List.mem_map.2 ⟨p, hpl, hpn⟩
      · rw [h3]
        have := congrArg List.length (updFirst_ident
          (fun p => { p with edges := (singleAdd p.pre p.edges e).1 }) (fun _ => rfl) n l)
        simpa using this
      · rw [h3]
        exact updFirst_edges hf (by simp only [hsa])
  | none =>
    have hsa : singleAdd e.pre [] e = ([e], .ok ()) := by
      rw [singleAdd_own ht rfl, if_neg (by simp)]; rfl
    have hnl := find_none hf
    have hacc : ∀ y, y ∈ acc → y.1.pre = e.pre → y.2 ≠ n := by
      intro y hy hyp hyn
      have := h1.has y hy
      rw [hyp, h3, hyn] at this
      exact hnl this
    simp only [hsa, pushE]
    refine ⟨?_, by simp only [true_iff]; exact fun hh => hacc _ hh rfl rfl⟩
    refine set_inv (k := 1) h1 ?_ hold ?_ hmem (by rw [h3]; simp) [e] (by simp) (by rw [h3]; simp)
    · constructor
      · rw [List.map_append, List.nodup_append]
        refine ⟨hgn, by simp, ?_⟩
        intro a ha b hb hab
        simp at hb
        rw [hab, hb] at ha
        exact hnl ha
      · intro q hq
        rw [List.mem_append, List.mem_singleton] at hq
        rcases hq with hq | hq
        · obtain ⟨a, b, c⟩ := hgp q hq
          refine ⟨a, ?_, c⟩
          rw [part_snoc, if_neg, List.append_nil]
          · exact b
          · intro hh
            exact hnl (List.mem_map.2 ⟨q, hq, hh.2.symm⟩)
        · rw [hq]
          refine ⟨rfl, ?_, by simp⟩
          show [e] = part (acc ++ [(e, n)]) e.pre n
          rw [part_snoc, if_pos ⟨rfl, rfl⟩]
          have : part acc e.pre n = [] := by
            rw [List.eq_nil_iff_forall_not_mem]
            intro a ha
            have ha := mem_part.1 ha
            exact hacc _ ha.1 ha.2 rfl
          rw [this]; rfl
    · intro x hx hxp
      rw [List.mem_append, List.mem_singleton] at hx
      rw [List.map_append, List.mem_append]
      rcases hx with hx | hx
      · left
        have := h1.has x hx
        rwa [hxp, h3] at this
      · right; rw [hx]; simp

theorem checkEdge_type {g : Graph} {o : Objs} {e : Edge} (h : checkEdge g o e = .ok ()) : e.typeOk = true := by
  unfold checkEdge at h
  by_cases ht : e.typeOk = false
  · rw [if_pos ht] at h; cases h
  · simpa using ht

theorem addEdge_inv {g : Graph} {acc : List (Edge × String)} (h : EInv g acc) (o : Objs) (e : Edge) (n : String) :
    EInv (addEdge g o e n).1 (pushE acc e n (addEdge g o e n).2) ∧
      ((addEdge g o e n).2 = .ok () ↔ checkEdge g o e = .ok () ∧ (e, n) ∉ acc) := by
  unfold addEdge
  cases hc : checkEdge g o e with
  | error x => exact ⟨h, by simp⟩
  | ok u =>
    have := putEdge_inv h (checkEdge_type hc) n
    exact ⟨this.1, by simp [this.2]⟩

theorem enter_parts (g : Graph) (o : Objs) (v : Nat) :
    (enter g o v).1.parts = g.parts ∧ (enter g o v).1.nParts = g.nParts := by
  unfold enter
  cases o.label v <;> exact ⟨rfl, rfl⟩

theorem relabel_parts (g : Graph) (o : Objs) (v : Nat) (b : Label) :
    (relabel g o v b).1.1.parts = g.parts ∧ (relabel g o v b).1.1.nParts = g.nParts := by
  unfold relabel
  simp only
  cases o.setLabel v (b ++ digits (g.unlabelled + 1)) with
  | error x => exact ⟨rfl, rfl⟩
  | ok o1 => exact enter_parts _ _ _

theorem addVertex_parts (g : Graph) (o : Objs) (v : Nat) :
    (addVertex g o v).1.1.parts = g.parts ∧ (addVertex g o v).1.1.nParts = g.nParts := by
  unfold addVertex
  cases o.label v with
  | none => exact relabel_parts _ _ _ _
  | some l =>
    simp only
    split
    · exact relabel_parts _ _ _ _
    · cases g.byLabel.get? l with
      | none => exact enter_parts _ _ _
      | some w =>
        simp only
        split
        · exact ⟨rfl, rfl⟩
        · exact relabel_parts _ _ _ _

theorem userLabel_fst (s : Graph × Objs) (v : Nat) (l : Label) : (userLabel s v l).1.1 = s.1 := by
  unfold userLabel
  cases s.2.setLabel v l <;> rfl

theorem run_einv (ops : List Op) : ∀ (s : Graph × Objs) (acc : List (Edge × String)), EInv s.1 acc →
    EInv (run s ops).1 (acc ++ acceptedEdges s ops) := by
  induction ops with
  | nil => intro s acc h; simpa [run, acceptedEdges] using h
  | cons op ops ih =>
    intro s acc h
    cases op with
    | setLabel v l =>
      refine ih (step s (.setLabel v l)).1 acc ?_
      show EInv (userLabel s v l).1.1 acc
      rw [userLabel_fst]; exact h
    | addVertex v => exact ih _ acc (h.congr (addVertex_parts _ _ _).1 (addVertex_parts _ _ _).2)
    | startingAt v => exact ih _ acc (startingAt_inv h v)
    | addEdge e n =>
      have h1 := (addEdge_inv h s.2 e n).1
      rw [run, acceptedEdges]
      cases hr : (step s (.addEdge e n)).2 with
      | error x =>
        have hr' : (addEdge s.1 s.2 e n).2 = .error x := hr
        rw [hr'] at h1
        exact ih _ acc h1
      | ok u =>
        have hr' : (addEdge s.1 s.2 e n).2 = .ok () := hr
        rw [hr'] at h1
        have := ih (step s (.addEdge e n)).1 _ h1
        rw [pushE, List.append_assoc] at this
        exact this

theorem new_einv : EInv Graph.new [] := by
  refine ⟨List.nodup_nil, ?_, ?_, rfl, List.Perm.refl _⟩
  · intro v; exact ⟨List.nodup_nil, fun p hp => (by cases hp)⟩
  · intro x hx; cases hx

/-- The pairs of source and name are distinct. -/
theorem pairs_nodup {g : Graph} {acc : List (Edge × String)} (h : EInv g acc) :
    (g.partitions.map (fun p => (p.pre, p.ident))).Nodup := by
  have hg : ∀ x ∈ g.parts, Good acc x.1 x.2 := by
    intro x hx
    have := h.good x.1
    rw [Dict.get?_of_mem h.nodup (v := x.2) hx] at this
    exact this
  have hn := h.nodup
  unfold Graph.partitions
  generalize g.parts = d at hg hn
  induction d with
  | nil => exact List.nodup_nil
  | cons x d ih =>
    rw [Dict.keys, List.map_cons, List.nodup_cons] at hn
    simp only [List.map_cons, List.flatten_cons, List.map_append]
    rw [List.nodup_append]
    have hx := hg x (by simp)
    refine ⟨?_, ih (fun y hy => hg y (by simp [hy])) hn.2, ?_⟩
    · have h1 := hx.1
      have : (x.2.map (fun p => (p.pre, p.ident))) = (x.2.map (·.ident)).map (fun n => (x.1, n)) := by
        rw [List.map_map]
        apply List.map_congr_left
        intro p hp
        simp [(hx.2 p hp).1]
      rw [this]
      exact List.Pairwise.map _ (fun a b hab hh => hab (Prod.mk.inj hh).2) h1
    · intro a ha b hb hab
      obtain ⟨p, hp, rfl⟩ := List.mem_map.1 ha
      obtain ⟨q, hq, rfl⟩ := List.mem_map.1 hb
      obtain ⟨l, hl, hql⟩ := List.mem_flatten.1 hq
      obtain ⟨y, hy, rfl⟩ := List.mem_map.1 hl
      have h1 := (hx.2 p hp).1
      have h2 := ((hg y (by simp [hy])).2 q hql).1
      apply hn.1
      have h3 := (Prod.mk.inj hab).1
      rw [← h1, h3, h2]
      exact List.mem_map.2 ⟨y, hy, rfl⟩

theorem find_of_mem {l : List Partition} (hn : (l.map (·.ident)).Nodup) {p : Partition} (hp : p ∈ l) :
    l.find? (fun q => decide (q.ident = p.ident)) = some p := by
  induction l with
  | nil => cases hp
  | cons q l ih =>
    rw [List.map_cons, List.nodup_cons] at hn
    rw [List.mem_cons] at hp
    by_cases hq : q.ident = p.ident
    · rw [List.find?_cons_of_pos (by simpa using hq)]
      rcases hp with hp | hp
      · rw [hp]
      · exact absurd (List.mem_map.2 ⟨p, hp, hq.symm⟩) hn.1
    · rw [List.find?_cons_of_neg (by simpa using hq)]
      rcases hp with hp | hp
      · exact absurd (by rw [hp]) hq
      · exact ih hn.2 hp

theorem partition_eq {g : Graph} {acc : List (Edge × String)} (h : EInv g acc) (v : Nat) (n : String) :
    g.partition v n = if part acc v n = [] then none else some ⟨n, v, part acc v n⟩ := by
  unfold Graph.partition
  rw [startingAt_fst]
  obtain ⟨hn, hp⟩ := h.good v
  cases hf : ((g.parts.get? v).getD []).find? (fun p => decide (p.ident = n)) with
  | none =>
    rw [if_pos]
    rw [List.eq_nil_iff_forall_not_mem]
    intro a ha
    have ha := mem_part.1 ha
    have := h.has _ ha.1
    simp only [ha.2] at this
    exact find_none hf this
  | some p =>
    obtain ⟨hpl, hpn⟩ := find_ident hf
    obtain ⟨a, b, c⟩ := hp p hpl
    rw [hpn] at b
    rw [← b, if_neg c]
    cases p
    simp only at a hpn
    rw [a, hpn]

end Pacman.AppGraph
