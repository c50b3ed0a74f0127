import Verif.Spec.RoutingTree
/-
Lemmas about routing trees: orders of ways, going through all objects, the queue of `traverse`.
-/

namespace Pacman.RTree

/-! ### Orders -/

theorem Before.trans {p q : List Nat} (h : Before p q) : ∀ {r}, Before q r → Before p r := by
  induction h with
  | root i q => intro r hr; cases hr <;> exact .root _ _
  | child i j p q hij =>
    intro r hr
    cases hr with
    | child _ k _ r h => exact .child _ _ _ _ (Nat.lt_trans hij h)
    | same _ _ r h => exact .child _ _ _ _ hij
  | same i p q h ih =>
    intro r hr
    cases hr with
    | child _ k _ r h => exact .child _ _ _ _ h
    | same _ _ r h => exact .same _ _ _ (ih h)

theorem Before.irrefl {p q : List Nat} (h : Before p q) : p ≠ q := by
  induction h with
  | root i q => exact fun h => nomatch h
  | child i j p q hij => intro h; injection h with h1 h2; omega
  | same i p q h ih => intro h; injection h with h1 h2; exact ih h2

theorem Before.ext (p : List Nat) (i : Nat) (q : List Nat) : Before p (p ++ i :: q) := by
  induction p with
  | nil => exact .root _ _
  | cons a p ih => exact .same _ _ _ ih

theorem Before.append {p q : List Nat} (h : Before p q) (hl : p.length = q.length) (r s : List Nat) :
    Before (p ++ r) (q ++ s) := by
  induction h with
  | root i q => cases hl
  | child i j p q hij => exact .child _ _ _ _ hij
  | same i p q h ih => exact .same _ _ _ (ih (Nat.succ.inj hl))

theorem Before.pre (p : List Nat) {q r : List Nat} (h : Before q r) : Before (p ++ q) (p ++ r) := by
  induction p with
  | nil => exact h
  | cons a p ih => exact .same _ _ _ ih

theorem Sooner.trans {p q r : List Nat} (h : Sooner p q) (g : Sooner q r) : Sooner p r := by
  rcases h with h | ⟨h, h'⟩ <;> rcases g with g | ⟨g, g'⟩
  · exact .inl (Nat.lt_trans h g)
  · exact .inl (g ▸ h)
  · exact .inl (h ▸ g)
  · exact .inr ⟨h.trans g, h'.trans g'⟩

theorem Sooner.ne {p q : List Nat} (h : Sooner p q) : p ≠ q := by
  rcases h with h | ⟨_, h⟩
  · intro e; rw [e] at h; exact Nat.lt_irrefl _ h
  · exact h.irrefl

theorem Sooner.ext (p : List Nat) (i : Nat) (q : List Nat) : Sooner p (p ++ i :: q) :=
  .inl (by rw [List.length_append, List.length_cons]; omega)

theorem Sooner.asymm {p q : List Nat} (h : Sooner p q) (g : Sooner q p) : False :=
  (h.trans g).ne rfl

/-! ### Each -/

theorem Each.imp {α : Type} {R S : List Nat → α → Prop} {ps : List (List Nat)} {l : List α}
    (h : Each R ps l) (hi : ∀ p a, R p a → S p a) : Each S ps l := by
  induction h with
  | nil => exact .nil
  | cons p a ps l hr _ ih => exact .cons _ _ _ _ (hi _ _ hr) ih

theorem Each.append {α : Type} {R : List Nat → α → Prop} {ps qs : List (List Nat)} {l m : List α}
    (h : Each R ps l) (g : Each R qs m) : Each R (ps ++ qs) (l ++ m) := by
  induction h with
  | nil => exact g
  | cons p a ps l hr _ ih => exact .cons _ _ _ _ hr ih

theorem Each.mapWay {α : Type} {R S : List Nat → α → Prop} (f : List Nat → List Nat)
    {ps : List (List Nat)} {l : List α} (h : Each R ps l) (hi : ∀ p a, R p a → S (f p) a) :
    Each S (ps.map f) l := by
  induction h with
  | nil => exact .nil
  | cons p a ps l hr _ ih => exact .cons _ _ _ _ (hi _ _ hr) ih

theorem Each.length_eq {α : Type} {R : List Nat → α → Prop} {ps : List (List Nat)} {l : List α}
    (h : Each R ps l) : ps.length = l.length := by
  induction h with
  | nil => rfl
  | cons p a ps l hr _ ih => simp only [List.length_cons, ih]

/-! ### Iterating -/

mutual
/-- The ways to all objects, in the order in which they are met. -/
def posTree : Tree → List (List Nat)
  | .node _ ks => [] :: posKids 0 ks
def posKids : Nat → List Kid → List (List Nat)
  | _, [] => []
  | n, k :: ks => (posKid k).map (n :: ·) ++ posKids (n + 1) ks
def posKid : Kid → List (List Nat)
  | .tree _ t => posTree t
  | .vertex _ _ => [[]]
end

/-- Below the `i`th of `ks`, counted from `n`, `q` leads to `o`. -/
def Reach (n : Nat) (ks : List Kid) (p : List Nat) (o : Obj) : Prop :=
  ∃ i q k d, p = (n + i) :: q ∧ ks[i]? = some k ∧ walk (k.dir, k.obj) q = some (d, o)

theorem reach_shift {n : Nat} {k : Kid} {ks : List Kid} {p : List Nat} {o : Obj}
    (h : Reach (n + 1) ks p o) : Reach n (k :: ks) p o := by
  obtain ⟨i, q, k', d, rfl, hk, hw⟩ := h
  exact ⟨i + 1, q, k', d, by rw [Nat.add_right_comm, Nat.add_assoc], hk, hw⟩

mutual
theorem each_tree (t : Tree) (d : Option Nat) :
    Each (fun p o => ∃ e, walk (d, .tree t) p = some (e, o)) (posTree t) t.iter := by
  match t with
  | .node c ks =>
    simp only [posTree, Tree.iter]
    refine .cons _ _ _ _ ⟨d, rfl⟩ ((each_kids ks 0).imp ?_)
    rintro p o ⟨i, q, k, e, rfl, hk, hw⟩
    refine ⟨e, ?_⟩
    simp only [walk, Tree.kids, Nat.zero_add, hk]
    exact hw
theorem each_kids (ks : List Kid) (n : Nat) : Each (Reach n ks) (posKids n ks) (iterKids ks) := by
  match ks with
  | [] => exact .nil
  | k :: ks =>
    simp only [posKids, iterKids]
    refine ((each_kid k).mapWay _ ?_).append ((each_kids ks (n + 1)).imp fun _ _ h => reach_shift h)
    rintro p o ⟨e, he⟩
    exact ⟨0, p, k, e, rfl, rfl, he⟩
theorem each_kid (k : Kid) :
    Each (fun p o => ∃ e, walk (k.dir, k.obj) p = some (e, o)) (posKid k) (iterKid k) := by
  match k with
  | .tree d t =>
    simp only [posKid, iterKid, Kid.dir, Kid.obj]
    exact each_tree t d
  | .vertex d v => exact .cons _ _ _ _ ⟨d, rfl⟩ .nil
end

mutual
theorem mem_posTree (t : Tree) (d : Option Nat) (p : List Nat) :
    p ∈ posTree t ↔ ∃ e o, walk (d, .tree t) p = some (e, o) := by
  match t with
  | .node c ks =>
    simp only [posTree, List.mem_cons]
    constructor
    · rintro (rfl | h)
      · exact ⟨d, _, rfl⟩
      · obtain ⟨o, i, q, k, e, rfl, hk, hw⟩ := (mem_posKids ks 0 p).1 h
        refine ⟨e, o, ?_⟩
        simp only [walk, Tree.kids, Nat.zero_add, hk]
        exact hw
    · rintro ⟨e, o, h⟩
      cases p with
      | nil => exact .inl rfl
      | cons i q =>
        right
        simp only [walk, Tree.kids] at h
        cases hk : ks[i]? with
        | none => rw [hk] at h; cases h
        | some k =>
          rw [hk] at h
          exact (mem_posKids ks 0 _).2 ⟨o, i, q, k, e, by rw [Nat.zero_add], hk, h⟩
theorem mem_posKids (ks : List Kid) (n : Nat) (p : List Nat) :
    p ∈ posKids n ks ↔ ∃ o, Reach n ks p o := by
  match ks with
  | [] =>
    simp only [posKids, List.not_mem_nil, false_iff]
    rintro ⟨o, i, q, k, d, _, hk, _⟩
    cases hk
  | k :: ks =>
    simp only [posKids, List.mem_append, List.mem_map]
    constructor
    · rintro (⟨q, hq, rfl⟩ | h)
      · obtain ⟨e, o, hw⟩ := (mem_posKid k q).1 hq
        exact ⟨o, 0, q, k, e, rfl, rfl, hw⟩
      · obtain ⟨o, ho⟩ := (mem_posKids ks (n + 1) p).1 h
        exact ⟨o, reach_shift ho⟩
    · rintro ⟨o, i, q, k', d, rfl, hk, hw⟩
      cases i with
      | zero =>
        left
        cases hk
        exact ⟨q, (mem_posKid k q).2 ⟨d, o, hw⟩, rfl⟩
      | succ i =>
        right
        exact (mem_posKids ks (n + 1) _).2
          ⟨o, i, q, k', d, by rw [Nat.add_right_comm, Nat.add_assoc], hk, hw⟩
theorem mem_posKid (k : Kid) (p : List Nat) :
    p ∈ posKid k ↔ ∃ e o, walk (k.dir, k.obj) p = some (e, o) := by
  match k with
  | .tree d t =>
    simp only [posKid, Kid.dir, Kid.obj]
    exact mem_posTree t d p
  | .vertex d v =>
    simp only [posKid, Kid.dir, Kid.obj, List.mem_singleton]
    constructor
    · rintro rfl; exact ⟨d, _, rfl⟩
    · rintro ⟨e, o, h⟩
      cases p with
      | nil => rfl
      | cons i q => cases h
end

mutual
theorem sorted_posTree (t : Tree) : (posTree t).Pairwise Before := by
  match t with
  | .node c ks =>
    simp only [posTree, List.pairwise_cons]
    refine ⟨fun p hp => ?_, sorted_posKids ks 0⟩
    obtain ⟨o, i, q, k, d, rfl, _⟩ := (mem_posKids ks 0 p).1 hp
    exact .root _ _
theorem sorted_posKids (ks : List Kid) (n : Nat) : (posKids n ks).Pairwise Before := by
  match ks with
  | [] => exact .nil
  | k :: ks =>
    simp only [posKids, List.pairwise_append, List.pairwise_map]
    refine ⟨(sorted_posKid k).imp fun h => .same _ _ _ h, sorted_posKids ks (n + 1), ?_⟩
    intro p hp q hq
    obtain ⟨p', _, rfl⟩ := List.mem_map.1 hp
    obtain ⟨o, i, q', k', d, rfl, _⟩ := (mem_posKids ks (n + 1) q).1 hq
    exact .child _ _ _ _ (by omega)
theorem sorted_posKid (k : Kid) : (posKid k).Pairwise Before := by
  match k with
  | .tree d t =>
    simp only [posKid]
    exact sorted_posTree t
  | .vertex d v => exact List.pairwise_singleton _ _
end

mutual
theorem len_tree (t : Tree) : t.len = t.iter.length := by
  match t with
  | .node c ks =>
    simp only [Tree.len, Tree.iter, List.length_cons, len_kids ks]
    omega
theorem len_kids (ks : List Kid) : lenKids ks = (iterKids ks).length := by
  match ks with
  | [] => rfl
  | k :: ks => simp only [lenKids, iterKids, List.length_append, len_kids ks, len_kid k]
theorem len_kid (k : Kid) : lenKid k = (iterKid k).length := by
  match k with
  | .tree d t =>
    simp only [lenKid, iterKid]
    exact len_tree t
  | .vertex d v => rfl
end

/-! ### Traversing -/

theorem walk_append (p q : List Nat) : ∀ s, walk s (p ++ q) =
    match walk s p with
    | none => none
    | some s' => walk s' q := by
  induction p with
  | nil => intro s; rfl
  | cons i p ih =>
    rintro ⟨d, o⟩
    cases o with
    | vertex v => rfl
    | tree t =>
      simp only [List.cons_append, walk]
      cases t.kids[i]? with
      | none => rfl
      | some k => exact ih _

/-- The trees among the children with their directions, and their numbers counted from `n`. -/
def treeKids : Nat → List Kid → List (Nat × Option Nat × Tree)
  | _, [] => []
  | n, .vertex _ _ :: ks => treeKids (n + 1) ks
  | n, .tree d t :: ks => (n, d, t) :: treeKids (n + 1) ks

theorem mem_treeKids (ks : List Kid) : ∀ n x,
    x ∈ treeKids n ks ↔ ∃ i, x.1 = n + i ∧ ks[i]? = some (.tree x.2.1 x.2.2) := by
  induction ks with
  | nil => intro n x; simp [treeKids]
  | cons k ks ih =>
    intro n x
    have key : (∃ i, x.1 = n + 1 + i ∧ ks[i]? = some (Kid.tree x.2.1 x.2.2)) →
        ∃ i, x.1 = n + i ∧ (k :: ks)[i]? = some (Kid.tree x.2.1 x.2.2) := by
      rintro ⟨i, h, hk⟩
      exact ⟨i + 1, by omega, hk⟩
    cases k with
    | vertex d v =>
      simp only [treeKids]
      refine (ih _ _).trans ⟨key, ?_⟩
      rintro ⟨i, h, hk⟩
      cases i with
      | zero => cases hk
      | succ i => exact ⟨i, by omega, hk⟩
    | tree d t =>
      simp only [treeKids, List.mem_cons]
      constructor
      · rintro (rfl | h)
        · exact ⟨0, rfl, rfl⟩
        · exact key ((ih _ _).1 h)
      · rintro ⟨i, h, hk⟩
        cases i with
        | zero =>
          left
          obtain ⟨a, b, c⟩ := x
          cases hk; cases h; rfl
        | succ i => exact .inr ((ih _ _).2 ⟨i, by omega, hk⟩)

theorem sorted_treeKids (ks : List Kid) : ∀ n, (treeKids n ks).Pairwise (fun x y => x.1 < y.1) := by
  induction ks with
  | nil => intro n; exact .nil
  | cons k ks ih =>
    intro n
    cases k with
    | vertex d v => exact ih _
    | tree d t =>
      simp only [treeKids, List.pairwise_cons]
      refine ⟨fun x hx => ?_, ih _⟩
      obtain ⟨i, h, _⟩ := (mem_treeKids ks _ _).1 hx
      omega

theorem size_treeKids (ks : List Kid) : ∀ n,
    ((treeKids n ks).map (fun x => x.2.2.len)).sum ≤ lenKids ks := by
  induction ks with
  | nil => intro n; exact Nat.le_refl _
  | cons k ks ih =>
    intro n
    cases k with
    | vertex d v =>
      simp only [treeKids, lenKids, lenKid]
      exact Nat.le_trans (ih _) (by omega)
    | tree d t =>
      simp only [treeKids, lenKids, lenKid, List.map_cons, List.sum_cons]
      have := ih (n + 1)
      omega

theorem mem_addDir {s : List Nat} {d x : Nat} : x ∈ addDir s d ↔ x ∈ s ∨ x = d := by
  unfold addDir
  split
  · constructor
    · exact .inl
    · rintro (h | rfl) <;> assumption
  · simp

theorem nodup_addDir {s : List Nat} {d : Nat} (h : s.Nodup) : (addDir s d).Nodup := by
  unfold addDir
  split
  · exact h
  · refine List.nodup_append.2 ⟨h, by simp, ?_⟩
    intro a ha b hb e
    rw [List.mem_singleton] at hb
    subst hb; subst e; contradiction

/-- The loop over the children. -/
theorem kidsLoop_spec (ks : List Kid) : ∀ (n : Nat) (out : List Nat) (q : List (Option Nat × Tree)),
    ((∃ v, Kid.tree none v ∈ ks) ∧ kidsLoop ks out q = .error .assertion) ∨
    ((¬ ∃ v, Kid.tree none v ∈ ks) ∧ ∃ out',
      kidsLoop ks out q = .ok (out', q ++ (treeKids n ks).map (·.2)) ∧
      (out.Nodup → out'.Nodup) ∧
      ∀ d, d ∈ out' ↔ d ∈ out ∨ ∃ k, k ∈ ks ∧ k.dir = some d) := by
  induction ks with
  | nil =>
    intro n out q
    refine .inr ⟨(fun ⟨v, h⟩ => nomatch h), out, ?_, id, ?_⟩
    · simp [kidsLoop, treeKids]
    · intro d; simp
  | cons k ks ih =>
    intro n out q
    have skip : (∀ v, k ≠ Kid.tree none v) →
        ((∃ v, Kid.tree none v ∈ k :: ks) ↔ ∃ v, Kid.tree none v ∈ ks) := by
      intro hk
      constructor
      · rintro ⟨v, h⟩
        rcases List.mem_cons.1 h with h | h
        · exact absurd h.symm (hk v)
        · exact ⟨v, h⟩
      · rintro ⟨v, h⟩; exact ⟨v, List.mem_cons_of_mem _ h⟩
    cases k with
    | vertex d v =>
      have hs := skip (fun _ h => nomatch h)
      cases d with
      | none =>
        simp only [kidsLoop, treeKids, hs]
        refine (ih (n + 1) out q).imp id ?_
        rintro ⟨h1, out', h2, h3, h4⟩
        refine ⟨h1, out', h2, h3, fun d => ?_⟩
        rw [h4]
        constructor
        · rintro (h | ⟨k, hk, hd⟩)
          · exact .inl h
          · exact .inr ⟨k, List.mem_cons_of_mem _ hk, hd⟩
        · rintro (h | ⟨k, hk, hd⟩)
          · exact .inl h
          · rcases List.mem_cons.1 hk with rfl | hk
            · cases hd
            · exact .inr ⟨k, hk, hd⟩
      | some e =>
        simp only [kidsLoop, treeKids, hs]
        refine (ih (n + 1) (addDir out e) q).imp id ?_
        rintro ⟨h1, out', h2, h3, h4⟩
        refine ⟨h1, out', h2, fun h => h3 (nodup_addDir h), fun d => ?_⟩
        rw [h4, mem_addDir]
        constructor
        · rintro ((h | rfl) | ⟨k, hk, hd⟩)
          · exact .inl h
          · exact .inr ⟨_, List.mem_cons_self, rfl⟩
          · exact .inr ⟨k, List.mem_cons_of_mem _ hk, hd⟩
        · rintro (h | ⟨k, hk, hd⟩)
          · exact .inl (.inl h)
          · rcases List.mem_cons.1 hk with rfl | hk
            · cases hd; exact .inl (.inr rfl)
            · exact .inr ⟨k, hk, hd⟩
    | tree d t =>
      cases d with
      | none => exact .inl ⟨⟨t, List.mem_cons_self⟩, rfl⟩
      | some e =>
        have hs := skip (fun _ h => nomatch h)
        simp only [kidsLoop, treeKids, hs]
        refine (ih (n + 1) (addDir out e) (q ++ [(some e, t)])).imp id ?_
        rintro ⟨h1, out', h2, h3, h4⟩
        refine ⟨h1, out', ?_, fun h => h3 (nodup_addDir h), fun d => ?_⟩
        · rw [h2, List.append_assoc]; rfl
        rw [h4, mem_addDir]
        constructor
        · rintro ((h | rfl) | ⟨k, hk, hd⟩)
          · exact .inl h
          · exact .inr ⟨_, List.mem_cons_self, rfl⟩
          · exact .inr ⟨k, List.mem_cons_of_mem _ hk, hd⟩
        · rintro (h | ⟨k, hk, hd⟩)
          · exact .inl (.inl h)
          · rcases List.mem_cons.1 hk with rfl | hk
            · cases hd; exact .inl (.inr rfl)
            · exact .inr ⟨k, hk, hd⟩

/-- The queue stands for the ways `ps`. -/
def Queued (t : Tree) (ps : List (List Nat)) (q : List (Option Nat × Tree)) : Prop :=
  Each (fun p x => walk (none, .tree t) p = some (x.1, .tree x.2)) ps q

/-- The ways of the queue come level by level, and the children of the first one come after all. -/
def Ordered (ps : List (List Nat)) : Prop :=
  ps.Pairwise Sooner ∧ ∀ h tl, ps = h :: tl → ∀ p, p ∈ tl → p ≠ [] ∧ Sooner p.dropLast h

/-- The way passes through the queue. -/
def Below (ps : List (List Nat)) (p : List Nat) : Prop := ∃ q, q ∈ ps ∧ ∃ r, p = q ++ r

theorem sooner_child {h p : List Nat} (hp : p ≠ []) (hs : Sooner p.dropLast h) (i : Nat) :
    Sooner p (h ++ [i]) := by
  have hl : p.dropLast.length = p.length - 1 := List.length_dropLast
  have hpos : 0 < p.length := List.length_pos_iff.2 hp
  rcases hs with hs | ⟨hs, hb⟩
  · left; rw [List.length_append, List.length_singleton]; omega
  · right
    refine ⟨by rw [List.length_append, List.length_singleton]; omega, ?_⟩
    have := hb.append hs [p.getLast hp] [i]
    rwa [List.dropLast_concat_getLast] at this

theorem ordered_next {h : List Nat} {tl : List (List Nat)} (ho : Ordered (h :: tl)) {is : List Nat}
    (hi : is.Pairwise (· < ·)) : Ordered (tl ++ is.map (fun i => h ++ [i])) := by
  obtain ⟨h1, h2⟩ := ho
  rw [List.pairwise_cons] at h1
  have h2' := h2 h tl rfl
  refine ⟨List.pairwise_append.2 ⟨h1.2, ?_, ?_⟩, ?_⟩
  · rw [List.pairwise_map]
    refine hi.imp fun {a b} hab => .inr ⟨by simp, ?_⟩
    exact Before.pre h (.child _ _ _ _ hab)
  · intro p hp q hq
    obtain ⟨i, _, rfl⟩ := List.mem_map.1 hq
    exact sooner_child (h2' p hp).1 (h2' p hp).2 i
  · intro g tl' he p hp
    have hg : Sooner h g := by
      have : g ∈ tl ++ is.map (fun i => h ++ [i]) := by rw [he]; exact List.mem_cons_self
      rcases List.mem_append.1 this with h | h
      · exact h1.1 _ h
      · obtain ⟨i, _, rfl⟩ := List.mem_map.1 h
        exact Sooner.ext _ _ _
    have hm : p ∈ tl ++ is.map (fun i => h ++ [i]) := by rw [he]; exact List.mem_cons_of_mem _ hp
    rcases List.mem_append.1 hm with hm | hm
    · exact ⟨(h2' p hm).1, (h2' p hm).2.trans hg⟩
    · obtain ⟨i, _, rfl⟩ := List.mem_map.1 hm
      refine ⟨by simp, ?_⟩
      rw [List.dropLast_concat]
      exact hg

/-- The first way of the queue comes before all others that pass through it. -/
theorem below_first {h : List Nat} {tl : List (List Nat)} (ho : Ordered (h :: tl)) {p : List Nat}
    (hp : Below (h :: tl) p) : p = h ∨ Sooner h p := by
  obtain ⟨q, hq, r, rfl⟩ := hp
  have hqr : q ++ r = q ∨ Sooner q (q ++ r) := by
    cases r with
    | nil => exact .inl (List.append_nil _)
    | cons i r => exact .inr (Sooner.ext _ _ _)
  rcases List.mem_cons.1 hq with rfl | hq
  · exact hqr
  · have := (List.pairwise_cons.1 ho.1).1 q hq
    rcases hqr with e | s
    · rw [e]; exact .inr this
    · exact .inr (this.trans s)

theorem queued_kids {t u : Tree} {h : List Nat} {d : Option Nat}
    (hw : walk (none, .tree t) h = some (d, .tree u)) (l : List (Nat × Option Nat × Tree))
    (hl : ∀ x, x ∈ l → u.kids[x.1]? = some (.tree x.2.1 x.2.2)) :
    Queued t ((l.map (·.1)).map (fun i => h ++ [i])) (l.map (·.2)) := by
  induction l with
  | nil => exact .nil
  | cons x l ih =>
    refine .cons _ _ _ _ ?_ (ih fun y hy => hl y (List.mem_cons_of_mem _ hy))
    rw [walk_append, hw]
    simp only [walk, hl x List.mem_cons_self, Kid.dir, Kid.obj]

theorem traverseLoop_spec (t : Tree) : ∀ (fuel : Nat) (ps : List (List Nat))
    (q : List (Option Nat × Tree)), Queued t ps q → Ordered ps → (q.map (fun x => x.2.len)).sum ≤ fuel →
    ∃ rs, rs.Pairwise Sooner ∧ Each (Yields t) rs (traverseLoop fuel q).1 ∧
      (∀ p, p ∈ rs ↔ Below ps p ∧ IsNode t p ∧ ∀ b, Below ps b → Undirected t b → Sooner p b) ∧
      ((traverseLoop fuel q).2 = none ∧ (¬ ∃ b, Below ps b ∧ Undirected t b) ∨
       (traverseLoop fuel q).2 = some .assertion ∧ ∃ b, Below ps b ∧ Undirected t b) := by
  have done : ∀ fuel, ∃ rs : List (List Nat), rs.Pairwise Sooner ∧
      Each (Yields t) rs (traverseLoop fuel []).1 ∧
      (∀ p, p ∈ rs ↔ Below [] p ∧ IsNode t p ∧ ∀ b, Below [] b → Undirected t b → Sooner p b) ∧
      ((traverseLoop fuel []).2 = none ∧ (¬ ∃ b, Below [] b ∧ Undirected t b) ∨
       (traverseLoop fuel []).2 = some .assertion ∧ ∃ b, Below [] b ∧ Undirected t b) := by
    intro fuel
    have e : traverseLoop fuel [] = ([], none) := by cases fuel <;> rfl
    rw [e]
    refine ⟨[], .nil, .nil, ?_, .inl ⟨rfl, ?_⟩⟩
    · intro p
      constructor
      · intro h; cases h
      · rintro ⟨⟨q, hq, _⟩, _⟩; cases hq
    · rintro ⟨b, ⟨q, hq, _⟩, _⟩; cases hq
  intro fuel
  induction fuel with
  | zero =>
    intro ps q hq ho hf
    cases hq with
    | nil => exact done 0
    | cons h x tl q hw hq =>
      exfalso
      obtain ⟨d, u⟩ := x
      simp only [List.map_cons, List.sum_cons] at hf
      cases u; simp only [Tree.len] at hf; omega
  | succ fuel ih =>
    intro ps q hq ho hf
    cases hq with
    | nil => exact done _
    | cons h x tl q hw hq =>
      obtain ⟨d, u⟩ := x
      simp only at hw
      have bad : Undirected t h ↔ ∃ v, Kid.tree none v ∈ u.kids := by
        constructor
        · rintro ⟨d', u', hw', hv⟩
          rw [hw] at hw'; cases hw'; exact hv
        · intro hv; exact ⟨d, u, hw, hv⟩
      have hself : Below (h :: tl) h := ⟨h, List.mem_cons_self, [], (List.append_nil _).symm⟩
      rcases kidsLoop_spec u.kids 0 [] q with ⟨hv, hk⟩ | ⟨hv, out, hk, hnd, hout⟩
      · simp only [traverseLoop, hk]
        refine ⟨[], .nil, .nil, ?_, .inr ⟨trivial, h, hself, bad.2 hv⟩⟩
        intro p
        constructor
        · intro h; cases h
        · rintro ⟨hb, _, hs⟩
          have := hs h hself (bad.2 hv)
          rcases below_first ho hb with rfl | h'
          · exact absurd rfl this.ne
          · exact (this.asymm h').elim
      · simp only [traverseLoop, hk]
        have hl : ∀ x, x ∈ treeKids 0 u.kids → u.kids[x.1]? = some (.tree x.2.1 x.2.2) := by
          intro x hx
          obtain ⟨i, hi, hk⟩ := (mem_treeKids _ _ _).1 hx
          rw [hi, Nat.zero_add]; exact hk
        have hq' := hq.append (queued_kids hw _ hl)
        have ho' := ordered_next ho
          (List.pairwise_map.2 (sorted_treeKids u.kids 0) :
            ((treeKids 0 u.kids).map (·.1)).Pairwise (· < ·))
        have hf' : ((q ++ (treeKids 0 u.kids).map (·.2)).map (fun x => x.2.len)).sum ≤ fuel := by
          have := size_treeKids u.kids 0
          rw [List.map_append, List.sum_append, List.map_map]
          simp only [List.map_cons, List.sum_cons] at hf
          have hu : u.len = 1 + lenKids u.kids := by cases u; rfl
          have he : (List.map ((fun x : Option Nat × Tree => x.2.len) ∘ fun x => x.2)
              (treeKids 0 u.kids)).sum = ((treeKids 0 u.kids).map (fun x => x.2.2.len)).sum := rfl
          rw [he]
          omega
        obtain ⟨rs, h1, h2, h3, h4⟩ := ih _ _ hq' ho' hf'
        -- what passes through the new queue
        have hB : ∀ p, IsNode t p → (Below (h :: tl) p ↔ p = h ∨
            Below (tl ++ ((treeKids 0 u.kids).map (·.1)).map (fun i => h ++ [i])) p) := by
          intro p hp
          constructor
          · rintro ⟨g, hg, r, rfl⟩
            rcases List.mem_cons.1 hg with rfl | hg
            · cases r with
              | nil => exact .inl (List.append_nil _)
              | cons i r =>
                right
                obtain ⟨e, v, hp⟩ := hp
                rw [walk_append, hw] at hp
                simp only [walk] at hp
                cases hki : u.kids[i]? with
                | none => rw [hki] at hp; cases hp
                | some k =>
                  rw [hki] at hp
                  cases k with
                  | vertex d' v' =>
                    cases r with
                    | nil => cases hp
                    | cons j r => cases hp
                  | tree d' t' =>
                    refine ⟨g ++ [i], List.mem_append_right _ (List.mem_map.2 ⟨i, List.mem_map.2
                      ⟨(i, d', t'), (mem_treeKids _ _ _).2 ⟨i, (Nat.zero_add _).symm, hki⟩, rfl⟩, rfl⟩),
                      r, ?_⟩
                    rw [List.append_assoc]; rfl
            · exact .inr ⟨g, List.mem_append_left _ hg, r, rfl⟩
          · rintro (rfl | ⟨g, hg, r, rfl⟩)
            · exact hself
            · rcases List.mem_append.1 hg with hg | hg
              · exact ⟨g, List.mem_cons_of_mem _ hg, r, rfl⟩
              · obtain ⟨i, _, rfl⟩ := List.mem_map.1 hg
                exact ⟨h, List.mem_cons_self, [i] ++ r, List.append_assoc _ _ _⟩
        have hlate : ∀ p, Below (tl ++ ((treeKids 0 u.kids).map (·.1)).map (fun i => h ++ [i])) p →
            Sooner h p := by
          rintro p ⟨g, hg, r, rfl⟩
          have hhg : Sooner h g := by
            rcases List.mem_append.1 hg with hg | hg
            · exact (List.pairwise_cons.1 ho.1).1 _ hg
            · obtain ⟨i, _, rfl⟩ := List.mem_map.1 hg
              exact Sooner.ext _ _ _
          cases r with
          | nil => rw [List.append_nil]; exact hhg
          | cons i r => exact hhg.trans (Sooner.ext _ _ _)
        have node : ∀ {b}, Undirected t b → IsNode t b := fun ⟨d, u, h, _⟩ => ⟨d, u, h⟩
        refine ⟨h :: rs, List.pairwise_cons.2 ⟨fun p hp => hlate p ((h3 p).1 hp).1, h1⟩,
          .cons _ _ _ _ ⟨u, hw, rfl, hnd .nil, fun e => ?_⟩ h2, fun p => ?_, ?_⟩
        · rw [hout]; simp
        · rw [List.mem_cons, h3]
          constructor
          · rintro (rfl | ⟨hp1, hp2, hp3⟩)
            · refine ⟨hself, ⟨d, u, hw⟩, fun b hb hu => ?_⟩
              rcases below_first ho hb with rfl | h'
              · exact absurd (bad.1 hu) hv
              · exact h'
            · refine ⟨(hB p hp2).2 (.inr hp1), hp2, fun b hb hu => ?_⟩
              rcases (hB b (node hu)).1 hb with rfl | hb
              · exact absurd (bad.1 hu) hv
              · exact hp3 b hb hu
          · rintro ⟨hp1, hp2, hp3⟩
            rcases (hB p hp2).1 hp1 with rfl | hp
            · exact .inl rfl
            · exact .inr ⟨hp, hp2, fun b hb hu => hp3 b ((hB b (node hu)).2 (.inr hb)) hu⟩
        · have hex : (∃ b, Below (h :: tl) b ∧ Undirected t b) ↔
              ∃ b, Below (tl ++ ((treeKids 0 u.kids).map (·.1)).map (fun i => h ++ [i])) b ∧
                Undirected t b := by
            constructor
            · rintro ⟨b, hb, hu⟩
              rcases (hB b (node hu)).1 hb with rfl | hb
              · exact absurd (bad.1 hu) hv
              · exact ⟨b, hb, hu⟩
            · rintro ⟨b, hb, hu⟩
              exact ⟨b, (hB b (node hu)).2 (.inr hb), hu⟩
          rw [hex]
          exact h4

end Pacman.RTree
