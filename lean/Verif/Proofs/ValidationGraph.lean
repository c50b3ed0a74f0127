import Verif.Proofs.ValidationEnds
/-
Lemmas about the route checker on a whole graph.
-/

namespace Pacman.Valid

open Alloc (VId)
open RPath (XY)
open Router (AppPart appPartitions appPartitions_ok mem_of_leaves)

/-! ### The destinations -/

/-- The destinations of a vertex. -/
def Dests.at (D : Dests) (m : Nat) : List (XY × Nat) := (D.get? m).getD []

theorem setAdd_mem {α : Type} [DecidableEq α] (l : List α) (a x : α) : x ∈ setAdd l a ↔ x ∈ l ∨ x = a := by
  unfold setAdd
  split
  · rename_i h
    exact ⟨Or.inl, fun h' => h'.elim id (fun h' => by rw [h']; exact h)⟩
  · rw [List.mem_append, List.mem_singleton]

theorem setAdd_nodup {α : Type} [DecidableEq α] {l : List α} (a : α) (h : l.Nodup) : (setAdd l a).Nodup := by
  unfold setAdd
  split
  · exact h
  · rename_i ha
    refine List.nodup_append.mpr ⟨h, by simp, ?_⟩
    intro b hb c hc hbc
    rw [List.mem_singleton] at hc
    subst hbc; subst hc
    exact ha hb

theorem setAdd_fold {α : Type} [DecidableEq α] (l : List α) : ∀ (acc : List α),
    ∀ x, x ∈ l.foldl setAdd acc ↔ x ∈ acc ∨ x ∈ l := by
  induction l with
  | nil => intro acc x; simp
  | cons a l ih =>
    intro acc x
    rw [List.foldl_cons, ih, setAdd_mem, List.mem_cons, or_assoc]

theorem put_at (D : Dests) (s m : Nat) (p : XY × Nat) :
    (D.put s p).at m = if s = m then setAdd (D.at m) p else D.at m := by
  unfold Dests.at Dests.put
  by_cases h : s = m
  · subst h
    rw [if_pos rfl, Dict.get?_set_self]
    rfl
  · rw [if_neg h, Dict.get?_set_ne _ _ h]

/-- How the destinations grow: by the pairs of a vertex and a place for which `R` holds. -/
structure More (D D' : Dests) (R : Nat → XY × Nat → Prop) : Prop where
  mem : ∀ m x, x ∈ D'.at m ↔ x ∈ D.at m ∨ R m x
  nodup : (∀ m, (D.at m).Nodup) → ∀ m, (D'.at m).Nodup

theorem More.refl (D : Dests) {R : Nat → XY × Nat → Prop} (h : ∀ m x, ¬ R m x) : More D D R :=
  ⟨fun m x => ⟨Or.inl, fun h' => h'.elim id (fun h' => absurd h' (h m x))⟩, id⟩

theorem More.trans {D D' D'' : Dests} {R R' : Nat → XY × Nat → Prop} (h : More D D' R) (h' : More D' D'' R')
    {R'' : Nat → XY × Nat → Prop} (hr : ∀ m x, R'' m x ↔ R m x ∨ R' m x) : More D D'' R'' :=
  ⟨fun m x => by rw [h'.mem, h.mem, hr, or_assoc], fun hd => h'.nodup (h.nodup hd)⟩

theorem put_more (D : Dests) (s : Nat) (p : XY × Nat) : More D (D.put s p) (fun m x => m = s ∧ x = p) := by
  constructor
  · intro m x
    rw [put_at]
    by_cases h : s = m
    · subst h; rw [if_pos rfl, setAdd_mem]; simp
    · rw [if_neg h]
      exact ⟨Or.inl, fun h' => h'.elim id (fun h' => absurd h'.1.symm h)⟩
  · intro hd m
    rw [put_at]
    split
    · exact setAdd_nodup _ (hd m)
    · exact hd m

theorem puts_more (p : XY × Nat) (ms : List Nat) : ∀ (D : Dests),
    More D (ms.foldl (fun D s => D.put s p) D) (fun m x => m ∈ ms ∧ x = p) := by
  induction ms with
  | nil => intro D; exact More.refl D (by intro m x h; cases h.1)
  | cons s ms ih =>
    intro D
    rw [List.foldl_cons]
    refine (put_more D s p).trans (ih _) ?_
    intro m x
    rw [List.mem_cons]
    constructor
    · rintro ⟨h | h, h2⟩
      · exact Or.inl ⟨h, h2⟩
      · exact Or.inr ⟨h, h2⟩
    · rintro (h | h)
      · exact ⟨Or.inl h.1, h.2⟩
      · exact ⟨Or.inr h.1, h.2⟩

/-- A source of a target stands for this machine vertex. -/
def Stands (W : World) (ident m : Nat) (s : VId) : Prop :=
  s = .mach m ∨ ∃ b ms, s = .app b ∧ W.net.outgoing ident b = some ms ∧ m ∈ ms

theorem addSources_ok {W : World} {ident : Nat} {p : XY × Nat} (vs : List VId) : ∀ {D D' : Dests},
    addSources W ident p vs D = .ok D' →
    More D D' (fun m x => x = p ∧ ∃ s ∈ vs, Stands W ident m s) := by
  induction vs with
  | nil =>
    intro D D' h
    cases h
    exact More.refl D (by rintro m x ⟨_, s, hs, _⟩; cases hs)
  | cons v vs ih =>
    intro D D' h
    cases v with
    | app a =>
      simp only [addSources] at h
      cases ho : W.net.outgoing ident a with
      | none => simp only [ho] at h; cases h
      | some ms =>
        simp only [ho] at h
        refine (puts_more p ms D).trans (ih h) ?_
        intro m x
        constructor
        · rintro ⟨hx, s, hs, hst⟩
          rcases List.mem_cons.mp hs with rfl | hs
          · rcases hst with hst | ⟨b, ms', h1, h2, h3⟩
            · cases hst
            · cases h1
              rw [ho] at h2
              cases h2
              exact Or.inl ⟨h3, hx⟩
          · exact Or.inr ⟨hx, s, hs, hst⟩
        · rintro (⟨hm, hx⟩ | ⟨hx, s, hs, hst⟩)
          · exact ⟨hx, _, List.mem_cons_self, Or.inr ⟨a, ms, rfl, ho, hm⟩⟩
          · exact ⟨hx, s, List.mem_cons_of_mem _ hs, hst⟩
    | mach k =>
      simp only [addSources] at h
      refine (put_more D k p).trans (ih h) ?_
      intro m x
      constructor
      · rintro ⟨hx, s, hs, hst⟩
        rcases List.mem_cons.mp hs with rfl | hs
        · rcases hst with hst | ⟨b, ms', h1, _⟩
          · exact Or.inl ⟨(VId.mach.inj hst).symm, hx⟩
          · cases h1
        · exact Or.inr ⟨hx, s, hs, hst⟩
      · rintro (⟨hm, hx⟩ | ⟨hx, s, hs, hst⟩)
        · exact ⟨hx, _, List.mem_cons_self, Or.inl (by rw [hm])⟩
        · exact ⟨hx, s, List.mem_cons_of_mem _ hs, hst⟩

theorem addTargets_ok {W : World} {ident : Nat} (vs : List (Nat × List VId)) : ∀ {D D' : Dests},
    addTargets W ident vs D = .ok D' →
    (∀ v ∈ vs, (W.place v.1).isSome = true) ∧
    More D D' (fun m x => ∃ v ∈ vs, W.place v.1 = some x ∧ ∃ s ∈ v.2, Stands W ident m s) := by
  induction vs with
  | nil =>
    intro D D' h
    cases h
    exact ⟨(fun v hv => by cases hv), More.refl D (by rintro m x ⟨v, hv, _⟩; cases hv)⟩
  | cons v vs ih =>
    intro D D' h
    simp only [addTargets] at h
    cases hp : W.place v.1 with
    | none => simp only [hp] at h; cases h
    | some p =>
      simp only [hp] at h
      cases ha : addSources W ident p v.2 D with
      | error err => simp only [ha] at h; cases h
      | ok D1 =>
        simp only [ha] at h
        obtain ⟨h1, h2⟩ := ih h
        refine ⟨?_, (addSources_ok v.2 ha).trans h2 ?_⟩
        · intro u hu
          rcases List.mem_cons.mp hu with rfl | hu
          · rw [hp]; rfl
          · exact h1 u hu
        · intro m x
          constructor
          · rintro ⟨u, hu, h3, h4⟩
            rcases List.mem_cons.mp hu with rfl | hu
            · rw [hp] at h3
              exact Or.inl ⟨(Option.some.inj h3).symm, h4⟩
            · exact Or.inr ⟨u, hu, h3, h4⟩
          · rintro (⟨h3, h4⟩ | ⟨u, hu, h3, h4⟩)
            · exact ⟨v, List.mem_cons_self, by rw [hp, h3], h4⟩
            · exact ⟨u, List.mem_cons_of_mem _ hu, h3, h4⟩

theorem addEdges_ok {W : World} {source ident : Nat} (ds : List Nat) : ∀ {D D' : Dests},
    addEdges W source ident ds D = .ok D' →
    More D D' (fun m x => ∃ d ∈ ds, ∃ v ∈ W.net.incoming d source ident, W.place v.1 = some x ∧
      ∃ s ∈ v.2, Stands W ident m s) ∧
    (∀ d ∈ ds, ∀ v ∈ W.net.incoming d source ident, (W.place v.1).isSome = true) := by
  induction ds with
  | nil =>
    intro D D' h
    cases h
    exact ⟨More.refl D (by rintro m x ⟨v, hv, _⟩; cases hv), (fun v hv => by cases hv)⟩
  | cons d ds ih =>
    intro D D' h
    simp only [addEdges] at h
    cases ha : addTargets W ident (W.net.incoming d source ident) D with
    | error err => simp only [ha] at h; cases h
    | ok D1 =>
      simp only [ha] at h
      obtain ⟨h0, h1⟩ := addTargets_ok _ ha
      obtain ⟨h2, h3⟩ := ih h
      refine ⟨h1.trans h2 ?_, ?_⟩
      · intro m x
        constructor
        · rintro ⟨c, hc, h3⟩
          rcases List.mem_cons.mp hc with rfl | hc
          · exact Or.inl h3
          · exact Or.inr ⟨c, hc, h3⟩
        · rintro (h3 | ⟨c, hc, h3⟩)
          · exact ⟨d, List.mem_cons_self, h3⟩
          · exact ⟨c, List.mem_cons_of_mem _ hc, h3⟩
      · intro c hc
        rcases List.mem_cons.mp hc with rfl | hc
        · exact h0
        · exact h3 c hc

theorem addPosts_ok {W : World} {pre : Nat} (ts : List Nat) : ∀ {D D' : Dests},
    addPosts W pre ts D = .ok D' →
    More D D' (fun m x => m = pre ∧ ∃ t ∈ ts, W.place t = some x) ∧
    (∀ t ∈ ts, (W.place t).isSome = true) := by
  induction ts with
  | nil =>
    intro D D' h
    cases h
    exact ⟨More.refl D (by rintro m x ⟨_, v, hv, _⟩; cases hv), (fun v hv => by cases hv)⟩
  | cons t ts ih =>
    intro D D' h
    simp only [addPosts] at h
    cases hp : W.place t with
    | none => simp only [hp] at h; cases h
    | some p =>
      simp only [hp] at h
      obtain ⟨h1, h2⟩ := ih h
      refine ⟨(put_more D pre p).trans h1 ?_, ?_⟩
      · intro m x
        constructor
        · rintro ⟨hm, u, hu, h3⟩
          rcases List.mem_cons.mp hu with rfl | hu
          · rw [hp] at h3
            exact Or.inl ⟨hm, (Option.some.inj h3).symm⟩
          · exact Or.inr ⟨hm, u, hu, h3⟩
        · rintro (⟨hm, hx⟩ | ⟨hm, u, hu, h3⟩)
          · exact ⟨hm, t, List.mem_cons_self, by rw [hp, hx]⟩
          · exact ⟨hm, u, List.mem_cons_of_mem _ hu, h3⟩
      · intro u hu
        rcases List.mem_cons.mp hu with rfl | hu
        · rw [hp]; rfl
        · exact h2 u hu

theorem addInternal_ok {W : World} {ident : Nat} (is : List (Nat × Nat × List Nat)) :
    ∀ {out out' : List Nat} {D D' : Dests}, addInternal W ident is out D = .ok (out', D') →
    More D D' (fun m x => ∃ i ∈ is, i.1 = ident ∧ i.2.1 = m ∧ ∃ t ∈ i.2.2, W.place t = some x) ∧
    (∀ m, m ∈ out' ↔ m ∈ out ∨ ∃ i ∈ is, i.1 = ident ∧ i.2.1 = m) ∧
    (∀ i ∈ is, i.1 = ident → ∀ t ∈ i.2.2, (W.place t).isSome = true) := by
  induction is with
  | nil =>
    intro out out' D D' h
    cases h
    exact ⟨More.refl D (by rintro m x ⟨v, hv, _⟩; cases hv), by simp, (fun v hv => by cases hv)⟩
  | cons i is ih =>
    intro out out' D D' h
    simp only [addInternal] at h
    by_cases hi : i.1 = ident
    · rw [if_pos hi] at h
      cases ha : addPosts W i.2.1 i.2.2 D with
      | error err => simp only [ha] at h; cases h
      | ok D1 =>
        simp only [ha] at h
        obtain ⟨h1, h2⟩ := addPosts_ok _ ha
        obtain ⟨h3, h4, h5⟩ := ih h
        refine ⟨h1.trans h3 ?_, ?_, ?_⟩
        · intro m x
          constructor
          · rintro ⟨j, hj, k1, k2, k3⟩
            rcases List.mem_cons.mp hj with rfl | hj
            · exact Or.inl ⟨k2.symm, k3⟩
            · exact Or.inr ⟨j, hj, k1, k2, k3⟩
          · rintro (⟨k2, k3⟩ | ⟨j, hj, k⟩)
            · exact ⟨i, List.mem_cons_self, hi, k2.symm, k3⟩
            · exact ⟨j, List.mem_cons_of_mem _ hj, k⟩
        · intro m
          rw [h4, setAdd_mem]
          constructor
          · rintro ((k | k) | ⟨j, hj, k⟩)
            · exact Or.inl k
            · exact Or.inr ⟨i, List.mem_cons_self, hi, k.symm⟩
            · exact Or.inr ⟨j, List.mem_cons_of_mem _ hj, k⟩
          · rintro (k | ⟨j, hj, k1, k2⟩)
            · exact Or.inl (Or.inl k)
            · rcases List.mem_cons.mp hj with rfl | hj
              · exact Or.inl (Or.inr k2.symm)
              · exact Or.inr ⟨j, hj, k1, k2⟩
        · intro j hj
          rcases List.mem_cons.mp hj with rfl | hj
          · exact fun _ => h2
          · exact h5 j hj
    · rw [if_neg hi] at h
      obtain ⟨h3, h4, h5⟩ := ih h
      refine ⟨⟨fun m x => ?_, h3.nodup⟩, ?_, ?_⟩
      · rw [h3.mem]
        constructor
        · rintro (k | ⟨j, hj, k⟩)
          · exact Or.inl k
          · exact Or.inr ⟨j, List.mem_cons_of_mem _ hj, k⟩
        · rintro (k | ⟨j, hj, k⟩)
          · exact Or.inl k
          · rcases List.mem_cons.mp hj with rfl | hj
            · exact absurd k.1 hi
            · exact Or.inr ⟨j, hj, k⟩
      · intro m
        rw [h4]
        constructor
        · rintro (k | ⟨j, hj, k⟩)
          · exact Or.inl k
          · exact Or.inr ⟨j, List.mem_cons_of_mem _ hj, k⟩
        · rintro (k | ⟨j, hj, k⟩)
          · exact Or.inl k
          · rcases List.mem_cons.mp hj with rfl | hj
            · exact absurd k.1 hi
            · exact Or.inr ⟨j, hj, k⟩
      · intro j hj
        rcases List.mem_cons.mp hj with rfl | hj
        · exact fun k => absurd k hi
        · exact h5 j hj

/-! ### One partition -/

/-- What the edges of this partition, or an internal partition, ask of the packets of `m`. -/
def PartWants (W : World) (p : AppPart) (m t : Nat) : Prop :=
  (∃ d ∈ p.edges, ∃ v ∈ W.net.incoming d p.pre p.ident, v.1 = t ∧ ∃ s ∈ v.2, Stands W p.ident m s) ∨
  (∃ is, W.net.internals p.pre = some is ∧ ∃ i ∈ is, i.1 = p.ident ∧ i.2.1 = m ∧ t ∈ i.2.2)

theorem checkPartition_ok {W : World} {fuel : Nat} {p : AppPart} (h : checkPartition W fuel p = .ok ())
    {m : Nat} (hm : Router.NetSends W.net p.pre p.ident m) (hv : W.virtual m = false) :
    (∀ t, PartWants W p m t → (W.place t).isSome = true) ∧
    ∃ at_ key dests, W.place m = some at_ ∧ W.info m p.ident = some key ∧
      search W.scene fuel at_.1 dests key (W.atoms m) = .ok () ∧
      ∀ x, x ∈ dests ↔ ∃ t, PartWants W p m t ∧ W.place t = some x := by
  unfold checkPartition at h
  cases he : addEdges W p.pre p.ident p.edges [] with
  | error err => simp only [he] at h; cases h
  | ok D =>
    simp only [he] at h
    cases ho : W.net.outgoing p.ident p.pre with
    | none => simp only [ho] at h; cases h
    | some ms =>
      cases hi : W.net.internals p.pre with
      | none => simp only [ho, hi] at h; cases h
      | some is =>
        simp only [ho, hi] at h
        cases ha : addInternal W p.ident is (ms.foldl setAdd []) D with
        | error err => simp only [ha] at h; cases h
        | ok r =>
          obtain ⟨out, D'⟩ := r
          simp only [ha] at h
          obtain ⟨e1, e2⟩ := addEdges_ok _ he
          obtain ⟨i1, i2, i3⟩ := addInternal_ok _ ha
          have hmem : m ∈ out := by
            rw [i2, setAdd_fold]
            rcases hm with ⟨ms', k1, k2⟩ | ⟨is', k1, i, k2, k3, k4⟩
            · rw [ho] at k1; cases k1; exact Or.inl (Or.inr k2)
            · rw [hi] at k1; cases k1; exact Or.inr ⟨i, k2, k3, k4⟩
          have hc := forE_ok.mp h m hmem
          refine ⟨?_, ?_⟩
          · rintro t (⟨d, hd, v, k1, k2, _⟩ | ⟨is', k1, i, k2, k3, _, k4⟩)
            · rw [← k2]; exact e2 d hd v k1
            · rw [hi] at k1; cases k1; exact i3 i k2 k3 t k4
          · unfold checkVertex at hc
            rw [hv] at hc
            cases hp : W.place m with
            | none => simp only [hp, Bool.false_eq_true, if_false] at hc; cases hc
            | some at_ =>
              cases hk : W.info m p.ident with
              | none => simp only [hp, hk, Bool.false_eq_true, if_false] at hc; cases hc
              | some key =>
                simp only [hp, hk, Bool.false_eq_true, if_false] at hc
                refine ⟨at_, key, D'.at m, rfl, rfl, hc, fun x => ?_⟩
                rw [i1.mem, e1.mem]
                have h0 : x ∉ Dests.at [] m := by
                  show x ∉ ([] : List (XY × Nat))
                  simp
                constructor
                · rintro ((k | ⟨d, hd, v, k1, k2, k3⟩) | ⟨i, k1, k2, k3, t, k4, k5⟩)
                  · exact absurd k h0
                  · exact ⟨v.1, Or.inl ⟨d, hd, v, k1, rfl, k3⟩, k2⟩
                  · exact ⟨t, Or.inr ⟨is, hi, i, k1, k2, k3, k4⟩, k5⟩
                · rintro ⟨t, ⟨d, hd, v, k1, k2, k3⟩ | ⟨is', k1, i, k2, k3, k4, k5⟩, k6⟩
                  · subst k2
                    exact Or.inl (Or.inr ⟨d, hd, v, k1, k6, k3⟩)
                  · rw [hi] at k1
                    cases k1
                    exact Or.inr ⟨i, k2, k3, k4, t, k5, k6⟩

/-! ### All partitions -/

theorem partWants_iff {W : World} {r : List AppPart} (hr : appPartitions W.net = .ok r)
    (hd : (W.net.parts.map (fun p => (p.pre, p.ident))).Nodup) {p : AppPart} (hp : p ∈ r) {m : Nat} (t : Nat) :
    PartWants W p m t ↔ Wants W p.pre p.ident m t := by
  refine or_congr ?_ Iff.rfl
  constructor
  · rintro ⟨d, hd', k⟩
    obtain ⟨extra, rfl, h3, _⟩ := appPartitions_ok hr
    rcases List.mem_append.mp hp with hp | hp
    · exact ⟨p, hp, rfl, rfl, d, hd', k⟩
    · rw [(h3 p hp).1] at hd'; cases hd'
  · rintro ⟨q, hq, k1, k2, d, hd', k⟩
    have hqr : q ∈ r := by
      obtain ⟨extra, rfl, _⟩ := appPartitions_ok hr
      exact List.mem_append.mpr (Or.inl hq)
    have hqp : q = p := Router.key_inj (Router.appPartitions_nodup hd hr) hqr hp (by
      unfold AppPart.key; rw [k1, k2])
    subst hqp
    exact ⟨d, hd', k⟩

theorem validate_ok {W : World} {fuel : Nat} (h : validate W fuel = .ok ())
    (hd : (W.net.parts.map (fun p => (p.pre, p.ident))).Nodup) {a ident m : Nat}
    (hl : Router.Leaves W.net a ident)
    (hm : Router.NetSends W.net a ident m) (hv : W.virtual m = false) :
    (∀ t, Wants W a ident m t → (W.place t).isSome = true) ∧
    ∃ at_ key dests, W.place m = some at_ ∧ W.info m ident = some key ∧
      search W.scene fuel at_.1 dests key (W.atoms m) = .ok () ∧
      ∀ x, x ∈ dests ↔ ∃ t, Wants W a ident m t ∧ W.place t = some x := by
  unfold validate at h
  cases hr : appPartitions W.net with
  | error err => simp only [hr] at h; cases h
  | ok r =>
    simp only [hr] at h
    obtain ⟨p, hp, h1, h2⟩ := mem_of_leaves hr hl
    subst h1; subst h2
    have hc := forE_ok.mp h p hp
    have hw : ∀ t, PartWants W p m t ↔ Wants W p.pre p.ident m t := partWants_iff hr hd hp
    obtain ⟨h3, at_, key, dests, h4, h5, h6, h7⟩ := checkPartition_ok hc hm hv
    refine ⟨fun t ht => h3 t ((hw t).mpr ht), at_, key, dests, h4, h5, h6, fun x => ?_⟩
    rw [h7]
    constructor
    · rintro ⟨t, k1, k2⟩; exact ⟨t, (hw t).mp k1, k2⟩
    · rintro ⟨t, k1, k2⟩; exact ⟨t, (hw t).mpr k1, k2⟩

/-! ### Termination -/

theorem forE_error {ε α : Type} {f : α → Except ε Unit} {l : List α} {err : ε} (h : forE f l = .error err) :
    ∃ a ∈ l, f a = .error err := by
  induction l with
  | nil => cases h
  | cons a l ih =>
    simp only [forE] at h
    cases hf : f a with
    | error e =>
      simp only [hf] at h
      cases h
      exact ⟨a, List.mem_cons_self, hf⟩
    | ok u =>
      simp only [hf] at h
      obtain ⟨b, hb, hfb⟩ := ih h
      exact ⟨b, List.mem_cons_of_mem _ hb, hfb⟩

theorem addSources_error {W : World} {ident : Nat} {p : XY × Nat} (vs : List VId) : ∀ {D : Dests} {err : PyErr},
    addSources W ident p vs D = .error err → err ≠ .outOfFuel := by
  induction vs with
  | nil => intro D err h; cases h
  | cons v vs ih =>
    intro D err h
    cases v with
    | app a =>
      simp only [addSources] at h
      cases ho : W.net.outgoing ident a with
      | none => simp only [ho] at h; cases h; intro h'; cases h'
      | some ms => simp only [ho] at h; exact ih h
    | mach k => simp only [addSources] at h; exact ih h

theorem addTargets_error {W : World} {ident : Nat} (vs : List (Nat × List VId)) : ∀ {D : Dests} {err : PyErr},
    addTargets W ident vs D = .error err → err ≠ .outOfFuel := by
  induction vs with
  | nil => intro D err h; cases h
  | cons v vs ih =>
    intro D err h
    simp only [addTargets] at h
    cases hp : W.place v.1 with
    | none => simp only [hp] at h; cases h; intro h'; cases h'
    | some p =>
      simp only [hp] at h
      cases ha : addSources W ident p v.2 D with
      | error err => simp only [ha] at h; cases h; exact addSources_error _ ha
      | ok D1 => simp only [ha] at h; exact ih h

theorem addEdges_error {W : World} {source ident : Nat} (ds : List Nat) : ∀ {D : Dests} {err : PyErr},
    addEdges W source ident ds D = .error err → err ≠ .outOfFuel := by
  induction ds with
  | nil => intro D err h; cases h
  | cons d ds ih =>
    intro D err h
    simp only [addEdges] at h
    cases ha : addTargets W ident (W.net.incoming d source ident) D with
    | error err => simp only [ha] at h; cases h; exact addTargets_error _ ha
    | ok D1 => simp only [ha] at h; exact ih h

theorem addPosts_error {W : World} {pre : Nat} (ts : List Nat) : ∀ {D : Dests} {err : PyErr},
    addPosts W pre ts D = .error err → err ≠ .outOfFuel := by
  induction ts with
  | nil => intro D err h; cases h
  | cons t ts ih =>
    intro D err h
    simp only [addPosts] at h
    cases hp : W.place t with
    | none => simp only [hp] at h; cases h; intro h'; cases h'
    | some p => simp only [hp] at h; exact ih h

theorem addInternal_error {W : World} {ident : Nat} (is : List (Nat × Nat × List Nat)) :
    ∀ {out : List Nat} {D : Dests} {err : PyErr}, addInternal W ident is out D = .error err →
      err ≠ .outOfFuel := by
  induction is with
  | nil => intro out D err h; cases h
  | cons i is ih =>
    intro out D err h
    simp only [addInternal] at h
    split at h
    · cases ha : addPosts W i.2.1 i.2.2 D with
      | error err => simp only [ha] at h; cases h; exact addPosts_error _ ha
      | ok D1 => simp only [ha] at h; exact ih h
    · exact ih h

theorem checkVertex_error {W : World} {fuel : Nat} (hf : W.scene.tables.length < fuel) {ident : Nat} {D : Dests}
    {m : Nat} {err : PyErr} (h : checkVertex W fuel ident D m = .error err) : err ≠ .outOfFuel := by
  unfold checkVertex at h
  split at h
  · cases h
  · split at h
    · cases h; intro h'; cases h'
    · split at h
      · cases h; intro h'; cases h'
      · rcases search_ends hf h with rfl | rfl <;> intro h' <;> cases h'

theorem validate_ends {W : World} {fuel : Nat} (hf : W.scene.tables.length < fuel) :
    validate W fuel ≠ .error .outOfFuel := by
  intro h
  unfold validate at h
  cases hr : appPartitions W.net with
  | error err =>
    simp only [hr] at h
    cases h
    cases (Router.addVertices_error _ _ _ _ hr).1
  | ok r =>
    simp only [hr] at h
    obtain ⟨p, _, hp⟩ := forE_error h
    unfold checkPartition at hp
    cases he : addEdges W p.pre p.ident p.edges [] with
    | error err => simp only [he] at hp; cases hp; exact addEdges_error _ he rfl
    | ok D =>
      simp only [he] at hp
      split at hp
      · rename_i ms is ho hi
        cases ha : addInternal W p.ident is (ms.foldl setAdd []) D with
        | error err => simp only [ha] at hp; cases hp; exact addInternal_error _ ha rfl
        | ok r =>
          obtain ⟨out, D'⟩ := r
          simp only [ha] at hp
          obtain ⟨m, _, hm⟩ := forE_error hp
          exact checkVertex_error hf hm rfl
      · cases hp

end Pacman.Valid
