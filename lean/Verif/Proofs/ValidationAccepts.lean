import Verif.Proofs.ValidationGraph
/-
When the route checker accepts a whole graph.
-/

namespace Pacman.Valid

open Alloc (VId)
open RPath (XY)
open Router (AppPart appPartitions appPartitions_ok mem_of_leaves)

theorem addSources_runs {W : World} {ident : Nat} {p : XY × Nat} (vs : List VId) : ∀ (D : Dests),
    (∀ b, VId.app b ∈ vs → (W.net.outgoing ident b).isSome = true) → ∃ D', addSources W ident p vs D = .ok D' := by
  induction vs with
  | nil => intro D _; exact ⟨D, rfl⟩
  | cons v vs ih =>
    intro D h
    have h' : ∀ b, VId.app b ∈ vs → (W.net.outgoing ident b).isSome = true :=
      fun b hb => h b (List.mem_cons_of_mem _ hb)
    cases v with
    | app a =>
      obtain ⟨ms, hms⟩ := Option.isSome_iff_exists.mp (h a List.mem_cons_self)
      simp only [addSources, hms]
      exact ih _ h'
    | mach k =>
      simp only [addSources]
      exact ih _ h'

theorem addTargets_runs {W : World} {ident : Nat} (vs : List (Nat × List VId)) : ∀ (D : Dests),
    (∀ v ∈ vs, (W.place v.1).isSome = true ∧ ∀ b, VId.app b ∈ v.2 → (W.net.outgoing ident b).isSome = true) →
    ∃ D', addTargets W ident vs D = .ok D' := by
  induction vs with
  | nil => intro D _; exact ⟨D, rfl⟩
  | cons v vs ih =>
    intro D h
    obtain ⟨h1, h2⟩ := h v List.mem_cons_self
    obtain ⟨p, hp⟩ := Option.isSome_iff_exists.mp h1
    obtain ⟨D1, hD1⟩ := addSources_runs (W := W) (p := p) v.2 D h2
    simp only [addTargets, hp, hD1]
    exact ih _ (fun u hu => h u (List.mem_cons_of_mem _ hu))

theorem addEdges_runs {W : World} {source ident : Nat} (ds : List Nat) : ∀ (D : Dests),
    (∀ d ∈ ds, ∀ v ∈ W.net.incoming d source ident, (W.place v.1).isSome = true ∧
      ∀ b, VId.app b ∈ v.2 → (W.net.outgoing ident b).isSome = true) →
    ∃ D', addEdges W source ident ds D = .ok D' := by
  induction ds with
  | nil => intro D _; exact ⟨D, rfl⟩
  | cons d ds ih =>
    intro D h
    obtain ⟨D1, hD1⟩ := addTargets_runs (W := W) (ident := ident) _ D (h d List.mem_cons_self)
    simp only [addEdges, hD1]
    exact ih _ (fun u hu => h u (List.mem_cons_of_mem _ hu))

theorem addPosts_runs {W : World} {pre : Nat} (ts : List Nat) : ∀ (D : Dests),
    (∀ t ∈ ts, (W.place t).isSome = true) → ∃ D', addPosts W pre ts D = .ok D' := by
  induction ts with
  | nil => intro D _; exact ⟨D, rfl⟩
  | cons t ts ih =>
    intro D h
    obtain ⟨p, hp⟩ := Option.isSome_iff_exists.mp (h t List.mem_cons_self)
    simp only [addPosts, hp]
    exact ih _ (fun u hu => h u (List.mem_cons_of_mem _ hu))

theorem addInternal_runs {W : World} {ident : Nat} (is : List (Nat × Nat × List Nat)) :
    ∀ (out : List Nat) (D : Dests), (∀ i ∈ is, i.1 = ident → ∀ t ∈ i.2.2, (W.place t).isSome = true) →
    ∃ r, addInternal W ident is out D = .ok r := by
  induction is with
  | nil => intro out D _; exact ⟨_, rfl⟩
  | cons i is ih =>
    intro out D h
    have h' : ∀ j ∈ is, j.1 = ident → ∀ t ∈ j.2.2, (W.place t).isSome = true :=
      fun j hj => h j (List.mem_cons_of_mem _ hj)
    simp only [addInternal]
    by_cases hi : i.1 = ident
    · rw [if_pos hi]
      obtain ⟨D1, hD1⟩ := addPosts_runs (W := W) (pre := i.2.1) i.2.2 D (h i List.mem_cons_self hi)
      simp only [hD1]
      exact ih _ _ h'
    · rw [if_neg hi]
      exact ih _ _ h'

/-- The sources named with targets have splitters. -/
def Splits (W : World) : Prop :=
  ∀ p ∈ W.net.parts, ∀ d ∈ p.edges, ∀ v ∈ W.net.incoming d p.pre p.ident, ∀ b, VId.app b ∈ v.2 →
    (W.net.outgoing p.ident b).isSome = true

theorem checkPartition_accepts {W : World} {fuel : Nat} {p : AppPart}
    (ho : (W.net.outgoing p.ident p.pre).isSome = true) (hi : (W.net.internals p.pre).isSome = true)
    (he : ∀ d ∈ p.edges, ∀ v ∈ W.net.incoming d p.pre p.ident, (W.place v.1).isSome = true ∧
      ∀ b, VId.app b ∈ v.2 → (W.net.outgoing p.ident b).isSome = true)
    (hp : ∀ is, W.net.internals p.pre = some is → ∀ i ∈ is, i.1 = p.ident → ∀ t ∈ i.2.2, (W.place t).isSome = true)
    (hs : ∀ m, Router.NetSends W.net p.pre p.ident m → W.virtual m = false →
      ∃ at_ key, W.place m = some at_ ∧ W.info m p.ident = some key ∧
        ∀ dests : List (XY × Nat), dests.Nodup → (∀ x, x ∈ dests ↔ ∃ t, PartWants W p m t ∧ W.place t = some x) →
          search W.scene fuel at_.1 dests key (W.atoms m) = .ok ()) :
    checkPartition W fuel p = .ok () := by
  obtain ⟨ms, hms⟩ := Option.isSome_iff_exists.mp ho
  obtain ⟨is, his⟩ := Option.isSome_iff_exists.mp hi
  obtain ⟨D, hD⟩ := addEdges_runs (W := W) p.edges [] he
  obtain ⟨⟨out, D'⟩, hD'⟩ := addInternal_runs (W := W) is (ms.foldl setAdd []) D (hp is his)
  unfold checkPartition
  simp only [hD, hms, his, hD']
  obtain ⟨e1, e2⟩ := addEdges_ok _ hD
  obtain ⟨i1, i2, i3⟩ := addInternal_ok _ hD'
  refine forE_ok.mpr (fun m hm => ?_)
  have hsend : Router.NetSends W.net p.pre p.ident m := by
    rw [i2, setAdd_fold] at hm
    rcases hm with (hm | hm) | ⟨i, k1, k2, k3⟩
    · cases hm
    · exact Or.inl ⟨ms, hms, hm⟩
    · exact Or.inr ⟨is, his, i, k1, k2, k3⟩
  unfold checkVertex
  cases hv : W.virtual m with
  | true => rfl
  | false =>
    obtain ⟨at_, key, h1, h2, h3⟩ := hs m hsend hv
    simp only [h1, h2, Bool.false_eq_true, if_false]
    refine h3 (D'.at m) ?_ (fun x => ?_)
    · exact i1.nodup (e1.nodup (fun m => by show ([] : List (XY × Nat)).Nodup; simp)) m
    · rw [i1.mem, e1.mem]
      have h0 : x ∉ Dests.at [] m := by
        show x ∉ ([] : List (XY × Nat))
        simp
      constructor
      · rintro ((k | ⟨d, hd, v, k1, k2, k3⟩) | ⟨i, k1, k2, k3, t, k4, k5⟩)
        · exact absurd k h0
        · exact ⟨v.1, Or.inl ⟨d, hd, v, k1, rfl, k3⟩, k2⟩
        · exact ⟨t, Or.inr ⟨is, his, i, k1, k2, k3, k4⟩, k5⟩
      · rintro ⟨t, ⟨d, hd, v, k1, k2, k3⟩ | ⟨is', k1, i, k2, k3, k4, k5⟩, k6⟩
        · subst k2
          exact Or.inl (Or.inr ⟨d, hd, v, k1, k6, k3⟩)
        · rw [his] at k1
          cases k1
          exact Or.inr ⟨i, k2, k3, k4, t, k5, k6⟩

theorem validate_accepts {W : World} {fuel : Nat} {r : List AppPart} (hr : appPartitions W.net = .ok r)
    (hd : (W.net.parts.map (fun p => (p.pre, p.ident))).Nodup) (hsp : Splits W)
    (ho : ∀ p ∈ r, (W.net.outgoing p.ident p.pre).isSome = true ∧ (W.net.internals p.pre).isSome = true)
    (hp : ∀ p ∈ r, ∀ t, Router.NetAsked W.net p.pre p.ident t → (W.place t).isSome = true)
    (hs : ∀ p ∈ r, ∀ m, Router.NetSends W.net p.pre p.ident m → W.virtual m = false →
      ∃ at_ key, W.place m = some at_ ∧ W.info m p.ident = some key ∧
        ∀ dests : List (XY × Nat), dests.Nodup →
          (∀ x, x ∈ dests ↔ ∃ t, Wants W p.pre p.ident m t ∧ W.place t = some x) →
          search W.scene fuel at_.1 dests key (W.atoms m) = .ok ()) : validate W fuel = .ok () := by
  unfold validate
  simp only [hr]
  refine forE_ok.mpr (fun p hpr => ?_)
  have hpart : ∀ d ∈ p.edges, p ∈ W.net.parts := by
    intro d hd'
    obtain ⟨extra, rfl, h3, _⟩ := appPartitions_ok hr
    rcases List.mem_append.mp hpr with h | h
    · exact h
    · rw [(h3 p h).1] at hd'; cases hd'
  refine checkPartition_accepts (ho p hpr).1 (ho p hpr).2 ?_ ?_ ?_
  · intro d hd' v hv
    exact ⟨hp p hpr v.1 (Or.inl ⟨p, hpart d hd', rfl, rfl, d, hd', v, hv, rfl⟩), hsp p (hpart d hd') d hd' v hv⟩
  · intro is his i hi k t ht
    exact hp p hpr t (Or.inr ⟨is, his, i, hi, k, ht⟩)
  · intro m hm hv
    obtain ⟨at_, key, h1, h2, h3⟩ := hs p hpr m hm hv
    refine ⟨at_, key, h1, h2, fun dests k1 k2 => h3 dests k1 (fun x => ?_)⟩
    rw [k2]
    constructor
    · rintro ⟨t, h4, h5⟩; exact ⟨t, (partWants_iff hr hd hpr t).mp h4, h5⟩
    · rintro ⟨t, h4, h5⟩; exact ⟨t, (partWants_iff hr hd hpr t).mpr h4, h5⟩

/-- If a graph is accepted, all targets are placed. -/
theorem validate_placed {W : World} {fuel : Nat} (h : validate W fuel = .ok ())
    (hd : (W.net.parts.map (fun p => (p.pre, p.ident))).Nodup) {a ident t : Nat}
    (hl : Router.Leaves W.net a ident) (ht : Router.NetAsked W.net a ident t) : (W.place t).isSome = true := by
  unfold validate at h
  cases hr : appPartitions W.net with
  | error err => simp only [hr] at h; cases h
  | ok r =>
    simp only [hr] at h
    obtain ⟨p, hp, rfl, rfl⟩ := mem_of_leaves hr hl
    have hc := forE_ok.mp h p hp
    unfold checkPartition at hc
    cases he : addEdges W p.pre p.ident p.edges [] with
    | error err => simp only [he] at hc; cases hc
    | ok D =>
      simp only [he] at hc
      cases ho : W.net.outgoing p.ident p.pre with
      | none => simp only [ho] at hc; cases hc
      | some ms =>
        cases hi : W.net.internals p.pre with
        | none => simp only [ho, hi] at hc; cases hc
        | some is =>
          simp only [ho, hi] at hc
          cases ha : addInternal W p.ident is (ms.foldl setAdd []) D with
          | error err => simp only [ha] at hc; cases hc
          | ok res =>
            obtain ⟨e1, e2⟩ := addEdges_ok _ he
            obtain ⟨i1, i2, i3⟩ := addInternal_ok (out' := res.1) (D' := res.2) _ ha
            rcases ht with ⟨q, hq, k1, k2, d, hd', v, hv, rfl⟩ | ⟨is', k1, i, k2, k3, k4⟩
            · have hqr : q ∈ r := by
                obtain ⟨extra, rfl, _⟩ := appPartitions_ok hr
                exact List.mem_append.mpr (Or.inl hq)
              have hqp : q = p := Router.key_inj (Router.appPartitions_nodup hd hr) hqr hp (by
                unfold AppPart.key; rw [k1, k2])
              subst hqp
              exact e2 d hd' v hv
            · rw [hi] at k1
              cases k1
              exact i3 i k2 k3 t k4

end Pacman.Valid
