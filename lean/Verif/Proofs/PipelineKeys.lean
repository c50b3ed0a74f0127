import Verif.Spec.Pipeline
import Verif.Proofs.GeneratorsAllocated
import Verif.Props.RouterGraph
/-
Helper lemmas: the partitions that the allocator sees, and what follows for the keys.
-/

namespace Pacman.Pipe

open Alloc (VId Part Infos Info WF NoIdleFixed Counted)
open Router (Net Leaves NetContract AppPart)
open Gen (ofInfos FromPart)

theorem orderedSet_foldl (l : List (Nat × Nat)) : ∀ s : List (Nat × Nat), s.Nodup →
    (l.foldl (fun s x => if x ∈ s then s else s ++ [x]) s).Nodup ∧
    ∀ y, y ∈ l.foldl (fun s x => if x ∈ s then s else s ++ [x]) s ↔ y ∈ s ∨ y ∈ l := by
  induction l with
  | nil => intro s hs; exact ⟨hs, by simp⟩
  | cons x l ih =>
    intro s hs
    rw [List.foldl_cons]
    by_cases hx : x ∈ s
    · rw [if_pos hx]
      obtain ⟨h1, h2⟩ := ih s hs
      refine ⟨h1, fun y => ?_⟩
      rw [h2, List.mem_cons]
      constructor
      · rintro (h | h)
        · exact Or.inl h
        · exact Or.inr (Or.inr h)
      · rintro (h | rfl | h)
        · exact Or.inl h
        · exact Or.inl hx
        · exact Or.inr h
    · rw [if_neg hx]
      obtain ⟨h1, h2⟩ := ih (s ++ [x]) (by
        rw [List.nodup_append]
        refine ⟨hs, by simp, ?_⟩
        intro a ha b hb
        rw [List.mem_singleton] at hb
        rw [hb]
        rintro rfl
        exact hx ha)
      refine ⟨h1, fun y => ?_⟩
      rw [h2, List.mem_append, List.mem_singleton, List.mem_cons]
      constructor
      · rintro ((h | h) | h)
        · exact Or.inl h
        · exact Or.inr (Or.inl h)
        · exact Or.inr (Or.inr h)
      · rintro (h | h | h)
        · exact Or.inl (Or.inl h)
        · exact Or.inl (Or.inr h)
        · exact Or.inr h

theorem orderedSet_ok (l : List (Nat × Nat)) : (orderedSet l).Nodup ∧ ∀ y, y ∈ orderedSet l ↔ y ∈ l := by
  obtain ⟨h1, h2⟩ := orderedSet_foldl l [] List.nodup_nil
  exact ⟨h1, fun y => by rw [orderedSet, h2]; simp⟩

/-- What is known of a partition that the allocator sees. -/
structure Seen (N : Net) (K : Keys) (q : Part) : Prop where
  out : ∃ ms, N.outgoing q.ident q.pre = some ms ∧ q.outgoing = ms.map (K.vertex q.ident)
  fixed : q.fixed = K.fixed q.pre q.ident

theorem partsFor_ok {N : Net} {K : Keys} (l : List (Nat × Nat)) : ∀ {ps : List Part},
    partsFor N K l = .ok ps → ps.map (fun p => (p.pre, p.ident)) = l ∧ ∀ q ∈ ps, Seen N K q := by
  induction l with
  | nil =>
    intro ps h
    simp only [partsFor] at h
    cases h
    exact ⟨rfl, by intro q h; cases h⟩
  | cons p l ih =>
    intro ps h
    simp only [partsFor] at h
    split at h
    · cases h
    · rename_i q hq
      split at h
      · cases h
      · rename_i qs hqs
        cases h
        unfold partFor at hq
        split at hq
        · cases hq
        · rename_i ms hms
          cases hq
          obtain ⟨h1, h2⟩ := ih hqs
          refine ⟨by rw [List.map_cons, h1], ?_⟩
          intro q hq
          rcases List.mem_cons.mp hq with rfl | hq
          · exact ⟨⟨ms, hms, rfl⟩, rfl⟩
          · exact h2 q hq

theorem partsFor_nMachine {N : Net} {K : Keys} (l : List (Nat × Nat)) : ∀ {ps : List Part},
    partsFor N K l = .ok ps → ∀ q ∈ ps, q.nMachine = (N.base.machines q.pre).length := by
  induction l with
  | nil =>
    intro ps h
    simp only [partsFor] at h
    cases h
    intro q h; cases h
  | cons p l ih =>
    intro ps h
    simp only [partsFor] at h
    split at h
    · cases h
    · rename_i q hq
      split at h
      · cases h
      · rename_i qs hqs
        cases h
        unfold partFor at hq
        split at hq
        · cases hq
        · cases hq
          intro q hq
          rcases List.mem_cons.mp hq with rfl | hq
          · rfl
          · exact ih hqs q hq

theorem parts_nMachine {N : Net} {K : Keys} {ps : List Part} (h : vertexParts N K = .ok ps) :
    ∀ q ∈ ps, q.nMachine = (N.base.machines q.pre).length := by
  unfold vertexParts at h
  split at h
  · cases h
  · exact partsFor_nMachine _ h

/-- The partitions that the allocator sees: one for each pair that is used. -/
theorem vertexParts_ok {N : Net} {K : Keys} {ps : List Part} (h : vertexParts N K = .ok ps) :
    (ps.map (fun p => (p.pre, p.ident))).Nodup ∧ (∀ q ∈ ps, Seen N K q ∧ Used N K q.pre q.ident) ∧
    ∀ a ident, Used N K a ident → ∃ q ∈ ps, q.pre = a ∧ q.ident = ident := by
  unfold vertexParts at h
  split at h
  · cases h
  · rename_i r hr
    obtain ⟨h1, h2⟩ := partsFor_ok _ h
    obtain ⟨k1, k2⟩ := orderedSet_ok (r.map (fun p => (p.pre, p.ident)) ++ K.extra)
    have hmem : ∀ a ident, (a, ident) ∈ ps.map (fun p => (p.pre, p.ident)) ↔ Used N K a ident := by
      intro a ident
      rw [h1, k2, List.mem_append]
      unfold Used
      rw [(Router.C78_partitions hr).2.1 a ident]
      constructor
      · rintro (h | h)
        · obtain ⟨p, hp, he⟩ := List.mem_map.mp h
          injection he with e1 e2
          exact Or.inl ⟨p, hp, e1, e2⟩
        · exact Or.inr h
      · rintro (⟨p, hp, rfl, rfl⟩ | h)
        · exact Or.inl (List.mem_map.mpr ⟨p, hp, rfl⟩)
        · exact Or.inr h
    refine ⟨h1 ▸ k1, fun q hq => ⟨h2 q hq, ?_⟩, fun a ident hu => ?_⟩
    · exact (hmem _ _).mp (List.mem_map.mpr ⟨q, hq, rfl⟩)
    · obtain ⟨q, hq, he⟩ := List.mem_map.mp ((hmem a ident).mpr hu)
      injection he with e1 e2
      exact ⟨q, hq, e1, e2⟩

section
variable {N : Net} {K : Keys} {ps : List Part}

theorem parts_app (hN : NetContract N) (h : vertexParts N K = .ok ps) :
    ∀ q ∈ ps, ∀ v ∈ q.outgoing, N.base.appOf v.id = some q.pre := by
  intro q hq v hv
  obtain ⟨ms, h1, h2⟩ := ((vertexParts_ok h).2.1 q hq).1.out
  rw [h2] at hv
  obtain ⟨m, hm, rfl⟩ := List.mem_map.mp hv
  exact hN.sends _ _ ms m h1 hm

theorem parts_wf (hN : NetContract N) (hK : KeyContract N K) (h : vertexParts N K = .ok ps) : WF ps := by
  obtain ⟨h1, h2, h3⟩ := vertexParts_ok h
  refine ⟨h1, ?_, ?_, ?_⟩
  · rw [List.Nodup, List.pairwise_flatMap]
    constructor
    · intro q hq
      obtain ⟨ms, k1, k2⟩ := (h2 q hq).1.out
      rw [k2, List.map_map]
      have := hK.once _ _ ms k1
      rw [List.pairwise_map]
      refine List.Pairwise.imp ?_ this
      intro a b hab he
      apply hab
      simp only [Function.comp, Alloc.mk, Keys.vertex, Prod.mk.injEq, VId.mach.injEq, true_and] at he
      exact he
    · rw [List.Nodup, List.pairwise_map] at h1
      refine List.Pairwise.imp_of_mem ?_ h1
      intro p q hp hq hpq x hx y hy he
      obtain ⟨v, hv, rfl⟩ := List.mem_map.mp hx
      obtain ⟨u, hu, rfl⟩ := List.mem_map.mp hy
      simp only [Alloc.mk, Prod.mk.injEq, VId.mach.injEq] at he
      obtain ⟨e1, e2⟩ := he
      have a1 := parts_app hN h p hp v hv
      have a2 := parts_app hN h q hq u hu
      rw [e2, a2] at a1
      apply hpq
      rw [e1, Option.some.inj a1]
  · intro p hp akm hf
    rw [(h2 p hp).1.fixed] at hf
    exact hK.valid _ _ _ hf
  · intro p hp v hv km hf
    obtain ⟨ms, k1, k2⟩ := (h2 p hp).1.out
    rw [k2] at hv
    obtain ⟨m, hm, rfl⟩ := List.mem_map.mp hv
    exact hK.validM _ _ _ hf

theorem parts_idle (hK : KeyContract N K) (h : vertexParts N K = .ok ps) : NoIdleFixed ps := by
  obtain ⟨h1, h2, h3⟩ := vertexParts_ok h
  intro p hp ho
  obtain ⟨⟨⟨ms, k1, k2⟩, k3⟩, k4⟩ := h2 p hp
  rw [ho] at k2
  rw [List.map_eq_nil_iff.mp k2.symm] at k1
  rw [k3]
  exact hK.idle _ _ k4 k1

theorem parts_counted (hK : KeyContract N K) (h : vertexParts N K = .ok ps) : Counted ps := by
  obtain ⟨h1, h2, h3⟩ := vertexParts_ok h
  intro p hp hf hz
  obtain ⟨⟨⟨ms, k1, k2⟩, k3⟩, k4⟩ := h2 p hp
  rw [k2, List.length_map]
  refine hK.counted _ _ ms k4 k1 (by rw [← k3]; exact hf) ?_
  intro m hm
  exact hz (K.vertex p.ident m) (by rw [k2]; exact List.mem_map.mpr ⟨m, hm, rfl⟩)

theorem parts_single (hN : NetContract N) (hK : KeyContract N K) (h : vertexParts N K = .ok ps) :
    ∀ q ∈ ps, q.fixed ≠ none → Gen.FixedWell ps q := by
  obtain ⟨h1, h2, h3⟩ := vertexParts_ok h
  intro p hp hf
  obtain ⟨⟨⟨ms, k1, k2⟩, k3⟩, k4⟩ := h2 p hp
  rcases hK.single _ _ ms k4 k1 (by rw [← k3]; exact hf) with hl | hl | ⟨akm, n, m, hakm, hl⟩
  · exact .one (by rw [k2, List.length_map]; exact hl)
  · refine .holes ⟨?_, ?_⟩
    · intro v hv
      rw [k2] at hv
      obtain ⟨m, hm, rfl⟩ := List.mem_map.mp hv
      exact hl.each m hm
    · intro v hv v' hv' hne k k' hk hk'
      rw [k2] at hv hv'
      obtain ⟨m, hm, rfl⟩ := List.mem_map.mp hv
      obtain ⟨m', hm', rfl⟩ := List.mem_map.mp hv'
      exact hl.apart m hm m' hm' (fun h => hne (by rw [h])) k k' hk hk'
  · refine .line akm n m (k3.trans hakm) ⟨hl.bits, hl.mask, ?_, by rw [k2, List.length_map]; exact hl.fits, ?_⟩ ?_ ?_
    · rw [k2, List.pairwise_map]
      exact hl.order
    · intro i v hv
      rw [k2, List.getElem?_map, Option.map_eq_some_iff] at hv
      obtain ⟨u, hu, rfl⟩ := hv
      exact hl.each i u hu
    · intro q' hq' u hu v hv he
      obtain ⟨⟨⟨ms', k1', k2'⟩, -⟩, -⟩ := h2 q' hq'
      rw [k2'] at hu
      rw [k2] at hv
      obtain ⟨m1, -, rfl⟩ := List.mem_map.mp hu
      obtain ⟨m2, -, rfl⟩ := List.mem_map.mp hv
      have he' : m1 = m2 := he
      subst he'
      rfl
    · intro q' hq' he
      rw [k2, List.length_map, parts_nMachine h q' hq', he]
      exact List.Nodup.length_le_of_subset (hK.once _ _ ms k1)
        (fun m hm => (hN.owns _ _).2 (hN.sends _ _ ms m k1 hm))

theorem covers_word {k m : Word} {x : Word} (h : Alloc.Covers k.toNat m.toNat x) : x &&& m = k := by
  unfold Alloc.Covers at h
  rw [← BitVec.toNat_and] at h
  exact BitVec.eq_of_toNat_eq h

/-- The keys of a source with a fixed key are among those fixed for the application vertex. -/
theorem owned_fixed (hN : NetContract N) (hK : KeyContract N K) (h : vertexParts N K = .ok ps)
    {infos : Infos} (hG : Alloc.Given ps infos) {q : Part} (hq : q ∈ ps)
    {akm : Word × Word} (hf : q.fixed = some akm) {s : VId × Nat} (hs : FromPart q s) {x : Word}
    (hx : (ofInfos infos N.base.appOf).Owns s x) : x &&& akm.2 = akm.1 := by
  have hwf := parts_wf hN hK h
  have hi := parts_idle hK h
  have hc := parts_counted hK h
  have hne : q.outgoing ≠ [] := fun h0 => by rw [hi q hq h0] at hf; cases hf
  obtain ⟨fl, -, ha⟩ := id hG
  obtain ⟨d, z', used, ab, L, sh⟩ := Alloc.allocate_ok hwf hi hc ha
  obtain ⟨k, m, hg⟩ := Gen.good_of hwf hi hc ha hq hne hs
  rw [hg.owns sh.nodup] at hx
  obtain ⟨c1, c2, c3⟩ := Alloc.C20_fixed_honoured_partial hwf hi hc ha hq hf
  obtain ⟨⟨j, hj, hof, hkm⟩, -⟩ := hg
  rcases hs with rfl | ⟨v, hv, rfl⟩
  · have := c1 j hj hof
    rw [hkm] at this
    cases this
    exact covers_word hx
  · obtain ⟨-, d2, d3, d4⟩ := c3 v hv
    have := d2 j hj hof
    rw [hkm] at this
    cases this
    have hx' := covers_word hx
    have hin : (v.fixed.getD akm).2 &&& akm.2 = akm.2 := by
      cases hvf : v.fixed with
      | none => simp
      | some km =>
        obtain ⟨⟨⟨ms, k1, k2⟩, k3⟩, k4⟩ := (vertexParts_ok h).2.1 q hq
        rw [k2] at hv
        obtain ⟨m, hm, rfl⟩ := List.mem_map.mp hv
        exact hK.inside _ _ ms akm m km k4 k1 (by rw [← k3]; exact hf) hm hvf
    rw [← d4, ← hx', BitVec.and_assoc, hin]

/-- The keys of a machine vertex are among those of its application vertex. -/
theorem owned_app (hN : NetContract N) (hK : KeyContract N K) (h : vertexParts N K = .ok ps)
    {infos : Infos} (hG : Alloc.Given ps infos) {q : Part} (hq : q ∈ ps)
    {s : VId × Nat} (hs : FromPart q s) (hne : q.outgoing ≠ []) {x : Word}
    (hx : (ofInfos infos N.base.appOf).Owns s x) :
    (ofInfos infos N.base.appOf).Owns (.app q.pre, q.ident) x := by
  have hwf := parts_wf hN hK h
  have hi := parts_idle hK h
  have hc := parts_counted hK h
  cases hf : q.fixed with
  | none => exact Gen.mach_in_app hwf hi hc hG _ hq hf hs x hx
  | some akm =>
    have hx' := owned_fixed hN hK h hG hq hf hs hx
    obtain ⟨fl, -, ha⟩ := id hG
    obtain ⟨d, z', used, ab, L, sh⟩ := Alloc.allocate_ok hwf hi hc ha
    obtain ⟨k, m, hg⟩ := Gen.good_of hwf hi hc ha hq hne (.inl rfl)
    rw [hg.owns sh.nodup]
    obtain ⟨c1, -, -⟩ := Alloc.C20_fixed_honoured_partial hwf hi hc ha hq hf
    obtain ⟨⟨j, hj, hof, hkm⟩, -⟩ := hg
    have := c1 j hj hof
    rw [hkm] at this
    cases this
    unfold Alloc.Covers
    rw [← BitVec.toNat_and, hx']

/-- What `allocate` returns is ready for the generators, for sources as they are on a chip. -/
theorem parts_ready (hN : NetContract N) (hK : KeyContract N K) (h : vertexParts N K = .ok ps)
    {infos : Infos} (hG : Alloc.Given ps infos) {srcs : List (VId × Nat)}
    (hn : srcs.Nodup) (hfrom : ∀ s ∈ srcs, ∃ q ∈ ps, q.outgoing ≠ [] ∧ FromPart q s)
    (hmix : ∀ q ∈ ps, (.app q.pre, q.ident) ∈ srcs → ∀ v ∈ q.outgoing, (.mach v.id, q.ident) ∉ srcs) :
    Gen.Ready (ofInfos infos N.base.appOf) srcs := by
  refine Gen.allocated_ready (parts_wf hN hK h) (parts_idle hK h) (parts_counted hK h) hG
    (parts_app hN h) hn hfrom hmix (parts_single hN hK h) ?_
  intro q hq q' hq' hf hf' hne s t hs ht x ⟨hxs, hxt⟩
  obtain ⟨h1, h2, h3⟩ := vertexParts_ok h
  cases e : q.fixed with
  | none => exact hf e
  | some akm =>
    cases e' : q'.fixed with
    | none => exact hf' e'
    | some akm' =>
      refine hK.apart _ _ _ _ (h2 q hq).2 (h2 q' hq').2 ?_ akm akm' (by rw [← (h2 q hq).1.fixed]; exact e)
        (by rw [← (h2 q' hq').1.fixed]; exact e') x
        ⟨owned_fixed hN hK h hG hq e hs hxs, owned_fixed hN hK h hG hq' e' ht hxt⟩
      intro he
      exact hne (Gen.map_inj h1 hq hq' he)

end

end Pacman.Pipe
