import Verif.Spec.MappingSucceeds
import Verif.Proofs.PipelineKeys
import Verif.Proofs.Device2D
import Verif.Proofs.SplitterNet
import Verif.Props.AllocatorFits
/-
The allocator of keys returns where the keys asked for fit: lemmas.
-/

namespace Pacman.Pipe

open Alloc (Part bitsNeeded maxKeys)
open Router (Net AppPart)

theorem partsFor_succeeds {N : Net} {K : Keys} (l : List (Nat × Nat))
    (h : ∀ x ∈ l, ∃ ms, N.outgoing x.2 x.1 = some ms) : ∃ ps, partsFor N K l = .ok ps := by
  induction l with
  | nil => exact ⟨[], rfl⟩
  | cons x l ih =>
    obtain ⟨ms, hms⟩ := h x List.mem_cons_self
    obtain ⟨ps, hps⟩ := ih (fun y hy => h y (List.mem_cons_of_mem _ hy))
    exact ⟨⟨x.1, x.2, ms.map (K.vertex x.2), K.fixed x.1 x.2, (N.base.machines x.1).length⟩ :: ps, by
      simp only [partsFor, partFor, hms, hps]⟩

end Pacman.Pipe

namespace Pacman.Split

open Router (Ctx AppPart Net Leaves NetContract)
open Alloc (bitsNeeded)
open Pipe (Keys Used KeyContract allocateFor vertexParts vertexParts_ok)

section
variable {E : Env} {W : World} {C : Ctx} {parts : List AppPart} {vs : List Nat} {K : Keys}

theorem net_used {a ident : Nat} (h : Used (netOf E W C parts vs) K a ident) :
    (a, ident) ∈ parts.map (fun p => (p.pre, p.ident)) ++ K.extra := by
  rcases h with h | h
  · obtain ⟨p, h1, rfl, rfl⟩ := net_leaves h
    exact List.mem_append_left _ (List.mem_map.2 ⟨p, h1, rfl⟩)
  · exact List.mem_append_right _ h

theorem net_sent {a ident : Nat} {ms : List Nat} (h : (netOf E W C parts vs).outgoing ident a = some ms) :
    Sends E W (a, ident) ms := net_outgoing.1 h

theorem net_terms (hK : KeysFit E W parts K) : KeyTerms (netOf E W C parts vs) K where
  valid := hK.valid
  validM := hK.validM
  idle := by
    intro a ident h1 h2
    cases h : K.fixed a ident with
    | none => rfl
    | some akm =>
      exact absurd rfl (hK.single _ (net_used h1) akm h _ (net_sent h2)).1
  counted := fun a ident ms h1 h2 h3 h4 => hK.counted _ (net_used h1) h3 ms (net_sent h2) h4
  single := by
    intro a ident ms h1 h2 h3
    obtain ⟨akm, h⟩ := Option.ne_none_iff_exists'.1 h3
    exact (hK.single _ (net_used h1) akm h _ (net_sent h2)).2.1
  inside := by
    intro a ident ms akm m km h1 h2 h3 h4 h5
    exact ((hK.single _ (net_used h1) akm h3 _ (net_sent h2)).2.2 m h4 km h5).2
  apart := fun a ident b ident' h1 h2 h3 x y h4 h5 k => hK.apart _ (net_used h1) _ (net_used h2) h3 x y h4 h5 k

theorem net_clear {fl : Bool} (h : KeysClear fl E W parts K) : Pipe.Clear fl (netOf E W C parts vs) K := by
  rcases h with h | h | ⟨x, hx, hf, ms, hs, h⟩
  · exact .inl h
  · exact .inr (.inl (fun a ident hu => h _ (net_used hu)))
  · right; right
    refine ⟨x.1, x.2, ms, ?_, net_outgoing.2 hs, hf, fun b ident' ms' hu ho hf' => h _ (net_used hu) hf' _ (net_sent ho)⟩
    rcases List.mem_append.1 hx with hx | hx
    · obtain ⟨p, hp, rfl⟩ := List.mem_map.1 hx
      exact .inl (.inl ⟨p, hp, rfl, rfl⟩)
    · exact .inr hx

/-- Without fixed keys. -/
theorem KeysFit.of_free (free : ∀ a ident, K.fixed a ident = none) (freeM : ∀ m ident, K.machFixed m ident = none)
    (asked : ∀ x ∈ K.extra, ∃ t ms, (W.app x.1).splitter = some t ∧ outVerts E W t = .ok ms)
    (counted : ∀ x ∈ pairs parts K, ∀ t ms, (W.app x.1).splitter = some t →
      outVerts E W t = .ok ms → (∀ m ∈ ms, K.nKeys m x.2 = 0) → ms.length ≤ 1)
    (room : ∃ b c, b + c ≤ 32 ∧ parts.length + K.extra.length ≤ 2 ^ c ∧
      ∀ x ∈ pairs parts K, ∀ t ms, (W.app x.1).splitter = some t →
        outVerts E W t = .ok ms → ∃ i j, i + j ≤ b ∧ ms.length ≤ 2 ^ i ∧ ∀ m ∈ ms, K.nKeys m x.2 ≤ 2 ^ j) :
    KeysFit E W parts K where
  valid := fun a ident km h => by rw [free] at h; cases h
  validM := fun m ident km h => by rw [freeM] at h; cases h
  asked := by
    intro x hx
    obtain ⟨t, ms, h1, h2⟩ := asked x hx
    exact ⟨ms, t, h1, h2⟩
  freeM := fun x _ _ ms _ m _ => freeM m x.2
  counted := by
    rintro x hx - ms ⟨t, h1, h2⟩ h3
    exact counted x hx t ms h1 h2 h3
  single := fun x _ akm h => by rw [free] at h; cases h
  apart := fun x _ y _ _ a b h => by rw [free] at h; cases h
  room := by
    obtain ⟨b, c, h1, h2, h3⟩ := room
    refine ⟨b, [], by omega, ?_, fun x _ km h => (by rw [free] at h; cases h), ?_⟩
    · exact Nat.le_trans h2 (Nat.pow_le_pow_right (by decide) (by omega))
    · rintro x hx - ms ⟨t, h4, h5⟩
      exact h3 x hx t ms h4 h5

theorem addVertices_net (hd : ∀ v ∈ vs, ∃ s, (W.app v).splitter = some s) (N : Net)
    (hN : N.internals = fun v => (W.app v).splitter.map (fun _ => [])) :
    ∀ ps ss, Router.addVertices N vs ps ss = .ok ps := by
  induction vs with
  | nil => intro ps ss; rfl
  | cons v vs ih =>
    intro ps ss
    obtain ⟨s, hs⟩ := hd v List.mem_cons_self
    unfold Router.addVertices
    rw [hN]
    simp only [hs, Option.map_some]
    exact ih (fun u hu => hd u (List.mem_cons_of_mem _ hu)) ps ss

theorem net_partitions (hd : Done E W vs) : Router.appPartitions (netOf E W C parts vs) = .ok parts :=
  addVertices_net hd.some_ _ rfl _ _

theorem orderedSet_length (l : List (Nat × Nat)) : (Pipe.orderedSet l).length ≤ l.length := by
  obtain ⟨h1, h2⟩ := Pipe.orderedSet_ok l
  exact List.Nodup.length_le_of_subset h1 (fun x hx => (h2 x).1 hx)

/-- Where the keys fit, the allocator returns. -/
theorem net_allocated {fl : Bool} (hd : Done E W vs) (hN : NetContract (netOf E W C parts vs))
    (hout : ∀ p ∈ parts, ∃ m, Sender E W p.pre m) (hK : KeysFit E W parts K) :
    ∃ infos, allocateFor fl (netOf E W C parts vs) K = .ok infos := by
  have hKC := net_keys (C := C) hd (net_terms (C := C) (vs := vs) hK)
  have hasked : ∀ x ∈ parts.map (fun p => (p.pre, p.ident)) ++ K.extra,
      ∃ ms, (netOf E W C parts vs).outgoing x.2 x.1 = some ms := by
    intro x hx
    rcases List.mem_append.1 hx with hx | hx
    · obtain ⟨p, hp, rfl⟩ := List.mem_map.1 hx
      obtain ⟨m, t, ms, h1, h2, -⟩ := hout p hp
      exact ⟨ms, net_outgoing.2 ⟨t, h1, h2⟩⟩
    · obtain ⟨ms, t, h1, h2⟩ := hK.asked x hx
      exact ⟨ms, net_outgoing.2 ⟨t, h1, h2⟩⟩
  obtain ⟨ps, hps⟩ := Pipe.partsFor_succeeds (N := netOf E W C parts vs) (K := K)
    (Pipe.orderedSet (parts.map (fun p => (p.pre, p.ident)) ++ K.extra))
    (fun x hx => hasked x (((Pipe.orderedSet_ok _).2 x).1 hx))
  have hvp : vertexParts (netOf E W C parts vs) K = .ok ps := by
    unfold vertexParts
    rw [net_partitions hd]
    exact hps
  have hlen : ps.length ≤ parts.length + K.extra.length := by
    have h1 := congrArg List.length (Pipe.partsFor_ok _ hps).1
    rw [List.length_map] at h1
    rw [h1]
    refine Nat.le_trans (orderedSet_length _) ?_
    rw [List.length_append, List.length_map]
    exact Nat.le_refl _
  obtain ⟨w, L, hw, hfit, hhit, hroom⟩ := hK.room
  have hpart : ∀ q ∈ ps, ∃ ms, Sends E W (q.pre, q.ident) ms ∧ q.outgoing = ms.map (K.vertex q.ident) ∧
      q.fixed = K.fixed q.pre q.ident ∧ (q.pre, q.ident) ∈ pairs parts K := by
    intro q hq
    obtain ⟨⟨⟨ms, h1, h2⟩, h3⟩, h4⟩ := (vertexParts_ok hvp).2.1 q hq
    exact ⟨ms, net_sent h1, h2, h3, net_used h4⟩
  obtain ⟨infos, hi⟩ := (Alloc.C126_iff (flexible := fl) (Pipe.parts_wf hN hKC hvp) (Pipe.parts_idle hKC hvp)
    (Pipe.parts_counted hKC hvp)).2 ⟨by
    intro q hq
    obtain ⟨ms, h1, h2, h3, h4⟩ := hpart q hq
    cases hf : K.fixed q.pre q.ident with
    | none =>
      refine Or.inl ⟨h3.trans hf, fun v hv => ?_⟩
      rw [h2] at hv
      obtain ⟨m, hm, rfl⟩ := List.mem_map.1 hv
      exact hK.freeM _ h4 hf ms h1 m hm
    | some akm =>
      obtain ⟨hne, hal, h5⟩ := hK.single _ h4 akm hf ms h1
      refine Or.inr ⟨akm, h3.trans hf, ?_⟩
      have hall : (∀ m ∈ ms, ∃ km, K.machFixed m q.ident = some km) → ∀ v ∈ q.outgoing,
          ∃ km, v.fixed = some km ∧ km.1 &&& akm.2 = akm.1 := by
        intro hev v hv
        rw [h2] at hv
        obtain ⟨m, hm, rfl⟩ := List.mem_map.1 hv
        obtain ⟨km, hkm⟩ := hev m hm
        exact ⟨km, hkm, (h5 m hm km hkm).1⟩
      rcases hal with hl | hl | ⟨akm', n, m, -, hl⟩
      · match ms, hne, hl with
        | [m], _, _ =>
          cases hm : K.machFixed m q.ident with
          | none => exact Or.inr ⟨_, h2, hm⟩
          | some km =>
            refine Or.inl (hall (fun m' hm' => ?_))
            rw [List.mem_singleton] at hm'
            subst hm'
            exact ⟨km, hm⟩
      · refine Or.inl (hall (fun m hm => ?_))
        obtain ⟨k, hk, -⟩ := hl.each m hm
        exact ⟨k, hk⟩
      · refine Or.inl (hall (fun u hu => ?_))
        obtain ⟨i, hi⟩ := List.mem_iff_getElem?.1 hu
        obtain ⟨-, k, hk, -⟩ := hl.each i u hi
        exact ⟨k, hk⟩, w, hw, by
    intro q hq hf
    obtain ⟨ms, h1, h2, h3, h4⟩ := hpart q hq
    obtain ⟨i, j, k1, k2, k3⟩ := hroom _ h4 (h3.symm.trans hf) ms h1
    refine ⟨j, i, fun v hv => ?_, by rw [h2, List.length_map]; exact k2, by omega⟩
    rw [h2] at hv
    obtain ⟨m, hm, rfl⟩ := List.mem_map.1 hv
    exact k3 m hm, L, by
    rintro i ⟨km, ⟨q, hq, h0⟩, k, h5, rfl⟩
    obtain ⟨ms, h1, h2, h3, h4⟩ := hpart q hq
    rcases h0 with h0 | ⟨v, hv, h0⟩
    · exact hhit _ h4 km (h3.symm.trans h0) k h5
    · rw [h2] at hv
      obtain ⟨m, hm, rfl⟩ := List.mem_map.1 hv
      cases hf : K.fixed q.pre q.ident with
      | none =>
        have := hK.freeM _ h4 hf ms h1 m hm
        rw [show K.machFixed m q.ident = some km from h0] at this
        cases this
      | some akm =>
        obtain ⟨h7, h8⟩ := (hK.single _ h4 akm hf ms h1).2.2 m hm km h0
        refine hhit _ h4 akm hf k ?_
        rw [← h8, ← BitVec.and_assoc, h5, h7], by
    have := List.length_filter_le (fun p : Alloc.Part => decide (p.outgoing ≠ [])) ps
    omega⟩
  refine ⟨infos, ?_⟩
  unfold allocateFor
  rw [hvp]
  exact hi

end

end Pacman.Split
