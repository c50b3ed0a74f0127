import Verif.Proofs.RouterFollow
import Verif.Proofs.RouterEnds
import Verif.Spec.RouterGraph
/-
Lemmas about the routing of a whole graph.
-/

namespace Pacman.Router

open Alloc (VId)
open RPath

/-! ### `get_app_partitions` -/

/-- The pair by which partitions are told apart. -/
def AppPart.key (p : AppPart) : Nat × Nat := (p.pre, p.ident)

theorem addInternals_ok (v : Nat) (is : List (Nat × Nat × List Nat)) :
    ∀ (ps : List AppPart) (ss : List (Nat × Nat)), (∀ k, k ∈ ss ↔ k ∈ ps.map AppPart.key) →
    ∃ extra : List AppPart, (addInternals v is ps ss).1 = ps ++ extra ∧
      (∀ k, k ∈ (addInternals v is ps ss).2 ↔ k ∈ (ps ++ extra).map AppPart.key) ∧
      (∀ e ∈ extra, e.pre = v ∧ e.edges = [] ∧ e.key ∉ ps.map AppPart.key ∧ ∃ i ∈ is, i.1 = e.ident) ∧
      (∀ i ∈ is, (v, i.1) ∈ (ps ++ extra).map AppPart.key) ∧ (extra.map AppPart.key).Nodup := by
  induction is with
  | nil =>
    intro ps ss h
    refine ⟨[], by simp [addInternals], by simpa [addInternals] using h, ?_, ?_, ?_⟩
    · intro e he; cases he
    · intro i hi; cases hi
    · exact List.nodup_nil
  | cons i is ih =>
    intro ps ss h
    unfold addInternals
    split
    · rename_i hin
      obtain ⟨extra, h1, h2, h3, h4, h5⟩ := ih ps ss h
      refine ⟨extra, h1, h2, ?_, ?_, h5⟩
      · intro e he
        obtain ⟨k1, k2, k3, j, k4, k5⟩ := h3 e he
        exact ⟨k1, k2, k3, j, List.mem_cons_of_mem _ k4, k5⟩
      · intro j hj
        rcases List.mem_cons.mp hj with rfl | hj
        · rw [List.map_append]
          exact List.mem_append.mpr (Or.inl ((h _).mp hin))
        · exact h4 j hj
    · rename_i hin
      obtain ⟨extra, h1, h2, h3, h4, h5⟩ := ih (ps ++ [⟨v, i.1, []⟩]) (ss ++ [(v, i.1)]) (by
        intro k
        rw [List.map_append, List.mem_append, List.mem_append, h k]
        rfl)
      rw [List.append_assoc] at h1 h2 h4
      refine ⟨[⟨v, i.1, []⟩] ++ extra, h1, h2, ?_, ?_, ?_⟩
      · intro e he
        rcases List.mem_append.mp he with he | he
        · rw [List.mem_singleton] at he
          subst he
          exact ⟨rfl, rfl, fun hk => hin ((h _).mpr hk), i, List.mem_cons_self, rfl⟩
        · obtain ⟨k1, k2, k3, j, k4, k5⟩ := h3 e he
          refine ⟨k1, k2, fun hk => k3 ?_, j, List.mem_cons_of_mem _ k4, k5⟩
          rw [List.map_append]
          exact List.mem_append.mpr (Or.inl hk)
      · intro j hj
        rcases List.mem_cons.mp hj with rfl | hj
        · simp [AppPart.key]
        · exact h4 j hj
      · rw [List.map_append]
        refine List.nodup_append.mpr ⟨by simp, h5, ?_⟩
        intro a ha b hb hab
        subst hab
        obtain ⟨e, he, hk⟩ := List.mem_map.mp hb
        refine (h3 e he).2.2.1 ?_
        rw [List.map_append, hk]
        exact List.mem_append.mpr (Or.inr ha)

theorem addVertices_ok (N : Net) (vs : List Nat) :
    ∀ (ps : List AppPart) (ss : List (Nat × Nat)) (r : List AppPart),
    (∀ k, k ∈ ss ↔ k ∈ ps.map AppPart.key) → addVertices N vs ps ss = .ok r →
    ∃ extra : List AppPart, r = ps ++ extra ∧
      (∀ e ∈ extra, e.edges = [] ∧ e.key ∉ ps.map AppPart.key ∧
        e.pre ∈ vs ∧ ∃ is, N.internals e.pre = some is ∧ ∃ i ∈ is, i.1 = e.ident) ∧
      (∀ v ∈ vs, ∃ is, N.internals v = some is ∧ ∀ i ∈ is, (v, i.1) ∈ r.map AppPart.key) ∧
      (extra.map AppPart.key).Nodup := by
  induction vs with
  | nil =>
    intro ps ss r _ hr
    simp only [addVertices] at hr
    cases hr
    refine ⟨[], by simp, ?_, ?_, List.nodup_nil⟩
    · intro e he; cases he
    · intro i hi; cases hi
  | cons v vs ih =>
    intro ps ss r h hr
    simp only [addVertices] at hr
    cases hi : N.internals v with
    | none => simp only [hi] at hr; cases hr
    | some is =>
      simp only [hi] at hr
      obtain ⟨x1, h1, h2, h3, h4, h5⟩ := addInternals_ok v is ps ss h
      rw [h1] at hr
      obtain ⟨x2, k1, k2, k3, k4⟩ := ih _ _ r h2 hr
      refine ⟨x1 ++ x2, by rw [k1, List.append_assoc], ?_, ?_, ?_⟩
      · intro e he
        rcases List.mem_append.mp he with he | he
        · obtain ⟨j1, j2, j3, i, j4, j5⟩ := h3 e he
          refine ⟨j2, j3, ?_, is, ?_, i, j4, j5⟩
          · rw [j1]; exact List.mem_cons_self
          · rw [j1]; exact hi
        · obtain ⟨j1, j2, j3, j4⟩ := k2 e he
          refine ⟨j1, fun hk => j2 ?_, List.mem_cons_of_mem _ j3, j4⟩
          rw [List.map_append]
          exact List.mem_append.mpr (Or.inl hk)
      · intro w hw
        rcases List.mem_cons.mp hw with rfl | hw
        · refine ⟨is, hi, fun i hii => ?_⟩
          rw [k1, List.map_append]
          exact List.mem_append.mpr (Or.inl (h4 i hii))
        · exact k3 w hw
      · rw [List.map_append]
        refine List.nodup_append.mpr ⟨h5, k4, ?_⟩
        intro a ha b hb hab
        subst hab
        obtain ⟨e, he, hk⟩ := List.mem_map.mp hb
        refine (k2 e he).2.1 ?_
        rw [List.map_append, hk]
        exact List.mem_append.mpr (Or.inr ha)

theorem appPartitions_ok {N : Net} {r : List AppPart} (h : appPartitions N = .ok r) :
    ∃ extra : List AppPart, r = N.parts ++ extra ∧
      (∀ e ∈ extra, e.edges = [] ∧ e.key ∉ N.parts.map AppPart.key ∧
        e.pre ∈ N.verts ∧ ∃ is, N.internals e.pre = some is ∧ ∃ i ∈ is, i.1 = e.ident) ∧
      (∀ v ∈ N.verts, ∃ is, N.internals v = some is ∧ ∀ i ∈ is, (v, i.1) ∈ r.map AppPart.key) ∧
      (extra.map AppPart.key).Nodup :=
  addVertices_ok N N.verts N.parts _ r (fun _ => Iff.rfl) h

theorem addVertices_total (N : Net) (vs : List Nat) : ∀ (ps : List AppPart) (ss : List (Nat × Nat)),
    (∀ v ∈ vs, (N.internals v).isSome = true) → ∃ r, addVertices N vs ps ss = .ok r := by
  induction vs with
  | nil => intro ps ss _; exact ⟨ps, rfl⟩
  | cons v vs ih =>
    intro ps ss h
    obtain ⟨is, hi⟩ := Option.isSome_iff_exists.mp (h v List.mem_cons_self)
    simp only [addVertices, hi]
    exact ih _ _ (fun w hw => h w (List.mem_cons_of_mem _ hw))

theorem addVertices_error (N : Net) (vs : List Nat) : ∀ (ps : List AppPart) (ss : List (Nat × Nat))
    {err : PyErr}, addVertices N vs ps ss = .error err →
    err = .configuration ∧ ∃ v ∈ vs, N.internals v = none := by
  induction vs with
  | nil => intro ps ss err h; cases h
  | cons v vs ih =>
    intro ps ss err h
    simp only [addVertices] at h
    cases hi : N.internals v with
    | none =>
      simp only [hi] at h
      cases h
      exact ⟨rfl, v, List.mem_cons_self, hi⟩
    | some is =>
      simp only [hi] at h
      obtain ⟨h1, w, h2, h3⟩ := ih _ _ h
      exact ⟨h1, w, List.mem_cons_of_mem _ h2, h3⟩

theorem appPartitions_nodup {N : Net} (hd : (N.parts.map AppPart.key).Nodup) {r : List AppPart}
    (h : appPartitions N = .ok r) : (r.map AppPart.key).Nodup := by
  obtain ⟨extra, rfl, h1, _, h2⟩ := appPartitions_ok h
  rw [List.map_append]
  refine List.nodup_append.mpr ⟨hd, h2, ?_⟩
  intro a ha b hb hab
  subst hab
  obtain ⟨e, he, rfl⟩ := List.mem_map.mp hb
  exact (h1 e he).2.1 ha

/-! ### From the graph to its partitions -/

/-- `p` is one of the partitions that are routed, `is` the internal partitions of its source. -/
structure Routed (N : Net) (p : AppPart) (is : List (Nat × Nat × List Nat)) : Prop where
  internals : N.internals p.pre = some is
  edges : p.edges = [] ∨ p ∈ N.parts
  leaves : Leaves N p.pre p.ident

theorem routed_of_mem {N : Net} {r : List AppPart} (h : appPartitions N = .ok r) {p : AppPart}
    (hp : p ∈ r) {is : List (Nat × Nat × List Nat)} (hi : N.internals p.pre = some is) :
    Routed N p is := by
  obtain ⟨extra, rfl, h1, _, _⟩ := appPartitions_ok h
  rcases List.mem_append.mp hp with hp | hp
  · exact ⟨hi, Or.inr hp, Or.inl ⟨p, hp, rfl, rfl⟩⟩
  · obtain ⟨k1, _, k3, is', k4, k5⟩ := h1 p hp
    exact ⟨hi, Or.inl k1, Or.inr ⟨k3, is', k4, k5⟩⟩

theorem Routed.contract {N : Net} (hN : NetContract N) {p : AppPart}
    {is : List (Nat × Nat × List Nat)} (hp : Routed N p is) :
    Contract (N.ctx p.ident) (N.partition p is) where
  merges := hN.merges
  owns := hN.owns
  sends := hN.sends p.ident
  within := by
    intro q hq
    obtain ⟨i, hi, rfl⟩ := List.mem_map.mp hq
    exact hN.within _ _ hp.internals i (List.mem_filter.mp hi).1
  iter := hN.iter
  placed := hN.placed
  vector := hN.vector
  sources := by
    intro e he v hv s hs
    obtain ⟨d, hd, rfl⟩ := List.mem_map.mp he
    rcases hp.edges with h0 | h0
    · rw [h0] at hd; cases hd
    · exact hN.sources p h0 d hd v hv s hs

theorem sends_iff {N : Net} {p : AppPart} {is : List (Nat × Nat × List Nat)} (hp : Routed N p is)
    (m : Nat) : Sends (N.ctx p.ident) (N.partition p is) m ↔ NetSends N p.pre p.ident m := by
  constructor
  · rintro (h | ⟨q, hq, rfl⟩)
    · exact Or.inl h
    · obtain ⟨i, hi, rfl⟩ := List.mem_map.mp hq
      obtain ⟨h1, h2⟩ := List.mem_filter.mp hi
      exact Or.inr ⟨is, hp.internals, i, h1, of_decide_eq_true h2, rfl⟩
  · rintro (h | ⟨is', h1, i, h2, h3, h4⟩)
    · exact Or.inl h
    · rw [hp.internals] at h1
      cases h1
      exact Or.inr ⟨i.2, List.mem_map.mpr ⟨i, List.mem_filter.mpr ⟨h2, decide_eq_true h3⟩, rfl⟩, h4⟩

theorem asked_net {N : Net} {p : AppPart} {is : List (Nat × Nat × List Nat)} (hp : Routed N p is)
    {t : Nat} (h : Asked (N.partition p is) t) : NetAsked N p.pre p.ident t := by
  rcases h with ⟨e, he, v, hv, rfl⟩ | ⟨q, hq, ht⟩
  · obtain ⟨d, hd, rfl⟩ := List.mem_map.mp he
    rcases hp.edges with h0 | h0
    · rw [h0] at hd; cases hd
    · exact Or.inl ⟨p, h0, rfl, rfl, d, hd, v, hv, rfl⟩
  · obtain ⟨i, hi, rfl⟩ := List.mem_map.mp hq
    obtain ⟨h1, h2⟩ := List.mem_filter.mp hi
    exact Or.inr ⟨is, hp.internals, i, h1, of_decide_eq_true h2, ht⟩

theorem Routed.allSend {N : Net} (ha : NetAllSend N) {p : AppPart}
    {is : List (Nat × Nat × List Nat)} (hp : Routed N p is) :
    AllSend (N.ctx p.ident) (N.partition p is) := by
  intro m hm
  obtain ⟨k, h1, h2⟩ := ha _ _ hp.leaves m hm
  exact ⟨k, (sends_iff hp k).mpr h1, h2⟩

theorem Routed.outside {N : Net} (ho : NetOutside N) {p : AppPart}
    {is : List (Nat × Nat × List Nat)} (hp : Routed N p is) :
    Outside (N.ctx p.ident) (N.partition p is) :=
  fun t l ht hl => ho _ _ t l (asked_net hp ht) hl

/-! ### The tables -/

/-- The sources of different partitions have nothing in common. -/
theorem mine_apart {N : Net} (hN : NetContract N) {p q : AppPart}
    {is js : List (Nat × Nat × List Nat)} (hp : Routed N p is) (hq : Routed N q js)
    (hne : p.key ≠ q.key) {v : VId} (hv : Mine (N.ctx p.ident) (N.partition p is) v) :
    ¬ (p.ident = q.ident ∧ Mine (N.ctx q.ident) (N.partition q js) v) := by
  rintro ⟨hi, hw⟩
  have app : ∀ {p : AppPart} {is : List (Nat × Nat × List Nat)}, Routed N p is →
      ∀ {m : Nat}, Sends (N.ctx p.ident) (N.partition p is) m → N.base.appOf m = some p.pre :=
    fun hp _ hm => sends_app (hp.contract hN) hm
  refine hne ?_
  show (p.pre, p.ident) = (q.pre, q.ident)
  rcases hv with rfl | ⟨m, rfl, hm⟩
  · rcases hw with h | ⟨k, h, _⟩
    · have : p.pre = q.pre := VId.app.inj h
      rw [this, hi]
    · cases h
  · rcases hw with h | ⟨k, h, hk⟩
    · cases h
    · cases h
      have h1 := app hp hm
      rw [app hq hk] at h1
      rw [Option.some.inj h1, hi]

theorem routeAll_frame {N : Net} (hN : NetContract N) {fuel : Nat} (ps : List AppPart) :
    ∀ {S S' : ByPart.State}, (∀ q ∈ ps, ∀ js, N.internals q.pre = some js → Routed N q js) →
    routeAll N fuel ps S = .ok S' → ∀ (part : Nat) (v : VId) (c : XY),
    (∀ q ∈ ps, ∀ js, Routed N q js → ¬ (part = q.ident ∧ Mine (N.ctx q.ident) (N.partition q js) v)) →
    ByPart.entryOn S' v part c.1 c.2 = ByPart.entryOn S v part c.1 c.2 := by
  induction ps with
  | nil =>
    intro S S' _ h part v c _
    simp only [routeAll] at h
    cases h
    rfl
  | cons q qs ih =>
    intro S S' hr h part v c hv
    simp only [routeAll] at h
    cases hi : N.internals q.pre with
    | none => simp only [hi] at h; cases h
    | some js =>
      simp only [hi] at h
      have hq := hr q List.mem_cons_self js hi
      cases hR : routePartition (N.ctx q.ident) (N.partition q js) fuel S with
      | error err => simp only [hR] at h; cases h
      | ok S1 =>
        simp only [hR] at h
        rw [ih (fun q hq => hr q (List.mem_cons_of_mem _ hq)) h part v c
          (fun q hq => hv q (List.mem_cons_of_mem _ hq))]
        exact (only_partition (hq.contract hN) (keeps_low (hq.contract hN)) hR).frame part v c
          (hv q List.mem_cons_self js hq)

theorem routeAll_unmixed {N : Net} (hN : NetContract N) {fuel : Nat} (ps : List AppPart) :
    ∀ {S S' : ByPart.State}, (∀ q ∈ ps, ∀ js, N.internals q.pre = some js → Routed N q js) →
    routeAll N fuel ps S = .ok S' → Unmixed N.base S → Unmixed N.base S' := by
  induction ps with
  | nil =>
    intro S S' _ h hu
    simp only [routeAll] at h
    cases h
    exact hu
  | cons q qs ih =>
    intro S S' hr h hu
    simp only [routeAll] at h
    cases hi : N.internals q.pre with
    | none => simp only [hi] at h; cases h
    | some js =>
      simp only [hi] at h
      have hq := hr q List.mem_cons_self js hi
      cases hR : routePartition (N.ctx q.ident) (N.partition q js) fuel S with
      | error err => simp only [hR] at h; cases h
      | ok S1 =>
        simp only [hR] at h
        exact ih (fun q hq => hr q (List.mem_cons_of_mem _ hq)) h
          ((only_partition (hq.contract hN) (keeps_low (hq.contract hN)) hR).unmixed hu)

theorem routeAll_append {N : Net} {fuel : Nat} (ps qs : List AppPart) : ∀ {S S' : ByPart.State},
    routeAll N fuel (ps ++ qs) S = .ok S' →
    ∃ S1, routeAll N fuel ps S = .ok S1 ∧ routeAll N fuel qs S1 = .ok S' := by
  induction ps with
  | nil => intro S S' h; exact ⟨S, rfl, h⟩
  | cons p ps ih =>
    intro S S' h
    simp only [List.cons_append, routeAll] at h ⊢
    cases hi : N.internals p.pre with
    | none => simp only [hi] at h; cases h
    | some is =>
      simp only [hi] at h ⊢
      cases hR : routePartition (N.ctx p.ident) (N.partition p is) fuel S with
      | error err => simp only [hR] at h; cases h
      | ok S1 =>
        simp only [hR] at h ⊢
        exact ih h

/-- What is in the tables for a partition in the end was put there when it was routed, and nothing was
there before. -/
theorem routed_alone {N : Net} (hN : NetContract N) {fuel : Nat} {r : List AppPart}
    (hr : appPartitions N = .ok r) {S' : ByPart.State} (h : routeAll N fuel r [] = .ok S')
    {p : AppPart} (hp : p ∈ r) : ∃ is S1 S2, Routed N p is ∧
      routePartition (N.ctx p.ident) (N.partition p is) fuel S1 = .ok S2 ∧
      Fresh (N.ctx p.ident) (N.partition p is) S1 ∧ Unmixed (N.ctx p.ident) S1 ∧
      ∀ v, Mine (N.ctx p.ident) (N.partition p is) v → ∀ c : XY,
        ByPart.entryOn S' v p.ident c.1 c.2 = ByPart.entryOn S2 v p.ident c.1 c.2 := by
  obtain ⟨r1, r2, hsplit⟩ := List.append_of_mem hp
  have hnd := appPartitions_nodup hN.distinct hr
  have hall : ∀ q ∈ r, ∀ js, N.internals q.pre = some js → Routed N q js :=
    fun q hq js hj => routed_of_mem hr hq hj
  rw [hsplit] at h hnd hall
  obtain ⟨S1, k1, k2⟩ := routeAll_append r1 (p :: r2) h
  simp only [routeAll] at k2
  cases hi : N.internals p.pre with
  | none => simp only [hi] at k2; cases k2
  | some is =>
    simp only [hi] at k2
    have hR := routed_of_mem hr hp hi
    cases hS : routePartition (N.ctx p.ident) (N.partition p is) fuel S1 with
    | error err => simp only [hS] at k2; cases k2
    | ok S2 =>
      simp only [hS] at k2
      rw [List.map_append, List.map_cons] at hnd
      obtain ⟨_, hnd2, hnd3⟩ := List.nodup_append.mp hnd
      refine ⟨is, S1, S2, hR, hS, ?_, ?_, ?_⟩
      · intro v hv c
        rw [show (N.partition p is).ident = p.ident from rfl,
          routeAll_frame hN r1 (fun q hq => hall q (List.mem_append.mpr (Or.inl hq))) k1 p.ident v c ?_]
        · rfl
        · intro q hq js hj
          refine mine_apart hN hR hj (fun he => ?_) hv
          exact hnd3 _ (List.mem_map.mpr ⟨q, hq, rfl⟩) _ List.mem_cons_self he.symm
      · refine routeAll_unmixed hN r1 (fun q hq => hall q (List.mem_append.mpr (Or.inl hq))) k1 ?_
        intro a m part x y _ hh
        cases hh.1
      · intro v hv c
        refine routeAll_frame hN r2 (fun q hq => hall q (List.mem_append.mpr
          (Or.inr (List.mem_cons_of_mem _ hq)))) k2 p.ident v c ?_
        intro q hq js hj
        refine mine_apart hN hR hj (fun he => ?_) hv
        exact (List.nodup_cons.mp hnd2).1 (List.mem_map.mpr ⟨q, hq, he.symm⟩)

/-- Packets of a source of the partition find the same entries. -/
theorem entryFor_same {C : Ctx} {P : Partition} (hC : Contract C P) {S S' : ByPart.State}
    (h : ∀ v, Mine C P v → ∀ c : XY,
      ByPart.entryOn S' v P.ident c.1 c.2 = ByPart.entryOn S v P.ident c.1 c.2) {m : Nat}
    (hm : Sends C P m) (c : XY) : entryFor C S' P.ident m c = entryFor C S P.ident m c := by
  unfold entryFor
  rw [h _ (Or.inr ⟨m, rfl, hm⟩) c, sends_app hC hm]
  cases ByPart.entryOn S (.mach m) P.ident c.1 c.2 with
  | some e => rfl
  | none => exact h _ (Or.inl rfl) c

theorem comes_same {C : Ctx} {S S' : ByPart.State} {ident m : Nat}
    (h : ∀ c, entryFor C S' ident m c = entryFor C S ident m c) {c : XY}
    (hc : Comes C S ident m c) : Comes C S' ident m c := by
  induction hc with
  | start => exact .start
  | hop _ he hl hb hk ih => exact .hop ih (by rw [h]; exact he) hl hb hk

theorem delivered_same {C : Ctx} {S S' : ByPart.State} {ident m t : Nat}
    (h : ∀ c, entryFor C S' ident m c = entryFor C S ident m c)
    (hd : Delivered C S ident m t) : Delivered C S' ident m t := by
  have hs : ∀ c b, Sent C S ident m c b → Sent C S' ident m c b := by
    rintro c b ⟨e, he, hb⟩
    exact ⟨e, by rw [h]; exact he, hb⟩
  exact ⟨comes_same h hd.1, fun p hp => hs _ _ (hd.2.1 p hp), fun l hl => hs _ _ (hd.2.2 l hl)⟩

theorem routeGraph_ok {N : Net} {fuel : Nat} {S' : ByPart.State} (h : routeGraph N fuel = .ok S') :
    ∃ r, appPartitions N = .ok r ∧ routeAll N fuel r [] = .ok S' := by
  unfold routeGraph at h
  cases hr : appPartitions N with
  | error err => simp only [hr] at h; cases h
  | ok r => simp only [hr] at h; exact ⟨r, rfl, h⟩

theorem mem_of_leaves {N : Net} {r : List AppPart} (hr : appPartitions N = .ok r) {a ident : Nat}
    (h : Leaves N a ident) : ∃ p ∈ r, p.pre = a ∧ p.ident = ident := by
  obtain ⟨extra, rfl, _, h2, _⟩ := appPartitions_ok hr
  rcases h with ⟨p, hp, h1, h3⟩ | ⟨hv, is, hi, i, hii, rfl⟩
  · exact ⟨p, List.mem_append.mpr (Or.inl hp), h1, h3⟩
  · obtain ⟨is', k1, k2⟩ := h2 a hv
    rw [hi] at k1
    cases k1
    obtain ⟨p, hp, hk⟩ := List.mem_map.mp (k2 i hii)
    have hk' : (p.pre, p.ident) = (a, i.1) := hk
    injection hk' with h1 h3
    exact ⟨p, hp, h1, h3⟩

theorem key_inj {r : List AppPart} (hnd : (r.map AppPart.key).Nodup) {p q : AppPart} (hp : p ∈ r)
    (hq : q ∈ r) (hk : p.key = q.key) : p = q := by
  induction r with
  | nil => cases hp
  | cons x xs ih =>
    rw [List.map_cons, List.nodup_cons] at hnd
    rcases List.mem_cons.mp hp with h1 | h1
    · rcases List.mem_cons.mp hq with h2 | h2
      · rw [h1, h2]
      · refine absurd (List.mem_map.mpr ⟨q, h2, ?_⟩) hnd.1
        rw [← hk, h1]
    · rcases List.mem_cons.mp hq with h2 | h2
      · refine absurd (List.mem_map.mpr ⟨p, h1, ?_⟩) hnd.1
        rw [hk, h2]
      · exact ih hnd.2 h1 h2

/-- What holds of a partition when it was routed holds in the end. -/
theorem in_the_end {N : Net} (hN : NetContract N) {fuel : Nat} {S' : ByPart.State}
    (h : routeGraph N fuel = .ok S') {a ident : Nat} (hl : Leaves N a ident) :
    ∃ p is S1 S2, p.pre = a ∧ p.ident = ident ∧ Routed N p is ∧
      (∀ p' ∈ N.parts, p'.pre = a → p'.ident = ident → p' = p) ∧
      routePartition (N.ctx ident) (N.partition p is) fuel S1 = .ok S2 ∧
      Fresh (N.ctx ident) (N.partition p is) S1 ∧ Unmixed (N.ctx ident) S1 ∧
      (∀ v, Mine (N.ctx ident) (N.partition p is) v → ∀ c : XY,
        ByPart.entryOn S' v ident c.1 c.2 = ByPart.entryOn S2 v ident c.1 c.2) ∧
      ∀ m, NetSends N a ident m → ∀ c,
        entryFor (N.ctx ident) S' ident m c = entryFor (N.ctx ident) S2 ident m c := by
  obtain ⟨r, hr, hS⟩ := routeGraph_ok h
  obtain ⟨p, hp, rfl, rfl⟩ := mem_of_leaves hr hl
  obtain ⟨is, S1, S2, h1, h2, h3, h4, h5⟩ := routed_alone hN hr hS hp
  refine ⟨p, is, S1, S2, rfl, rfl, h1, ?_, h2, h3, h4, h5, ?_⟩
  · intro p' hp' k1 k2
    have hnd := appPartitions_nodup hN.distinct hr
    obtain ⟨extra, hx, _⟩ := appPartitions_ok hr
    have hm : p' ∈ r := by rw [hx]; exact List.mem_append.mpr (Or.inl hp')
    have hkey : p'.key = p.key := by
      show (p'.pre, p'.ident) = (p.pre, p.ident)
      rw [k1, k2]
    exact key_inj hnd hm hp hkey
  · intro m hm c
    exact entryFor_same (h1.contract hN) h5 ((sends_iff h1 m).mpr hm) c

/-- Every core in the tables is the core of a target. -/
theorem routeAll_cores {N : Net} (hN : NetContract N) {fuel : Nat} (ps : List AppPart) :
    ∀ {S S' : ByPart.State}, (∀ q ∈ ps, ∀ js, N.internals q.pre = some js → Routed N q js) →
    routeAll N fuel ps S = .ok S' → ∀ {part : Nat} {v : VId} {c : XY} {b : Nat}, 6 ≤ b →
    Bit S' part v c b → Bit S part v c b ∨
      ∃ q ∈ ps, ∃ js, Routed N q js ∧ part = q.ident ∧ Mine (N.ctx q.ident) (N.partition q js) v ∧
        ∃ t, Asked (N.partition q js) t ∧ (N.base.locate t).1 = c ∧
          ((∃ p, (N.base.locate t).2.1 = some p ∧ b = 6 + p) ∨ (N.base.locate t).2.2 = some b) := by
  induction ps with
  | nil =>
    intro S S' _ h part v c b _ hb
    simp only [routeAll] at h
    cases h
    exact Or.inl hb
  | cons q qs ih =>
    intro S S' hr h part v c b h6 hb
    simp only [routeAll] at h
    cases hi : N.internals q.pre with
    | none => simp only [hi] at h; cases h
    | some js =>
      simp only [hi] at h
      have hq := hr q List.mem_cons_self js hi
      cases hR : routePartition (N.ctx q.ident) (N.partition q js) fuel S with
      | error err => simp only [hR] at h; cases h
      | ok S1 =>
        simp only [hR] at h
        rcases ih (fun q hq => hr q (List.mem_cons_of_mem _ hq)) h h6 hb with hb | ⟨q', hq', hrest⟩
        · rcases (only_partition (hq.contract hN) (keeps_low (hq.contract hN)) hR).bits part v c b hb with
            hb | ⟨h1, h2, h3⟩
          · exact Or.inl hb
          · refine Or.inr ⟨q, List.mem_cons_self, js, hq, h1, h2, ?_⟩
            rcases h3 with ⟨d, hd⟩ | ⟨t, h3, h4, h5⟩ | ⟨p, ⟨t, h3, h4, h5⟩, hp⟩
            · omega
            · exact ⟨t, h3, h4, Or.inr h5⟩
            · exact ⟨t, h3, h4, Or.inl ⟨p, h5, hp⟩⟩
        · exact Or.inr ⟨q', List.mem_cons_of_mem _ hq', hrest⟩

theorem routeAll_ends {N : Net} (ps : List AppPart) (hr : ∀ q ∈ ps, ∀ js, N.internals q.pre = some js →
      ∃ n, ∀ fuel, n ≤ fuel → ∀ S,
        routePartition (N.ctx q.ident) (N.partition q js) fuel S ≠ .error .outOfFuel) :
    ∃ n, ∀ fuel, n ≤ fuel → ∀ S, routeAll N fuel ps S ≠ .error .outOfFuel := by
  induction ps with
  | nil => exact ⟨0, fun fuel _ S h => by simp only [routeAll] at h; cases h⟩
  | cons q qs ih =>
    obtain ⟨n2, h2⟩ := ih (fun q hq => hr q (List.mem_cons_of_mem _ hq))
    cases hi : N.internals q.pre with
    | none =>
      refine ⟨0, fun fuel _ S h => ?_⟩
      simp only [routeAll, hi] at h
      cases h
    | some js =>
      obtain ⟨n1, h1⟩ := hr q List.mem_cons_self js hi
      refine ⟨max n1 n2, fun fuel hf S h => ?_⟩
      simp only [routeAll, hi] at h
      cases hR : routePartition (N.ctx q.ident) (N.partition q js) fuel S with
      | error err =>
        simp only [hR] at h
        cases h
        exact h1 fuel (Nat.le_trans (Nat.le_max_left _ _) hf) S hR
      | ok S1 =>
        simp only [hR] at h
        exact h2 fuel (Nat.le_trans (Nat.le_max_right _ _) hf) S1 h

end Pacman.Router
