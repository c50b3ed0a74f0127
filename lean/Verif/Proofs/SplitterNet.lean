import Verif.Proofs.SplitterDevice
import Verif.Spec.SplitterNet
import Verif.Spec.Wanted
/-
The built-in splitters do what the routing and the allocation of keys ask of splitters.
-/

namespace Pacman.Split

open Slices (Slice)
open Counter (Counter)
open Router (Ctx AppPart Net NetContract NetAllSend NetOutside NetWants NetSends Even Listed)
open Pipe (Keys KeyContract)

/-- What a splitter that is partitioned after a reset gives. -/
def Shares (E : Env) (W : World) (v s : Nat) : Prop :=
  (outVerts E W s = .ok (W.app v).machines ∧ inVerts E W s = .ok (W.app v).machines) ∨
  (E.kind s = .external ∧ (W.app v).machines = (W.spl s).inV ++ (W.spl s).outV.toList)

/-- A vertex that has just been reset. -/
theorem anew_reset {E : Env} {W : World} {vs : List Nat} {v : Nat} (hv : v ∈ vs) (hu : Usual E W v) :
    Anew E (resetGraph E W vs) v := by
  intro s hs2
  have hs : (W.app v).splitter = some s := ((keeps_resetGraph E W vs).1 v).symm.trans hs2
  obtain ⟨hu1, hu2⟩ := hu s hs
  have hsing : E.kind s ≠ .oneApp → (E.app v).single = none := by
    intro hk
    cases h0 : (E.app v).single with
    | none => rfl
    | some m => exact absurd (hu2 (by rw [h0]; simp)) hk
  have happ : (E.app v).single = none → ((resetGraph E W vs).app v).machines = [] := by
    intro h1
    rw [resetGraph_app, if_pos ⟨hv, h1⟩]
  cases hk : E.kind s with
  | fixed =>
    have h1 := hsing (by rw [hk]; simp)
    exact ⟨h1, happ h1, resetGraph_slices E hk vs W hv hs⟩
  | oneToOne => exact absurd hk hu1
  | oneApp => trivial
  | external =>
    have h1 := hsing (by rw [hk]; simp)
    exact ⟨h1, happ h1⟩

theorem run_append (E : Env) (os os' : List Op) : ∀ W, run E W (os ++ os') = run E (run E W os) os' := by
  induction os with
  | nil => intro W; rfl
  | cons o os ih => intro W; exact ih (step E W o).1

theorem run_reset (E : Env) (vs : List Nat) : ∀ W, run E W (vs.map .reset) = resetGraph E W vs := by
  induction vs with
  | nil => intro W; rfl
  | cons v vs ih => intro W; exact ih (reset E W v)

/-- A reset of the graph is a sequence of calls too. -/
theorem run_resetGraph {E : Env} {W W0 : World} {os : List Op} (h : run E W0 os = W) (vs : List Nat) :
    run E W0 (os ++ vs.map .reset) = resetGraph E W vs := by
  rw [run_append, h, run_reset]

theorem shares_after {E : Env} {W W' : World} (hW : Sound E W) (hL2 : Linked W) {vs : List Nat}
    (hn : vs.Nodup) {cores sdram : Int} {n : Nat}
    (hp : partition E W cores sdram vs = (W', .ok n)) {v s : Nat} (hv : v ∈ vs)
    (hs2 : (W.app v).splitter = some s) (hu : Anew E W v) : Shares E W' v s := by
  have hr := hu s hs2
  have hS := sound_partitionLoop (E := E) vs W (Counter.new cores sdram) hW
  rw [← partition_world, hp] at hS
  simp only at hS
  have hg : (W'.spl s).governed = some v := by
    have := (mono_partition E W cores sdram vs).governed s
    rw [hp] at this
    simp only at this
    rw [this]
    exact (hL2 v s).1 hs2
  have hgo : governedOf W' s = .ok v := by unfold governedOf; rw [hg]
  cases hk : E.kind s with
  | fixed =>
    refine Or.inl ⟨?_, ?_⟩
    · unfold outVerts; simp only [hk, hgo, Except.map]
    · unfold inVerts; simp only [hk, hgo, Except.map]
  | oneToOne =>
    rw [hk] at hr
    obtain ⟨-, m, hm, ho⟩ := hr
    unfold outVerts at ho
    simp only [hk] at ho
    have hsame : (W'.app v).machines = (W.app v).machines ∧ (W'.spl s).one = (W.spl s).one := by
      unfold partition at hp
      split at hp
      · injection hp with _ hp; cases hp
      · rename_i W2 c2 hx
        injection hp with hp _
        subst hp
        obtain ⟨W0, c0, W1, c1, o1, s0, l0, hc, s1, l1, o2⟩ := partitionLoop_at vs hx hn hL2 hW hv hs2
        have hc1 : W1 = W0 := by
          unfold create at hc
          simp only [hk] at hc
          split at hc
          · injection hc with _ hc; cases hc
          · injection hc with hc _; injection hc with hc _; exact hc.symm
        rw [o2.app, o2.spl, hc1, o1.app, o1.spl]
        exact ⟨rfl, rfl⟩
    refine Or.inl ⟨?_, ?_⟩
    · unfold outVerts; simp only [hk, hsame.2, hsame.1, hm]; exact ho
    · unfold inVerts; simp only [hk, hsame.2, hsame.1, hm]; exact ho
  | oneApp =>
    have hsing : ∃ m, (E.app v).single = some m := by
      unfold partition at hp
      split at hp
      · injection hp with _ hp; cases hp
      · rename_i W2 c2 hx
        obtain ⟨W0, c0, W1, c1, o1, s0, l0, hc, s1, l1, o2⟩ := partitionLoop_at vs hx hn hL2 hW hv hs2
        have hg0 : (W0.spl s).governed = some v := by rw [o1.spl]; exact (hL2 v s).1 hs2
        unfold create at hc
        simp only [hk, hg0] at hc
        split at hc
        · injection hc with _ hc; cases hc
        · rename_i m hm; exact ⟨m, hm⟩
    obtain ⟨m, hm⟩ := hsing
    have hsi : singleOf E W' s = .ok m := by unfold singleOf; rw [hgo]; simp only [hm]
    refine Or.inl ⟨?_, ?_⟩
    · unfold outVerts; simp only [hk, hsi, Except.map, hS.sing v m hm]
    · unfold inVerts; simp only [hk, hsi, Except.map, hS.sing v m hm]
  | external =>
    refine Or.inr ⟨hk, ?_⟩
    rw [hk] at hr
    obtain ⟨h1, happ⟩ := hr
    unfold partition at hp
    split at hp
    · injection hp with _ hp; cases hp
    · rename_i W2 c2 hx
      injection hp with hp _
      subst hp
      obtain ⟨W0, c0, W1, c1, o1, s0, l0, hc, s1, l1, o2⟩ := partitionLoop_at vs hx hn hL2 hW hv hs2
      have hg0 : (W0.spl s).governed = some v := by rw [o1.spl]; exact (hL2 v s).1 hs2
      unfold create at hc
      simp only [hk, hg0] at hc
      have hdev : ∀ m ∈ (W0.spl s).inV ++ (W0.spl s).outV.toList, m < W0.next ∧ (W0.mv m).app = v := by
        intro m h0
        obtain ⟨h1, h2, _⟩ := s0.dev s m h0
        exact ⟨h1, h2 v hg0⟩
      have hm0 : (W0.app v).machines = [] := by rw [o1.app, happ]
      have ho := (off_deviceLoop (E := E) (u := v) (v := v + 1) (s := s) (by omega)
        ((W0.spl s).inV ++ (W0.spl s).outV.toList) W0 c0).spl
      rw [hc] at ho
      simp only at ho
      obtain ⟨-, -, -, h4⟩ := deviceLoop_ok _ hc s0 hdev
      have h5 := h4 h1 (s0.fresh s) (fun m _ h0 => by rw [hm0] at h0; cases h0)
      rw [o2.app, o2.spl, ho, h5, hm0, List.nil_append]

/-- A vertex that was partitioned has a splitter. -/
theorem has_splitter {E : Env} (vs : List Nat) : ∀ {W W' : World} {c c' : Counter},
    partitionLoop E W c vs = ((W', c'), .ok ()) → ∀ v ∈ vs, ∃ s, (W.app v).splitter = some s := by
  induction vs with
  | nil => intro W W' c c' _ v hv; cases hv
  | cons u us ih =>
    intro W W' c c' h v hv
    unfold partitionLoop at h
    split at h
    · injection h with _ h; cases h
    · rename_i t ht
      split at h
      · injection h with _ h; cases h
      · rename_i W1 c1 hx
        have hk := keeps_create E W c t
        rw [hx] at hk
        rcases List.mem_cons.1 hv with rfl | hv
        · exact ⟨t, ht⟩
        · obtain ⟨s, hs⟩ := ih h v hv
          exact ⟨s, (hk.1 v).symm.trans hs⟩

/-- What is known of the state after the partitioner. -/
structure Done (E : Env) (W : World) (vs : List Nat) : Prop where
  sound : Sound E W
  some_ : ∀ v ∈ vs, ∃ s, (W.app v).splitter = some s
  only : ∀ v s, (W.app v).splitter = some s → v ∈ vs
  shares : ∀ v s, (W.app v).splitter = some s → Shares E W v s

theorem done_after {E : Env} {W W' : World} (hW : Sound E W) (hL : Linked W) {vs : List Nat}
    (hn : vs.Nodup) {cores sdram : Int} {n : Nat}
    (hp : partition E W cores sdram vs = (W', .ok n)) (hu : ∀ v ∈ vs, Anew E W v)
    (hall : ∀ v s, (W.app v).splitter = some s → v ∈ vs) : Done E W' vs := by
  have hS := sound_partitionLoop (E := E) vs W (Counter.new cores sdram) hW
  have hK := keeps_partitionLoop E vs W (Counter.new cores sdram)
  rw [← partition_world, hp] at hS hK
  simp only at hS hK
  have hsp : ∀ v, (W'.app v).splitter = (W.app v).splitter := hK.1
  refine ⟨hS, ?_, ?_, ?_⟩
  · intro v hv
    have hp' := hp
    unfold partition at hp'
    split at hp'
    · injection hp' with _ hp'; cases hp'
    · rename_i W2 c2 hx
      obtain ⟨s, hs⟩ := has_splitter vs hx v hv
      exact ⟨s, (hK.1 v).trans hs⟩
  · intro v s hs
    exact hall v s ((hsp v).symm.trans hs)
  · intro v s hs
    have hs' := (hsp v).symm.trans hs
    exact shares_after hW hL hn hp (hall v s hs') hs' (hu v (hall v s hs'))

section
variable {E : Env} {W : World} {C : Ctx} {parts : List AppPart} {vs : List Nat}

theorem net_outgoing {ident a : Nat} {ms : List Nat} :
    (netOf E W C parts vs).outgoing ident a = some ms ↔
      ∃ s, (W.app a).splitter = some s ∧ outVerts E W s = .ok ms := by
  simp only [netOf]
  cases (W.app a).splitter with
  | none => simp
  | some s =>
    simp only [Option.some.injEq, exists_eq_left']
    cases outVerts E W s with
    | error e => simp
    | ok l => simp

theorem net_incoming {d a ident : Nat} {x : Nat × List Alloc.VId} :
    x ∈ (netOf E W C parts vs).incoming d a ident ↔ Receiver E W d x.1 ∧ x.2 = [.app a] := by
  simp only [netOf, Receiver]
  cases (W.app d).splitter with
  | none => simp
  | some s =>
    simp only [inFor, Option.some.injEq]
    cases hi : inVerts E W s with
    | error e =>
      simp only [Except.map, List.not_mem_nil, false_iff, not_and]
      rintro ⟨s', ts, rfl, h2, _⟩
      rw [hi] at h2
      cases h2
    | ok l =>
      simp only [Except.map, List.mem_map]
      constructor
      · rintro ⟨m, hm, rfl⟩
        exact ⟨⟨s, l, rfl, hi, hm⟩, rfl⟩
      · rintro ⟨⟨s', ts, rfl, h2, h3⟩, h4⟩
        rw [hi] at h2
        injection h2 with h2
        subst h2
        exact ⟨x.1, h3, by rw [← h4]⟩

theorem net_internals {a : Nat} {is : List (Nat × Nat × List Nat)}
    (h : (netOf E W C parts vs).internals a = some is) : is = [] := by
  simp only [netOf] at h
  cases hs : (W.app a).splitter with
  | none => rw [hs] at h; cases h
  | some s => rw [hs] at h; injection h with h; exact h.symm

theorem net_sends {a ident m : Nat} : NetSends (netOf E W C parts vs) a ident m ↔ Sender E W a m := by
  constructor
  · rintro (⟨ms, h1, h2⟩ | ⟨is, h1, i, hi, _⟩)
    · obtain ⟨s, h3, h4⟩ := net_outgoing.1 h1
      exact ⟨s, ms, h3, h4, h2⟩
    · rw [net_internals h1] at hi; cases hi
  · rintro ⟨s, ms, h1, h2, h3⟩
    exact Or.inl ⟨ms, net_outgoing.2 ⟨s, h1, h2⟩, h3⟩

theorem net_wants {a ident m t : Nat} : NetWants (netOf E W C parts vs) a ident m t ↔
    Sender E W a m ∧ ∃ p ∈ parts, p.pre = a ∧ p.ident = ident ∧ ∃ d ∈ p.edges, Receiver E W d t := by
  constructor
  · rintro (⟨p, h1, h2, h3, d, h4, x, h5, h6, s, h7, h8⟩ | ⟨_, is, h1, i, hi, _⟩)
    · obtain ⟨h9, h10⟩ := net_incoming.1 h5
      rw [h10, List.mem_singleton] at h7
      subst h7
      rcases h8 with h8 | ⟨-, ms, h8, h11⟩
      · cases h8
      · obtain ⟨s, h12, h13⟩ := net_outgoing.1 h8
        exact ⟨⟨s, ms, h12, h13, h11⟩, p, h1, h2, h3, d, h4, h6 ▸ h9⟩
    · rw [net_internals h1] at hi; cases hi
  · rintro ⟨⟨s, ms, h1, h2, h3⟩, p, h4, h5, h6, d, h7, h8⟩
    exact Or.inl ⟨p, h4, h5, h6, d, h7, (t, [.app a]), net_incoming.2 ⟨h8, rfl⟩, rfl, .app a, by simp,
      Or.inr ⟨rfl, ms, net_outgoing.2 ⟨s, h1, h2⟩, h3⟩⟩

/-- Machine vertices that send or receive belong to their application vertex. -/
theorem sender_known (hd : Done E W vs) {a m : Nat} (h : Sender E W a m) : m ∈ (W.app a).machines := by
  obtain ⟨s, ms, h1, h2, h3⟩ := h
  rcases hd.shares a s h1 with ⟨h4, -⟩ | ⟨h4, h5⟩
  · rw [h4] at h2
    injection h2 with h2
    rw [h2]; exact h3
  · unfold outVerts at h2
    simp only [h4] at h2
    split at h2
    · cases h2
    · injection h2 with h2
      rw [h5, h2]
      exact List.mem_append_left _ h3

theorem receiver_known (hd : Done E W vs) {a m : Nat} (h : Receiver E W a m) : m ∈ (W.app a).machines := by
  obtain ⟨s, ms, h1, h2, h3⟩ := h
  rcases hd.shares a s h1 with ⟨-, h4⟩ | ⟨h4, h5⟩
  · rw [h4] at h2
    injection h2 with h2
    rw [h2]; exact h3
  · unfold inVerts at h2
    simp only [h4] at h2
    split at h2
    · cases h2
    · rename_i t ht
      injection h2 with h2
      subst h2
      rw [h5, ht]
      exact List.mem_append_right _ h3

theorem net_appOf (hd : Done E W vs) {a m : Nat} :
    m ∈ (W.app a).machines ↔ (netOf E W C parts vs).base.appOf m = some a := by
  simp only [netOf]
  constructor
  · intro h
    have := hd.sound.owner a m h
    rw [this, if_pos h]
  · intro h
    split at h
    · rename_i h0
      injection h with h
      rw [← h]; exact h0
    · cases h

theorem net_contract (hG : Ground C) (hd : Done E W vs)
    (hdis : (parts.map (fun p => (p.pre, p.ident))).Nodup) : NetContract (netOf E W C parts vs) where
  merges := hG.merges
  owns := fun a m => net_appOf hd
  sends := by
    intro ident a l m h hm
    obtain ⟨s, h1, h2⟩ := net_outgoing.1 h
    exact (net_appOf hd).1 (sender_known hd ⟨s, l, h1, h2, hm⟩)
  within := by
    intro a is h i hi
    rw [net_internals h] at hi; cases hi
  iter := hG.iter
  placed := hG.placed
  vector := hG.vector
  sources := by
    intro p _ d _ x hx s hs
    obtain ⟨-, h2⟩ := net_incoming.1 hx
    rw [h2, List.mem_singleton] at hs
    exact Or.inl hs
  distinct := hdis

theorem askAll_ok : ∀ {parts : List AppPart}, askAll E W parts = .ok () → ∀ p ∈ parts,
    ∃ s ms, (W.app p.pre).splitter = some s ∧ outVerts E W s = .ok ms := by
  intro parts
  induction parts with
  | nil => intro _ p hp; cases hp
  | cons q qs ih =>
    intro h p hp
    unfold askAll at h
    split at h
    · cases h
    · rename_i s hs
      split at h
      · cases h
      · rename_i ms hms
        split at h
        · cases h
        · rcases List.mem_cons.1 hp with rfl | hp
          · exact ⟨s, ms, hs, hms⟩
          · exact ih h p hp

theorem net_leaves {a ident : Nat} (h : Router.Leaves (netOf E W C parts vs) a ident) :
    ∃ p ∈ parts, p.pre = a ∧ p.ident = ident := by
  rcases h with h | ⟨_, is, h1, i, hi, _⟩
  · exact h
  · rw [net_internals h1] at hi; cases hi

theorem net_allSend (hd : Done E W vs) (hask : askAll E W parts = .ok ()) (hnear : ∀ p ∈ parts, Near E W C p.pre) :
    NetAllSend (netOf E W C parts vs) := by
  intro a ident hl m hm
  obtain ⟨p, hp, rfl, -⟩ := net_leaves hl
  obtain ⟨s, ms, hs, hms⟩ := askAll_ok hask p hp
  have key : Sender E W p.pre m ∨ (E.kind s = .external ∧ Receiver E W p.pre m) := by
    have hm' : m ∈ (W.app p.pre).machines := hm
    rcases hd.shares _ s hs with ⟨h1, -⟩ | ⟨h1, h2⟩
    · exact Or.inl ⟨s, _, hs, h1, hm'⟩
    · rw [h2, List.mem_append] at hm'
      rcases hm' with hm' | hm'
      · refine Or.inl ⟨s, ms, hs, hms, ?_⟩
        unfold outVerts at hms
        simp only [h1] at hms
        split at hms
        · cases hms
        · injection hms with hms
          rw [← hms]; exact hm'
      · refine Or.inr ⟨h1, s, [m], hs, ?_, by simp⟩
        unfold inVerts
        simp only [h1]
        cases ho : (W.spl s).outV with
        | none => rw [ho] at hm'; cases hm'
        | some t =>
          rw [ho] at hm'
          simp only [Option.toList, List.mem_singleton] at hm'
          rw [hm']
  rcases key with h | ⟨h1, h2⟩
  · exact ⟨m, net_sends.2 h, rfl⟩
  · obtain ⟨k, h3, h4⟩ := hnear p hp s hs h1 m h2
    exact ⟨k, net_sends.2 h3, h4⟩

theorem net_even (hd : Done E W vs) (hask : askAll E W parts = .ok ()) (hnear : ∀ p ∈ parts, Near E W C p.pre) :
    Even (netOf E W C parts vs) := by
  intro a ident c hl hno _ hp
  rcases hp with ⟨p, h1, h2, h3, d, h4, x, h5, h6, h7⟩ | ⟨is, h1, i, hi, _⟩
  · obtain ⟨h8, h9⟩ := net_incoming.1 h5
    rcases h7 with rfl | ⟨m, hm⟩
    · obtain ⟨k, h10, h11⟩ := net_allSend hd hask hnear d ident hl x.1 (receiver_known hd h8)
      exact hno k h10 (h11.trans h6)
    · rw [h9] at hm; simp at hm
  · rw [net_internals h1] at hi; cases hi

theorem net_outside (hG : Ground C) : NetOutside (netOf E W C parts vs) :=
  fun _ _ t l _ hl => (hG.outside t l hl).2

theorem net_once (hd : Done E W vs) {ident a : Nat} {ms : List Nat}
    (h : (netOf E W C parts vs).outgoing ident a = some ms) : ms.Nodup := by
  obtain ⟨s, h1, h2⟩ := net_outgoing.1 h
  have hnd := hd.sound.nodup a
  rcases hd.shares a s h1 with ⟨h4, -⟩ | ⟨h4, h5⟩
  · rw [h4] at h2
    injection h2 with h2
    rw [← h2]; exact hnd
  · unfold outVerts at h2
    simp only [h4] at h2
    split at h2
    · cases h2
    · injection h2 with h2
      rw [h5] at hnd
      rw [← h2]
      exact (List.nodup_append.1 hnd).1

theorem net_keys (hd : Done E W vs) {K : Keys} (hK : KeyTerms (netOf E W C parts vs) K) :
    KeyContract (netOf E W C parts vs) K where
  once := fun _ _ _ h => net_once hd h
  valid := hK.valid
  validM := hK.validM
  idle := hK.idle
  counted := hK.counted
  single := hK.single
  inside := hK.inside
  apart := hK.apart
  internal := by
    intro a is h i hi
    rw [net_internals h] at hi; cases hi

end

end Pacman.Split
