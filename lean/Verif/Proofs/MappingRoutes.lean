import Verif.Spec.MappingRoutes
import Verif.Proofs.Mapping
import Verif.Proofs.RouterSucceeds
import Verif.Props.PlacerRoom
import Verif.Props.RouterSucceeds
/-
A graph that has been partitioned and placed is routed: lemmas.
-/

namespace Pacman.Router

open RPath

theorem walkIn_trans {T : Topo} {on : XY → Prop} {a b c : XY} (h1 : WalkIn T on a b) (h2 : WalkIn T on b c) :
    WalkIn T on a c := by
  induction h2 with
  | nil => exact h1
  | snoc _ h6 hl hm ho ih => exact .snoc ih h6 hl hm ho

theorem walkIn_end {T : Topo} {on : XY → Prop} {a b : XY} (h : WalkIn T on a b) (ha : on a) (hm : a ∈ T.chips) :
    on b ∧ b ∈ T.chips := by
  cases h with
  | nil => exact ⟨ha, hm⟩
  | snoc _ _ _ h4 h5 => exact ⟨h5, h4⟩

/-- Where links work both ways, so do walks. -/
theorem walkIn_back {T : Topo} (hM : Mutual T) {on : XY → Prop} {a b : XY} (h : WalkIn T on a b) (ha : on a)
    (hm : a ∈ T.chips) : WalkIn T on b a := by
  induction h with
  | nil => exact .nil
  | @snoc c l h1 h6 hl hc ho ih =>
    obtain ⟨k1, k2⟩ := walkIn_end h1 ha hm
    obtain ⟨l', j1, j2, j3⟩ := hM c l k2 h6 hl hc
    refine walkIn_trans ?_ ih
    have := WalkIn.snoc (T := T) (ok := on) (s := T.over c l) (c := T.over c l) (l := l') .nil j1 j2 (by rw [j3]; exact k2)
      (by rw [j3]; exact k1)
    rw [j3] at this
    exact this

/-- If all can be reached from one of them, they are together. -/
theorem together_from {T : Topo} (hM : Mutual T) {on : XY → Prop} {s : XY} (hs : on s) (hm : s ∈ T.chips)
    (h : ∀ c, on c → WalkIn T on s c) : Together T on :=
  fun a b ha hb => walkIn_trans (walkIn_back hM (h a ha) hs hm) (h b hb)

/-- Without faults links work both ways. -/
theorem intact_mutual {T : Topo} (hT : Intact T) : Mutual T := by
  intro c l hc h6 _ hd
  have h6' : (l + 3) % 6 < 6 := Nat.mod_lt _ (by omega)
  have hadd : (linkAdd l).1 + (linkAdd ((l + 3) % 6)).1 = 0 ∧ (linkAdd l).2 + (linkAdd ((l + 3) % 6)).2 = 0 := by
    match l, h6 with
    | 0, _ => decide
    | 1, _ => decide
    | 2, _ => decide
    | 3, _ => decide
    | 4, _ => decide
    | 5, _ => decide
  have hover : T.over (T.over c l) ((l + 3) % 6) = c := by
    rcases hT.2 with ⟨w, h, hT⟩ | ⟨x, y, d, hT⟩
    · obtain ⟨⟨a1, a2⟩, a3, a4⟩ := (hT.all c).1 hc
      rw [hT.grid _ _ h6', hT.grid c l h6]
      have e1 : wrap (some w) (wrap (some w) (c.1 + (linkAdd l).1) + (linkAdd ((l + 3) % 6)).1) = c.1 := by
        simp only [wrap]
        rw [Int.emod_add_emod, Int.add_assoc, hadd.1, Int.add_zero]
        exact Int.emod_eq_of_lt a1 a2
      have e2 : wrap (some h) (wrap (some h) (c.2 + (linkAdd l).2) + (linkAdd ((l + 3) % 6)).2) = c.2 := by
        simp only [wrap]
        rw [Int.emod_add_emod, Int.add_assoc, hadd.2, Int.add_zero]
        exact Int.emod_eq_of_lt a3 a4
      rw [e1, e2]
    · rw [hT.grid _ _ h6', hT.grid c l h6]
      simp only [wrap]
      rw [Int.add_assoc, Int.add_assoc, hadd.1, hadd.2, Int.add_zero, Int.add_zero]
  exact ⟨_, h6', hT.1 _ hd _ h6' (by rw [hover]; exact hc), hover⟩

end Pacman.Router

namespace Pacman.Split

open Router (Ctx AppPart Net NetRoutable Together Mutual)
open Plc (Placement Store)
open Placer (AppV allVerts given On Way)

section
variable {E : Env} {W : World} {vs : List Nat} {fixedApp : Nat → Bool} {M : Placer.Machine} {C : Ctx}
  {links : Nat → RPath.XY × Nat} {fuel : Nat} {os : List Plc.Op} {s : Store} {parts : List AppPart}

theorem appsOf_mem (hL : Linked W) : ∀ {vs : List Nat} {as : List AppV}, appsOf W fixedApp vs = .ok as →
    ∀ v ∈ vs, ∃ a ∈ as, a.groups.flatMap (·.1) = (W.app v).machines ∧ a.isFixed = fixedApp v := by
  intro vs
  induction vs with
  | nil => intro as _ v hv; cases hv
  | cons u us ih =>
    intro as h v hv
    unfold appsOf at h
    split at h
    · cases h
    · rename_i s hs
      split at h
      · cases h
      · rename_i gs hgs
        split at h
        · cases h
        · rename_i as' has
          injection h with h
          subst h
          have hg : governedOf W s = .ok u := by
            unfold governedOf
            rw [(hL u s).1 hs]
          rcases List.mem_cons.1 hv with rfl | hv
          · exact ⟨_, List.mem_cons_self, groups_verts hg hgs, rfl⟩
          · obtain ⟨a, h1, h2⟩ := ih has v hv
            exact ⟨a, List.mem_cons_of_mem _ h1, h2⟩

/-- No machine vertex belongs to two application vertices. -/
theorem machines_nodup (hW : Sound E W) : ∀ {vs : List Nat}, vs.Nodup →
    (vs.flatMap (fun v => (W.app v).machines)).Nodup := by
  intro vs
  induction vs with
  | nil => intro _; exact List.nodup_nil
  | cons v vs ih =>
    intro h
    rw [List.nodup_cons] at h
    rw [List.flatMap_cons]
    refine List.nodup_append.2 ⟨hW.nodup v, ih h.2, ?_⟩
    intro a ha b hb hab
    subst hab
    obtain ⟨u, hu, hau⟩ := List.mem_flatMap.1 hb
    have h1 := hW.owner v a ha
    rw [hW.owner u a hau] at h1
    exact h.1 (h1 ▸ hu)

theorem way_walk (hA : SameLinks M C.T) (hS : ∀ c, M.has c = true → ((c.1 : Int), (c.2 : Int)) ∈ C.T.chips)
    {M' : Placer.Machine} (hM' : M'.links = M.links)
    {U : Nat × Nat → Prop} (hU : ∀ c, U c → M.has c = true) {a b : Nat × Nat} (h : Way M' U a b) :
    RPath.WalkIn C.T (fun c => ∃ d, U d ∧ c = ((d.1 : Int), (d.2 : Int))) ((a.1 : Int), (a.2 : Int))
      ((b.1 : Int), (b.2 : Int)) := by
  induction h with
  | here _ => exact .nil
  | @step c d hw hl hd ih =>
    have hc : U c := by
      cases hw with
      | here h => exact h
      | step _ _ h => exact h
    rw [hM'] at hl
    obtain ⟨l, h1, h2, h3⟩ := hA c (hU c hc) d hl
    rw [← h3]
    refine .snoc ih h1 h2 ?_ ?_
    · rw [h3]; exact hS d (hU d hd)
    · exact ⟨d, hd, h3⟩

/-- The chips of a vertex that the placer has placed are together. -/
theorem placed_together (hW : Sound E W) (hL : Linked W) (hn : vs.Nodup) (hS : Site M C W links) (hf : M.chips.length < fuel)
    (hsys : ∀ a ∈ Plc.placements (given os), M.has (a.x, a.y) = true)
    (hap : ∀ a ∈ Plc.placements (given os), ∀ v ∈ vs, a.vertex ∉ (W.app v).machines)
    (hpl : placeFor M W fixedApp vs fuel (given os) = .ok s) (hA : SameLinks M C.T) (hm : Mutual C.T) {v : Nat} (hv : v ∈ vs)
    (hfx : fixedApp v = false) (hd : ∀ m ∈ (W.app v).machines, (W.mv m).dev = none) :
    Together C.T (fun c => ∃ m ∈ (W.app v).machines, ((located C W s links).locate m).1 = c) := by
  have hP := put_after (vs := vs) hS hL hf hpl
  unfold placeFor at hpl
  split at hpl
  · cases hpl
  · rename_i as has
    obtain ⟨a, ha, hg, hfix⟩ := appsOf_mem hL has v hv
    have hall := appsOf_verts hL has
    obtain ⟨st, hst⟩ := Placer.C80_linked (M := machineFor M W) hS.cores hS.grid hf os as
      (by rw [hall]; exact machines_nodup hW hn) (by
        intro u hu hmem
        rw [hall] at hu
        obtain ⟨w, hw, huw⟩ := List.mem_flatMap.1 hu
        obtain ⟨b, hb, rfl⟩ := List.mem_map.1 hmem
        exact hap b hb w hw huw) hpl ha (hfix.trans hfx)
    rw [hg] at hst
    have hhas : ∀ c, (∃ w ∈ (W.app v).machines, On (Plc.placements s) w c) → M.has c = true := by
      rintro c ⟨w, -, b, hb, -, rfl⟩
      rcases hP.known b hb with h | h
      · exact hsys b h
      · exact h
    have hloc : ∀ m ∈ (W.app v).machines, ∃ b ∈ Plc.placements s, b.vertex = m ∧
        ((located C W s links).locate m).1 = ((b.x : Int), (b.y : Int)) := by
      intro m hm
      obtain ⟨b, hb⟩ := hP.placed v hv m hm (hd m hm)
      obtain ⟨h1, h2⟩ := (getOf_iff hP.inv).1 hb
      refine ⟨b, h1, h2, ?_⟩
      rw [locate_sits (C := C) hP (.core (hd m hm) h1 h2)]
    have hiff : ∀ c, (∃ d, (∃ w ∈ (W.app v).machines, On (Plc.placements s) w d) ∧ c = (((d.1 : Int), (d.2 : Int)) : RPath.XY)) ↔
        ∃ m ∈ (W.app v).machines, ((located C W s links).locate m).1 = c := by
      intro c
      constructor
      · rintro ⟨d, ⟨w, hw, b, hb, hbv, rfl⟩, rfl⟩
        refine ⟨w, hw, ?_⟩
        rw [locate_sits (C := C) hP (.core (hd w hw) hb hbv)]
      · rintro ⟨m, hm, rfl⟩
        obtain ⟨b, h1, h2, h3⟩ := hloc m hm
        exact ⟨(b.x, b.y), ⟨m, hm, b, h1, h2, rfl⟩, h3⟩
    have hwalk : ∀ c, (∃ m ∈ (W.app v).machines, ((located C W s links).locate m).1 = c) →
        RPath.WalkIn C.T (fun c => ∃ m ∈ (W.app v).machines, ((located C W s links).locate m).1 = c)
          ((st.1 : Int), (st.2 : Int)) c ∧ ∃ w ∈ (W.app v).machines, On (Plc.placements s) w st := by
      rintro c ⟨m, hm, rfl⟩
      obtain ⟨b, h1, h2, h3⟩ := hloc m hm
      have hw := hst m hm (b.x, b.y) ⟨b, h1, h2, rfl⟩
      refine ⟨?_, ?_⟩
      · rw [h3]
        exact RPath.WalkIn.imp (way_walk (M' := machineFor M W) hA hS.agree rfl hhas hw) (fun c hc => (hiff c).1 hc)
      · clear h3 h2 h1
        generalize hx : ((b.x, b.y) : Nat × Nat) = x at hw
        clear hx
        induction hw with
        | here h => exact h
        | step _ _ _ ih => exact ih
    intro c d hc hd'
    obtain ⟨-, hs0⟩ := hwalk c hc
    exact Router.together_from hm ((hiff _).1 ⟨st, hs0, rfl⟩) (hS.agree st (hhas st hs0)) (fun c hc => (hwalk c hc).1) c d hc hd'

theorem askTargets_ok {a : Nat} {ds : List Nat} (h : ∀ d ∈ ds, ∃ t, Receiver E W d t) : askTargets E W a ds = .ok () := by
  induction ds with
  | nil => rfl
  | cons d ds ih =>
    obtain ⟨t, s, ts, h1, h2, -⟩ := h d List.mem_cons_self
    unfold askTargets
    simp only [h1, inFor, h2, Except.map]
    exact ih (fun d hd => h d (List.mem_cons_of_mem _ hd))

theorem askAll_good (h1 : ∀ p ∈ parts, ∃ m, Sender E W p.pre m) (h2 : ∀ p ∈ parts, ∀ d ∈ p.edges, ∃ t, Receiver E W d t) :
    askAll E W parts = .ok () := by
  induction parts with
  | nil => rfl
  | cons p ps ih =>
    obtain ⟨m, t, ms, k1, k2, -⟩ := h1 p List.mem_cons_self
    unfold askAll
    simp only [k1, k2, askTargets_ok (h2 p List.mem_cons_self)]
    exact ih (fun q hq => h1 q (List.mem_cons_of_mem _ hq)) (fun q hq => h2 q (List.mem_cons_of_mem _ hq))

/-- The graph meets what the router needs. -/
theorem net_routable (hd : Done E W vs) (hin : ∀ p ∈ parts, p.pre ∈ vs) (hne : ∀ p ∈ parts, p.edges ≠ [])
    (hout : ∀ p ∈ parts, ∃ m, Sender E W p.pre m) (hrec : ∀ p ∈ parts, ∀ d ∈ p.edges, ∃ t, Receiver E W d t)
    (hs : ∀ p ∈ parts, Together C.T (fun c => ∃ m ∈ (W.app p.pre).machines, (C.locate m).1 = c))
    (ht : ∀ p ∈ parts, ∀ d ∈ p.edges, Together C.T (fun c => ∃ t, Receiver E W d t ∧ (C.locate t).1 = c)) :
    NetRoutable (netOf E W C parts vs) where
  splitters := by
    intro v hv
    obtain ⟨t, h⟩ := hd.some_ v hv
    simp only [netOf, h]
    rfl
  pres := by
    intro p hp
    obtain ⟨t, h⟩ := hd.some_ _ (hin p hp)
    simp only [netOf, h]
    rfl
  sends := by
    intro a ident hl
    obtain ⟨p, hp, rfl, rfl⟩ := net_leaves hl
    obtain ⟨m, t, ms, h1, h2, -⟩ := hout p hp
    rw [net_outgoing.2 ⟨t, h1, h2⟩]
    rfl
  sources := by
    intro a ident hl
    obtain ⟨p, hp, rfl, rfl⟩ := net_leaves hl
    exact hs p hp
  named := by
    intro p hp d hdd _ h0
    obtain ⟨t, h⟩ := hrec p hp d hdd
    have : (t, [Alloc.VId.app p.pre]) ∈ (netOf E W C parts vs).incoming d p.pre p.ident := net_incoming.2 ⟨h, rfl⟩
    rw [h0] at this
    cases this
  targets := by
    intro p hp d hdd _
    refine Router.together_congr (fun c => ?_) (ht p hp d hdd)
    constructor
    · rintro ⟨t, h1, h2⟩
      exact ⟨(t, [.app p.pre]), net_incoming.2 ⟨h1, rfl⟩, h2⟩
    · rintro ⟨x, h1, h2⟩
      exact ⟨x.1, (net_incoming.1 h1).1, h2⟩
  itself := by
    intro p hp _ x hx
    exact (net_appOf hd).1 (receiver_known hd (net_incoming.1 hx).1)
  inside := by
    intro a is h i hi
    rw [net_internals h] at hi
    cases hi
  asked := by
    intro a ident hl _
    obtain ⟨p, hp, rfl, rfl⟩ := net_leaves hl
    obtain ⟨d, hdd⟩ := List.exists_mem_of_ne_nil _ (hne p hp)
    obtain ⟨t, h⟩ := hrec p hp d hdd
    exact ⟨t, Or.inl ⟨p, hp, rfl, rfl, d, hdd, (t, [.app p.pre]), net_incoming.2 ⟨h, rfl⟩, rfl⟩⟩

end

end Pacman.Split
