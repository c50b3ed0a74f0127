import Verif.Spec.Mapping
import Verif.Proofs.SplitterNet
import Verif.Props.Placer
/-
The placer and the router on a graph that has been partitioned: lemmas.
-/

namespace Pacman.Split

open Router (Ctx AppPart Net)
open Plc (Placement Store)
open Placer (AppV allVerts given)

section
variable {E : Env} {W : World} {vs : List Nat} {fixedApp : Nat → Bool}

theorem groups_verts {s v : Nat} {gs : List (List Nat × Int)} (hg : governedOf W s = .ok v) (h : groups W s = .ok gs) :
    (gs.map (fun g => (g.1, g.2.toNat))).flatMap (·.1) = (W.app v).machines := by
  unfold groups at h
  rw [hg] at h
  simp only [Except.map] at h
  injection h with h
  subst h
  rw [List.map_map]
  generalize (W.app v).machines = l
  induction l with
  | nil => rfl
  | cons x xs ih =>
    rw [List.map_cons, List.flatMap_cons, ih]
    rfl

theorem appsOf_verts (hL : Linked W) : ∀ {vs : List Nat} {as : List AppV}, appsOf W fixedApp vs = .ok as →
    allVerts as = vs.flatMap (fun v => (W.app v).machines) := by
  intro vs
  induction vs with
  | nil =>
    intro as h
    injection h with h
    subst h
    rfl
  | cons v vs ih =>
    intro as h
    unfold appsOf at h
    split at h
    · cases h
    · rename_i s hs
      split at h
      · cases h
      · rename_i gs hgs
        split at h
        · cases h
        · rename_i as' has
          injection h with h
          subst h
          have hg : governedOf W s = .ok v := by
            unfold governedOf
            rw [(hL v s).1 hs]
          rw [List.flatMap_cons, ← ih has, ← groups_verts hg hgs]
          rfl

theorem appsOf_covered {M : Placer.Machine} : ∀ {vs : List Nat} {as : List AppV}, appsOf W fixedApp vs = .ok as →
    ∀ a ∈ as, Placer.Covered (machineFor M W) a.groups := by
  intro vs
  induction vs with
  | nil =>
    intro as h a ha
    injection h with h
    subst h
    cases ha
  | cons v vs ih =>
    intro as h
    unfold appsOf at h
    split at h
    · cases h
    · rename_i s hs
      split at h
      · cases h
      · rename_i gs hgs
        split at h
        · cases h
        · rename_i as' has
          injection h with h
          subst h
          intro a ha
          rcases List.mem_cons.1 ha with rfl | ha
          · intro g hg
            obtain ⟨g0, h0, rfl⟩ := List.mem_map.1 hg
            unfold groups at hgs
            cases hgo : governedOf W s with
            | error e => rw [hgo] at hgs; cases hgs
            | ok u =>
              rw [hgo] at hgs
              simp only [Except.map] at hgs
              injection hgs with hgs
              subst hgs
              obtain ⟨m, -, rfl⟩ := List.mem_map.1 h0
              exact Placer.Costs.Le.refl _ _
          · exact ih has a ha

theorem appsOf_free (hf : ∀ v ∈ vs, fixedApp v = false) {as : List AppV} (h : appsOf W fixedApp vs = .ok as) :
    ∀ a ∈ as, a.isFixed = false := by
  induction vs generalizing as with
  | nil =>
    intro a ha
    injection h with h
    subst h
    cases ha
  | cons v vs ih =>
    unfold appsOf at h
    split at h
    · cases h
    · split at h
      · cases h
      · split at h
        · cases h
        · rename_i as' has
          injection h with h
          subst h
          intro a ha
          rcases List.mem_cons.1 ha with rfl | ha
          · exact hf v (by simp)
          · exact ih (fun u hu => hf u (List.mem_cons_of_mem _ hu)) has a ha

end

theorem inv_after {M : Placer.Machine} {fuel : Nat} {as : List AppV} {os : List Plc.Op} {s : Store}
    (hO : Placer.Order M) (hG : Placer.Grid M) (hf : M.chips.length < fuel)
    (h : Placer.place M fuel as (given os) = .ok s) : Plc.Inv s (Plc.placements s) := by
  obtain ⟨fs, l', hN, hI, hC⟩ := Placer.place_ok False hO hG hf (fun k => k.elim) (Placer.given_inv os) h
  rw [Placer.placements_eq hI]
  exact hI

theorem getOf_iff {s : Store} (hI : Plc.Inv s (Plc.placements s)) {m : Nat} {a : Placement} :
    Plc.getOfVertex s m = .ok a ↔ a ∈ Plc.placements s ∧ a.vertex = m := by
  have hv := hI.verts
  unfold Plc.getOfVertex
  rw [hI.vertex, Plc.Dict.get?_map (f := Placement.vertex)]
  have hinj : ∀ {l : List Placement}, (l.map Placement.vertex).Nodup → ∀ a ∈ l, ∀ b ∈ l, a.vertex = b.vertex → a = b := by
    intro l
    induction l with
    | nil => intro _ a ha; cases ha
    | cons x xs ih =>
      intro hn a ha b hb hab
      rw [List.map_cons, List.nodup_cons] at hn
      rcases List.mem_cons.1 ha with h1 | h1 <;> rcases List.mem_cons.1 hb with h2 | h2
      · rw [h1, h2]
      · exact absurd (List.mem_map.2 ⟨b, h2, by rw [← hab, h1]⟩) hn.1
      · exact absurd (List.mem_map.2 ⟨a, h1, by rw [hab, h2]⟩) hn.1
      · exact ih hn.2 a h1 b h2 hab
  cases hf : List.find? (fun a => decide (a.vertex = m)) (Plc.placements s) with
  | none =>
    rw [List.find?_eq_none] at hf
    constructor
    · intro h; cases h
    · rintro ⟨h1, h2⟩
      exact absurd (by simp [h2]) (hf a h1)
  | some b =>
    have h1 := List.mem_of_find?_eq_some hf
    have h2 : b.vertex = m := by simpa using List.find?_some hf
    constructor
    · intro h; injection h with h; subst h; exact ⟨h1, h2⟩
    · rintro ⟨h3, h4⟩
      rw [hinj hv b h1 a h3 (h2.trans h4.symm)]

section
variable {E : Env} {W : World} {vs : List Nat} {fixedApp : Nat → Bool} {M : Placer.Machine} {C : Ctx}
  {links : Nat → RPath.XY × Nat} {fuel : Nat} {os : List Plc.Op} {s : Store}

/-- What is known after the placer. -/
structure Put (W : World) (M : Placer.Machine) (vs : List Nat) (os : List Plc.Op) (s : Store) : Prop where
  inv : Plc.Inv s (Plc.placements s)
  placed : ∀ v ∈ vs, ∀ m ∈ (W.app v).machines, (W.mv m).dev = none → ∃ a, Plc.getOfVertex s m = .ok a
  known : ∀ a ∈ Plc.placements s, a ∈ Plc.placements (given os) ∨ M.has (a.x, a.y) = true

theorem put_after (hS : Site M C W links) (hL : Linked W) (hf : M.chips.length < fuel)
    (h : placeFor M W fixedApp vs fuel (given os) = .ok s) : Put W M vs os s := by
  unfold placeFor at h
  split at h
  · cases h
  · rename_i as has
    have hO : Placer.Order (machineFor M W) := hS.cores
    have hG : Placer.Grid (machineFor M W) := hS.grid
    have hf' : (machineFor M W).chips.length < fuel := hf
    obtain ⟨-, -, ⟨new, h1, h2⟩, h3⟩ := Placer.C31_unique hO hG hf' os as h
    refine ⟨inv_after hO hG hf' h, ?_, ?_⟩
    · intro v hv m hm hd
      refine h3 m ?_ ?_
      · rw [appsOf_verts hL has]
        exact List.mem_flatMap.2 ⟨v, hv, hm⟩
      · simp [machineFor, hd]
    · intro a ha
      rw [h1, List.mem_append] at ha
      rcases ha with ha | ha
      · exact Or.inl ha
      · exact Or.inr (h2 a ha).2.1

theorem ground_after (hS : Site M C W links) (hP : Put W M vs os s)
    (hsys : ∀ a ∈ Plc.placements (given os), M.has (a.x, a.y) = true) : Ground (located C W s links) where
  merges := hS.merges
  iter := hS.iter
  vector := hS.vector
  placed := by
    intro m
    show ((located C W s links).locate m).1 ∈ C.T.chips
    simp only [located]
    split
    · rename_i i hi
      exact (hS.links m i.1 i.2 hi).1
    · split
      · rename_i a ha
        obtain ⟨h1, -⟩ := (getOf_iff hP.inv).1 ha
        exact hS.agree (a.x, a.y) ((hP.known a h1).elim (hsys a) id)
      · cases hc : C.T.chips with
        | nil => exact absurd hc hS.some_
        | cons x xs => exact List.mem_cons_self
  outside := by
    intro m l h
    show l < 6 ∧ C.T.linkAt ((located C W s links).locate m).1 l = false
    simp only [located] at h ⊢
    split at h
    · rename_i i hi
      injection h with h
      subst h
      exact (hS.links m i.1 i.2 hi).2
    · split at h <;> cases h

/-- `locate` tells where a vertex is. -/
theorem sits_locate (hP : Put W M vs os s) {m : Nat}
    (h : (W.mv m).dev = none → ∃ a, Plc.getOfVertex s m = .ok a) :
    Sits W (Plc.placements s) links m ((located C W s links).locate m).1 ((located C W s links).locate m).2.1
      ((located C W s links).locate m).2.2 := by
  cases hd : (W.mv m).dev with
  | some l =>
    have : (located C W s links).locate m = ((links l.1).1, none, some (links l.1).2) := by simp only [located, hd]
    rw [this]
    exact .link hd
  | none =>
    obtain ⟨a, ha⟩ := h hd
    obtain ⟨h1, h2⟩ := (getOf_iff hP.inv).1 ha
    have : (located C W s links).locate m = (((a.x : Int), (a.y : Int)), some a.p, none) := by
      simp only [located, hd, ha]
    rw [this]
    exact .core hd h1 h2

/-- A vertex is in one place only. -/
theorem locate_sits (hP : Put W M vs os s) {m : Nat} {c : RPath.XY} {q l : Option Nat}
    (h : Sits W (Plc.placements s) links m c q l) : (located C W s links).locate m = (c, q, l) := by
  cases h with
  | core h1 h2 h3 => simp only [located, h1, (getOf_iff hP.inv).2 ⟨h2, h3⟩]
  | link h1 => simp only [located, h1]

theorem same_core {l : List Placement} (hn : (l.map Placement.loc).Nodup) {a b : Placement} (ha : a ∈ l) (hb : b ∈ l)
    (hx : (((a.x : Int), (a.y : Int)) : RPath.XY) = ((b.x : Int), (b.y : Int))) (hp : a.p = b.p) : a = b := by
  have hloc : a.loc = b.loc := by
    injection hx with h3 h4
    simp only [Placement.loc, hp]
    rw [Int.ofNat.inj h3, Int.ofNat.inj h4]
  induction l with
  | nil => cases ha
  | cons x xs ih =>
    rw [List.map_cons, List.nodup_cons] at hn
    rcases List.mem_cons.1 ha with h1 | h1 <;> rcases List.mem_cons.1 hb with h2 | h2
    · rw [h1, h2]
    · exact absurd (List.mem_map.2 ⟨b, h2, by rw [← hloc, h1]⟩) hn.1
    · exact absurd (List.mem_map.2 ⟨a, h1, by rw [hloc, h2]⟩) hn.1
    · exact ih hn.2 h1 h2

theorem sits_core {l : List Placement} {m : Nat} {c : RPath.XY} {q : Nat} {k : Option Nat}
    (h : Sits W l links m c (some q) k) :
    ∃ a ∈ l, a.vertex = m ∧ c = ((a.x : Int), (a.y : Int)) ∧ q = a.p ∧ (W.mv m).dev = none := by
  cases h with
  | core h1 h2 h3 => exact ⟨_, h2, h3, rfl, rfl, h1⟩

theorem lookUp_ok : ∀ {ms : List Nat}, (∀ m ∈ ms, (W.mv m).dev = none → ∃ a, Plc.getOfVertex s m = .ok a) →
    lookUp W s ms = .ok () := by
  intro ms
  induction ms with
  | nil => intro _; rfl
  | cons m ms ih =>
    intro h
    unfold lookUp
    split
    · rename_i e hd he
      obtain ⟨a, ha⟩ := h m (by simp) hd
      rw [ha] at he
      cases he
    · exact ih (fun k hk => h k (List.mem_cons_of_mem _ hk))

theorem lookUp_error {m : Nat} (hd : (W.mv m).dev = none) (hn : ∀ a, Plc.getOfVertex s m ≠ .ok a) :
    ∀ {ms : List Nat}, m ∈ ms → ∃ e, lookUp W s ms = .error e := by
  intro ms
  induction ms with
  | nil => intro h; cases h
  | cons x xs ih =>
    intro h
    unfold lookUp
    split
    · exact ⟨_, rfl⟩
    · rename_i hx
      rcases List.mem_cons.1 h with rfl | h
      · cases hg : Plc.getOfVertex s m with
        | ok a => exact absurd hg (hn a)
        | error e => exact absurd hg (hx e hd)
      · exact ih h

theorem appsOf_one : ∀ {vs : List Nat} {as : List AppV}, appsOf W fixedApp vs = .ok as →
    ∀ a ∈ as, ∀ g ∈ a.groups, ∃ m, g.1 = [m] := by
  intro vs
  induction vs with
  | nil =>
    intro as h a ha
    cases h
    cases ha
  | cons v vs ih =>
    intro as h
    unfold appsOf at h
    split at h
    · cases h
    · rename_i t ht
      split at h
      · cases h
      · rename_i gs hgs
        split at h
        · cases h
        · rename_i as' has
          cases h
          intro a ha
          rcases List.mem_cons.1 ha with rfl | ha
          · intro g hg
            obtain ⟨g0, hg0, rfl⟩ := List.mem_map.1 hg
            unfold groups at hgs
            cases hv : governedOf W t with
            | error e => rw [hv] at hgs; cases hgs
            | ok u =>
              rw [hv] at hgs
              simp only [Except.map] at hgs
              cases hgs
              obtain ⟨m, -, rfl⟩ := List.mem_map.1 hg0
              exact ⟨m, rfl⟩
          · exact ih has a ha

end

end Pacman.Split
