import Verif.Props.Pipeline
/-
Small graphs for examples, given by lists: what is taken for granted of graphs holds for all of them.
-/

namespace Pacman.Pipe

open Alloc (VId)
open Router (Net Ctx AppPart NetContract NoReturns NetOutside)
open RPath (XY Topo linkAdd fixErrors longestFirst visits wrap)

/-- A machine without wrap-arounds with these chips and links. -/
def miniT (chips : List XY) (links : List (XY × Nat)) : Topo where
  chips := chips
  linkAt := fun c l => decide ((c, l) ∈ links)
  over := fun c l => (c.1 + (linkAdd l).1, c.2 + (linkAdd l).2)

/-- A shortest vector for steps of at most one chip. -/
def miniVector (a b : XY) : Int × Int × Int :=
  if b.1 - a.1 = 1 ∧ b.2 - a.2 = 1 then (0, 0, -1)
  else if b.1 - a.1 = -1 ∧ b.2 - a.2 = -1 then (0, 0, 1) else (b.1 - a.1, b.2 - a.2, 0)

/-- A machine vertex: its application vertex, its chip and core, and whether it sends. -/
structure MiniV where
  app : Nat
  chip : XY
  core : Nat
  sends : Bool

/-- The application vertex of a machine vertex. -/
def miniApp (vs : List MiniV) (m : Nat) : Option Nat := (vs[m]?).map (·.app)

/-- Machine vertices are numbered as they are listed. Everything else is on core 1 of `home`. -/
def miniC (T : Topo) (home : XY) (vs : List MiniV) : Ctx where
  T := T
  vector := miniVector
  appOf := miniApp vs
  machines := fun a => (List.range vs.length).filter (fun m => decide (miniApp vs m = some a))
  merge := fun a b => .ok ⟨a.route ||| b.route, a.defaultable && b.defaultable⟩
  outgoing := fun _ => some []
  locate := fun m => match vs[m]? with
    | some v => (v.chip, some v.core, none)
    | none => (home, some 1, none)
  iter := id

/-- The machine vertices of `a` that send. -/
def miniOut (vs : List MiniV) (a : Nat) : List Nat :=
  (List.range vs.length).filter (fun m =>
    decide (miniApp vs m = some a) && ((vs[m]?).map (·.sends)).getD false)

/-- Every machine vertex of a target asks for each machine vertex of the source (`each`), or for the
source as a whole. -/
def miniN (each : Bool) (T : Topo) (home : XY) (vs : List MiniV) (parts : List AppPart)
    (verts : List Nat) : Net where
  base := miniC T home vs
  parts := parts
  verts := verts
  internals := fun _ => some []
  outgoing := fun _ a => some (miniOut vs a)
  incoming := fun d a _ => ((List.range vs.length).filter (fun m => decide (miniApp vs m = some d))).map
    (fun m => (m, if each then (miniOut vs a).map .mach else [.app a]))

theorem mini_vector (chips : List XY) (links : List (XY × Nat)) (a b : XY) :
    RPath.Chain (miniT chips links) a (longestFirst (miniT chips links) (miniVector a b).1
      (miniVector a b).2.1 (miniVector a b).2.2 a) b := by
  have key : ∀ x y z : Int, a.1 + (x - z) = b.1 → a.2 + (y - z) = b.2 →
      RPath.Chain (miniT chips links) a (longestFirst (miniT chips links) x y z a) b := by
    intro x y z h1 h2
    have h := RPath.C39_end (T := miniT chips links) (w := none) (h := none) (fun _ _ _ => rfl) x y z
      (s := a) rfl
    have e1 : wrap none (a.1 + (x - z)) = b.1 := h1
    have e2 : wrap none (a.2 + (y - z)) = b.2 := h2
    rw [e1, e2] at h
    exact h
  unfold miniVector
  split
  · exact key _ _ _ (by simp only; omega) (by simp only; omega)
  · split
    · exact key _ _ _ (by simp only; omega) (by simp only; omega)
    · exact key _ _ _ (by simp only; omega) (by simp only; omega)

theorem mini_net {each : Bool} {chips : List XY} {links : List (XY × Nat)} {home : XY} {vs : List MiniV}
    {parts : List AppPart} {verts : List Nat} (hh : home ∈ chips) (hv : ∀ v ∈ vs, v.chip ∈ chips)
    (hd : (parts.map (fun p => (p.pre, p.ident))).Nodup) :
    NetContract (miniN each (miniT chips links) home vs parts verts) where
  merges := by
    intro a b c h
    simp only [miniN, miniC] at h
    cases h
    rfl
  owns := by
    intro a m
    simp only [miniN, miniC, List.mem_filter, List.mem_range, decide_eq_true_eq, and_iff_right_iff_imp]
    intro h
    unfold miniApp at h
    refine Decidable.byContradiction fun hlt => ?_
    rw [List.getElem?_eq_none (by omega)] at h
    cases h
  sends := by
    intro ident a l m h hm
    simp only [miniN] at h
    cases h
    have := (List.mem_filter.mp hm).2
    simp only [Bool.and_eq_true, decide_eq_true_eq] at this
    exact this.1
  within := by
    intro a is h i hi
    simp only [miniN] at h
    cases h
    cases hi
  iter := fun l => List.Perm.refl _
  placed := by
    intro m
    simp only [miniN, miniC]
    split
    · rename_i v h
      exact hv v (List.mem_of_getElem? h)
    · exact hh
  vector := fun a b _ _ => mini_vector chips links a b
  sources := by
    intro p _ d _ v h s hs
    simp only [miniN] at h
    obtain ⟨m, _, rfl⟩ := List.mem_map.mp h
    simp only at hs
    split at hs
    · obtain ⟨k, hk, rfl⟩ := List.mem_map.mp hs
      exact Or.inr ⟨_, k, rfl, hk, rfl⟩
    · exact Or.inl (List.mem_singleton.mp hs)
  distinct := hd

theorem mini_outside (each : Bool) (T : Topo) (home : XY) (vs : List MiniV) (parts : List AppPart) (verts : List Nat) :
    NetOutside (miniN each T home vs parts verts) := by
  intro a ident t l _ hl
  simp only [miniN, miniC] at hl
  split at hl <;> cases hl

theorem mini_flag (each : Bool) (T : Topo) (home : XY) (vs : List MiniV) (parts : List AppPart) (verts : List Nat) :
    Router.KeepsFlag (miniN each T home vs parts verts).base := by
  intro a b c h hd
  simp only [miniN, miniC] at h
  cases h
  simpa using hd

/-- Whether every way between two chips passes each chip once. -/
def miniWays (T : Topo) : Bool :=
  T.chips.all (fun a => T.chips.all (fun b =>
    match fixErrors T a (longestFirst T (miniVector a b).1 (miniVector a b).2.1 (miniVector a b).2.2 a) with
    | .ok ms => decide ((visits a ms).Nodup)
    | .error _ => true))

theorem mini_noReturns (each : Bool) {T : Topo} (h : miniWays T = true) (home : XY) (vs : List MiniV)
    (parts : List AppPart) (verts : List Nat) : NoReturns (miniN each T home vs parts verts).base := by
  intro a b ms ha hb hf
  unfold miniWays at h
  have := List.all_eq_true.mp (List.all_eq_true.mp h a ha) b hb
  have h' : fixErrors T a (longestFirst T (miniVector a b).1 (miniVector a b).2.1 (miniVector a b).2.2 a)
      = .ok ms := hf
  rw [h'] at this
  simp only [decide_eq_true_eq] at this
  intro P1 P2 P3 x hx
  rw [hx] at this
  simp only [List.append_assoc, List.cons_append, List.nodup_append, List.nodup_cons] at this
  exact absurd (List.mem_append.mpr (Or.inr List.mem_cons_self)) this.2.1.1

theorem mini_allSend (each : Bool) {T : Topo} {home : XY} {vs : List MiniV} (hv : ∀ v ∈ vs, v.sends = true)
    (parts : List AppPart) (verts : List Nat) : Router.NetAllSend (miniN each T home vs parts verts) := by
  intro a ident _ m hm
  refine ⟨m, Or.inl ⟨_, rfl, ?_⟩, rfl⟩
  obtain ⟨h1, h2⟩ := List.mem_filter.mp hm
  refine List.mem_filter.mpr ⟨h1, ?_⟩
  rw [h2, Bool.true_and]
  rw [List.mem_range] at h1
  rw [List.getElem?_eq_getElem h1]
  exact hv _ (List.getElem_mem h1)

theorem mini_positive {each : Bool} {chips : List XY} {links : List (XY × Nat)} {home : XY} {vs : List MiniV}
    {parts : List AppPart} {verts : List Nat} (h : ∀ c ∈ chips, 0 ≤ c.1 ∧ 0 ≤ c.2) :
    Positive (miniN each (miniT chips links) home vs parts verts).base.T := h

/-- Ten keys for each vertex will do. -/
theorem mini_keys (each : Bool) (T : Topo) (home : XY) (vs : List MiniV) (parts : List AppPart) (verts : List Nat) :
    KeyContract (miniN each T home vs parts verts) lineK := by
  refine ⟨?_, (by intro _ _ _ h; cases h), (by intro _ _ _ h; cases h), (fun _ _ _ _ => rfl), ?_,
    (fun _ _ _ _ _ h => absurd rfl h), (by intro _ _ _ _ _ _ _ _ h; cases h),
    (by intro _ _ _ _ _ _ _ _ _ h; cases h), ?_⟩
  · intro ident a ms h
    simp only [miniN] at h
    cases h
    exact List.Pairwise.filter _ List.nodup_range
  · intro a ident ms _ h1 _ h2
    cases ms with
    | nil => exact Nat.zero_le _
    | cons m ms => have := h2 m List.mem_cons_self; cases this
  · intro a is h i hi
    simp only [miniN] at h
    cases h
    cases hi

end Pacman.Pipe
