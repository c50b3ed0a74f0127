import Verif.Model.TableByPartition
import Verif.Proofs.Dict
import Verif.Proofs.Sort
/-
C25: routing entries per partition. A sequence of calls is written with the last call first.
-/

namespace Pacman.ByPart

open Alloc (VId)

/-- The call is for this source, partition and router. -/
def Call.For (c : Call) (src : VId) (part : Nat) (x y : Int) : Prop :=
  c.src = src ∧ c.part = part ∧ c.x = x ∧ c.y = y

instance (c : Call) (src : VId) (part : Nat) (x y : Int) : Decidable (c.For src part x y) := by
  unfold Call.For; infer_instance

/-- The union of the routes of the calls for a source, partition and router; `none` if there are none. -/
def union (cs : List Call) (src : VId) (part : Nat) (x y : Int) : Option Nat :=
  match cs.filter (fun c => decide (c.For src part x y)) with
  | [] => none
  | c :: cs => some ((c :: cs).foldr (fun c r => c.entry.route ||| r) 0)

/-- `RoutingEntry.merge` joins the routes if it succeeds. -/
def Merges (w : World) : Prop := ∀ a b c, w.merge a b = .ok c → c.route = a.route ||| b.route

/-- A vertex is listed as machine vertex of its application vertex. -/
def Consistent (w : World) : Prop := ∀ a m, m ∈ w.machines a ↔ w.appOf m = some a

theorem entryOn_set (s : State) (x y x' y' : Int) (es : Entries) (src : VId) (part : Nat) :
    entryOn (s.set (x, y) es) src part x' y' =
      if (x, y) = (x', y') then es.get? (src, part) else entryOn s src part x' y' := by
  unfold entryOn entriesFor
  rw [Dict.get?_set]
  by_cases h : (x, y) = (x', y')
  · rw [if_pos h, if_pos h]
  · rw [if_neg h, if_neg h]

theorem entryOn_eq (s : State) (x y : Int) (src : VId) (part : Nat) :
    entryOn s src part x y = ((s.get? (x, y)).getD []).get? (src, part) := by
  unfold entryOn entriesFor
  cases s.get? (x, y) <;> rfl

/-- The effect of one call on what is stored. -/
theorem addPath_effect (w : World) (s : State) (c : Call) :
    (∀ e, (addPath w s c.entry c.x c.y c.src c.part).2 = .error e →
      ∀ src part x y, entryOn (addPath w s c.entry c.x c.y c.src c.part).1 src part x y =
        entryOn s src part x y) ∧
    ((addPath w s c.entry c.x c.y c.src c.part).2 = .ok () →
      check w ((s.get? (c.x, c.y)).getD []) c.src c.part = .ok () ∧
      ∃ e', (entryOn s c.src c.part c.x c.y = none ∧ e' = c.entry ∨
          ∃ old, entryOn s c.src c.part c.x c.y = some old ∧ w.merge c.entry old = .ok e') ∧
        ∀ src part x y, entryOn (addPath w s c.entry c.x c.y c.src c.part).1 src part x y =
          if c.For src part x y then some e' else entryOn s src part x y) := by
  have hsame : ∀ src part x y, entryOn (s.set (c.x, c.y) ((s.get? (c.x, c.y)).getD [])) src part x y =
      entryOn s src part x y := by
    intro src part x y
    rw [entryOn_set]
    split
    · rename_i h
      simp only [Prod.mk.injEq] at h
      rw [← h.1, ← h.2, entryOn_eq]
    · rfl
  have hput : ∀ e' src part x y, entryOn ((s.set (c.x, c.y) ((s.get? (c.x, c.y)).getD [])).set (c.x, c.y)
      (((s.get? (c.x, c.y)).getD []).set (c.src, c.part) e')) src part x y =
      if c.For src part x y then some e' else entryOn s src part x y := by
    intro e' src part x y
    rw [entryOn_set, hsame]
    by_cases hxy : (c.x, c.y) = (x, y)
    · rw [if_pos hxy, Dict.get?_set]
      simp only [Prod.mk.injEq] at hxy
      by_cases hs : (c.src, c.part) = (src, part)
      · rw [if_pos hs]
        simp only [Prod.mk.injEq] at hs
        rw [if_pos ⟨hs.1, hs.2, hxy.1, hxy.2⟩]
      · rw [if_neg hs, if_neg (by
          intro h
          exact hs (by rw [h.1, h.2.1])), ← hxy.1, ← hxy.2, entryOn_eq]
    · rw [if_neg hxy, if_neg]
      intro h
      exact hxy (by rw [h.2.2.1, h.2.2.2])
  unfold addPath
  simp only
  cases hc : check w ((s.get? (c.x, c.y)).getD []) c.src c.part with
  | error e => exact ⟨fun _ _ => hsame, by simp⟩
  | ok u =>
    unfold store
    cases hg : Dict.get? ((s.get? (c.x, c.y)).getD []) (c.src, c.part) with
    | none =>
      refine ⟨by simp, fun _ => ⟨rfl, c.entry, .inl ⟨by rw [entryOn_eq]; exact hg, rfl⟩, hput c.entry⟩⟩
    | some old =>
      cases hm : w.merge c.entry old with
      | error e => simp only [hm]; exact ⟨fun _ _ => hsame, by simp⟩
      | ok e' =>
        simp only [hm]
        exact ⟨by simp, fun _ => ⟨trivial, e', .inr ⟨old, by rw [entryOn_eq]; exact hg, hm⟩, hput e'⟩⟩

/-- **C25.** After any sequence of calls the route stored for a source, partition and router is the union
of the routes of the calls for it that succeeded; there is none if none succeeded. -/
theorem C25_union {w : World} (hm : Merges w) (cs : List Call) (src : VId) (part : Nat) (x y : Int) :
    (entryOn (run w cs).1 src part x y).map (·.route) = union (run w cs).2 src part x y := by
  induction cs generalizing src part x y with
  | nil => rfl
  | cons c cs ih =>
    obtain ⟨h1, h2⟩ := addPath_effect w (run w cs).1 c
    rw [run]
    generalize addPath w (run w cs).1 c.entry c.x c.y c.src c.part = r at h1 h2
    obtain ⟨s, res⟩ := r
    cases res with
    | error e =>
      simp only at h1 ⊢
      rw [h1 e rfl]
      exact ih src part x y
    | ok u =>
      obtain ⟨_, e', he', heff⟩ := h2 rfl
      simp only at heff ⊢
      rw [heff]
      split
      · rename_i hfor
        have hunion := ih src part x y
        obtain ⟨rfl, rfl, rfl, rfl⟩ := hfor
        unfold union at hunion ⊢
        rw [List.filter_cons, if_pos (by simp [Call.For])]
        rcases he' with ⟨hn, rfl⟩ | ⟨old, ho, hmer⟩
        · rw [hn] at hunion
          split at hunion
          · rename_i hnil; rw [hnil]; simp
          · simp at hunion
        · rw [ho] at hunion
          have := hm _ _ _ hmer
          simp only [Option.map_some, this, List.foldr_cons, Option.some.injEq]
          split at hunion
          · simp at hunion
          · rename_i d ds hd
            rw [hd]
            simp only [Option.map_some, Option.some.injEq] at hunion
            rw [hunion]
      · rename_i hfor
        have : union (c :: (run w cs).2) src part x y = union (run w cs).2 src part x y := by
          unfold union
          rw [List.filter_cons, if_neg (by simpa using hfor)]
        rw [this]
        exact ih src part x y

/-- **C25.** No router holds both an application vertex and one of its machine vertices as sources of the
same partition. -/
theorem C25_never_mixed {w : World} (hw : Consistent w) (cs : List Call) (a m part : Nat) (x y : Int)
    (ham : w.appOf m = some a) :
    ¬ ((entryOn (run w cs).1 (.app a) part x y).isSome ∧
       (entryOn (run w cs).1 (.mach m) part x y).isSome) := by
  induction cs with
  | nil => simp [run, entryOn, entriesFor, Dict.get?]
  | cons c cs ih =>
    obtain ⟨h1, h2⟩ := addPath_effect w (run w cs).1 c
    rw [run]
    generalize addPath w (run w cs).1 c.entry c.x c.y c.src c.part = r at h1 h2
    obtain ⟨s, res⟩ := r
    cases res with
    | error e =>
      simp only at h1 ⊢
      rw [h1 e rfl, h1 e rfl]
      exact ih
    | ok u =>
      obtain ⟨hc, e', _, heff⟩ := h2 rfl
      simp only at heff ⊢
      rw [heff, heff]
      by_cases hfa : c.For (.app a) part x y
      · have hfm : ¬ c.For (.mach m) part x y := by
          intro h
          have := hfa.1.symm.trans h.1
          simp at this
        rw [if_neg hfm]
        obtain ⟨e1, e2, e3, e4⟩ := hfa
        rw [e1, e2, e3, e4] at hc
        unfold check at hc
        simp only at hc
        rw [forE_ok] at hc
        have := hc m ((hw a m).2 ham)
        rintro ⟨_, hs⟩
        rw [entryOn_eq] at hs
        rw [if_pos hs] at this
        simp at this
      · rw [if_neg hfa]
        by_cases hfm : c.For (.mach m) part x y
        · obtain ⟨e1, e2, e3, e4⟩ := hfm
          rw [e1, e2, e3, e4] at hc
          unfold check at hc
          simp only [ham] at hc
          rintro ⟨hs, _⟩
          rw [entryOn_eq] at hs
          rw [if_pos hs] at hc
          simp at hc
        · rw [if_neg hfm]
          exact ih

theorem set_self {κ α : Type} [DecidableEq κ] {d : Dict κ α} {k : κ} {v : α} (h : d.get? k = some v) :
    d.set k v = d := by
  induction d with
  | nil => simp [Dict.get?] at h
  | cons p d ih =>
    rw [Dict.get?_cons] at h
    rw [Dict.set]
    by_cases hp : p.1 = k
    · rw [if_pos hp] at h ⊢
      simp only [Option.some.injEq] at h
      rw [← hp, ← h]
    · rw [if_neg hp] at h ⊢
      rw [ih h]

/-- **C25.** A call that raises leaves everything as it was. -/
theorem C25_failure_changes_nothing (w : World) (s : State) (c : Call) (e : PyErr)
    (h : (addPath w s c.entry c.x c.y c.src c.part).2 = .error e) :
    (addPath w s c.entry c.x c.y c.src c.part).1 = s := by
  cases hs : s.get? (c.x, c.y) with
  | none =>
    exfalso
    have hget : ∀ k : VId × Nat, Dict.get? ([] : Entries) k = none := fun _ => rfl
    have hc : check w [] c.src c.part = .ok () := by
      unfold check
      split
      · rw [forE_ok]
        intro m _
        simp [hget]
      · split
        · rfl
        · simp [hget]
    unfold addPath at h
    simp only [hs, Option.getD_none, hc, store, hget] at h
    simp at h
  | some es =>
    have hset := set_self hs
    unfold addPath at h ⊢
    simp only [hs, Option.getD_some, hset] at h ⊢
    cases hc : check w es c.src c.part with
    | error e' => rfl
    | ok u =>
      rw [hc] at h
      simp only at h ⊢
      cases hst : store w es c.entry c.src c.part with
      | error e' => rfl
      | ok es' => rw [hst] at h; simp at h

/-- The world of the examples: machine vertices 10 and 11 belong to application vertex 1. -/
def world : World :=
  { appOf := fun m => if m = 10 ∨ m = 11 then some 1 else none
    machines := fun a => if a = 1 then [10, 11] else []
    merge := fun a b => .ok ⟨a.route ||| b.route, a.defaultable && b.defaultable⟩ }

theorem world_ok : Merges world ∧ Consistent world := by
  refine ⟨?_, ?_⟩
  · intro a b c h
    simp only [world, Except.ok.injEq] at h
    rw [← h]
  · intro a m
    simp only [world]
    by_cases h : a = 1
    · simp only [h, if_true]
      by_cases h' : m = 10 ∨ m = 11
      · simp [h']
      · simp [h']
    · simp only [h, if_false]
      by_cases h' : m = 10 ∨ m = 11
      · simp [h']; exact fun e => h e.symm
      · simp [h']

/-- Calls, last first: two for vertex 10, one rejected for its application vertex, one elsewhere. -/
def calls : List Call :=
  [⟨⟨8, true⟩, 0, 0, .app 1, 5⟩, ⟨⟨4, true⟩, 0, 0, .mach 10, 5⟩, ⟨⟨2, true⟩, 0, 1, .app 1, 5⟩,
   ⟨⟨1, false⟩, 0, 0, .mach 10, 5⟩]

example : entryOn (run world calls).1 (.mach 10) 5 0 0 = some ⟨5, false⟩ ∧
    entryOn (run world calls).1 (.app 1) 5 0 0 = none ∧
    entryOn (run world calls).1 (.app 1) 5 0 1 = some ⟨2, true⟩ ∧ (run world calls).2.length = 3 ∧
    world.appOf 10 = some 1 := by decide

example : (addPath world (run world calls).1 ⟨8, true⟩ 0 0 (.app 1) 5).2 = .error .invalidParameter := by
  decide

end Pacman.ByPart
