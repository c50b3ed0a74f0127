import Verif.Proofs.DataView
/-
C103 to C107 on the data view.
-/

namespace Pacman.View

/-! ### C103 -/

/-- The field behind a slot. -/
def Slot.field (s : Slot) (w : World) : Option Nat :=
  match s with
  | .placements => w.data.placements
  | .routingInfos => w.data.routingInfos
  | .tags => w.data.tags
  | .uncompressed => w.data.uncompressed
  | .precompressed => w.data.precompressed
  | .byPartition => w.data.byPartition

theorem get_field (s : Slot) (w : World) : s.get w.data = avail (s.field w) := by cases s <;> rfl

theorem required_fields (d : Data) (b c : Val) :
    ∃ nb nc, (setNRequired d b c).1 = { d with nBoards := nb, nChips := nc } := by
  unfold setNRequired
  split
  · exact ⟨_, _, rfl⟩
  · exact ⟨_, _, rfl⟩
  · split
    · exact ⟨_, _, rfl⟩
    · exact ⟨_, _, rfl⟩

theorem monitor_fields (d : Data) (m : Nat) (a : Bool) :
    addMonitor d m a = { d with ethMonitors := d.ethMonitors ++ [m],
                                allMonitors := if a then d.allMonitors ++ [m] else d.allMonitors } := by
  cases a <;> rfl

theorem vertex_fields (w : World) (v : Nat) :
    ∃ g o, (graphAddVertex w v).1 = { w with data := { w.data with graph := g }, objs := o } := ⟨_, _, rfl⟩

theorem writerV_fields (w : World) (v : Nat) :
    ∃ g o, (writerAddVertex w v).1 = { w with data := { w.data with graph := g }, objs := o } := by
  unfold writerAddVertex
  split
  · exact ⟨_, _, rfl⟩
  · exact ⟨_, _, rfl⟩

theorem writerE_fields (w : World) (e : Parts.Edge) (n : String) :
    ∃ g, (writerAddEdge w e n).1 = { w with data := { w.data with graph := g } } := by
  unfold writerAddEdge
  split
  · exact ⟨_, rfl⟩
  · exact ⟨_, rfl⟩

theorem label_fields (w : World) (v : Nat) (l : AppGraph.Label) :
    ∃ o, (step w (.setLabel v l)).1 = { w with objs := o } := by
  simp only [step]
  split
  · exact ⟨_, rfl⟩
  · exact ⟨_, rfl⟩

theorem plan_fields (d : Data) (v : Val) : ∃ p, (setPlan d v).1 = { d with plan := p } := by
  cases v with
  | none => exact ⟨_, rfl⟩
  | obj c i => exact ⟨_, rfl⟩
  | int i =>
    unfold setPlan
    dsimp only
    split
    · exact ⟨_, rfl⟩
    · exact ⟨_, rfl⟩

theorem inGraph_fields (d : Data) (v : Val) : ∃ p, (setNInGraph d v).1 = { d with nInGraph := p } := by
  cases v with
  | none => exact ⟨_, rfl⟩
  | obj c i => exact ⟨_, rfl⟩
  | int i =>
    unfold setNInGraph
    dsimp only
    split
    · exact ⟨_, rfl⟩
    · exact ⟨_, rfl⟩

/-- A setter of a slot takes what is of the class and no more. -/
theorem slot_step (w : World) (s : Slot) (v : Val) :
    (∃ i, v = .obj s.cls i ∧ (step w (s.set v)).2 = .ok () ∧ ∀ s', s'.field (step w (s.set v)).1 = if s' = s then some i else s'.field w) ∨
    ((∀ i, v ≠ .obj s.cls i) ∧ step w (s.set v) = (w, .error .typeError)) := by
  cases v with
  | none => right; exact ⟨fun i h => (by cases h), by cases s <;> rfl⟩
  | int n => right; exact ⟨fun i h => (by cases h), by cases s <;> rfl⟩
  | obj c i =>
    by_cases hc : c = s.cls
    · left
      subst hc
      refine ⟨i, rfl, by cases s <;> rfl, fun s' => ?_⟩
      cases s <;> cases s' <;> rfl
    · right
      refine ⟨fun j h => hc (by injection h), ?_⟩
      cases s <;> cases c <;> first | exact absurd rfl hc | rfl

/-- Other calls leave the slots alone. -/
theorem slot_other (w : World) (s : Slot) (o : Op) (h1 : ¬ Wipes o) (h2 : ∀ i, o ≠ s.set (.obj s.cls i)) :
    s.field (step w o).1 = s.field w := by
  have hset : ∀ (s' : Slot) v, o = s'.set v → s.field (step w o).1 = s.field w := by
    intro s' v ho
    subst ho
    rcases slot_step w s' v with ⟨i, h3, _, h4⟩ | ⟨_, h3⟩
    · rw [h4]
      by_cases hs : s = s'
      · subst hs; subst h3; exact absurd rfl (h2 i)
      · rw [if_neg hs]
    · rw [h3]
  cases o with
  | setup => exact absurd (Or.inl rfl) h1
  | hardReset => exact absurd (Or.inr rfl) h1
  | softReset => rfl
  | setPlacements v => exact hset .placements v rfl
  | setRoutingInfos v => exact hset .routingInfos v rfl
  | setTags v => exact hset .tags v rfl
  | setUncompressed v => exact hset .uncompressed v rfl
  | setPrecompressed v => exact hset .precompressed v rfl
  | setByPartition v => exact hset .byPartition v rfl
  | setPlan v =>
    obtain ⟨p, hp⟩ := plan_fields w.data v
    simp only [step, World.put, hp]; cases s <;> rfl
  | addMonitor m a => simp only [step, World.put, monitor_fields]; cases s <;> rfl
  | setNRequired b c =>
    obtain ⟨nb, nc, hp⟩ := required_fields w.data b c
    simp only [step, World.put, hp]; cases s <;> rfl
  | setNInGraph v =>
    obtain ⟨p, hp⟩ := inGraph_fields w.data v
    simp only [step, World.put, hp]; cases s <;> rfl
  | viewAddVertex v => cases s <;> rfl
  | viewAddEdge e n => cases s <;> rfl
  | writerAddVertex v =>
    obtain ⟨g, o, hp⟩ := writerV_fields w v
    simp only [step, hp]; cases s <;> rfl
  | writerAddEdge e n =>
    obtain ⟨g, hp⟩ := writerE_fields w e n
    simp only [step, hp]; cases s <;> rfl
  | startingAt v => cases s <;> rfl
  | setLabel v l =>
    obtain ⟨o, hp⟩ := label_fields w v l
    rw [hp]; cases s <;> rfl
  | remember v m => cases s <;> rfl
  | endRun => cases s <;> rfl

theorem slot_wipes (w : World) (s : Slot) (o : Op) (h : Wipes o) : s.field (step w o).1 = none := by
  rcases h with h | h <;> subst h <;> cases s <;> rfl

/-- The calls that set a slot. -/
def Slot.Sets (s : Slot) (o : Op) (i : Nat) : Prop := o = s.set (.obj s.cls i)

theorem set_inj (s : Slot) {v v' : Val} (h : s.set v = s.set v') : v = v' := by
  cases s <;> (simp only [Slot.set] at h; injection h)

theorem field_value (s : Slot) (o : AppGraph.Objs) (ops : List Op) (i : Nat) :
    s.field (run (World.new o) ops) = some i ↔ LastSince ops s.Sets Wipes i := by
  refine field_last (sets := s.Sets) (wipes := Wipes) s.field (World.new o) (by cases s <;> rfl) ?_ ?_ ?_ ?_ ?_ ops i
  · rintro o i h (h' | h') <;> (rw [h] at h'; cases s <;> cases h')
  · intro o a b h h'
    have := set_inj s (h.symm.trans h')
    injection this
  · exact fun w o h => slot_wipes w s o h
  · intro w o a h
    rw [h]
    rcases slot_step w s (.obj s.cls a) with ⟨j, h1, _, h2⟩ | ⟨h1, _⟩
    · rw [h2, if_pos rfl]
      injection h1 with _ h1
      rw [h1]
    · exact absurd rfl (h1 a)
  · exact fun w o h1 h2 => slot_other w s o h1 h2

/-- C103: after any calls (exceptions caught), what the view returns for one of the values that algorithms leave for
others is the one that was last set, if it was since the last set-up or reset, and set with an object of the class;
if there is none, it raises. -/
theorem C103_last (s : Slot) (o : AppGraph.Objs) (ops : List Op) :
    (∀ i, s.get (run (World.new o) ops).data = .ok i ↔
      LastSince ops (fun c i => c = s.set (.obj s.cls i)) (fun c => c = .setup ∨ c = .hardReset) i) ∧
    ((∀ i, ¬ LastSince ops (fun c i => c = s.set (.obj s.cls i)) (fun c => c = .setup ∨ c = .hardReset) i) →
      s.get (run (World.new o) ops).data = .error .unavailable) := by
  have h := field_value s o ops
  rw [get_field]
  cases hf : s.field (run (World.new o) ops) with
  | none =>
    refine ⟨fun i => ⟨fun h' => (by cases h'), fun h' => ?_⟩, fun _ => rfl⟩
    rw [(h i).2 h'] at hf
    cases hf
  | some j =>
    rw [hf] at h
    refine ⟨fun i => ?_, fun h' => absurd ((h j).1 rfl) (h' j)⟩
    rw [avail]
    constructor
    · intro h'
      injection h' with h'
      subst h'
      exact (h j).1 rfl
    · intro h'
      have := (h i).2 h'
      injection this with this
      rw [this]

/-- C103: a setter takes an object of the class, and only that; it raises `TypeError` for another and then nothing has
changed. -/
theorem C103_refused (s : Slot) (w : World) (v : Val) :
    ((step w (s.set v)).2 = .ok () ↔ ∃ i, v = .obj s.cls i) ∧
    ((∀ i, v ≠ .obj s.cls i) → step w (s.set v) = (w, .error .typeError)) := by
  rcases slot_step w s v with ⟨i, h1, h2, _⟩ | ⟨h1, h2⟩
  · exact ⟨⟨fun _ => ⟨i, h1⟩, fun _ => h2⟩, fun h => absurd h1 (h i)⟩
  · refine ⟨⟨fun h => ?_, fun ⟨i, h⟩ => absurd h (h1 i)⟩, fun _ => h2⟩
    rw [h2] at h; cases h

/-- C103: all the methods on placements use the object last set, as it is now: they give what its own methods give. -/
theorem C103_placements (d : Data) (h : Heap) (i : Nat) (hi : Slot.get d .placements = .ok i) :
    iteratePlacements d h = .ok (Plc.placements (h i)) ∧
    getNPlacements d h = .ok (Plc.nPlacements (h i)) ∧
    (∀ v, getPlacementOfVertex d h v = Plc.getOfVertex (h i) v) ∧
    (∀ x y p, (getPlacementOnProcessor d h x y p).2 = (Plc.getOnProcessor (h i) x y p).2) ∧
    (∀ t, iterateByType d h t = .ok (Plc.ofType (h i) t)) ∧
    (∀ xy, (iterateOnCore d h xy).2 = .ok (Plc.placementsOnChip (h i) xy).2) ∧
    (∀ xy t, (iterateByXyType d h xy t).2 = .ok (Plc.onChipOfType (h i) xy t).2) := by
  have hi' : thePlacements d = .ok i := hi
  refine ⟨by simp only [iteratePlacements, hi'], by simp only [getNPlacements, hi'], fun v => ?_, fun x y p => ?_, fun t => ?_,
    fun xy => ?_, fun xy t => ?_⟩
  · simp only [getPlacementOfVertex, hi', Plc.getOfVertex]
    cases (h i).byVertex.get? v <;> rfl
  · simp only [getPlacementOnProcessor, hi']
  · simp only [iterateByType, hi']
  · simp only [iterateOnCore, hi']
  · simp only [iterateByXyType, hi']

/-- The planned time: kept by a reset of the graph, forgotten by a set-up. -/
theorem C103_plan (o : AppGraph.Objs) (ops : List Op) (n : Int) :
    getPlan (run (World.new o) ops).data = some n ↔
      LastSince ops (fun c n => 0 ≤ n ∧ c = .setPlan (.int n)) (fun c => c = .setup ∨ c = .setPlan .none) n := by
  refine field_last (sets := fun c n => 0 ≤ n ∧ c = .setPlan (.int n)) (wipes := fun c => c = .setup ∨ c = .setPlan .none)
    (fun w => w.data.plan) (World.new o) rfl ?_ ?_ ?_ ?_ ?_ ops n
  · rintro o i ⟨_, h⟩ (h' | h') <;> (rw [h] at h'; cases h')
  · rintro o a b ⟨_, h⟩ ⟨_, h'⟩
    rw [h] at h'
    injection h' with h'
    injection h'
  · rintro w o (h | h) <;> subst h <;> rfl
  · rintro w o a ⟨h0, h⟩
    subst h
    simp only [step, World.put, setPlan, if_neg (Int.not_lt.2 h0)]
  · intro w o h1 h2
    cases o with
    | setup => exact absurd (Or.inl rfl) h1
    | setPlan v =>
      cases v with
      | none => exact absurd (Or.inr rfl) h1
      | obj c i => rfl
      | int i =>
        by_cases hi : i < 0
        · simp only [step, World.put, setPlan, if_pos hi]
        · exact absurd ⟨by omega, rfl⟩ (h2 i)
    | setPlacements v => cases v with
      | obj c i => cases c <;> rfl
      | _ => rfl
    | setRoutingInfos v => cases v with
      | obj c i => cases c <;> rfl
      | _ => rfl
    | setTags v => cases v with
      | obj c i => cases c <;> rfl
      | _ => rfl
    | setUncompressed v => cases v with
      | obj c i => cases c <;> rfl
      | _ => rfl
    | setPrecompressed v => cases v with
      | obj c i => cases c <;> rfl
      | _ => rfl
    | setByPartition v => cases v with
      | obj c i => cases c <;> rfl
      | _ => rfl
    | addMonitor m a => simp only [step, World.put, monitor_fields]
    | setNRequired b c =>
      obtain ⟨nb, nc, hp⟩ := required_fields w.data b c
      simp only [step, World.put, hp]
    | setNInGraph v =>
      obtain ⟨p, hp⟩ := inGraph_fields w.data v
      simp only [step, World.put, hp]
    | writerAddVertex v =>
      obtain ⟨g, o, hp⟩ := writerV_fields w v
      simp only [step, hp]
    | writerAddEdge e n =>
      obtain ⟨g, hp⟩ := writerE_fields w e n
      simp only [step, hp]
    | setLabel v l =>
      obtain ⟨o, hp⟩ := label_fields w v l
      rw [hp]
    | _ => rfl

/-- `set_plan_n_timesteps` refuses negative numbers and other things, and then nothing has changed. -/
theorem C103_plan_refused (w : World) (v : Val) :
    ((step w (.setPlan v)).2 = .ok () ↔ v = .none ∨ ∃ n, 0 ≤ n ∧ v = .int n) ∧
    ((step w (.setPlan v)).2 ≠ .ok () → (step w (.setPlan v)).1 = w) := by
  cases v with
  | none => exact ⟨⟨fun _ => Or.inl rfl, fun _ => rfl⟩, fun h => absurd rfl h⟩
  | obj c i =>
    refine ⟨⟨fun h => (by cases h), ?_⟩, fun _ => rfl⟩
    rintro (h | ⟨n, _, h⟩) <;> cases h
  | int i =>
    by_cases hi : i < 0
    · simp only [step, World.put, setPlan, if_pos hi]
      refine ⟨⟨fun h => (by cases h), ?_⟩, fun _ => trivial⟩
      rintro (h | ⟨n, hn, h⟩)
      · cases h
      · injection h with h; omega
    · simp only [step, World.put, setPlan, if_neg hi]
      exact ⟨⟨fun _ => Or.inr ⟨i, by omega, rfl⟩, fun _ => trivial⟩, fun h => absurd rfl h⟩

/-- Values set, refused, forgotten by a reset, and set again. -/
example :
    let o : AppGraph.Objs := ⟨fun _ => none, fun _ => false, fun _ => []⟩
    let ops := [Op.setTags (.obj .tags 1), .setTags (.obj .placements 2), .setPlan (.int 5), .setUncompressed (.obj .tables 3),
      .hardReset, .setPrecompressed (.obj .tables 4), .softReset, .setPlan (.int (-1)), .setPrecompressed (.obj .tables 5)]
    getTags (run (World.new o) (ops.take 4)).data = .ok 1 ∧ getTags (run (World.new o) ops).data = .error .unavailable ∧
    getUncompressed (run (World.new o) ops).data = .error .unavailable ∧
    getPrecompressed (run (World.new o) ops).data = .ok 5 ∧ getPlan (run (World.new o) ops).data = some 5 ∧
    getNPlacements (run (World.new o) ops).data (fun _ => Plc.Store.empty) = .error .unavailable := by
  decide +kernel

/-! ### C104 -/

/-- What calls leave alone. -/
theorem frame (w : World) (o : Op) (h : o ≠ .setup) :
    ((∀ b c, o ≠ .setNRequired b c) → (step w o).1.data.nBoards = w.data.nBoards ∧ (step w o).1.data.nChips = w.data.nChips) ∧
    (o ≠ .hardReset → (∀ v, o ≠ .setNInGraph v) → (step w o).1.data.nInGraph = w.data.nInGraph) ∧
    (o ≠ .hardReset → (∀ m a, o ≠ .addMonitor m a) →
      (step w o).1.data.ethMonitors = w.data.ethMonitors ∧ (step w o).1.data.allMonitors = w.data.allMonitors) := by
  cases o with
  | setup => exact absurd rfl h
  | hardReset => exact ⟨fun _ => ⟨rfl, rfl⟩, fun h => absurd rfl h, fun h => absurd rfl h⟩
  | setPlan v =>
    obtain ⟨p, hp⟩ := plan_fields w.data v
    simp [step, World.put, hp]
  | setPlacements v => cases v with
    | obj c i => cases c <;> exact ⟨fun _ => ⟨rfl, rfl⟩, fun _ _ => rfl, fun _ _ => ⟨rfl, rfl⟩⟩
    | _ => exact ⟨fun _ => ⟨rfl, rfl⟩, fun _ _ => rfl, fun _ _ => ⟨rfl, rfl⟩⟩
  | setRoutingInfos v => cases v with
    | obj c i => cases c <;> exact ⟨fun _ => ⟨rfl, rfl⟩, fun _ _ => rfl, fun _ _ => ⟨rfl, rfl⟩⟩
    | _ => exact ⟨fun _ => ⟨rfl, rfl⟩, fun _ _ => rfl, fun _ _ => ⟨rfl, rfl⟩⟩
  | setTags v => cases v with
    | obj c i => cases c <;> exact ⟨fun _ => ⟨rfl, rfl⟩, fun _ _ => rfl, fun _ _ => ⟨rfl, rfl⟩⟩
    | _ => exact ⟨fun _ => ⟨rfl, rfl⟩, fun _ _ => rfl, fun _ _ => ⟨rfl, rfl⟩⟩
  | setUncompressed v => cases v with
    | obj c i => cases c <;> exact ⟨fun _ => ⟨rfl, rfl⟩, fun _ _ => rfl, fun _ _ => ⟨rfl, rfl⟩⟩
    | _ => exact ⟨fun _ => ⟨rfl, rfl⟩, fun _ _ => rfl, fun _ _ => ⟨rfl, rfl⟩⟩
  | setPrecompressed v => cases v with
    | obj c i => cases c <;> exact ⟨fun _ => ⟨rfl, rfl⟩, fun _ _ => rfl, fun _ _ => ⟨rfl, rfl⟩⟩
    | _ => exact ⟨fun _ => ⟨rfl, rfl⟩, fun _ _ => rfl, fun _ _ => ⟨rfl, rfl⟩⟩
  | setByPartition v => cases v with
    | obj c i => cases c <;> exact ⟨fun _ => ⟨rfl, rfl⟩, fun _ _ => rfl, fun _ _ => ⟨rfl, rfl⟩⟩
    | _ => exact ⟨fun _ => ⟨rfl, rfl⟩, fun _ _ => rfl, fun _ _ => ⟨rfl, rfl⟩⟩
  | addMonitor m a =>
    simp only [step, World.put, monitor_fields]
    exact ⟨fun _ => ⟨trivial, trivial⟩, fun _ _ => trivial, fun _ h => absurd rfl (h m a)⟩
  | setNRequired b c =>
    obtain ⟨nb, nc, hp⟩ := required_fields w.data b c
    simp only [step, World.put, hp]
    exact ⟨fun h => absurd rfl (h b c), fun _ _ => trivial, fun _ _ => ⟨trivial, trivial⟩⟩
  | setNInGraph v =>
    obtain ⟨p, hp⟩ := inGraph_fields w.data v
    simp only [step, World.put, hp]
    exact ⟨fun _ => ⟨trivial, trivial⟩, fun _ h => absurd rfl (h v), fun _ _ => ⟨trivial, trivial⟩⟩
  | writerAddVertex v =>
    obtain ⟨g, o, hp⟩ := writerV_fields w v
    simp [step, hp]
  | writerAddEdge e n =>
    obtain ⟨g, hp⟩ := writerE_fields w e n
    simp [step, hp]
  | setLabel v l =>
    obtain ⟨o, hp⟩ := label_fields w v l
    simp [hp]
  | _ => exact ⟨fun _ => ⟨rfl, rfl⟩, fun _ _ => rfl, fun _ _ => ⟨rfl, rfl⟩⟩

/-- What was asked for, of the two fields. -/
def asked (d : Data) : Option Asked :=
  match d.nBoards, d.nChips with
  | some b, _ => some (.boards b)
  | none, some c => some (.chips c)
  | none, none => none

theorem asks_cases (o : Op) :
    (∃ a, Asks o a) ∨ ((∀ a, ¬ Asks o a) ∧ ∀ w, (∃ b c, o = .setNRequired b c) → (step w o).1 = w) := by
  by_cases h : ∃ a, Asks o a
  · exact Or.inl h
  · refine Or.inr ⟨fun a ha => h ⟨a, ha⟩, ?_⟩
    rintro w ⟨b, c, rfl⟩
    cases b with
    | none =>
      cases c with
      | none => rfl
      | obj _ _ => rfl
      | int c =>
        have : c ≤ 0 := by
          by_cases hc : c ≤ 0
          · exact hc
          · exact absurd ⟨.chips c, by omega, rfl⟩ h
        simp [step, World.put, setNRequired, checkRequired, if_pos this]
    | obj _ _ => cases c <;> rfl
    | int b =>
      cases c with
      | int _ => rfl
      | obj _ _ => rfl
      | none =>
        have : b ≤ 0 := by
          by_cases hc : b ≤ 0
          · exact hc
          · exact absurd ⟨.boards b, by omega, rfl⟩ h
        simp [step, World.put, setNRequired, checkRequired, if_pos this]

theorem asks_step (w : World) (o : Op) (a : Asked) (h : Asks o a) :
    (asked w.data = none → step w o = ({ w with data := match a with
        | .boards n => { w.data with nBoards := some n, nChips := none }
        | .chips n => { w.data with nBoards := none, nChips := some n } }, .ok ())) ∧
    (asked w.data ≠ none → step w o = (w, .error .valueError)) := by
  have key : asked w.data = none ↔ ¬ (w.data.nBoards.isSome = true ∨ w.data.nChips.isSome = true) := by
    unfold asked
    cases w.data.nBoards <;> cases w.data.nChips <;> simp
  cases a with
  | boards n =>
    obtain ⟨h0, h⟩ := h
    subst h
    simp only [step, World.put, setNRequired, checkRequired, if_neg (Int.not_le.2 h0)]
    constructor
    · intro h1; rw [if_neg (key.1 h1)]
    · intro h1; rw [if_pos (Decidable.byContradiction (fun h2 => h1 (key.2 h2)))]
  | chips n =>
    obtain ⟨h0, h⟩ := h
    subst h
    simp only [step, World.put, setNRequired, checkRequired, if_neg (Int.not_le.2 h0)]
    constructor
    · intro h1; rw [if_neg (key.1 h1)]
    · intro h1; rw [if_pos (Decidable.byContradiction (fun h2 => h1 (key.2 h2)))]

theorem asks_nosetup (o : Op) (a : Asked) (h : Asks o a) : ¬ o = .setup := by
  cases a <;> (obtain ⟨_, h⟩ := h; subst h; intro h; cases h)

theorem asks_unique (o : Op) (a b : Asked) (h : Asks o a) (h' : Asks o b) : a = b := by
  cases a <;> cases b <;> (obtain ⟨_, h⟩ := h; obtain ⟨_, h'⟩ := h'; rw [h] at h'; simp at h' <;> rw [h'])

theorem asked_keep (w : World) (o : Op) (h1 : o ≠ .setup) (h2 : ∀ a, ¬ Asks o a) : asked (step w o).1.data = asked w.data := by
  by_cases h3 : ∃ b c, o = .setNRequired b c
  · rcases asks_cases o with ⟨a, ha⟩ | ⟨_, h4⟩
    · exact absurd ha (h2 a)
    · rw [h4 w h3]
  · have := (frame w o h1).1 (fun b c h => h3 ⟨b, c, h⟩)
    unfold asked
    rw [this.1, this.2]

theorem asked_first (o : AppGraph.Objs) (ops : List Op) :
    (asked (run (World.new o) ops).data = none → NoneSince ops Asks (· = .setup)) ∧
    (∀ a, asked (run (World.new o) ops).data = some a → FirstSince ops Asks (· = .setup) a) := by
  refine field_first (sets := Asks) (wipes := (· = .setup)) (fun w => asked w.data) (World.new o) rfl asks_nosetup ?_ ?_ ?_ ?_ ops
  · rintro w o rfl; rfl
  · intro w o a h h0
    rw [(asks_step w o a h).1 h0]
    cases a <;> rfl
  · intro w o h1 h2
    rcases asks_cases o with ⟨a, ha⟩ | ⟨h3, _⟩
    · rw [(asks_step w o a ha).2 h2]
    · exact asked_keep w o h1 h3
  · exact asked_keep

/-- Not both are set. -/
theorem asked_one (o : AppGraph.Objs) (ops : List Op) :
    (run (World.new o) ops).data.nBoards = none ∨ (run (World.new o) ops).data.nChips = none := by
  induction ops using snoc_ind with
  | h0 => exact Or.inl rfl
  | h1 ops c ih =>
    rw [run_snoc]
    by_cases h1 : c = .setup
    · subst h1; exact Or.inl rfl
    · rcases asks_cases c with ⟨a, ha⟩ | ⟨h3, h4⟩
      · by_cases h0 : asked (run (World.new o) ops).data = none
        · rw [(asks_step _ c a ha).1 h0]
          cases a
          · exact Or.inr rfl
          · exact Or.inl rfl
        · rw [(asks_step _ c a ha).2 h0]; exact ih
      · by_cases h5 : ∃ b d, c = .setNRequired b d
        · rw [h4 _ h5]; exact ih
        · have := (frame (run (World.new o) ops) c h1).1 (fun b d h => h5 ⟨b, d, h⟩)
          rw [this.1, this.2]; exact ih

theorem asked_iff (o : AppGraph.Objs) (ops : List Op) (a : Asked) :
    asked (run (World.new o) ops).data = some a ↔ FirstSince ops Asks (· = .setup) a := by
  obtain ⟨h1, h2⟩ := asked_first o ops
  refine ⟨h2 a, fun h => ?_⟩
  cases hf : asked (run (World.new o) ops).data with
  | none => exact absurd h (noneSince_not_first asks_nosetup (h1 hf) a)
  | some b => rw [first_unique asks_nosetup asks_unique (h2 b hf) h]

theorem both_first (o : AppGraph.Objs) (ops : List Op) (n : Int) :
    (getNBoards (run (World.new o) ops).data = .ok n ↔ FirstSince ops Asks (· = .setup) (.boards n)) ∧
    ((run (World.new o) ops).data.nChips = some n ↔ FirstSince ops Asks (· = .setup) (.chips n)) ∧
    (hasNBoards (run (World.new o) ops).data = true ↔ ∃ n, getNBoards (run (World.new o) ops).data = .ok n) := by
  have h1 := asked_iff o ops
  have h2 := asked_one o ops
  generalize (run (World.new o) ops).data = d at h1 h2
  unfold getNBoards hasNBoards
  rw [← h1, ← h1]
  unfold asked
  cases hb : d.nBoards with
  | none => cases hc : d.nChips <;> simp [avail]
  | some b =>
    rw [hb] at h2
    rcases h2 with h2 | h2
    · cases h2
    · rw [h2]; simp [avail]

/-- C104: after any calls (exceptions caught), the number of boards that the view has as asked for is that of the first
request since the last set-up, if that was for boards: a reset does not forget it, and no later request changes it. -/
theorem C104_first (o : AppGraph.Objs) (ops : List Op) :
    let d := (run (World.new o) ops).data
    (∀ n, getNBoards d = .ok n ↔ FirstSince ops Asks (· = .setup) (.boards n)) ∧
    ((¬ ∃ n, getNBoards d = .ok n) → getNBoards d = .error .unavailable) ∧
    (hasNBoards d = true ↔ ∃ n, getNBoards d = .ok n) := by
  refine ⟨fun n => (both_first o ops n).1, ?_, (both_first o ops 0).2.2⟩
  unfold getNBoards
  intro h
  cases hb : (run (World.new o) ops).data.nBoards with
  | none => rfl
  | some b => exact absurd ⟨b, by rw [hb]; rfl⟩ h

/-- C104: which calls of `set_n_required` are taken, and that those refused change nothing. -/
theorem C104_accepts (o : AppGraph.Objs) (ops : List Op) (b c : Val) :
    let r := step (run (World.new o) ops) (.setNRequired b c)
    (r.2 = .ok () ↔ (b = .none ∧ c = .none) ∨
      ((∃ a, Asks (.setNRequired b c) a) ∧ ∀ a, ¬ FirstSince ops Asks (· = .setup) a)) ∧
    (r.2 ≠ .ok () → r.1 = run (World.new o) ops) ∧
    (b = .none → c = .none → r.1 = run (World.new o) ops) := by
  intro r
  have h1 := asked_iff o ops
  have hn : asked (run (World.new o) ops).data = none ↔ ∀ a, ¬ FirstSince ops Asks (· = .setup) a := by
    constructor
    · intro h a ha; rw [(h1 a).2 ha] at h; cases h
    · intro h
      cases hf : asked (run (World.new o) ops).data with
      | none => rfl
      | some a => exact absurd ((h1 a).1 hf) (h a)
  have hnn : ∀ a, Asks (.setNRequired b c) a → ¬ (b = .none ∧ c = .none) := by
    rintro a ha ⟨rfl, rfl⟩
    cases a <;> (obtain ⟨_, h⟩ := ha; cases h)
  rcases asks_cases (.setNRequired b c) with ⟨a, ha⟩ | ⟨h3, h4⟩
  · by_cases h0 : asked (run (World.new o) ops).data = none
    · have hr := (asks_step (run (World.new o) ops) _ a ha).1 h0
      have hr2 : r.2 = .ok () := by show (step _ _).2 = _; rw [hr]
      refine ⟨⟨fun _ => Or.inr ⟨⟨a, ha⟩, hn.1 h0⟩, fun _ => hr2⟩, fun h => absurd hr2 h, fun hb hc => absurd ⟨hb, hc⟩ (hnn a ha)⟩
    · have hr := (asks_step (run (World.new o) ops) _ a ha).2 h0
      have hr1 : r.1 = run (World.new o) ops := by show (step _ _).1 = _; rw [hr]
      refine ⟨⟨fun h => ?_, ?_⟩, fun _ => hr1, fun _ _ => hr1⟩
      · have : (step (run (World.new o) ops) (.setNRequired b c)).2 = .ok () := h
        rw [hr] at this; cases this
      · rintro (h | ⟨_, h⟩)
        · exact absurd h (hnn a ha)
        · exact absurd (hn.2 h) h0
  · have hr1 : r.1 = run (World.new o) ops := h4 _ ⟨b, c, rfl⟩
    refine ⟨⟨fun h => ?_, ?_⟩, fun _ => hr1, fun _ _ => hr1⟩
    · left
      have h5 : (setNRequired (run (World.new o) ops).data b c).2 = .ok () := h
      unfold setNRequired at h5
      cases b with
      | none =>
        cases c with
        | none => exact ⟨rfl, rfl⟩
        | obj _ _ => cases h5
        | int c =>
          by_cases hc : c ≤ 0
          · simp [checkRequired, if_pos hc] at h5
          · exact absurd ⟨by omega, rfl⟩ (h3 (.chips c))
      | obj _ _ => cases c <;> cases h5
      | int b =>
        cases c with
        | obj _ _ => cases h5
        | int _ => cases h5
        | none =>
          by_cases hb : b ≤ 0
          · simp [checkRequired, if_pos hb] at h5
          · exact absurd ⟨by omega, rfl⟩ (h3 (.boards b))
    · rintro (⟨rfl, rfl⟩ | ⟨⟨a, ha⟩, _⟩)
      · rfl
      · exact absurd ha (h3 a)

theorem inGraph_last (o : AppGraph.Objs) (ops : List Op) (n : Int) :
    (run (World.new o) ops).data.nInGraph = some n ↔ LastSince ops Needs Wipes n := by
  refine field_last (sets := Needs) (wipes := Wipes) (fun w => w.data.nInGraph) (World.new o) rfl ?_ ?_ ?_ ?_ ?_ ops n
  · rintro o i ⟨_, h⟩ (h' | h') <;> (rw [h] at h'; cases h')
  · rintro o a b ⟨_, h⟩ ⟨_, h'⟩
    rw [h] at h'
    injection h' with h'
    injection h'
  · rintro w o (h | h) <;> subst h <;> rfl
  · rintro w o a ⟨h0, h⟩
    subst h
    simp only [step, World.put, setNInGraph, if_neg (Int.not_le.2 h0)]
  · intro w o h1 h2
    by_cases hv : ∃ v, o = .setNInGraph v
    · obtain ⟨v, rfl⟩ := hv
      cases v with
      | none => rfl
      | obj _ _ => rfl
      | int i =>
        by_cases hi : i ≤ 0
        · simp only [step, World.put, setNInGraph, if_pos hi]
        · exact absurd ⟨by omega, rfl⟩ (h2 i)
    · exact (frame w o (fun h => h1 (Or.inl h))).2.1 (fun h => h1 (Or.inr h)) (fun v h => hv ⟨v, h⟩)

theorem asks_pos {o : Op} {n : Int} (h : Asks o (.chips n)) : 0 < n := h.1

/-- C104: the number of chips needed is what the user asked for; if they did not ask for chips, it is the last number
given for the graph since a set-up or reset; if there is none it raises. It is positive, and `has_n_chips_needed` tells
whether there is one. -/
theorem C104_needed (o : AppGraph.Objs) (ops : List Op) :
    let d := (run (World.new o) ops).data
    (∀ n, getNChipsNeeded d = .ok n ↔ FirstSince ops Asks (· = .setup) (.chips n) ∨
      ((∀ m, ¬ FirstSince ops Asks (· = .setup) (.chips m)) ∧ LastSince ops Needs Wipes n)) ∧
    ((¬ ∃ n, getNChipsNeeded d = .ok n) → getNChipsNeeded d = .error .unavailable) ∧
    (hasNChipsNeeded d = true ↔ ∃ n, getNChipsNeeded d = .ok n) ∧
    (∀ n, getNChipsNeeded d = .ok n → 0 < n) ∧ (∀ n, getNBoards d = .ok n → 0 < n) := by
  intro d
  have h1 : ∀ n, d.nChips = some n ↔ FirstSince ops Asks (· = .setup) (.chips n) := fun n => (both_first o ops n).2.1
  have h2 : ∀ n, d.nInGraph = some n ↔ LastSince ops Needs Wipes n := inGraph_last o ops
  have h3 : ∀ n, getNBoards d = .ok n ↔ FirstSince ops Asks (· = .setup) (.boards n) := fun n => (both_first o ops n).1
  have p1 : ∀ n, FirstSince ops Asks (· = .setup) (.chips n) → 0 < n := by
    rintro n ⟨_, _, c, _, _, _, h, _⟩; exact h.1
  have p2 : ∀ n, LastSince ops Needs Wipes n → 0 < n := by
    rintro n ⟨_, c, _, _, h, _⟩; exact h.1
  have p3 : ∀ n, FirstSince ops Asks (· = .setup) (.boards n) → 0 < n := by
    rintro n ⟨_, _, c, _, _, _, h, _⟩; exact h.1
  simp only [← h1, ← h2, ← h3] at p1 p2 p3 ⊢
  unfold getNChipsNeeded hasNChipsNeeded
  refine ⟨?_, ?_, ?_, ?_, p3⟩
  all_goals
    cases hc : d.nChips with
    | some c =>
      have hp := p1 c hc
      have hne : c ≠ 0 := by omega
      simp [truthy, avail, hne]
      try exact hp
    | none =>
      cases hg : d.nInGraph with
      | some g =>
        have hp := p2 g hg
        have hne : g ≠ 0 := by omega
        simp [truthy, avail, hne]
        try exact hp
      | none => simp [truthy]

/-- C104: `get_chips_boards_required_str` speaks of what was asked for, else of the graph. -/
theorem C104_text (o : AppGraph.Objs) (ops : List Op) :
    let d := (run (World.new o) ops).data
    (∀ n, requirement d = .boards n ↔ FirstSince ops Asks (· = .setup) (.boards n)) ∧
    (∀ n, requirement d = .chips n ↔ FirstSince ops Asks (· = .setup) (.chips n)) ∧
    (∀ n, requirement d = .graph n ↔ (∀ a, ¬ FirstSince ops Asks (· = .setup) a) ∧ LastSince ops Needs Wipes n) := by
  intro d
  have h1 : ∀ a, asked d = some a ↔ FirstSince ops Asks (· = .setup) a := asked_iff o ops
  have h0 : d.nBoards = none ∨ d.nChips = none := asked_one o ops
  have h2 : ∀ n, d.nInGraph = some n ↔ LastSince ops Needs Wipes n := inGraph_last o ops
  have p1 : ∀ n, FirstSince ops Asks (· = .setup) (.chips n) → 0 < n := by
    rintro n ⟨_, _, c, _, _, _, h, _⟩; exact h.1
  have p2 : ∀ n, LastSince ops Needs Wipes n → 0 < n := by
    rintro n ⟨_, c, _, _, h, _⟩; exact h.1
  have p3 : ∀ n, FirstSince ops Asks (· = .setup) (.boards n) → 0 < n := by
    rintro n ⟨_, _, c, _, _, _, h, _⟩; exact h.1
  simp only [← h1, ← h2] at p1 p2 p3 ⊢
  unfold requirement
  unfold asked at *
  cases hb : d.nBoards with
  | some b =>
    rw [hb] at h0 p3
    have hc : d.nChips = none := by exact h0.resolve_left (by simp)
    have hne : b ≠ 0 := by have := p3 b rfl; omega
    simp [truthy, hne]
  | none =>
    rw [hb] at p1
    cases hc : d.nChips with
    | some c =>
      rw [hc] at p1
      have hne : c ≠ 0 := by have := p1 c rfl; omega
      simp [truthy, hne]
    | none =>
      cases hg : d.nInGraph with
      | some g =>
        have hne : g ≠ 0 := by have := p2 g hg; omega
        simp [truthy, hne]
      | none => simp [truthy]

/-- Requests refused, kept over a reset, forgotten by a set-up. -/
example :
    let o : AppGraph.Objs := ⟨fun _ => none, fun _ => false, fun _ => []⟩
    let ops := [Op.setNRequired .none .none, .setNRequired .none (.int 0), .setNRequired (.int 1) (.int 2), .setNRequired .none (.int 7),
      .setNRequired (.int 3) .none, .setNInGraph (.int 9), .hardReset]
    getNChipsNeeded (run (World.new o) ops).data = .ok 7 ∧ hasNBoards (run (World.new o) ops).data = false ∧
    requirement (run (World.new o) ops).data = .chips 7 ∧
    getNChipsNeeded (run (World.new o) (ops ++ [.setup])).data = .error .unavailable ∧
    getNChipsNeeded (run (World.new o) (ops ++ [.setup, .setNRequired (.int 3) .none, .setNInGraph (.int 9)])).data = .ok 9 ∧
    getNBoards (run (World.new o) (ops ++ [.setup, .setNRequired (.int 3) .none, .setNInGraph (.int 9)])).data = .ok 3 ∧
    (step (run (World.new o) ops) (.setNRequired .none (.obj .tags 1))).2 = .error .typeError ∧
    (step (run (World.new o) ops) (.setNRequired (.int 1) .none)).2 = .error .valueError := by
  decide +kernel

end Pacman.View
