import Verif.Proofs.MultiRegion
/-
C50: region costs add up to the total.
-/

namespace Pacman.Regions

theorem run_inv (os : List Op) : ∀ {h : Heap} {gone : List Nat} {live : Nat → Prop} {par : Nat → Nat × String}
    {g : Nat → Amount}, Inv h gone live par → (∀ i, i ∉ gone → (h i).total = g i) → Once gone os →
    ∃ live' par', Inv (run h os) ((passed os).reverse ++ gone) live' par' ∧
      ∀ i, i ∉ (passed os).reverse ++ gone → (run h os i).total = given g os i := by
  induction os with
  | nil => exact fun I H _ => ⟨_, _, I, H⟩
  | cons o os ih =>
    intro h gone live par g I H ho
    obtain ⟨h1, h2, h3⟩ := ho
    have plain : ∀ i k (a : Amount), i ∉ gone → Inv (nestPlain h i k a) gone live par ∧
        ∀ j, j ∉ gone → (nestPlain h i k a j).total = if j = i then (g i).add a else g j := by
      intro i k a hi
      refine ⟨I.nestPlain hi k a, fun j hj => ?_⟩
      rw [nestPlain_eq I hi]
      by_cases hji : j = i
      · subst hji; rw [put_self, if_pos rfl, H j hj]
      · rw [put_ne _ _ hji, if_neg hji, H j hj]
    cases o with
    | addCost i k f p =>
      have e : addCost h i k f p = nestPlain h i k ⟨f.ceil, (p.ceil : Rat), 0⟩ := by
        unfold addCost
        by_cases hp : p ≠ 0
        · rw [if_pos hp]
        · rw [if_neg hp]
          have : p = 0 := Classical.not_not.1 hp
          subst this
          rfl
      obtain ⟨a, b⟩ := plain i k ⟨f.ceil, (p.ceil : Rat), 0⟩ h1
      rw [run, step, e, passed]
      exact ih a b h3
    | nestPlain i k a =>
      obtain ⟨a, b⟩ := plain i k a h1
      exact ih a b h3
    | nest i k j =>
      obtain ⟨hj, hne⟩ := h2 j rfl
      change i ∉ gone at h1
      change j ≠ i at hne
      obtain ⟨l', p', a, b, c⟩ := I.nest k h1 hj hne
      have := ih (g := fun c => if c = i then (g i).add (g j) else g c) a (by
        intro d hd
        simp only [List.mem_cons, not_or] at hd
        by_cases hdi : d = i
        · subst hdi; rw [b, if_pos rfl, H d h1, H j hj]
        · rw [c d hd.2 hdi hd.1, if_neg hdi, H d hd.2]) h3
      simpa [passed, List.append_assoc, run, step, given] using this
    | merge i j =>
      obtain ⟨hj, hne⟩ := h2 j rfl
      change i ∉ gone at h1
      change j ≠ i at hne
      have := ih (g := fun c => if c = i then (g i).add (g j) else g c) (I.merge h1 hj hne) (by
        intro d hd
        simp only [List.mem_cons, not_or] at hd
        by_cases hdi : d = i
        · subst hdi
          rw [Regions.merge, mergeLoop_total, addTotal_self, if_pos rfl, H d h1]
          simp only [amount]
          rw [H j hj]
        · rw [Regions.merge, mergeLoop_total, addTotal_ne _ _ hdi, if_neg hdi, H d hd.2]) h3
      simpa [passed, List.append_assoc, run, step, given] using this

/-- C50: objects of which none is used by itself again after it has been passed to another by `nest` or `merge`.
After any such calls, each object that has not been passed on has as its total exactly the costs given to it, and
in it and in all objects within it the costs of the regions add up to the total. What is missing is objects used
after being passed on, see the theorems below. -/
theorem C50_totals_partial (os : List Op) (h : Once [] os) (i : Nat) (hi : i ∉ passed os) :
    (run Heap.new os i).total = given (fun _ => .zero) os i ∧
    ∀ j, Within (run Heap.new os) i j → Adds (run Heap.new os) j := by
  obtain ⟨live, par, I, H⟩ := run_inv os (g := fun _ => .zero) inv_new (fun _ _ => rfl) h
  have hi' : i ∉ (passed os).reverse ++ [] := by simpa using hi
  refine ⟨H i hi', fun j hj => I.adds j ?_⟩
  induction hj with
  | self => exact I.root i hi'
  | region _ hr ihj => exact (I.ref _ ihj _ _ hr).1

/-- Two cores' regions put together: object 1 is nested in 0, then 2 in the same region, then 3 is merged. -/
def exampleOps : List Op :=
  [.addCost 1 "neurons" 100 0, .addCost 1 "recording" 8 4, .nest 0 "core" 1, .addCost 2 "recording" 16 2,
   .nestPlain 2 "profile" ⟨5, 0, 0⟩, .nest 0 "core" 2, .addCost 3 "core" 7 0, .addCost 3 "other" (1 / 2) 0, .merge 0 3,
   .addCost 4 "params" 30 0, .addCost 0 "params" 1 0, .nest 0 "params" 4]

example : Once [] exampleOps ∧ 0 ∉ passed exampleOps ∧ (run Heap.new exampleOps 0).total = ⟨168, 6, 0⟩ ∧
    (run Heap.new exampleOps 0).regions = [("core", .plain ⟨136, 6, 0⟩), ("other", .plain ⟨1, 0, 0⟩), ("params", .ref 4)] ∧
    (run Heap.new exampleOps 4).total = ⟨31, 0, 0⟩ := by
  refine ⟨?_, by decide +kernel, by decide +kernel, by decide +kernel, by decide +kernel⟩
  simp [Once, exampleOps, Op.self, Op.other]

/-- C50, in bytes: as above, with costs per timestep that are whole numbers and no shared block in two regions of
an object: `get_total_sdram` gives exactly the sum of what it gives for the regions, for any number of timesteps. -/
theorem C50_bytes_partial (os : List Op) (h : Once [] os) (hw : ∀ i k a, Op.nestPlain i k a ∈ os → Whole a)
    (i : Nat) (hi : i ∉ passed os) (j : Nat) (hj : Within (run Heap.new os) i j)
    (ha : Apart (run Heap.new os) (run Heap.new os j).regions) (bytes : Nat → Int) (n : Nat) :
    totalBytes bytes n (run Heap.new os j).total =
      regionBytes bytes n (run Heap.new os) (run Heap.new os j).regions := by
  have hA : Adds _ j := (C50_totals_partial os h i hi).2 j hj
  rw [hA]
  exact sum_bytes bytes n _ (fun q hq => (run_whole whole_new hw).amount hq) ha

/-- Two populations on one core, of which each has a shared block. -/
def sharedOps : List Op :=
  [.addCost 1 "neurons" 100 0, .nestPlain 1 "tables" ⟨8, 2, 0b01⟩, .nest 0 "first" 1,
   .addCost 2 "neurons" 50 4, .nestPlain 2 "tables" ⟨8, 2, 0b10⟩, .nest 0 "second" 2]

example : Once [] sharedOps ∧ (∀ i k a, Op.nestPlain i k a ∈ sharedOps → Whole a) ∧ 0 ∉ passed sharedOps ∧
    Apart (run Heap.new sharedOps) (run Heap.new sharedOps 0).regions ∧
    (run Heap.new sharedOps 0).total = ⟨166, 8, 0b11⟩ ∧
    totalBytes (fun i => if i = 0 then 1000 else 2000) 10 (run Heap.new sharedOps 0).total = 3246 := by
  refine ⟨by simp [Once, sharedOps, Op.self, Op.other], ?_, by decide +kernel, ?_, by decide +kernel, by decide +kernel⟩
  · intro i k a h
    simp [sharedOps] at h
    rcases h with ⟨-, -, rfl⟩ | ⟨-, -, rfl⟩
    · exact ⟨2, rfl⟩
    · exact ⟨2, rfl⟩
  · have e : (run Heap.new sharedOps 0).regions = [("first", .ref 1), ("second", .ref 2)] := by decide +kernel
    have e1 : (run Heap.new sharedOps 1).total.shared = 1 := by decide +kernel
    have e2 : (run Heap.new sharedOps 2).total.shared = 2 := by decide +kernel
    rw [e]
    simp only [Apart, List.pairwise_cons, List.mem_singleton, forall_eq, List.not_mem_nil, false_implies,
      implies_true, List.Pairwise.nil, and_true, amount, e1, e2]
    rintro i ⟨h1, h2⟩
    have : (1 &&& 2 : Nat).testBit i = true := by rw [Nat.testBit_and, h1, h2]; rfl
    simp at this

/-- C50 is false in bytes of a shared block that is in two regions: the total has it once, as it will be on the chip,
each region has it, so the regions say more. -/
theorem C50_shared_block : ∃ os : List Op, Once [] os ∧ 0 ∉ passed os ∧
    totalBytes (fun _ => 1000) 0 (run Heap.new os 0).total = 1003 ∧
    regionBytes (fun _ => 1000) 0 (run Heap.new os) (run Heap.new os 0).regions = 2003 :=
  ⟨[.nestPlain 0 "a" ⟨1, 0, 1⟩, .nestPlain 0 "b" ⟨2, 0, 1⟩], by simp [Once, Op.self, Op.other], by decide +kernel,
    by decide +kernel, by decide +kernel⟩

/-- C50 is false of an object nested in two others: 1 is nested in 0 and in 2; nesting 3 in the same region of 0
changes 1, and the total of 2 is no longer that of its regions. -/
theorem C50_shared_object : ∃ os : List Op,
    (run Heap.new os 2).total = ⟨10, 0, 0⟩ ∧ sumRegions (run Heap.new os) (run Heap.new os 2).regions = ⟨15, 0, 0⟩ :=
  ⟨[.addCost 1 "x" 10 0, .nest 0 "s" 1, .nest 2 "s" 1, .addCost 3 "y" 5 0, .nest 0 "s" 3],
    by decide +kernel, by decide +kernel⟩

/-- C50 is false of an object added to after it has been nested. -/
theorem C50_added_later : ∃ os : List Op,
    (run Heap.new os 0).total = ⟨10, 0, 0⟩ ∧ sumRegions (run Heap.new os) (run Heap.new os 0).regions = ⟨15, 0, 0⟩ :=
  ⟨[.addCost 1 "x" 10 0, .nest 0 "s" 1, .addCost 1 "x" 5 0], by decide +kernel, by decide +kernel⟩

/-- An object nested in a region that holds a plain cost is itself given that cost: 1 was given 5, and its total
is 15. Nesting it once more counts the 10 again. -/
theorem C50_argument_changed : ∃ os : List Op, given (fun _ => .zero) os 1 = ⟨5, 0, 0⟩ ∧
    (run Heap.new os 1).total = ⟨15, 0, 0⟩ ∧ (run Heap.new (os ++ [.nest 2 "t" 1]) 2).total = ⟨15, 0, 0⟩ :=
  ⟨[.addCost 0 "s" 10 0, .addCost 1 "x" 5 0, .nest 0 "s" 1], by decide +kernel, by decide +kernel, by decide +kernel⟩

end Pacman.Regions
