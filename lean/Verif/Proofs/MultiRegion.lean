import Verif.Proofs.Dict
import Verif.Spec.MultiRegion

namespace Pacman.Regions

theorem Amount.ext' {a b : Amount} (h1 : a.fixed = b.fixed) (h2 : a.per = b.per) (h3 : a.shared = b.shared) :
    a = b := by
  cases a; cases b; simp_all

theorem add_comm (a b : Amount) : a.add b = b.add a :=
  Amount.ext' (Int.add_comm ..) (Rat.add_comm ..) (Nat.or_comm ..)

theorem add_assoc (a b c : Amount) : (a.add b).add c = a.add (b.add c) :=
  Amount.ext' (Int.add_assoc ..) (Rat.add_assoc ..) (Nat.or_assoc ..)

theorem add_right (a b c : Amount) : (a.add b).add c = (a.add c).add b := by
  rw [add_assoc, add_comm b c, ← add_assoc]

theorem zero_add (a : Amount) : Amount.zero.add a = a :=
  Amount.ext' (Int.zero_add _) (Rat.zero_add _) (Nat.zero_or _)

theorem add_zero (a : Amount) : a.add .zero = a := by rw [add_comm, zero_add]

theorem put_self (h : Heap) (i : Nat) (o : Obj) : h.put i o i = o := by simp [Heap.put]

theorem put_ne (h : Heap) {i j : Nat} (o : Obj) (hij : j ≠ i) : h.put i o j = h j := by simp [Heap.put, hij]

theorem put_put (h : Heap) (i : Nat) (o o' : Obj) : (h.put i o).put i o' = h.put i o' := by
  funext j
  by_cases hj : j = i <;> simp [Heap.put, hj]

theorem sum_congr {h h' : Heap} {l : List (String × Val)} (H : ∀ q ∈ l, amount h q.2 = amount h' q.2) :
    sumRegions h l = sumRegions h' l := by
  induction l with
  | nil => rfl
  | cons q l ih =>
    rw [sumRegions, sumRegions, H q List.mem_cons_self, ih (fun q hq => H q (List.mem_cons_of_mem _ hq))]

/-- Amounts where the totals of all objects referred to are the same. -/
theorem sum_same {h h' : Heap} {l : List (String × Val)} (H : ∀ k j, (k, Val.ref j) ∈ l → (h j).total = (h' j).total) :
    sumRegions h l = sumRegions h' l := by
  refine sum_congr ?_
  rintro ⟨k, v⟩ hq
  cases v with
  | plain a => rfl
  | ref j => exact H k j hq

theorem sum_set_absent (h : Heap) {d : Dict String Val} {k : String} {v : Val} (hk : d.get? k = none) :
    sumRegions h (d.set k v) = (sumRegions h d).add (amount h v) := by
  induction d with
  | nil => simp [Dict.set, sumRegions, add_comm]
  | cons q d ih =>
    rw [Dict.get?_cons] at hk
    by_cases hq : q.1 = k
    · rw [if_pos hq] at hk
      cases hk
    · rw [if_neg hq] at hk
      rw [Dict.set, if_neg hq, sumRegions, ih hk, sumRegions, ← add_assoc]

/-- The cost of a region grows by `t`. -/
theorem sum_set_present (h : Heap) {d : Dict String Val} {k : String} {v r : Val} {t : Amount}
    (hk : d.get? k = some r) (hv : amount h v = (amount h r).add t) :
    sumRegions h (d.set k v) = (sumRegions h d).add t := by
  induction d with
  | nil => cases hk
  | cons q d ih =>
    rw [Dict.get?_cons] at hk
    by_cases hq : q.1 = k
    · rw [if_pos hq] at hk
      cases hk
      rw [Dict.set, if_pos hq, sumRegions, sumRegions]
      simp only
      rw [hv, add_right]
    · rw [if_neg hq] at hk
      rw [Dict.set, if_neg hq, sumRegions, sumRegions, ih hk, add_assoc]

theorem mem_set {d : Dict String Val} {k k' : String} {v v' : Val} (h : (k, v) ∈ Dict.set d k' v') :
    (k = k' ∧ v = v') ∨ (k, v) ∈ d := by
  induction d with
  | nil => simp [Dict.set] at h; exact .inl h
  | cons q d ih =>
    rw [Dict.set] at h
    by_cases hq : q.1 = k'
    · rw [if_pos hq] at h
      rcases List.mem_cons.1 h with h | h
      · cases h; exact .inl ⟨rfl, rfl⟩
      · exact .inr (List.mem_cons_of_mem _ h)
    · rw [if_neg hq] at h
      rcases List.mem_cons.1 h with h | h
      · exact .inr (by rw [h]; exact List.mem_cons_self)
      · exact (ih h).imp id (List.mem_cons_of_mem _)

/-- One region costs more. -/
theorem sum_bump {h h' : Heap} {d : Dict String Val} {k : String} {v : Val} {t : Amount} (hn : (Dict.keys d).Nodup)
    (hk : d.get? k = some v) (hv : amount h' v = (amount h v).add t)
    (H : ∀ k' v', (k', v') ∈ d → k' ≠ k → amount h' v' = amount h v') :
    sumRegions h' d = (sumRegions h d).add t := by
  induction d with
  | nil => cases hk
  | cons q d ih =>
    have hn' : q.1 ∉ Dict.keys d ∧ (Dict.keys d).Nodup := by simpa [Dict.keys] using hn
    rw [Dict.get?_cons] at hk
    by_cases hq : q.1 = k
    · rw [if_pos hq] at hk
      cases hk
      rw [sumRegions, sumRegions, hv, add_right]
      congr 2
      refine sum_congr ?_
      rintro ⟨k', v'⟩ hq'
      refine H k' v' (List.mem_cons_of_mem _ hq') ?_
      intro he
      subst he
      exact hn'.1 (hq ▸ List.mem_map.2 ⟨_, hq', rfl⟩)
    · rw [if_neg hq] at hk
      rw [sumRegions, sumRegions, ih hn'.2 hk (fun k' v' h1 h2 => H k' v' (List.mem_cons_of_mem _ h1) h2),
        H q.1 q.2 List.mem_cons_self hq, add_assoc]

/-- What holds when objects are passed on once: `gone` have been passed, `live` hold together, `par` says in which
object and region an object is. -/
structure Inv (h : Heap) (gone : List Nat) (live : Nat → Prop) (par : Nat → Nat × String) : Prop where
  root : ∀ i, i ∉ gone → live i
  keys : ∀ i, live i → (Dict.keys (h i).regions).Nodup
  adds : ∀ i, live i → Adds h i
  ref : ∀ i, live i → ∀ k j, (k, Val.ref j) ∈ (h i).regions → live j ∧ j ∈ gone ∧ par j = (i, k)

theorem inv_new : Inv Heap.new [] (fun _ => True) (fun _ => (0, "")) := by
  refine ⟨fun _ _ => trivial, fun i _ => ?_, fun i _ => rfl, fun i _ k j hj => ?_⟩
  · simp [Heap.new, Obj.new, Dict.keys]
  · simp [Heap.new, Obj.new] at hj

/-- Changing an object no other holds. -/
theorem Inv.put {h : Heap} {gone : List Nat} {live : Nat → Prop} {par : Nat → Nat × String} (I : Inv h gone live par)
    {i : Nat} (hi : i ∉ gone) {o : Obj} (hn : (Dict.keys o.regions).Nodup) (ht : o.total = sumRegions h o.regions)
    (hr : ∀ k j, (k, Val.ref j) ∈ o.regions → live j ∧ j ∈ gone ∧ par j = (i, k)) :
    Inv (h.put i o) gone live par := by
  have same : ∀ j, j ∈ gone → (h.put i o j).total = (h j).total := by
    intro j hj
    rw [put_ne]
    rintro rfl
    exact hi hj
  refine ⟨I.root, fun c hc => ?_, fun c hc => ?_, fun c hc k j hj => ?_⟩
  · by_cases hci : c = i
    · subst hci; rw [put_self]; exact hn
    · rw [put_ne _ _ hci]; exact I.keys c hc
  · unfold Adds
    by_cases hci : c = i
    · subst hci
      rw [put_self, ht]
      exact sum_same (fun k j hj => (same j (hr k j hj).2.1).symm)
    · rw [put_ne _ _ hci, I.adds c hc]
      exact sum_same (fun k j hj => (same j (I.ref c hc k j hj).2.1).symm)
  · by_cases hci : c = i
    · subst hci; rw [put_self] at hj; exact hr k j hj
    · rw [put_ne _ _ hci] at hj; exact I.ref c hc k j hj

/-- Passing an object. -/
theorem Inv.pass {h : Heap} {gone : List Nat} {live : Nat → Prop} {par : Nat → Nat × String} (I : Inv h gone live par)
    {j : Nat} (hj : j ∉ gone) (p : Nat × String) :
    Inv h (j :: gone) live (fun c => if c = j then p else par c) := by
  refine ⟨fun i hi => I.root i (fun hh => hi (List.mem_cons_of_mem _ hh)), I.keys, I.adds, ?_⟩
  intro i hi k c hc
  obtain ⟨h1, h2, h3⟩ := I.ref i hi k c hc
  refine ⟨h1, List.mem_cons_of_mem _ h2, ?_⟩
  rw [if_neg]
  · exact h3
  · rintro rfl; exact hj h2

theorem addTotal_self (h : Heap) (i : Nat) (v : Val) :
    addTotal h i v i = ⟨(h i).regions, (h i).total.add (amount h v)⟩ := by
  rw [addTotal, put_self]

theorem addTotal_ne (h : Heap) {i j : Nat} (v : Val) (hij : j ≠ i) : addTotal h i v j = h j := by
  rw [addTotal, put_ne _ _ hij]

/-- The region after a plain cost. -/
def plainRegion (h : Heap) (i : Nat) (k : String) (a : Amount) : Amount :=
  match (h i).regions.get? k with
  | some r => (amount h r).add a
  | none => a

theorem nestPlain_eq {h : Heap} {gone : List Nat} {live : Nat → Prop} {par : Nat → Nat × String}
    (I : Inv h gone live par) {i : Nat} (hi : i ∉ gone) (k : String) (a : Amount) :
    nestPlain h i k a = h.put i ⟨(h i).regions.set k (.plain (plainRegion h i k a)), (h i).total.add a⟩ := by
  unfold nestPlain plainRegion
  simp only [addTotal_self]
  cases hg : (h i).regions.get? k with
  | none =>
    simp only [setRegion, addTotal_self]
    rw [addTotal, put_put]
    rfl
  | some r =>
    have : amount (addTotal h i (.plain a)) r = amount h r := by
      cases r with
      | plain b => rfl
      | ref j =>
        have hj := (I.ref i (I.root i hi) k j (Dict.mem_of_get? hg)).2.1
        simp only [amount]
        rw [addTotal_ne]
        rintro rfl
        exact hi hj
    simp only [this, setRegion, addTotal_self]
    rw [addTotal, put_put]
    rfl

theorem plain_sum (h : Heap) (i : Nat) (k : String) (a : Amount) :
    sumRegions h ((h i).regions.set k (.plain (plainRegion h i k a))) = (sumRegions h (h i).regions).add a := by
  unfold plainRegion
  cases hg : (h i).regions.get? k with
  | none => rw [sum_set_absent h hg]; rfl
  | some r =>
    exact sum_set_present h hg rfl

theorem Inv.nestPlain {h : Heap} {gone : List Nat} {live : Nat → Prop} {par : Nat → Nat × String}
    (I : Inv h gone live par) {i : Nat} (hi : i ∉ gone) (k : String) (a : Amount) :
    Inv (nestPlain h i k a) gone live par := by
  rw [nestPlain_eq I hi]
  refine I.put hi (Dict.nodup_set (I.keys i (I.root i hi)) _ _) ?_ ?_
  · rw [plain_sum]
    exact congrArg (·.add a) (I.adds i (I.root i hi))
  · intro k' j hj
    rcases mem_set hj with ⟨-, hh⟩ | hj
    · cases hh
    · exact I.ref i (I.root i hi) k' j hj

/-! ### Merging -/

theorem mergeLoop_other (h : Heap) (m : Nat) (l : List (String × Val)) {c : Nat} (hc : c ≠ m) :
    mergeLoop h m l c = h c := by
  induction l generalizing h with
  | nil => rfl
  | cons q l ih =>
    obtain ⟨k, v⟩ := q
    rw [mergeLoop]
    cases (h m).regions.get? k with
    | some r => simp only; rw [ih, setRegion, put_ne _ _ hc]
    | none => simp only; rw [ih, setRegion, put_ne _ _ hc]

theorem setRegion_total (h : Heap) (m : Nat) (k : String) (v : Val) (c : Nat) :
    (setRegion h m k v c).total = (h c).total := by
  by_cases hc : c = m
  · subst hc; rw [setRegion, put_self]
  · rw [setRegion, put_ne _ _ hc]

theorem setRegion_regions (h : Heap) (m : Nat) (k : String) (v : Val) :
    (setRegion h m k v m).regions = (h m).regions.set k v := by
  rw [setRegion, put_self]

theorem mergeLoop_total (h : Heap) (m : Nat) (l : List (String × Val)) (c : Nat) :
    (mergeLoop h m l c).total = (h c).total := by
  induction l generalizing h with
  | nil => rfl
  | cons q l ih =>
    obtain ⟨k, v⟩ := q
    rw [mergeLoop]
    cases (h m).regions.get? k with
    | some r => simp only; rw [ih, setRegion_total]
    | none => simp only; rw [ih, setRegion_total]

theorem amount_congr {h h' : Heap} (H : ∀ c, (h c).total = (h' c).total) (v : Val) : amount h v = amount h' v := by
  cases v with
  | plain a => rfl
  | ref j => exact H j

theorem mergeLoop_regions (h : Heap) (m : Nat) (l : List (String × Val)) (hn : (Dict.keys (h m).regions).Nodup) :
    (Dict.keys (mergeLoop h m l m).regions).Nodup ∧
    sumRegions h (mergeLoop h m l m).regions = (sumRegions h (h m).regions).add (sumRegions h l) ∧
    ∀ k c, (k, Val.ref c) ∈ (mergeLoop h m l m).regions → (k, Val.ref c) ∈ (h m).regions ∨ (k, Val.ref c) ∈ l := by
  induction l generalizing h with
  | nil => exact ⟨hn, (add_zero _).symm, fun _ _ h => .inl h⟩
  | cons q l ih =>
    obtain ⟨k, v⟩ := q
    rw [mergeLoop]
    have key : ∀ (v' : Val), (sumRegions h ((h m).regions.set k v') = (sumRegions h (h m).regions).add (amount h v)) →
        (∀ c, v' = .ref c → v = .ref c) →
        (Dict.keys (mergeLoop (setRegion h m k v') m l m).regions).Nodup ∧
        sumRegions h (mergeLoop (setRegion h m k v') m l m).regions =
          (sumRegions h (h m).regions).add (sumRegions h ((k, v) :: l)) ∧
        ∀ k' c, (k', Val.ref c) ∈ (mergeLoop (setRegion h m k v') m l m).regions →
          (k', Val.ref c) ∈ (h m).regions ∨ (k', Val.ref c) ∈ (k, v) :: l := by
      intro v' hsum hv'
      have ht := setRegion_total h m k v'
      obtain ⟨h1, h2, h3⟩ := ih (setRegion h m k v') (by rw [setRegion_regions]; exact Dict.nodup_set hn _ _)
      refine ⟨h1, ?_, ?_⟩
      · have e : ∀ l, sumRegions (setRegion h m k v') l = sumRegions h l :=
          fun l => sum_congr (fun q _ => amount_congr ht q.2)
        rw [e, e, e, setRegion_regions, hsum, add_assoc] at h2
        rw [h2, sumRegions]
      · intro k' c hc
        rcases h3 k' c hc with hh | hh
        · rw [setRegion_regions] at hh
          rcases mem_set hh with ⟨rfl, he⟩ | hh
          · right
            rw [hv' c he.symm]
            exact List.mem_cons_self
          · exact .inl hh
        · exact .inr (List.mem_cons_of_mem _ hh)
    cases hg : (h m).regions.get? k with
    | none => exact key v (sum_set_absent h hg) (fun c hc => hc)
    | some r =>
      exact key _ (sum_set_present h hg rfl) (fun c hc => (by cases hc))

/-- The objects after `merge` of two different ones. -/
theorem merge_spec (h : Heap) {m j : Nat} (hmj : j ≠ m) (hn : (Dict.keys (h m).regions).Nodup) (hmm : ∀ k, (k, Val.ref m) ∉ (h m).regions)
    (hjm : ∀ k, (k, Val.ref m) ∉ (h j).regions) (hj : Adds h j) :
    (∀ c, c ≠ m → merge h m j c = h c) ∧ (merge h m j m).total = (h m).total.add (h j).total ∧
    (Dict.keys (merge h m j m).regions).Nodup ∧
    sumRegions h (merge h m j m).regions = (sumRegions h (h m).regions).add (h j).total ∧
    ∀ k c, (k, Val.ref c) ∈ (merge h m j m).regions → (k, Val.ref c) ∈ (h m).regions ∨ (k, Val.ref c) ∈ (h j).regions := by
  have hm : merge h m j = mergeLoop (addTotal h m (.ref j)) m (h j).regions := by
    rw [merge, addTotal_ne _ _ hmj]
  have hreg : (addTotal h m (.ref j) m).regions = (h m).regions := by rw [addTotal_self]
  obtain ⟨h1, h2, h3⟩ := mergeLoop_regions (addTotal h m (.ref j)) m (h j).regions (by rw [hreg]; exact hn)
  rw [hreg] at h2 h3
  rw [hm]
  refine ⟨fun c hc => by rw [mergeLoop_other _ _ _ hc, addTotal_ne _ _ hc], ?_, h1, ?_, h3⟩
  · rw [mergeLoop_total, addTotal_self]
    rfl
  · have same : ∀ l : List (String × Val), (∀ k, (k, Val.ref m) ∉ l) → sumRegions (addTotal h m (.ref j)) l = sumRegions h l := by
      intro l hl
      refine sum_same ?_
      intro k c hc
      rw [addTotal_ne]
      rintro rfl
      exact hl k hc
    rw [same _ hmm, same _ hjm, same] at h2
    · rw [h2, hj]
    · intro k hk
      rcases h3 k m hk with hk | hk
      · exact hmm k hk
      · exact hjm k hk

/-- Where the regions of an object passed to `merge` are afterwards. -/
def moved (par : Nat → Nat × String) (m j : Nat) : Nat → Nat × String :=
  fun c => if (par c).1 = j then (m, (par c).2) else par c

theorem Inv.merge {h : Heap} {gone : List Nat} {live : Nat → Prop} {par : Nat → Nat × String}
    (I : Inv h gone live par) {i j : Nat} (hi : i ∉ gone) (hj : j ∉ gone) (hij : j ≠ i) :
    Inv (merge h i j) (j :: gone) (fun c => live c ∧ c ≠ j) (moved par i j) := by
  have li := I.root i hi
  have lj := I.root j hj
  obtain ⟨s1, s2, s3, s4, s5⟩ := merge_spec h hij (I.keys i li) (fun k hk => hi (I.ref i li k i hk).2.1)
    (fun k hk => hi (I.ref j lj k i hk).2.1) (I.adds j lj)
  have same : ∀ c, c ∈ gone → (Regions.merge h i j c).total = (h c).total := by
    intro c hc
    rw [s1]
    rintro rfl
    exact hi hc
  have cj : ∀ c, live c → ∀ k d, (k, Val.ref d) ∈ (h c).regions → d ≠ j := by
    rintro c hc k d hd rfl
    exact hj (I.ref c hc k d hd).2.1
  refine ⟨?_, ?_, ?_, ?_⟩
  · intro c hc
    simp only [List.mem_cons, not_or] at hc
    exact ⟨I.root c hc.2, hc.1⟩
  · rintro c ⟨hc, -⟩
    by_cases hci : c = i
    · subst hci; exact s3
    · rw [s1 c hci]; exact I.keys c hc
  · rintro c ⟨hc, -⟩
    unfold Adds
    by_cases hci : c = i
    · subst hci
      rw [s2, I.adds c hc, ← s4]
      refine sum_same ?_
      intro k d hd
      rw [same]
      rcases s5 k d hd with hd | hd
      · exact (I.ref c hc k d hd).2.1
      · exact (I.ref j lj k d hd).2.1
    · rw [s1 c hci, I.adds c hc]
      exact sum_same (fun k d hd => (same d (I.ref c hc k d hd).2.1).symm)
  · rintro c ⟨hc, hcj⟩ k d hd
    unfold moved
    by_cases hci : c = i
    · subst hci
      rcases s5 k d hd with hd | hd
      · obtain ⟨h1, h2, h3⟩ := I.ref c hc k d hd
        refine ⟨⟨h1, cj c hc k d hd⟩, List.mem_cons_of_mem _ h2, ?_⟩
        rw [h3, if_neg hcj]
      · obtain ⟨h1, h2, h3⟩ := I.ref j lj k d hd
        refine ⟨⟨h1, cj j lj k d hd⟩, List.mem_cons_of_mem _ h2, ?_⟩
        rw [h3, if_pos rfl]
    · rw [s1 c hci] at hd
      obtain ⟨h1, h2, h3⟩ := I.ref c hc k d hd
      refine ⟨⟨h1, cj c hc k d hd⟩, List.mem_cons_of_mem _ h2, ?_⟩
      rw [h3, if_neg hcj]

/-- The case of `nest` where the region holds an object. -/
theorem Inv.nestRef {h : Heap} {gone : List Nat} {live : Nat → Prop} {par : Nat → Nat × String}
    (I : Inv h gone live par) {i j m : Nat} {reg : String} (hi : i ∉ gone) (hj : j ∉ gone) (hij : j ≠ i)
    (hg : (h i).regions.get? reg = some (.ref m)) :
    Inv (Regions.merge (addTotal h i (.ref j)) m j) (j :: gone) (fun c => live c ∧ c ≠ j) (moved par m j) ∧
    ∀ c, c ∉ gone → c ≠ i → (Regions.merge (addTotal h i (.ref j)) m j c).total = (h c).total := by
  have li := I.root i hi
  have lj := I.root j hj
  obtain ⟨lm, hm, hpm⟩ := I.ref i li reg m (Dict.mem_of_get? hg)
  have him : i ≠ m := by rintro rfl; exact hi hm
  have hjm : j ≠ m := by rintro rfl; exact hj hm
  let h1 := addTotal h i (.ref j)
  have e1 : ∀ c, c ≠ i → h1 c = h c := fun c hc => addTotal_ne _ _ hc
  have e2 : h1 i = ⟨(h i).regions, (h i).total.add (h j).total⟩ := addTotal_self ..
  have nom : ∀ c, live c → c ≠ i → ∀ k, (k, Val.ref m) ∉ (h c).regions := by
    intro c hc hci k hk
    have := (I.ref c hc k m hk).2.2
    rw [hpm] at this
    cases this
    exact hci rfl
  have noi : ∀ c, live c → ∀ k, (k, Val.ref i) ∉ (h c).regions := fun c hc k hk => hi (I.ref c hc k i hk).2.1
  have same1 : ∀ c, live c → sumRegions h1 (h c).regions = sumRegions h (h c).regions := by
    intro c hc
    refine sum_same ?_
    intro k d hd
    rw [e1]
    rintro rfl
    exact noi c hc k hd
  obtain ⟨s1, s2, s3, s4, s5⟩ := merge_spec h1 hjm (by rw [e1 m him.symm]; exact I.keys m lm)
    (by rw [e1 m him.symm]; exact nom m lm him.symm) (by rw [e1 j hij]; exact nom j lj hij)
    (by unfold Adds; rw [e1 j hij, same1 j lj]; exact I.adds j lj)
  rw [e1 m him.symm, e1 j hij] at s2 s4 s5
  rw [same1 m lm] at s4
  have cj : ∀ c, live c → ∀ k d, (k, Val.ref d) ∈ (h c).regions → d ≠ j := by
    rintro c hc k d hd rfl
    exact hj (I.ref c hc k d hd).2.1
  show Inv (Regions.merge h1 m j) _ _ _ ∧ _
  have H : ∀ c, c ≠ m → c ≠ i → Regions.merge h1 m j c = h c := fun c h1 h2 => by rw [s1 c h1, e1 c h2]
  refine ⟨⟨?_, ?_, ?_, ?_⟩, ?_⟩
  · intro c hc
    simp only [List.mem_cons, not_or] at hc
    exact ⟨I.root c hc.2, hc.1⟩
  · rintro c ⟨hc, -⟩
    by_cases hcm : c = m
    · subst hcm; exact s3
    · by_cases hci : c = i
      · subst hci; rw [s1 c hcm, e2]; exact I.keys c hc
      · rw [H c hcm hci]; exact I.keys c hc
  · rintro c ⟨hc, -⟩
    unfold Adds
    by_cases hcm : c = m
    · subst hcm
      rw [s2, I.adds c hc, ← s4]
      refine sum_same ?_
      intro k d hd
      rw [s1]
      rintro rfl
      rcases s5 k d hd with hd | hd
      · exact nom d lm him.symm k hd
      · exact nom j lj hij k hd
    · by_cases hci : c = i
      · subst hci
        rw [s1 c hcm, e2]
        simp only
        have b := sum_bump (h := h) (h' := Regions.merge h1 m j) (t := (h j).total) (I.keys c hc) hg
          (by simp only [amount]; exact s2) (by
            intro k' v' hk' hne
            cases v' with
            | plain a => rfl
            | ref d =>
              have hd := (I.ref c hc k' d hk').2
              simp only [amount]
              rw [H]
              · rintro rfl
                rw [hpm] at hd
                exact hne (Prod.mk.inj hd.2).2.symm
              · rintro rfl
                exact hi hd.1)
        rw [b, I.adds c hc]
      · rw [H c hcm hci, I.adds c hc]
        refine sum_same ?_
        intro k d hd
        rw [H]
        · rintro rfl; exact nom c hc hci k hd
        · rintro rfl; exact noi c hc k hd
  · rintro c ⟨hc, hcj⟩ k d hd
    unfold moved
    by_cases hcm : c = m
    · subst hcm
      rcases s5 k d hd with hd | hd
      · obtain ⟨h1, h2, h3⟩ := I.ref c hc k d hd
        refine ⟨⟨h1, cj c hc k d hd⟩, List.mem_cons_of_mem _ h2, ?_⟩
        rw [h3, if_neg hcj]
      · obtain ⟨h1, h2, h3⟩ := I.ref j lj k d hd
        refine ⟨⟨h1, cj j lj k d hd⟩, List.mem_cons_of_mem _ h2, ?_⟩
        rw [h3, if_pos rfl]
    · have hd' : (k, Val.ref d) ∈ (h c).regions := by
        by_cases hci : c = i
        · subst hci; rw [s1 c hcm, e2] at hd; exact hd
        · rw [H c hcm hci] at hd; exact hd
      obtain ⟨h1, h2, h3⟩ := I.ref c hc k d hd'
      refine ⟨⟨h1, cj c hc k d hd'⟩, List.mem_cons_of_mem _ h2, ?_⟩
      rw [h3, if_neg hcj]
  · intro c hc hci
    rw [H c (by rintro rfl; exact hc hm) hci]

/-- The result of `nest` of an object into another. -/
theorem Inv.nest {h : Heap} {gone : List Nat} {live : Nat → Prop} {par : Nat → Nat × String}
    (I : Inv h gone live par) {i j : Nat} (reg : String) (hi : i ∉ gone) (hj : j ∉ gone) (hij : j ≠ i) :
    ∃ live' par', Inv (nestMulti h i reg j) (j :: gone) live' par' ∧
      (nestMulti h i reg j i).total = (h i).total.add (h j).total ∧
      ∀ c, c ∉ gone → c ≠ i → c ≠ j → (nestMulti h i reg j c).total = (h c).total := by
  have li := I.root i hi
  have lj := I.root j hj
  have hi' : i ∉ j :: gone := by
    simp only [List.mem_cons, not_or]
    exact ⟨hij.symm, hi⟩
  have e1 : ∀ c, c ≠ i → addTotal h i (.ref j) c = h c := fun c hc => addTotal_ne _ _ hc
  have e2 : addTotal h i (.ref j) i = ⟨(h i).regions, (h i).total.add (h j).total⟩ := addTotal_self ..
  cases hg : (h i).regions.get? reg with
  | none =>
    have hm : nestMulti h i reg j = h.put i ⟨(h i).regions.set reg (.ref j), (h i).total.add (h j).total⟩ := by
      simp only [nestMulti, e2, hg]
      rw [setRegion, e2, addTotal, put_put]
    rw [hm]
    refine ⟨_, _, (I.pass hj (i, reg)).put hi' (Dict.nodup_set (I.keys i li) _ _) ?_ ?_, by rw [put_self],
      fun c _ hc _ => by rw [put_ne _ _ hc]⟩
    · rw [sum_set_absent h hg, ← I.adds i li]
      rfl
    · intro k d hd
      rcases mem_set hd with ⟨rfl, hh⟩ | hd
      · cases hh
        exact ⟨lj, List.mem_cons_self, if_pos rfl⟩
      · exact (I.pass hj (i, reg)).ref i li k d hd
  | some r =>
    cases r with
    | ref m =>
      have hm : nestMulti h i reg j = Regions.merge (addTotal h i (.ref j)) m j := by
        simp only [nestMulti, e2, hg]
      obtain ⟨a, b⟩ := I.nestRef hi hj hij hg
      rw [hm]
      refine ⟨_, _, a, ?_, fun c h1 h2 _ => b c h1 h2⟩
      have him : i ≠ m := by rintro rfl; exact hi (I.ref i li reg i (Dict.mem_of_get? hg)).2.1
      rw [Regions.merge, mergeLoop_total, addTotal_ne _ _ him, e2]
    | plain a =>
      have J := I.nestPlain hj reg a
      have hne : ∀ c, c ≠ j → Regions.nestPlain h j reg a c = h c := by
        intro c hc
        rw [nestPlain_eq I hj, put_ne _ _ hc]
      have hjj : (Regions.nestPlain h j reg a j).total = (h j).total.add a := by
        rw [nestPlain_eq I hj, put_self]
      have hm : nestMulti h i reg j =
          (Regions.nestPlain h j reg a).put i ⟨(h i).regions.set reg (.ref j), (h i).total.add (h j).total⟩ := by
        simp only [nestMulti, e2, hg]
        have hh : Regions.nestPlain (addTotal h i (.ref j)) j reg a =
            (Regions.nestPlain h j reg a).put i ⟨(h i).regions, (h i).total.add (h j).total⟩ := by
          funext c
          rw [nestPlain_eq I hj]
          have key : Regions.nestPlain (addTotal h i (.ref j)) j reg a =
              (addTotal h i (.ref j)).put j ⟨(h j).regions.set reg (.plain (plainRegion h j reg a)), (h j).total.add a⟩ := by
            unfold Regions.nestPlain plainRegion
            simp only [addTotal_self, e1 j hij]
            cases hgj : (h j).regions.get? reg with
            | none =>
              simp only [setRegion, addTotal_self, e1 j hij]
              rw [addTotal, put_put]
              rfl
            | some r =>
              have : amount (addTotal (addTotal h i (.ref j)) j (.plain a)) r = amount h r := by
                cases r with
                | plain b => rfl
                | ref d =>
                  have hd := (I.ref j lj reg d (Dict.mem_of_get? hgj)).2.1
                  simp only [amount]
                  rw [addTotal_ne, e1]
                  · rintro rfl; exact hi hd
                  · rintro rfl; exact hj hd
              simp only [this, setRegion, addTotal_self, e1 j hij]
              rw [addTotal, put_put]
              rfl
          rw [key]
          by_cases hc : c = i
          · subst hc
            rw [put_ne _ _ hij.symm, e2, put_self]
          · rw [put_ne (i := i) _ _ hc]
            by_cases hcj : c = j
            · subst hcj; rw [put_self, put_self]
            · rw [put_ne _ _ hcj, put_ne _ _ hcj, e1 c hc]
        rw [hh, setRegion, put_self, put_put]
      rw [hm]
      refine ⟨_, _, (J.pass hj (i, reg)).put hi' (Dict.nodup_set (I.keys i li) _ _) ?_ ?_, by rw [put_self],
        fun c _ hc hcj => by rw [put_ne _ _ hc, hne c hcj]⟩
      · have := sum_set_present (Regions.nestPlain h j reg a) (v := .ref j) (t := (h j).total) hg (by
          simp only [amount, hjj]
          exact add_comm _ _)
        simp only
        rw [this]
        have s : sumRegions (Regions.nestPlain h j reg a) (h i).regions = (h i).total := by
          rw [I.adds i li]
          refine sum_same ?_
          intro k d hd
          rw [hne]
          rintro rfl
          exact hj (I.ref i li k d hd).2.1
        rw [s]
      · intro k d hd
        rcases mem_set hd with ⟨rfl, hh⟩ | hd
        · cases hh
          exact ⟨lj, List.mem_cons_self, if_pos rfl⟩
        · exact (I.pass hj (i, reg)).ref i li k d hd

/-! ### Bytes -/

theorem range_filter (bytes : Nat → Int) (keys : Nat) {m : Nat} (hm : keys.log2 + 1 ≤ m) :
    (((List.range m).filter keys.testBit).map bytes).sum = blockBytes bytes keys := by
  unfold blockBytes
  obtain ⟨d, rfl⟩ := Nat.exists_eq_add_of_le hm
  clear hm
  induction d with
  | zero => rfl
  | succ d ih =>
    rw [← Nat.add_assoc, List.range_succ, List.filter_append, List.map_append, List.sum_append, ih]
    have : keys.testBit (keys.log2 + 1 + d) = false := by
      refine Nat.testBit_lt_two_pow (Nat.lt_of_lt_of_le Nat.lt_log2_self (Nat.pow_le_pow_right (by decide) ?_))
      omega
    rw [List.filter_cons_of_neg (by simp [this]), List.filter_nil, List.map_nil, List.sum_nil, Int.add_zero]

theorem filter_or (bytes : Nat → Int) (a b : Nat) (m : Nat) :
    (((List.range m).filter (a ||| b).testBit).map bytes).sum + (((List.range m).filter (a &&& b).testBit).map bytes).sum
      = (((List.range m).filter a.testBit).map bytes).sum + (((List.range m).filter b.testBit).map bytes).sum := by
  induction m with
  | zero => rfl
  | succ m ih =>
    simp only [List.range_succ, List.filter_append, List.map_append, List.sum_append, List.filter_cons,
      List.filter_nil, Nat.testBit_or, Nat.testBit_and]
    simp only [← Nat.testBit_or, ← Nat.testBit_and] at ih ⊢
    rw [Nat.testBit_or, Nat.testBit_and]
    cases a.testBit m <;> cases b.testBit m <;> simp <;> omega

/-- Blocks that both have count once. -/
theorem blockBytes_or (bytes : Nat → Int) (a b : Nat) :
    blockBytes bytes (a ||| b) + blockBytes bytes (a &&& b) = blockBytes bytes a + blockBytes bytes b := by
  let m := (a ||| b).log2 + 1 + ((a &&& b).log2 + 1) + (a.log2 + 1) + (b.log2 + 1)
  rw [← range_filter bytes (a ||| b) (m := m) (by omega), ← range_filter bytes (a &&& b) (m := m) (by omega),
    ← range_filter bytes a (m := m) (by omega), ← range_filter bytes b (m := m) (by omega)]
  exact filter_or bytes a b m

theorem whole_ceil {a : Amount} (ha : Whole a) (n : Nat) (f : Int) :
    ((f : Rat) + a.per * (n : Rat)).ceil = f + (a.per * (n : Rat)).ceil := by
  obtain ⟨z, hz⟩ := ha
  rw [hz]
  have : ((z : Rat) * (n : Rat)) = ((z * (n : Int) : Int) : Rat) := by
    rw [Rat.intCast_mul]; rfl
  rw [this, ← Rat.intCast_add, Rat.ceil_intCast, Rat.ceil_intCast]

theorem whole_mul {a b : Amount} (ha : Whole a) (hb : Whole b) (n : Nat) :
    ((a.per + b.per) * (n : Rat)).ceil = (a.per * (n : Rat)).ceil + (b.per * (n : Rat)).ceil := by
  obtain ⟨z, hz⟩ := ha
  obtain ⟨w, hw⟩ := hb
  have e : ∀ z : Int, ((z : Rat) * (n : Rat)) = ((z * (n : Int) : Int) : Rat) := fun z => by
    rw [Rat.intCast_mul]; rfl
  rw [hz, hw, ← Rat.intCast_add, e, e, e, Rat.ceil_intCast, Rat.ceil_intCast, Rat.ceil_intCast, Int.add_mul]

theorem Whole.add {a b : Amount} (ha : Whole a) (hb : Whole b) : Whole (a.add b) := by
  obtain ⟨z, hz⟩ := ha
  obtain ⟨w, hw⟩ := hb
  exact ⟨z + w, by simp only [Amount.add]; rw [hz, hw, Rat.intCast_add]⟩

theorem totalBytes_add (bytes : Nat → Int) (n : Nat) {a b : Amount} (ha : Whole a) (hb : Whole b) :
    totalBytes bytes n (a.add b) + blockBytes bytes (a.shared &&& b.shared) =
      totalBytes bytes n a + totalBytes bytes n b := by
  have h1 := blockBytes_or bytes a.shared b.shared
  unfold totalBytes
  rw [whole_ceil ha, whole_ceil hb, whole_ceil (ha.add hb)]
  simp only [Amount.add]
  rw [whole_mul ha hb]
  omega

theorem blockBytes_zero (bytes : Nat → Int) : blockBytes bytes 0 = 0 := by
  simp [blockBytes, Nat.log2_zero]

theorem sum_shared (h : Heap) (l : List (String × Val)) (i : Nat) :
    (sumRegions h l).shared.testBit i = true ↔ ∃ q ∈ l, (amount h q.2).shared.testBit i = true := by
  induction l with
  | nil => simp [sumRegions, Amount.zero]
  | cons q l ih => simp [sumRegions, Amount.add, Nat.testBit_or, ih]

theorem sum_whole (h : Heap) {l : List (String × Val)} (hw : ∀ q ∈ l, Whole (amount h q.2)) :
    Whole (sumRegions h l) := by
  induction l with
  | nil => exact ⟨0, rfl⟩
  | cons q l ih =>
    exact (hw q List.mem_cons_self).add (ih fun q' h' => hw q' (List.mem_cons_of_mem _ h'))

theorem sum_bytes (bytes : Nat → Int) (n : Nat) (h : Heap) {l : List (String × Val)}
    (hw : ∀ q ∈ l, Whole (amount h q.2)) (ha : Apart h l) :
    totalBytes bytes n (sumRegions h l) = regionBytes bytes n h l := by
  induction l with
  | nil =>
    simp [sumRegions, regionBytes, totalBytes, Amount.zero, blockBytes_zero, Rat.add_zero]
    exact Rat.ceil_intCast 0
  | cons q l ih =>
    have ha' := List.pairwise_cons.1 ha
    have hl : ∀ q' ∈ l, Whole (amount h q'.2) := fun q' h' => hw q' (List.mem_cons_of_mem _ h')
    have h1 := totalBytes_add bytes n (hw q List.mem_cons_self) (sum_whole h hl)
    have h2 : (amount h q.2).shared &&& (sumRegions h l).shared = 0 := by
      refine Nat.eq_of_testBit_eq fun i => ?_
      rw [Nat.testBit_and, Nat.zero_testBit, Bool.and_eq_false_iff]
      cases hb : (amount h q.2).shared.testBit i with
      | false => exact .inl rfl
      | true =>
        right
        cases hc : (sumRegions h l).shared.testBit i with
        | false => rfl
        | true =>
          obtain ⟨q', hq', hc'⟩ := (sum_shared h l i).1 hc
          exact absurd ⟨hb, hc'⟩ (ha'.1 q' hq' i)
    rw [h2, blockBytes_zero, Int.add_zero, ih hl ha'.2] at h1
    rw [sumRegions, h1, regionBytes, regionBytes, List.map_cons, List.sum_cons]

/-- All costs in objects are whole. -/
def WholeHeap (h : Heap) : Prop :=
  ∀ i, Whole (h i).total ∧ ∀ k a, (k, Val.plain a) ∈ (h i).regions → Whole a

theorem WholeHeap.amount {h : Heap} (H : WholeHeap h) {i : Nat} {q : String × Val} (hq : q ∈ (h i).regions) :
    Whole (amount h q.2) := by
  obtain ⟨k, v⟩ := q
  cases v with
  | plain a => exact (H i).2 k a hq
  | ref j => exact (H j).1

theorem WholeHeap.addTotal {h : Heap} (H : WholeHeap h) (i : Nat) {v : Val} (hv : Whole (Regions.amount h v)) :
    WholeHeap (addTotal h i v) := by
  intro j
  by_cases hj : j = i
  · subst hj
    rw [addTotal_self]
    exact ⟨(H j).1.add hv, (H j).2⟩
  · rw [addTotal_ne _ _ hj]
    exact H j

theorem WholeHeap.setRegion {h : Heap} (H : WholeHeap h) (i : Nat) (k : String) {v : Val}
    (hv : ∀ a, v = .plain a → Whole a) : WholeHeap (setRegion h i k v) := by
  intro j
  by_cases hj : j = i
  · subst hj
    refine ⟨?_, fun k' a ha => ?_⟩
    · rw [setRegion_total]; exact (H j).1
    · rw [setRegion_regions] at ha
      rcases mem_set ha with ⟨-, he⟩ | ha
      · exact hv a he.symm
      · exact (H j).2 k' a ha
  · rw [Regions.setRegion, put_ne _ _ hj]
    exact H j

theorem WholeHeap.amount' {h : Heap} (H : WholeHeap h) {v : Val} (hv : ∀ a, v = .plain a → Whole a) :
    Whole (Regions.amount h v) := by
  cases v with
  | plain a => exact hv a rfl
  | ref j => exact (H j).1

theorem WholeHeap.mergeLoop {l : List (String × Val)} : ∀ {h : Heap}, WholeHeap h → ∀ (i : Nat),
    (∀ k a, (k, Val.plain a) ∈ l → Whole a) → WholeHeap (mergeLoop h i l) := by
  induction l with
  | nil => exact fun H _ _ => H
  | cons q l ih =>
    obtain ⟨k, v⟩ := q
    intro h H i hl
    have hv : ∀ a, v = .plain a → Whole a := fun a ha => hl k a (ha ▸ List.mem_cons_self)
    have hl' : ∀ k a, (k, Val.plain a) ∈ l → Whole a := fun k a ha => hl k a (List.mem_cons_of_mem _ ha)
    rw [Regions.mergeLoop]
    cases hg : (h i).regions.get? k with
    | none => exact ih (H.setRegion i k hv) i hl'
    | some r =>
      refine ih (H.setRegion i k fun a ha => ?_) i hl'
      cases ha
      exact (H.amount (Dict.mem_of_get? hg)).add (H.amount' hv)

theorem WholeHeap.merge {h : Heap} (H : WholeHeap h) (i j : Nat) : WholeHeap (merge h i j) := by
  have H1 := H.addTotal i (v := .ref j) (H j).1
  exact H1.mergeLoop i (H1 j).2

theorem WholeHeap.nestPlain {h : Heap} (H : WholeHeap h) (i : Nat) (k : String) {a : Amount} (ha : Whole a) :
    WholeHeap (nestPlain h i k a) := by
  have H1 := H.addTotal i (v := .plain a) ha
  unfold Regions.nestPlain
  simp only
  cases hg : (Regions.addTotal h i (.plain a) i).regions.get? k with
  | none => exact H1.setRegion i k fun b hb => by cases hb; exact ha
  | some r =>
    refine H1.setRegion i k fun b hb => ?_
    cases hb
    exact (H1.amount (Dict.mem_of_get? hg)).add ha

theorem WholeHeap.nestMulti {h : Heap} (H : WholeHeap h) (i : Nat) (k : String) (j : Nat) :
    WholeHeap (nestMulti h i k j) := by
  have H1 := H.addTotal i (v := .ref j) (H j).1
  unfold Regions.nestMulti
  simp only
  cases hg : (Regions.addTotal h i (.ref j) i).regions.get? k with
  | none => exact H1.setRegion i k fun b hb => by cases hb
  | some r =>
    cases r with
    | ref m => exact H1.merge m j
    | plain b =>
      exact (H1.nestPlain j k ((H1 i).2 k b (Dict.mem_of_get? hg))).setRegion i k fun b hb => by cases hb

theorem run_whole {os : List Op} : ∀ {h : Heap}, WholeHeap h → (∀ i k a, Op.nestPlain i k a ∈ os → Whole a) →
    WholeHeap (run h os) := by
  induction os with
  | nil => exact fun H _ => H
  | cons o os ih =>
    intro h H ho
    refine ih ?_ (fun i k a ha => ho i k a (List.mem_cons_of_mem _ ha))
    cases o with
    | addCost i k f p =>
      rw [step, addCost]
      split
      · exact H.nestPlain i k (a := ⟨f.ceil, (p.ceil : Rat), 0⟩) ⟨p.ceil, rfl⟩
      · exact H.nestPlain i k (a := ⟨f.ceil, 0, 0⟩) ⟨0, rfl⟩
    | nestPlain i k a => exact H.nestPlain i k (ho i k a List.mem_cons_self)
    | nest i k j => exact H.nestMulti i k j
    | merge i j => exact H.merge i j

theorem whole_new : WholeHeap Heap.new := fun _ => ⟨⟨0, rfl⟩, fun _ _ h => by cases h⟩

end Pacman.Regions
