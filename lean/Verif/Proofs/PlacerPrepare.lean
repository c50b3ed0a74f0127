import Verif.Proofs.PlacerSearch
/-
The placements that are prepared for the groups of one application vertex.
-/

namespace Pacman.Placer

open Plc (Placement Store Inv)

/-! ### Neighbours -/

/-- The outcome of the search for a neighbour. -/
structure Found (M : Machine) (l : List Placement) (n sdram : Nat) (c : XY) (st st' : State) : Prop where
  book : Book M st' l
  near : Near M st'
  room : Room M l n sdram c st'
  prepared : c ∈ st'.prepared
  fresh : c ∉ st.prepared
  kept : ∀ d ∈ st.prepared, d ∈ st'.prepared
  was : c ∈ st.same ++ st.other
  linked : ∀ d ∈ st'.same ++ st'.other, d ∈ st.same ++ st.other ∨ d ∈ M.links c
  left : (st'.restored ++ st'.chips).length = (st.restored ++ st.chips).length

theorem nextNeighbour_spec {M : Machine} {l : List Placement} {n sdram fuel : Nat} {st : State}
    (hB : Book M st l) (hN : Near M st) (hf : (st.same ++ st.other).length < fuel) :
    match nextNeighbour M n sdram fuel st with
    | .ok (some c, st') => Found M l n sdram c st st'
    | .ok (none, st') => Book M st' l ∧ (st'.restored ++ st'.chips).length = (st.restored ++ st.chips).length
    | .error e => Err M l e ∧ e ≠ .place := by
  induction fuel generalizing st with
  | zero => omega
  | succ fuel ih =>
    rw [nextNeighbour]
    cases hp : popNeighbour M st with
    | none => exact ⟨hB, rfl⟩
    | some r =>
      obtain ⟨c, st1⟩ := r
      obtain ⟨⟨s1, o1, e1, rfl⟩, hN1, hm, hnm, hsub, hlen⟩ := popNeighbour_some hp hN
      simp only
      have hB1 : Book M { st with same := s1, other := o1, eth := e1 } l := ⟨hB.inv, hB.nodup, hB.sub, hB.all, hB.full⟩
      have hS := spaceOn_spec (n := n) (sdram := sdram) hB1 hN1 hnm (hN.has c hm)
      cases hsp : spaceOn M c n sdram { st with same := s1, other := o1, eth := e1 } with
      | error e =>
        rw [hsp] at hS
        exact hS
      | ok r =>
        obtain ⟨st2, b⟩ := r
        rw [hsp] at hS
        have hleft : (st2.restored ++ st2.chips).length = (st.restored ++ st.chips).length := by
          rw [hS.restored, hS.chips]
        cases b with
        | true =>
          obtain ⟨h1, h2, h3⟩ := hS.yes rfl
          exact ⟨hS.book, hS.near, h1, h2, hN.fresh c hm, hS.kept, hm, fun d hd => (h3 d hd).imp (hsub d) id, hleft⟩
        | false =>
          obtain ⟨h1, h2, _⟩ := hS.no rfl
          have := ih hS.book hS.near (by rw [h1, h2]; simp only at hlen ⊢; omega)
          simp only
          have hsub2 : ∀ d ∈ st2.same ++ st2.other, d ∈ st.same ++ st.other := by
            rw [h1, h2]
            exact hsub
          cases hL : nextNeighbour M n sdram fuel st2 with
          | error e =>
            rw [hL] at this
            exact this
          | ok r =>
            obtain ⟨oc, st3⟩ := r
            rw [hL] at this
            cases oc with
            | none => exact ⟨this.1, this.2.trans hleft⟩
            | some c' =>
              exact ⟨this.book, this.near, this.room, this.prepared, fun h => this.fresh (hS.kept _ h),
                fun d hd => this.kept d (hS.kept d hd), hsub2 _ this.was, fun d hd => (this.linked d hd).imp (hsub2 d) id,
                this.left.trans hleft⟩

/-! ### Between groups -/

/-- The preparation, after the placements `acc` were prepared on the chips `U`. `K` stands for the claim that
the groups ask for the SDRAM of their vertices. -/
structure Mid (M : Machine) (K : Prop) (l acc : List Placement) (U : List XY) (c : XY) (st : State) : Prop where
  book : Book M st l
  near : Near M st
  cur : st.cur = some c
  curU : c ∈ U
  has : ∀ u ∈ U, M.has u = true
  prepared : ∀ u ∈ U, u ∈ st.prepared
  linked : ∀ d ∈ st.same ++ st.other, ∃ u ∈ U, d ∈ M.links u
  way : ∃ s, ∀ u ∈ U, Way M (· ∈ U) s u
  accU : ∀ a ∈ acc, (a.x, a.y) ∈ U
  offered : ∀ a ∈ acc, a.p ∈ M.cores (a.x, a.y)
  free : ∀ p ∈ st.free, p ∈ M.cores c
  clear : (∀ d, (M.cores d).Nodup) → st.free.Nodup ∧ ∀ p ∈ st.free, ∀ a ∈ l ++ acc, (a.x, a.y) = c → a.p ≠ p
  locs : (∀ d, (M.cores d).Nodup) → ((l ++ acc).map Placement.loc).Nodup
  used : K → M.costs.Le (needs M (l ++ acc) c) st.used
  fits : M.costs.total st.used ≤ M.sdram c
  loads : K → ∀ u ∈ U, load M (l ++ acc) u ≤ M.sdram u

/-- The chip for the next group has been chosen, on which there are free cores and `sdram` for it. -/
structure Ready (M : Machine) (K : Prop) (l acc : List Placement) (U : List XY) (n sdram : Nat) (c : XY) (st : State) :
    Prop where
  book : Book M st l
  near : Near M st
  cur : st.cur = some c
  curU : c ∈ U
  has : ∀ u ∈ U, M.has u = true
  prepared : ∀ u ∈ U, u ∈ st.prepared
  linked : ∀ d ∈ st.same ++ st.other, ∃ u ∈ U, d ∈ M.links u
  way : ∃ s, ∀ u ∈ U, Way M (· ∈ U) s u
  accU : ∀ a ∈ acc, (a.x, a.y) ∈ U
  offered : ∀ a ∈ acc, a.p ∈ M.cores (a.x, a.y)
  free : ∀ p ∈ st.free, p ∈ M.cores c
  clear : (∀ d, (M.cores d).Nodup) → st.free.Nodup ∧ ∀ p ∈ st.free, ∀ a ∈ l ++ acc, (a.x, a.y) = c → a.p ≠ p
  locs : (∀ d, (M.cores d).Nodup) → ((l ++ acc).map Placement.loc).Nodup
  enough : n ≤ st.free.length
  used : K → M.costs.Le (needs M (l ++ acc) c ++ [sdram]) st.used
  fits : M.costs.total st.used ≤ M.sdram c
  loads : K → ∀ u ∈ U, u ≠ c → load M (l ++ acc) u ≤ M.sdram u

/-- The chips in `U` other than the current one hold a vertex. -/
def Busy (U : List XY) (acc : List Placement) (c : XY) : Prop := ∀ u ∈ U, u = c ∨ ∃ a ∈ acc, (a.x, a.y) = u

theorem Way.mono {M : Machine} {U V : XY → Prop} {s c : XY} (h : Way M U s c) (hUV : ∀ d, U d → V d) :
    Way M V s c := by
  induction h with
  | here hu => exact .here (hUV _ hu)
  | step _ hl hu ih => exact .step ih hl (hUV _ hu)

/-- A new chip for the next group. -/
theorem Ready.of_found {M : Machine} {K : Prop} {l acc : List Placement} {U : List XY} {n sdram : Nat} {c c' : XY}
    {st st' : State} (h : Mid M K l acc U c st) (hF : Found M l n sdram c' st st') :
    Ready M K l acc (c' :: U) n sdram c' st' := by
  have hcU : c' ∉ U := fun hm => hF.fresh (h.prepared _ hm)
  have hacc : ∀ a ∈ acc, (a.x, a.y) ≠ c' := fun a ha he => hcU (he ▸ h.accU a ha)
  refine ⟨hF.book, hF.near, hF.room.cur, by simp, ?_, ?_, ?_, ?_, fun a ha => List.mem_cons_of_mem _ (h.accU a ha),
    h.offered, hF.room.offered, ?_, h.locs, hF.room.enough, ?_, hF.room.fits, ?_⟩
  · intro u hu
    rcases List.mem_cons.1 hu with rfl | hu
    · exact hF.room.has
    · exact h.has u hu
  · intro u hu
    rcases List.mem_cons.1 hu with rfl | hu
    · exact hF.prepared
    · exact hF.kept u (h.prepared u hu)
  · intro d hd
    rcases hF.linked d hd with h1 | h1
    · obtain ⟨u, hu, hl⟩ := h.linked d h1
      exact ⟨u, List.mem_cons_of_mem _ hu, hl⟩
    · exact ⟨c', by simp, h1⟩
  · obtain ⟨s, hs⟩ := h.way
    have hs' : ∀ u ∈ U, Way M (· ∈ c' :: U) s u := fun u hu => (hs u hu).mono (fun d hd => List.mem_cons_of_mem _ hd)
    refine ⟨s, ?_⟩
    intro u hu
    rcases List.mem_cons.1 hu with rfl | hu
    · obtain ⟨v, hv, hl⟩ := h.linked _ hF.was
      exact .step (hs' v hv) hl (by simp)
    · exact hs' u hu
  · intro hn
    obtain ⟨h1, h2⟩ := hF.room.clear (hn c')
    refine ⟨h1, ?_⟩
    intro p hp a ha hac
    rcases List.mem_append.1 ha with ha | ha
    · exact h2 p hp a ha hac
    · exact absurd hac (hacc a ha)
  · intro _
    rw [needs_append, needs_none M hacc, hF.room.used, List.append_nil]
    exact .refl _ _
  · intro k u hu hne
    rcases List.mem_cons.1 hu with rfl | hu
    · exact absurd rfl hne
    · exact h.loads k u hu

/-- The first chip. -/
theorem Ready.of_begun {M : Machine} (K : Prop) {l : List Placement} {n sdram : Nat} {c : XY} {st st' : State}
    (hl : (l.map Placement.loc).Nodup) (hF : Begun M l n sdram c st st') :
    Ready M K l [] [c] n sdram c st' := by
  refine ⟨hF.book, hF.near, hF.room.cur, by simp, ?_, ?_, ?_, ?_, by simp, by simp, hF.room.offered, ?_,
    fun _ => by simpa using hl, hF.room.enough, ?_, hF.room.fits, ?_⟩
  · intro u hu
    rw [List.mem_singleton] at hu
    subst hu
    exact hF.room.has
  · intro u hu
    rw [List.mem_singleton] at hu
    subst hu
    exact hF.prepared
  · intro d hd
    exact ⟨c, by simp, hF.linked d hd⟩
  · refine ⟨c, ?_⟩
    intro u hu
    rw [List.mem_singleton] at hu
    subst hu
    exact .here (by simp)
  · intro hn
    rw [List.append_nil]
    exact hF.room.clear (hn c)
  · intro _
    rw [List.append_nil, hF.room.used]
    exact .refl _ _
  · intro _ u hu hne
    rw [List.mem_singleton] at hu
    exact absurd hu hne

/-- The current chip again. -/
theorem Ready.of_again {M : Machine} {K : Prop} {l acc : List Placement} {U : List XY} {n sdram : Nat} {c : XY}
    {st : State} (h : Mid M K l acc U c st) (hn : n ≤ st.free.length) (hs : M.costs.total (sdram :: st.used) ≤ M.sdram c) :
    Ready M K l acc U n sdram c { st with used := sdram :: st.used } :=
  ⟨⟨h.book.inv, h.book.nodup, h.book.sub, h.book.all, h.book.full⟩,
    ⟨h.near.nodup, h.near.fresh, h.near.has, h.near.same, h.near.other⟩, h.cur, h.curU, h.has, h.prepared, h.linked,
    h.way, h.accU, h.offered, h.free, h.clear, h.locs, hn,
    fun k => (h.used k).append_right [sdram] |>.trans (.of_perm List.perm_append_comm), hs,
    fun k u hu _ => h.loads k u hu⟩

/-- Once the cores are taken. -/
theorem Mid.of_ready {M : Machine} {K : Prop} {l acc : List Placement} {U : List XY} {n sdram : Nat} {c : XY}
    {st : State} (h : Ready M K l acc U n sdram c st) {vs free : List Nat} {as : List Placement}
    (ht : takeCores c vs st.free = .ok (free, as)) (hK : K → M.costs.Le (vs.map M.need) [sdram]) :
    Mid M K l (acc ++ as) U c { st with free := free } := by
  obtain ⟨t1, t2, t3⟩ := takeCores_ok ht
  have hsum : needs M as c = vs.map M.need := by
    rw [needs_all M t2, ← t1, List.map_map]
    rfl
  have hload : K → M.costs.Le (needs M (l ++ (acc ++ as)) c) st.used := by
    intro k
    rw [← List.append_assoc, needs_append, hsum]
    exact ((hK k).append_left _).trans (h.used k)
  refine ⟨⟨h.book.inv, h.book.nodup, h.book.sub, h.book.all, h.book.full⟩,
    ⟨h.near.nodup, h.near.fresh, h.near.has, h.near.same, h.near.other⟩, h.cur, h.curU, h.has, h.prepared, h.linked,
    h.way, ?_, ?_, ?_, ?_, ?_, hload, h.fits, ?_⟩
  · intro a ha
    rcases List.mem_append.1 ha with ha | ha
    · exact h.accU a ha
    · rw [t2 a ha]
      exact h.curU
  · intro a ha
    rcases List.mem_append.1 ha with ha | ha
    · exact h.offered a ha
    · rw [t2 a ha]
      exact h.free _ (by rw [t3]; exact List.mem_append_left _ (List.mem_map.2 ⟨a, ha, rfl⟩))
  · intro p hp
    exact h.free p (by rw [t3]; exact List.mem_append_right _ hp)
  · intro hn
    obtain ⟨h1, h2⟩ := h.clear hn
    rw [t3] at h1
    have h1' := List.nodup_append.1 h1
    refine ⟨h1'.2.1, ?_⟩
    intro p hp a ha hac he
    rw [← List.append_assoc] at ha
    rcases List.mem_append.1 ha with ha | ha
    · exact h2 p (by rw [t3]; exact List.mem_append_right _ hp) a ha hac he
    · exact h1'.2.2 a.p (List.mem_map.2 ⟨a, ha, rfl⟩) p hp he
  · intro hn
    obtain ⟨h1, h2⟩ := h.clear hn
    rw [t3] at h1
    have h1' := (List.nodup_append.1 h1).1
    rw [← List.append_assoc, List.map_append, List.nodup_append]
    refine ⟨h.locs hn, ?_, ?_⟩
    · rw [List.Nodup, List.pairwise_map] at h1' ⊢
      refine List.Pairwise.imp ?_ h1'
      intro a b hab he
      exact hab (by simpa [Placement.loc] using (congrArg (fun x => x.2.2) he))
    · intro x hx y hy hxy
      obtain ⟨a, ha, rfl⟩ := List.mem_map.1 hx
      obtain ⟨b, hb, rfl⟩ := List.mem_map.1 hy
      have hbc := t2 b hb
      have hp : b.p ∈ st.free := by
        rw [t3]
        exact List.mem_append_left _ (List.mem_map.2 ⟨b, hb, rfl⟩)
      simp only [Placement.loc, Prod.mk.injEq] at hxy
      exact h2 b.p hp a ha (by rw [← hbc, hxy.1, hxy.2.1]) hxy.2.2
  · intro k u hu
    by_cases hc : u = c
    · subst hc
      exact Nat.le_trans (hload k).total h.fits
    · rw [← List.append_assoc, load_other M _ (c := u) (fun a ha he => hc (he.symm.trans (t2 a ha)))]
      exact h.loads k u hu hc

/-! ### One group -/

/-- Before or after the first group. -/
def Prep (M : Machine) (K : Prop) (l acc : List Placement) (st : State) : Prop :=
  (st.cur = none ∧ acc = [] ∧ Book M st l) ∨
    ∃ U c, Mid M K l acc U c st ∧ ∀ u ∈ U, ∃ a ∈ acc, (a.x, a.y) = u

/-- The starts that are left. -/
def State.left (st : State) : Nat := (st.restored ++ st.chips).length

theorem nextChip_spec {M : Machine} {K : Prop} {l acc : List Placement} {n sdram fuel : Nat} {st : State}
    (hG : Grid M) (hf : M.chips.length < fuel) (hP : Prep M K l acc st) :
    match nextChip M n sdram fuel st with
    | .ok (some c, st') => (∃ U, Ready M K l acc U n sdram c st' ∧ Busy U acc c) ∧ st'.left ≤ st.left ∧
        (st.cur = none → st'.left < st.left)
    | .ok (none, st') => st.cur ≠ none ∧ Book M st' l ∧ st'.left ≤ st.left
    | .error e => Err M l e ∧ (e = .place → st.cur = none ∧
        ((∀ c ∈ st.tried, Filled M l c ∨ Small M l n sdram c) → ∀ c ∈ M.chips, Filled M l c ∨ Small M l n sdram c)) := by
  rcases hP with ⟨hcur, rfl, hB⟩ | ⟨U, c, hM, hU⟩
  · unfold nextChip
    rw [hcur]
    simp only
    have hB1 : Book M { st with same := [], other := [] } l := ⟨hB.inv, hB.nodup, hB.sub, hB.all, hB.full⟩
    have hl := hB.left
    have hS := startLoop_spec (n := n) (sdram := sdram) (fuel := fuel) hB1 rfl rfl
      (by simp only [List.length_append]; omega)
    unfold nextStart
    cases hs : startLoop M n sdram fuel { st with same := [], other := [] } with
    | error e =>
      rw [hs] at hS
      exact ⟨hS.1, fun he => ⟨trivial, hS.2.1 he⟩⟩
    | ok r =>
      obtain ⟨c, st'⟩ := r
      rw [hs] at hS
      have hless : st'.left < st.left := hS.less
      exact ⟨⟨[c], .of_begun K hB.inv.locs hS, fun u hu => .inl (by simpa using hu)⟩, by omega, fun _ => hless⟩
  · have hcur : st.cur = some c := hM.cur
    unfold nextChip
    rw [hcur]
    simp only
    by_cases hc : n ≤ st.free.length ∧ M.costs.total (sdram :: st.used) ≤ M.sdram c
    · rw [if_pos hc]
      have hR := Ready.of_again hM hc.1 hc.2
      rw [hcur] at hR
      exact ⟨⟨U, hR, fun u hu => .inr (hU u hu)⟩, Nat.le_refl _, fun h => (by cases h)⟩
    · rw [if_neg hc]
      have hlen : (st.same ++ st.other).length ≤ M.chips.length :=
        List.Nodup.length_le_of_subset hM.near.nodup (fun d hd => by
          have := hM.near.has d hd
          exact mem_chips.2 ⟨(hG d this).1, (hG d this).2, this⟩)
      have hS := nextNeighbour_spec (n := n) (sdram := sdram) (fuel := fuel) hM.book hM.near (by omega)
      cases hs : nextNeighbour M n sdram fuel st with
      | error e =>
        rw [hs] at hS
        exact ⟨hS.1, fun he => absurd he hS.2⟩
      | ok r =>
        obtain ⟨oc, st'⟩ := r
        rw [hs] at hS
        cases oc with
        | none => exact ⟨by simp, hS.1, Nat.le_of_eq hS.2⟩
        | some c' =>
          refine ⟨⟨c' :: U, .of_found hM hS, ?_⟩, Nat.le_of_eq hS.left, fun h => (by cases h)⟩
          intro u hu
          rcases List.mem_cons.1 hu with rfl | hu
          · exact .inl rfl
          · exact .inr (hU u hu)

theorem filter_ok {M : Machine} {s : Store} {l : List Placement} (hI : Inv s l) {vs ws : List Nat}
    (h : filterVertices M s vs = .ok ws) :
    (∀ v, v ∈ ws ↔ v ∈ vs ∧ v ∉ l.map (·.vertex) ∧ M.virtual v = false) ∧
    (ws ≠ [] → ∀ v ∈ vs, v ∉ l.map (·.vertex)) := by
  have hp : ∀ v, Plc.isPlaced s v = true ↔ v ∈ l.map (·.vertex) := by
    intro v
    rw [hI.placed_iff, List.mem_map]
  unfold filterVertices at h
  simp only at h
  split at h
  · cases h
  · rename_i hc
    cases h
    refine ⟨?_, ?_⟩
    · intro v
      simp only [List.mem_filter, Bool.not_eq_true', and_assoc]
      rw [← hp]
      simp
    · intro hne v hv
      have hpos : (vs.filter (fun v => !Plc.isPlaced s v)).length > 0 := by
        cases hq : vs.filter (fun v => !Plc.isPlaced s v) with
        | nil => rw [hq] at hne; exact absurd rfl hne
        | cons a b => simp
      have hlen : (vs.filter (fun v => !Plc.isPlaced s v)).length = vs.length :=
        Classical.byContradiction (fun hcc => hc ⟨hcc, hpos⟩)
      have := (List.length_filter_eq_length_iff.1 hlen) v hv
      intro hm
      rw [(hp v).2 hm] at this
      cases this

theorem filter_total {M : Machine} {s : Store} {l : List Placement} (hI : Inv s l) {vs : List Nat}
    (hu : (∀ v ∈ vs, v ∈ l.map (·.vertex)) ∨ (∀ v ∈ vs, v ∉ l.map (·.vertex))) :
    ∃ ws, filterVertices M s vs = .ok ws := by
  have hp : ∀ v, Plc.isPlaced s v = true ↔ v ∈ l.map (·.vertex) := by
    intro v
    rw [hI.placed_iff, List.mem_map]
  unfold filterVertices
  simp only
  split
  · rename_i hc
    exfalso
    rcases hu with hu | hu
    · have : vs.filter (fun v => !Plc.isPlaced s v) = [] := by
        rw [List.filter_eq_nil_iff]
        intro v hv
        simp [(hp v).2 (hu v hv)]
      rw [this] at hc
      exact absurd hc.2 (by simp)
    · refine hc.1 (List.length_filter_eq_length_iff.2 ?_)
      intro v hv
      have := mt (hp v).1 (hu v hv)
      simpa using this
  · exact ⟨_, rfl⟩

theorem filter_error {M : Machine} {s : Store} {vs : List Nat} {e : PyErr}
    (h : filterVertices M s vs = .error e) : e = .notImplemented := by
  unfold filterVertices at h
  simp only at h
  split at h
  · cases h
    rfl
  · cases h

/-- What a group comes to: all its vertices were placed or are virtual, or all are put on one chip. -/
def Settled (M : Machine) (l acc : List Placement) (g : List Nat × Nat) : Prop :=
  (∀ v ∈ g.1, v ∈ l.map (·.vertex) ∨ M.virtual v = true) ∨
  (∃ c, ∀ v ∈ g.1, v ∉ l.map (·.vertex) ∧ On acc v c)

theorem Settled.mono {M : Machine} {l acc : List Placement} {g : List Nat × Nat} (h : Settled M l acc g)
    (as : List Placement) : Settled M l (acc ++ as) g := by
  refine h.imp id ?_
  rintro ⟨c, hc⟩
  refine ⟨c, fun v hv => ⟨(hc v hv).1, ?_⟩⟩
  obtain ⟨a, ha, h'⟩ := (hc v hv).2
  exact ⟨a, List.mem_append_left _ ha, h'⟩

/-- The outcome of a preparation. -/
structure Prepared (M : Machine) (K : Prop) (l acc : List Placement) (gs : List (List Nat × Nat)) (acc' : List Placement)
    (st' : State) : Prop where
  prep : Prep M K l acc' st'
  settled : ∀ g ∈ gs, Settled M l acc' g
  grows : ∃ as, acc' = acc ++ as ∧ (as.map (·.vertex)).Sublist (gs.flatMap (·.1)) ∧
    ∀ a ∈ as, a.vertex ∉ l.map (·.vertex)

theorem prepareLoop_spec {M : Machine} {K : Prop} {l : List Placement} {fuel : Nat} (hG : Grid M)
    (hf : M.chips.length < fuel) {gs : List (List Nat × Nat)} (hK : K → Covered M gs) {st : State}
    {acc : List Placement} (hP : Prep M K l acc st) :
    match prepareLoop M fuel gs st acc with
    | .ok (some acc', st') => Prepared M K l acc gs acc' st'
    | .ok (none, st') => Book M st' l ∧ st'.left ≤ st.left ∧ (st.cur = none → st'.left < st.left)
    | .error e => e = .tooBig ∨ e = .place ∨ (e ≠ .outOfFuel ∧ ¬ (Sane M l ∧ Uniform M l gs)) := by
  induction gs generalizing st acc with
  | nil => exact ⟨hP, by simp, [], by simp, by simp, by simp⟩
  | cons g gs ih =>
    have hK' : K → Covered M gs := fun k g' hg' => hK k g' (by simp [hg'])
    have hKg : K → M.costs.Le (g.1.map M.need) [g.2] := fun k => hK k g (by simp)
    have hUni : Uniform M l (g :: gs) → Uniform M l gs := fun hu g' hg' => hu g' (by simp [hg'])
    have hI : Inv st.store l := by
      rcases hP with ⟨_, _, hB⟩ | ⟨U, c, hM, _⟩
      · exact hB.inv
      · exact hM.book.inv
    rw [prepareLoop]
    cases hv : filterVertices M st.store g.1 with
    | error e =>
      simp only
      have := filter_error hv
      subst this
      refine .inr (.inr ⟨(by decide), ?_⟩)
      rintro ⟨_, hu⟩
      obtain ⟨ws, hws⟩ := filter_total (M := M) hI (hu g (by simp)).2
      rw [hws] at hv
      cases hv
    | ok ws =>
      obtain ⟨w1, w2⟩ := filter_ok hI hv
      cases ws with
      | nil =>
        simp only
        have hs : Settled M l acc g := by
          refine .inl ?_
          intro v hv'
          refine Classical.byContradiction (fun hc => ?_)
          rw [not_or] at hc
          have := (w1 v).2 ⟨hv', hc.1, by simpa using hc.2⟩
          cases this
        have := ih hK' hP
        cases hr : prepareLoop M fuel gs st acc with
        | error e =>
          rw [hr] at this
          refine this.imp id (Or.imp id (And.imp id (mt (And.imp id hUni))))
        | ok r =>
          obtain ⟨oa, st'⟩ := r
          rw [hr] at this
          cases oa with
          | none => exact this
          | some acc' =>
            obtain ⟨as, rfl, hsub, hnew⟩ := this.grows
            refine ⟨this.prep, ?_, as, rfl, ?_, hnew⟩
            · intro g' hg'
              rcases List.mem_cons.1 hg' with rfl | hg'
              · exact hs.mono as
              · exact this.settled g' hg'
            · rw [List.flatMap_cons]
              exact hsub.trans (List.sublist_append_right ..)
      | cons w ws =>
        simp only
        have hopen := w2 (by simp)
        have hS := nextChip_spec (n := (w :: ws).length) (sdram := g.2) hG hf hP
        cases hc : nextChip M (w :: ws).length g.2 fuel st with
        | error e =>
          rw [hc] at hS
          exact hS.1.imp id (Or.imp id (And.imp id (mt And.left)))
        | ok r =>
          obtain ⟨oc, st1⟩ := r
          rw [hc] at hS
          cases oc with
          | none => exact ⟨hS.2.1, hS.2.2, fun h => absurd h hS.1⟩
          | some c =>
            obtain ⟨⟨U, hR, hbusy⟩, hle, hlt⟩ := hS
            simp only
            cases ht : takeCores c g.1 st1.free with
            | error e =>
              simp only
              have := takeCores_error ht
              subst this
              refine .inr (.inr ⟨(by decide), ?_⟩)
              rintro ⟨_, hu⟩
              rcases (hu g (by simp)).1 with h1 | h1
              · have := (w1 w).1 (by simp)
                rw [h1 w this.1] at this
                exact absurd this.2.2 (by simp)
              · have hlen : (w :: ws).length = g.1.length := by
                  unfold filterVertices at hv
                  simp only at hv
                  split at hv
                  · cases hv
                  · rw [← Except.ok.inj hv, List.filter_filter, List.length_filter_eq_length_iff]
                    intro v hv'
                    have h2 := hopen v hv'
                    have h3 : Plc.isPlaced st.store v = false := by
                      cases hq : Plc.isPlaced st.store v with
                      | false => rfl
                      | true => exact absurd (List.mem_map.2 (hI.placed_iff v |>.1 hq)) h2
                    simp [h1 v hv', h3]
                have := hR.enough
                rw [hlen] at this
                obtain ⟨r, hr⟩ := takeCores_total (c := c) this
                rw [hr] at ht
                cases ht
            | ok r =>
              obtain ⟨free, as⟩ := r
              simp only
              obtain ⟨t1, t2, _⟩ := takeCores_ok ht
              have hM := Mid.of_ready hR ht hKg
              have hP1 : Prep M K l (acc ++ as) { st1 with free := free } := by
                refine .inr ⟨U, c, hM, ?_⟩
                intro u hu
                rcases hbusy u hu with rfl | ⟨a, ha, hau⟩
                · have hw : w ∈ as.map (·.vertex) := by
                    rw [t1]
                    exact ((w1 w).1 (by simp)).1
                  obtain ⟨a, ha, _⟩ := List.mem_map.1 hw
                  exact ⟨a, List.mem_append_right _ ha, t2 a ha⟩
                · exact ⟨a, List.mem_append_left _ ha, hau⟩
              have hs : Settled M l (acc ++ as) g := by
                refine .inr ⟨c, fun v hv' => ⟨hopen v hv', ?_⟩⟩
                rw [← t1] at hv'
                obtain ⟨a, ha, hav⟩ := List.mem_map.1 hv'
                exact ⟨a, List.mem_append_right _ ha, hav, t2 a ha⟩
              have := ih hK' hP1
              cases hr : prepareLoop M fuel gs { st1 with free := free } (acc ++ as) with
              | error e =>
                rw [hr] at this
                exact this.imp id (Or.imp id (And.imp id (mt (And.imp id hUni))))
              | ok r =>
                obtain ⟨oa, st'⟩ := r
                rw [hr] at this
                cases oa with
                | none =>
                  have h2 : st'.left ≤ st1.left := this.2.1
                  exact ⟨this.1, by omega, fun h => by have := hlt h; omega⟩
                | some acc' =>
                  obtain ⟨bs, rfl, hsub, hnew⟩ := this.grows
                  refine ⟨this.prep, ?_, as ++ bs, by simp, ?_, ?_⟩
                  · intro g' hg'
                    rcases List.mem_cons.1 hg' with rfl | hg'
                    · exact hs.mono bs
                    · exact this.settled g' hg'
                  · rw [List.flatMap_cons, List.map_append]
                    exact List.Sublist.append (by rw [t1]; exact List.Sublist.refl _) hsub
                  · intro a ha
                    rcases List.mem_append.1 ha with ha | ha
                    · exact hopen _ (by rw [← t1]; exact List.mem_map.2 ⟨a, ha, rfl⟩)
                    · exact hnew a ha

end Pacman.Placer
