import Verif.Props.PlacerFits
import Verif.Spec.PlacerSpread
/-
A vertex that is spread over several chips: lemmas.
-/

namespace Pacman.Placer

open Plc (Placement Store Inv)

theorem addNeighbours_all {M : Machine} {ds : List XY} : ∀ {st st' : State}, addNeighbours M ds st = .ok st' →
    (∀ d ∈ st.same ++ st.other, d ∈ st'.same ++ st'.other) ∧ st'.prepared = st.prepared ∧
      ∀ d ∈ ds, d ∈ st.full ∨ d ∈ st.prepared ∨ d ∈ st'.same ++ st'.other := by
  induction ds with
  | nil => intro st st' h; cases h; exact ⟨fun d hd => hd, rfl, by simp⟩
  | cons x ds ih =>
    intro st st' h
    rw [addNeighbours] at h
    split at h
    · cases h
    · split at h
      · split at h
        · obtain ⟨h1, h2, h3⟩ := ih h
          refine ⟨fun d hd => h1 d ?_, h2, fun d hd => ?_⟩
          · rcases List.mem_append.1 hd with hd | hd
            · exact List.mem_append_left _ (addKey_mem.2 (.inl hd))
            · exact List.mem_append_right _ hd
          · rcases List.mem_cons.1 hd with rfl | hd
            · exact .inr (.inr (h1 d (List.mem_append_left _ (addKey_mem.2 (.inr rfl)))))
            · exact h3 d hd
        · obtain ⟨h1, h2, h3⟩ := ih h
          refine ⟨fun d hd => h1 d ?_, h2, fun d hd => ?_⟩
          · rcases List.mem_append.1 hd with hd | hd
            · exact List.mem_append_left _ hd
            · exact List.mem_append_right _ (addKey_mem.2 (.inl hd))
          · rcases List.mem_cons.1 hd with rfl | hd
            · exact .inr (.inr (h1 d (List.mem_append_right _ (addKey_mem.2 (.inr rfl)))))
            · exact h3 d hd
      · rename_i hx
        obtain ⟨h1, h2, h3⟩ := ih h
        refine ⟨h1, h2, fun d hd => ?_⟩
        rcases List.mem_cons.1 hd with rfl | hd
        · by_cases hf : d ∈ st.full
          · exact .inl hf
          · by_cases hp : d ∈ st.prepared
            · exact .inr (.inl hp)
            · exact absurd ⟨hf, hp⟩ hx
        · exact h3 d hd

theorem spaceOn_all {M : Machine} {l : List Placement} {c : XY} {n sdram : Nat} {st st' : State} (hB : Book M st l)
    (h : spaceOn M c n sdram st = .ok (st', true)) :
    (∀ d ∈ st.same ++ st.other, d ∈ st'.same ++ st'.other) ∧
      ∀ d ∈ M.links c, Filled M l d ∨ d ∈ st'.prepared ∨ d ∈ st'.same ++ st'.other := by
  unfold spaceOn at h
  simp only at h
  split at h
  · cases h
  · split at h
    · cases h
    · split at h
      · cases h
      · split at h
        · split at h
          · cases h
          · cases h
        · split at h
          · cases h
          · rename_i st1 ha
            cases h
            obtain ⟨h1, h2, h3⟩ := addNeighbours_all ha
            refine ⟨h1, fun d hd => (h3 d hd).imp (fun hf => hB.full d hf) (Or.imp (fun hp => ?_) id)⟩
            rw [h2]; exact hp

theorem popNeighbour_keeps {M : Machine} {st st' : State} {c : XY} (h : popNeighbour M st = some (c, st')) :
    ∀ d ∈ st.same ++ st.other, d = c ∨ d ∈ st'.same ++ st'.other := by
  intro d hd
  unfold popNeighbour at h
  split at h
  · rename_i x r hs
    cases h
    rw [hs] at hd
    simp only [List.cons_append, List.mem_cons] at hd ⊢
    exact hd
  · rename_i hs
    split at h
    · rename_i x r ho
      cases h
      rw [hs, ho] at hd
      simp only [List.nil_append, List.mem_cons] at hd
      refine hd.imp id (fun hd => ?_)
      simp only [List.mem_append, List.mem_filter]
      by_cases hb : M.board d = M.board c
      · exact .inl ⟨hd, by simp [hb]⟩
      · exact .inr ⟨hd, by simp [hb]⟩
    · cases h

theorem sum_sub {α : Type} [DecidableEq α] (f : α → Nat) : ∀ (cs us : List α), cs.Nodup → (∀ c ∈ cs, c ∈ us) →
    (cs.map f).sum ≤ (us.map f).sum := by
  intro cs
  induction cs with
  | nil => intro us _ _; simp
  | cons c cs ih =>
    intro us hn hs
    rw [List.nodup_cons] at hn
    have h1 := ih (us.erase c) hn.2 (fun d hd => by
      refine (List.mem_erase_of_ne ?_).2 (hs d (List.mem_cons_of_mem _ hd))
      exact fun h => hn.1 (h ▸ hd))
    have h2 := (List.perm_cons_erase (hs c List.mem_cons_self)).map f
    rw [h2.sum_nat, List.map_cons, List.map_cons, List.sum_cons, List.sum_cons]
    omega

theorem Way.start {M : Machine} {U : XY → Prop} {s c : XY} (h : Way M U s c) : U s := by
  induction h with
  | here h => exact h
  | step _ _ _ ih => exact ih

section
variable {M : Machine} {l : List Placement} {xs : List Nat}

theorem Ample.open_ (hA : Ample M l xs) {c : XY} (h : Spare M l c) : ¬ Filled M l c := by
  have h1 := (hA c h).1
  have h2 := h.2
  unfold freeOn at h2
  unfold Filled Machine.cap
  omega

theorem Ample.fits (hA : Ample M l xs) {c : XY} (h : Spare M l c) {x : Nat} (hx : x ∈ xs) : ¬ Small M l 1 x c := by
  have h2 := h.2
  have h1 := (hA c h).2 [x] (by simpa using hx) h2
  unfold freeOn at h2
  unfold Small
  omega

/-- A chip that was looked at and not taken has no core to spare. -/
theorem Looked.spent (hA : Ample M l xs) {c : XY} {x : Nat} (hx : x ∈ xs) {st st' : State}
    (h : Looked M l 1 x c st st' false) : ¬ Spare M l c := by
  intro hs
  exact (h.no rfl).2.2.2.2.2.elim (hA.open_ hs) (hA.fits hs hx)

/-- The chips around those that have been taken are known. -/
structure Wide (M : Machine) (l : List Placement) (U : List XY) (st : State) : Prop where
  book : Book M st l
  near : Near M st
  nodup : U.Nodup
  prepared : ∀ u ∈ U, u ∈ st.prepared
  only : ∀ d ∈ st.prepared, Spare M l d → d ∈ U
  cover : ∀ u ∈ U, ∀ d ∈ M.links u, Spare M l d → d ∈ U ∨ d ∈ st.same ++ st.other

/-- With no neighbours left, all chips that can be reached have been taken. -/
theorem Wide.closed {U : List XY} {st : State} (hW : Wide M l U st) (hn : st.same ++ st.other = []) {s : XY} (hs : s ∈ U)
    {c : XY} (h : Way M (Spare M l) s c) : c ∈ U := by
  induction h with
  | here _ => exact hs
  | step h hd hu ih =>
    rcases hW.cover _ ih _ hd hu with h1 | h1
    · exact h1
    · rw [hn] at h1; cases h1

/-- The outcome of the search for a neighbour, with the chips around it. -/
theorem nextNeighbour_wide (hA : Ample M l xs) {x : Nat} (hx : x ∈ xs) {U : List XY} {fuel : Nat} : ∀ {st : State},
    Wide M l U st → (st.same ++ st.other).length < fuel →
    match nextNeighbour M 1 x fuel st with
    | .ok (some c, st') => Wide M l (c :: U) st' ∧ Room M l 1 x c st'
    | .ok (none, _) => ∀ s ∈ U, ∀ c, Way M (Spare M l) s c → c ∈ U
    | .error e => e ≠ .place := by
  induction fuel with
  | zero => intro st _ h; omega
  | succ fuel ih =>
    intro st hW hf
    rw [nextNeighbour]
    cases hp : popNeighbour M st with
    | none =>
      have := popNeighbour_none hp
      exact fun s hs c hc => hW.closed (by rw [this.1, this.2]; rfl) hs hc
    | some r =>
      obtain ⟨c, st1⟩ := r
      have hk := popNeighbour_keeps hp
      obtain ⟨⟨s1, o1, e1, rfl⟩, hN1, hm, hnm, hsub, hlen⟩ := popNeighbour_some hp hW.near
      simp only
      have hB := hW.book
      have hB1 : Book M { st with same := s1, other := o1, eth := e1 } l := ⟨hB.inv, hB.nodup, hB.sub, hB.all, hB.full⟩
      have hS := spaceOn_spec (n := 1) (sdram := x) hB1 hN1 hnm (hW.near.has c hm)
      cases hsp : spaceOn M c 1 x { st with same := s1, other := o1, eth := e1 } with
      | error e =>
        rw [hsp] at hS
        exact hS.2
      | ok r =>
        obtain ⟨st2, b⟩ := r
        rw [hsp] at hS
        cases b with
        | true =>
          obtain ⟨a1, a2⟩ := spaceOn_all hB1 hsp
          obtain ⟨h1, h2, h3⟩ := hS.yes rfl
          refine ⟨⟨hS.book, hS.near, ?_, ?_, ?_, ?_⟩, h1⟩
          · rw [List.nodup_cons]
            exact ⟨fun hc => hW.near.fresh c hm (hW.prepared c hc), hW.nodup⟩
          · intro u hu
            rcases List.mem_cons.1 hu with rfl | hu
            · exact h2
            · exact hS.kept u (hW.prepared u hu)
          · intro d hd hsd
            rcases hS.prepared d hd with h | rfl
            · exact List.mem_cons_of_mem _ (hW.only d h hsd)
            · exact List.mem_cons_self
          · intro u hu d hd hsd
            rcases List.mem_cons.1 hu with rfl | hu
            · rcases a2 d hd with h | h | h
              · exact absurd h (hA.open_ hsd)
              · rcases hS.prepared d h with h | rfl
                · exact .inl (List.mem_cons_of_mem _ (hW.only d h hsd))
                · exact .inl List.mem_cons_self
              · exact .inr h
            · rcases hW.cover u hu d hd hsd with h | h
              · exact .inl (List.mem_cons_of_mem _ h)
              · rcases hk d h with rfl | h
                · exact .inl List.mem_cons_self
                · exact .inr (a1 d h)
        | false =>
          obtain ⟨h1, h2, _⟩ := hS.no rfl
          have hsp := hS.spent hA hx
          have hW2 : Wide M l U st2 := by
            refine ⟨hS.book, hS.near, hW.nodup, fun u hu => hS.kept u (hW.prepared u hu), ?_, ?_⟩
            · intro d hd hsd
              rcases hS.prepared d hd with h | rfl
              · exact hW.only d h hsd
              · exact absurd hsd hsp
            · intro u hu d hd hsd
              rcases hW.cover u hu d hd hsd with h | h
              · exact .inl h
              · rcases hk d h with rfl | h
                · exact absurd hsd hsp
                · exact .inr (by rw [h1, h2]; exact h)
          exact ih hW2 (by rw [h1, h2]; simp only at hlen ⊢; omega)

/-- A start, with the chips around it. -/
theorem startLoop_wide (hA : Ample M l xs) {x : Nat} (hx : x ∈ xs) {fuel : Nat} : ∀ {st : State}, Book M st l →
    st.same = [] → st.other = [] → (∀ d ∈ st.prepared, ¬ Spare M l d) → ∀ {c : XY} {st' : State},
    startLoop M 1 x fuel st = .ok (c, st') → Wide M l [c] st' ∧ Room M l 1 x c st' := by
  induction fuel with
  | zero => intro st _ _ _ _ c st' h; cases h
  | succ fuel ih =>
    intro st hB hs ho hpre c st' h
    rw [startLoop] at h
    have hP := popStart_spec (st := st)
    cases hp : popStart st with
    | error e => rw [hp] at h; cases h
    | ok r =>
      obtain ⟨c1, st1⟩ := r
      rw [hp] at hP h
      obtain ⟨d, re, ch, rfl, he, hd⟩ := hP
      simp only at h
      have hB1 : Book M { st with restored := re, chips := ch, tried := st.tried ++ [c1], eth := some (M.board c1) } l := by
        refine ⟨hB.inv, ?_, ?_, ?_, hB.full⟩
        · have := hB.nodup
          rw [he] at this
          simp only
          refine List.Nodup.sublist ?_ this
          rw [List.append_assoc]
          refine List.Sublist.append (List.Sublist.refl _) ?_
          exact List.sublist_append_right ..
        · intro x hx
          refine hB.sub x ?_
          rw [he]
          simp only [List.mem_append, List.mem_singleton] at hx
          simp only [List.mem_append, List.mem_cons]
          rcases hx with (hx | hx) | hx
          · exact .inl hx
          · exact .inr (.inr (.inl hx))
          · exact .inr (.inr (.inr hx))
        · intro x hx
          rcases hB.all x hx with h | h
          · rw [he] at h
            simp only [List.mem_append, List.mem_cons] at h
            simp only [List.mem_append, List.mem_singleton]
            rcases h with h | h | h | h
            · exact .inl (.inl (.inl h))
            · exact .inr (hd x h)
            · exact .inl (.inl (.inr h))
            · exact .inl (.inr h)
          · exact .inr h
      have hN1 : Near M { st with restored := re, chips := ch, tried := st.tried ++ [c1], eth := some (M.board c1) } := by
        refine ⟨?_, ?_, ?_, ?_, ?_⟩ <;> simp [hs, ho]
      have hcm : c1 ∈ M.chips := hB.sub c1 (by rw [he]; simp)
      have hS := spaceOn_spec (n := 1) (sdram := x) (c := c1) hB1 hN1 (by simp [hs, ho]) (mem_chips.1 hcm).2.2
      cases hsp : spaceOn M c1 1 x
          { st with restored := re, chips := ch, tried := st.tried ++ [c1], eth := some (M.board c1) } with
      | error e => rw [hsp] at h; cases h
      | ok r =>
        obtain ⟨st2, b⟩ := r
        rw [hsp] at hS h
        cases b with
        | true =>
          cases h
          obtain ⟨a1, a2⟩ := spaceOn_all hB1 hsp
          obtain ⟨h1, h2, h3⟩ := hS.yes rfl
          have honly : ∀ d ∈ st'.prepared, Spare M l d → d = c := by
            intro d hd hsd
            rcases hS.prepared d hd with h | h
            · exact absurd hsd (hpre d h)
            · exact h
          refine ⟨⟨hS.book, hS.near, by simp, ?_, ?_, ?_⟩, h1⟩
          · intro u hu
            rw [List.mem_singleton] at hu
            subst hu
            exact h2
          · intro d hd hsd
            exact List.mem_singleton.2 (honly d hd hsd)
          · intro u hu d hd hsd
            rw [List.mem_singleton] at hu
            subst hu
            rcases a2 d hd with h | h | h
            · exact absurd h (hA.open_ hsd)
            · exact .inl (List.mem_singleton.2 (honly d h hsd))
            · exact .inr h
        | false =>
          obtain ⟨h1, h2, _⟩ := hS.no rfl
          refine ih hS.book (h1.trans hs) (h2.trans ho) ?_ h
          intro d hd
          rcases hS.prepared d hd with h | rfl
          · exact hpre d h
          · exact hS.spent hA hx

/-- The preparation, after `k` machine vertices were put on the chips `U`. -/
structure Spread (M : Machine) (l : List Placement) (xs : List Nat) (U : List XY) (k : Nat) (c : XY) (st : State) : Prop where
  wide : Wide M l U st
  cur : st.cur = some c
  spare : Spare M l c
  count : k + st.free.length = (U.map (freeOn M l)).sum
  used : ∃ ys, st.used.Perm (needs M l c ++ ys) ∧ ys.length + st.free.length = freeOn M l c ∧ ∀ y ∈ ys, y ∈ xs

/-- The cores that a chip with room has. -/
theorem Room.free {n x : Nat} {c : XY} {st : State} (h : Room M l n x c st) : st.free.length = freeOn M l c := by
  have := h.all
  unfold freeOn
  omega

/-- A search has not ended without success. -/
def NotLost : Except PyErr (Option (List Placement) × State) → Prop
  | .error e => e ≠ .place
  | .ok (none, _) => False
  | .ok (some _, _) => True

/-- Some chips have enough cores for the rest, and they can be reached from a chip that has been taken: the search does not end
without success. -/
theorem prepareLoop_spread (hG : Grid M) (hA : Ample M l xs) {fuel : Nat} (hf : M.chips.length < fuel) {s : XY} {cs : List XY}
    (hcs : cs.Nodup) (hway : ∀ c ∈ cs, Way M (Spare M l) s c) (gs : List (List Nat × Nat)) :
    (∀ g ∈ gs, g.1.length = 1 ∧ g.2 ∈ xs) → ∀ {U : List XY} {k : Nat} {c : XY} {st : State} {acc : List Placement},
    s ∈ U → Spread M l xs U k c st → k + gs.length ≤ (cs.map (freeOn M l)).sum →
    NotLost (prepareLoop M fuel gs st acc) := by
  induction gs with
  | nil => intro _ U k c st acc _ _ _; exact trivial
  | cons g gs ih =>
    intro hg U k c st acc hs hS hk
    have hgs : ∀ g' ∈ gs, g'.1.length = 1 ∧ g'.2 ∈ xs := fun g' hg' => hg g' (List.mem_cons_of_mem _ hg')
    obtain ⟨hg1, hg2⟩ := hg g List.mem_cons_self
    rw [List.length_cons] at hk
    -- once the core is taken
    have htake : ∀ {U : List XY} {c : XY} {st : State}, s ∈ U → Wide M l U st → st.cur = some c → Spare M l c → 1 ≤ st.free.length →
        k + st.free.length = (U.map (freeOn M l)).sum →
        (∃ ys, st.used.Perm (needs M l c ++ ys) ∧ ys.length + st.free.length = freeOn M l c + 1 ∧ ∀ y ∈ ys, y ∈ xs) →
        NotLost (match takeCores c g.1 st.free with
          | .error err => .error err
          | .ok (free, as) => prepareLoop M fuel gs { st with free := free } (acc ++ as)) := by
      intro U c st hs hW hcur hsp h1 hcount hused
      cases ht : takeCores c g.1 st.free with
      | error e => rw [takeCores_error ht]; exact (by decide : PyErr.indexError ≠ .place)
      | ok r =>
        obtain ⟨rest, as⟩ := r
        obtain ⟨t1, -, t2⟩ := takeCores_ok ht
        have h3 : st.free.length = 1 + rest.length := by
          rw [t2, List.length_append, ← hg1, ← t1, List.length_map, List.length_map]
        refine ih hgs (U := U) (k := k + 1) (c := c) hs ⟨?_, hcur, hsp, by simp only; omega, ?_⟩ (by omega)
        · have hB := hW.book
          have hN := hW.near
          exact ⟨⟨hB.inv, hB.nodup, hB.sub, hB.all, hB.full⟩, ⟨hN.nodup, hN.fresh, hN.has, hN.same, hN.other⟩, hW.nodup,
            hW.prepared, hW.only, hW.cover⟩
        · obtain ⟨ys, y1, y2, y3⟩ := hused
          exact ⟨ys, y1, by simp only; omega, y3⟩
    rw [prepareLoop]
    cases hv : filterVertices M st.store g.1 with
    | error e => rw [filter_error hv]; exact (by decide : PyErr.notImplemented ≠ .place)
    | ok ws =>
      cases ws with
      | nil => exact ih hgs hs hS (by omega)
      | cons w ws =>
        have hlen := filter_length hv
        have hw : (w :: ws).length = 1 := by
          rw [hg1] at hlen
          have : 0 < (w :: ws).length := by simp
          omega
        simp only
        rw [hw]
        unfold nextChip
        rw [hS.cur]
        simp only
        obtain ⟨ys, y1, y2, y3⟩ := hS.used
        by_cases hroom : 1 ≤ st.free.length
        · have hbytes : M.costs.total (g.2 :: st.used) ≤ M.sdram c := by
            have h1 := (hA c hS.spare).2 (g.2 :: ys) (by
              intro y hy
              rcases List.mem_cons.1 hy with rfl | hy
              · exact hg2
              · exact y3 y hy) (by rw [List.length_cons]; omega)
            refine Nat.le_trans (Nat.le_of_eq (M.costs.perm ?_)) h1
            exact (y1.cons g.2).trans (List.perm_middle (l₁ := needs M l c) (l₂ := ys) (a := g.2)).symm
          rw [if_pos ⟨hroom, hbytes⟩]
          simp only
          have hB := hS.wide.book
          have hN := hS.wide.near
          refine htake (U := U) (st := { st with cur := some c, used := g.2 :: st.used }) hs
            ⟨⟨hB.inv, hB.nodup, hB.sub, hB.all, hB.full⟩, ⟨hN.nodup, hN.fresh, hN.has, hN.same, hN.other⟩, hS.wide.nodup,
            hS.wide.prepared, hS.wide.only, hS.wide.cover⟩ rfl hS.spare hroom hS.count ⟨g.2 :: ys, ?_, ?_, ?_⟩
          · exact (y1.cons g.2).trans (List.perm_middle (l₁ := needs M l c) (l₂ := ys) (a := g.2)).symm
          · rw [List.length_cons]; simp only; omega
          · intro y hy
            rcases List.mem_cons.1 hy with rfl | hy
            · exact hg2
            · exact y3 y hy
        · rw [if_neg (fun h => hroom h.1)]
          have hlen' : (st.same ++ st.other).length ≤ M.chips.length :=
            List.Nodup.length_le_of_subset hS.wide.near.nodup (fun d hd => by
              have := hS.wide.near.has d hd
              exact mem_chips.2 ⟨(hG d this).1, (hG d this).2, this⟩)
          have hN := nextNeighbour_wide hA hg2 (fuel := fuel) hS.wide (by omega)
          cases hn : nextNeighbour M 1 g.2 fuel st with
          | error e => rw [hn] at hN; exact hN
          | ok r =>
            obtain ⟨oc, st1⟩ := r
            rw [hn] at hN
            cases oc with
            | none =>
              simp only at hN ⊢
              have h1 := sum_sub (freeOn M l) cs U hcs (fun c hc => hN s hs c (hway c hc))
              have h2 := hS.count
              omega
            | some d =>
              simp only at hN ⊢
              obtain ⟨hW, hR⟩ := hN
              have hfree := hR.free
              have h1 := hR.enough
              have h2 := hS.count
              refine htake (U := d :: U) (List.mem_cons_of_mem _ hs) hW hR.cur
                ⟨hR.has, by omega⟩ h1 ?_ ⟨[g.2], ?_, ?_, ?_⟩
              · rw [List.map_cons, List.sum_cons]; omega
              · rw [hR.used]
              · rw [List.length_singleton]; omega
              · intro y hy
                rw [List.mem_singleton] at hy
                subst hy
                exact hg2

/-- The search either starts at the given chip and succeeds, or the chip is still among the starts. -/
theorem prepareLoop_spread_start (hG : Grid M) (hA : Ample M l xs) {fuel : Nat} (hf : M.chips.length < fuel) {s : XY}
    {cs : List XY} (hcs : cs.Nodup) (hway : ∀ c ∈ cs, Way M (Spare M l) s c) (hs : Spare M l s) (gs : List (List Nat × Nat)) :
    (∀ g ∈ gs, g.1.length = 1 ∧ g.2 ∈ xs) → gs.length ≤ (cs.map (freeOn M l)).sum → ∀ {st : State} {acc : List Placement},
    st.cur = none → Book M st l → st.prepared = [] → s ∈ st.restored ++ st.chips →
    StillOpen s (prepareLoop M fuel gs st acc) := by
  induction gs with
  | nil => intro _ _ st acc _ _ _ _; exact trivial
  | cons g gs ih =>
    intro hg hk st acc hcur hB hpre hpool
    have hgs : ∀ g' ∈ gs, g'.1.length = 1 ∧ g'.2 ∈ xs := fun g' hg' => hg g' (List.mem_cons_of_mem _ hg')
    obtain ⟨hg1, hg2⟩ := hg g List.mem_cons_self
    rw [List.length_cons] at hk
    rw [prepareLoop]
    cases hv : filterVertices M st.store g.1 with
    | error e => rw [filter_error hv]; exact (by decide : PyErr.notImplemented ≠ .place)
    | ok ws =>
      cases ws with
      | nil => exact ih hgs (by omega) hcur hB hpre hpool
      | cons w ws =>
        have hlen := filter_length hv
        have hw : (w :: ws).length = 1 := by
          rw [hg1] at hlen
          have : 0 < (w :: ws).length := by simp
          omega
        have hB1 : Book M { st with same := [], other := [] } l := ⟨hB.inv, hB.nodup, hB.sub, hB.all, hB.full⟩
        have hl := hB.left
        have hS := startLoop_spec (n := 1) (sdram := g.2) (fuel := fuel) hB1 rfl rfl
          (by simp only [List.length_append]; omega)
        simp only
        rw [hw]
        unfold nextChip
        rw [hcur]
        simp only
        unfold nextStart
        cases hst : startLoop M 1 g.2 fuel { st with same := [], other := [] } with
        | error e =>
          rw [hst] at hS
          simp only at hS ⊢
          intro he
          exact (hS.2.2 he s hpool).elim (hA.open_ hs) (hA.fits hs hg2)
        | ok r =>
          obtain ⟨d, st1⟩ := r
          rw [hst] at hS
          obtain ⟨hW, hR⟩ := startLoop_wide hA hg2 hB1 rfl rfl (by simp [hpre]) hst
          simp only at hS ⊢
          cases ht : takeCores d g.1 st1.free with
          | error e => rw [takeCores_error ht]; exact (by decide : PyErr.indexError ≠ .place)
          | ok r =>
            obtain ⟨rest, as⟩ := r
            simp only
            rcases hS.kept s hpool (hA.open_ hs) (hA.fits hs hg2) with rfl | h1
            · obtain ⟨t1, -, t2⟩ := takeCores_ok ht
              have h3 : st1.free.length = 1 + rest.length := by
                rw [t2, List.length_append, ← hg1, ← t1, List.length_map, List.length_map]
              have hfree := hR.free
              have hWB := hW.book
              have hWN := hW.near
              have := prepareLoop_spread hG hA hf hcs hway gs hgs
                (U := [s]) (k := 1) (c := s) (st := { st1 with free := rest }) (acc := acc ++ as) (by simp)
                ⟨⟨⟨hWB.inv, hWB.nodup, hWB.sub, hWB.all, hWB.full⟩, ⟨hWN.nodup, hWN.fresh, hWN.has, hWN.same, hWN.other⟩,
                  hW.nodup, hW.prepared, hW.only, hW.cover⟩, hR.cur, hs, by simp; omega,
                  ⟨[g.2], by simp only; rw [hR.used], by simp only [List.length_singleton]; omega, by simpa using hg2⟩⟩ (by omega)
              cases hr : prepareLoop M fuel gs { st1 with free := rest } (acc ++ as) with
              | error e => rw [hr] at this; exact this
              | ok r =>
                obtain ⟨oa, st2⟩ := r
                rw [hr] at this
                cases oa with
                | none => exact this.elim
                | some _ => exact trivial
            · exact prepareLoop_pool gs (by simp only [hR.cur]; simp) h1

theorem attempts_spread (hG : Grid M) (hA : Ample M l xs) {fuel : Nat} (hf : M.chips.length < fuel) {s : XY}
    {cs : List XY} (hcs : cs.Nodup) (hway : ∀ c ∈ cs, Way M (Spare M l) s c) (hs : Spare M l s) {gs : List (List Nat × Nat)}
    (hg : ∀ g ∈ gs, g.1.length = 1 ∧ g.2 ∈ xs) (hk : gs.length ≤ (cs.map (freeOn M l)).sum) {k : Nat} {st : State}
    (hB : Book M st l) (hc : s ∈ st.restored ++ st.chips) : attempts M fuel gs k st ≠ .error .place := by
  induction k generalizing st with
  | zero => intro h; cases h
  | succ k ih =>
    rw [attempts]
    have hP : Prep M False l [] { st with prepared := [], cur := none } :=
      .inl ⟨rfl, rfl, ⟨hB.inv, hB.nodup, hB.sub, hB.all, hB.full⟩⟩
    have hS := prepareLoop_spec (gs := gs) hG hf (fun k => k.elim) hP
    have hO := prepareLoop_spread_start hG hA hf hcs hway hs gs hg hk (st := { st with prepared := [], cur := none })
      (acc := []) rfl ⟨hB.inv, hB.nodup, hB.sub, hB.all, hB.full⟩ rfl hc
    unfold prepare
    cases hp : prepareLoop M fuel gs { st with prepared := [], cur := none } [] with
    | error e =>
      rw [hp] at hO
      simp only
      intro h
      cases h
      exact hO rfl
    | ok r =>
      obtain ⟨oa, st'⟩ := r
      rw [hp] at hS hO
      cases oa with
      | some as => simp
      | none => exact ih hS.1 hO

/-- A vertex for which there are enough linked cores does not run out of chips. -/
theorem placeVertex_spread (hG : Grid M) (hA : Ample M l xs) {fuel : Nat} (hf : M.chips.length < fuel) {v : AppV} {st : State}
    (hB : Book M st l) (hg : ∀ g ∈ v.groups, g.1.length = 1 ∧ g.2 ∈ xs) (hL : Linked M l v.groups.length) :
    placeVertex M fuel v st ≠ .error .place := by
  intro h
  unfold placeVertex at h
  split at h
  · cases h
  · rename_i hne
    obtain ⟨s, cs, hcs, hway, hk⟩ := hL
    have hs : Spare M l s := by
      cases cs with
      | nil =>
        have := List.length_pos_iff.2 hne
        simp only [List.map_nil, List.sum_nil] at hk
        omega
      | cons c cs => exact (hway c List.mem_cons_self).start
    have hB1 : Book M { st with restored := st.restored ++ st.tried, tried := [] } l := by
      refine ⟨hB.inv, ?_, ?_, ?_, hB.full⟩
      · simp only [List.nil_append]
        refine (List.Perm.nodup_iff ?_).1 hB.nodup
        rw [← List.append_assoc]
        exact List.Perm.append_right _ List.perm_append_comm
      · intro c hc
        refine hB.sub c ?_
        simp only [List.nil_append, List.mem_append] at hc ⊢
        rcases hc with (h | h) | h
        · exact .inr (.inl h)
        · exact .inl h
        · exact .inr (.inr h)
      · intro c hc
        refine (hB.all c hc).imp ?_ id
        intro hc
        simp only [List.nil_append, List.mem_append] at hc ⊢
        rcases hc with h | h | h
        · exact .inl (.inr h)
        · exact .inl (.inl h)
        · exact .inr h
    have hpool : s ∈ (st.restored ++ st.tried) ++ st.chips := by
      rcases hB1.all s (mem_chips.2 ⟨(hG s hs.1).1, (hG s hs.1).2, hs.1⟩) with h1 | h1
      · simpa using h1
      · exact absurd (hB.full s h1) (hA.open_ hs)
    have h1 := attempts_spread (k := fuel) hG hA hf hcs hway hs hg hk hB1 hpool
    split at h
    · rename_i e ha
      cases h
      exact h1 ha
    · split at h
      · rename_i hr
        cases h
        have := addAll_error (s := _) (as := _) (e := .place) (congrArg Prod.snd hr)
        exact absurd this (by decide)
      · cases h

end

end Pacman.Placer
