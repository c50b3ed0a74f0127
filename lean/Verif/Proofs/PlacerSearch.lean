import Verif.Proofs.Placer
/-
The search for chips: one chip, a start, a neighbour.
-/

namespace Pacman.Placer

open Plc (Placement Store Inv)

/-- No more vertices are put on the chip. -/
def Filled (M : Machine) (l : List Placement) (c : XY) : Prop :=
  (M.cores c).length ≤ (at_ l c).length ∨ M.cap < (load M l c : Int)

/-- The chip has no room for a group of `n` vertices. -/
def Small (M : Machine) (l : List Placement) (n sdram : Nat) (c : XY) : Prop :=
  (M.cores c).length < (at_ l c).length + n ∨ M.sdram c < M.costs.total (needs M l c ++ [sdram])

theorem Filled.mono {M : Machine} {l : List Placement} {c : XY} (h : Filled M l c) (l' : List Placement) :
    Filled M (l ++ l') c := by
  unfold Filled at *
  have := load_mono M l l' c
  rw [at_append, List.length_append]
  omega

/-- The lists of chips, whenever they are. -/
structure Book (M : Machine) (st : State) (l : List Placement) : Prop where
  inv : Inv st.store l
  nodup : (st.tried ++ (st.restored ++ st.chips)).Nodup
  sub : ∀ c ∈ st.tried ++ (st.restored ++ st.chips), c ∈ M.chips
  all : ∀ c ∈ M.chips, c ∈ st.tried ++ (st.restored ++ st.chips) ∨ c ∈ st.full
  full : ∀ c ∈ st.full, Filled M l c

theorem Book.left {M : Machine} {st : State} {l : List Placement} (h : Book M st l) :
    st.tried.length + (st.restored.length + st.chips.length) ≤ M.chips.length := by
  have := List.Nodup.length_le_of_subset h.nodup (fun c hc => h.sub c hc)
  simpa using this

/-- How a search may fail. -/
def Err (M : Machine) (l : List Placement) (e : PyErr) : Prop :=
  e = .tooBig ∨ e = .place ∨ (e ≠ .outOfFuel ∧ ¬ Sane M l)

/-- A chip that was found to have room. -/
structure Room (M : Machine) (l : List Placement) (n sdram : Nat) (c : XY) (st : State) : Prop where
  cur : st.cur = some c
  has : M.has c = true
  enough : n ≤ st.free.length
  offered : ∀ p ∈ st.free, p ∈ M.cores c
  clear : (M.cores c).Nodup → st.free.Nodup ∧ ∀ p ∈ st.free, ∀ a ∈ l, (a.x, a.y) = c → a.p ≠ p
  used : st.used = needs M l c ++ [sdram]
  fits : M.costs.total st.used ≤ M.sdram c
  all : st.free.length + (at_ l c).length = (M.cores c).length

/-- The outcome of looking at a chip. -/
structure Looked (M : Machine) (l : List Placement) (n sdram : Nat) (c : XY) (st st' : State) (b : Bool) : Prop where
  book : Book M st' l
  tried : st'.tried = st.tried
  restored : st'.restored = st.restored
  chips : st'.chips = st.chips
  eth : st'.eth = st.eth
  near : Near M st'
  prepared : ∀ d, d ∈ st'.prepared → d ∈ st.prepared ∨ d = c
  kept : ∀ d, d ∈ st.prepared → d ∈ st'.prepared
  no : b = false → st'.same = st.same ∧ st'.other = st.other ∧ st'.cur = st.cur ∧ st'.free = st.free ∧
    st'.used = st.used ∧ (Filled M l c ∨ Small M l n sdram c)
  yes : b = true → Room M l n sdram c st' ∧ c ∈ st'.prepared ∧
    (∀ d ∈ st'.same ++ st'.other, d ∈ st.same ++ st.other ∨ d ∈ M.links c)

theorem Near.store {M : Machine} {st : State} (h : Near M st) (s : Store) (f : List XY) :
    Near M { st with store := s, full := f } := ⟨h.nodup, h.fresh, h.has, h.same, h.other⟩

theorem Near.prepare {M : Machine} {st : State} {c : XY} (h : Near M st) (hc : c ∉ st.same ++ st.other)
    (s : Store) : Near M { st with store := s, prepared := addKey st.prepared c } := by
  refine ⟨h.nodup, ?_, h.has, h.same, h.other⟩
  intro d hd hm
  rcases addKey_mem.1 hm with hm | rfl
  · exact h.fresh d hd hm
  · exact hc hd

theorem spaceOn_spec {M : Machine} {l : List Placement} {c : XY} {n sdram : Nat} {st : State}
    (hB : Book M st l) (hN : Near M st) (hc : c ∉ st.same ++ st.other) (hh : M.has c = true) :
    match spaceOn M c n sdram st with
    | .ok (st', b) => Looked M l n sdram c st st' b
    | .error e => Err M l e ∧ e ≠ .place := by
  have hu : usedBy M (at_ l c) = needs M l c := rfl
  have hi := onChip_inv hB.inv c
  unfold spaceOn
  simp only [onChip_eq hB.inv]
  by_cases h1 : (at_ l c).length = (M.cores c).length
  · rw [if_pos h1]
    have hF : Filled M l c := .inl (by omega)
    exact ⟨⟨hi, hB.nodup, hB.sub, fun d hd => (hB.all d hd).imp id (fun h => addKey_mem.2 (.inl h)),
      fun d hd => (addKey_mem.1 hd).elim (hB.full d) (fun h => h ▸ hF)⟩, rfl, rfl, rfl, rfl, hN.store _ _,
      fun d hd => .inl hd, fun d hd => hd,
      fun _ => ⟨rfl, rfl, rfl, rfl, rfl, .inl hF⟩, fun h => (by cases h)⟩
  · rw [if_neg h1]
    cases hr : removeAll (M.cores c) (at_ l c) with
    | error e =>
      have := removeAll_error hr
      subst this
      refine ⟨.inr (.inr ⟨(by decide), ?_⟩), (by decide)⟩
      intro hS
      obtain ⟨f, hf⟩ := removeAll_total (free := M.cores c) (on := at_ l c) (by
        intro a ha
        obtain ⟨ha, hac⟩ := mem_at.1 ha
        exact hac ▸ hS.offered a ha) (at_cores_nodup hB.inv c)
      rw [hf] at hr
      cases hr
    | ok free =>
      obtain ⟨r1, r2, r3⟩ := removeAll_ok hr
      simp only [hu]
      by_cases h2 : (M.costs.total (needs M l c) : Int) > M.cap
      · rw [if_pos h2]
        have hF : Filled M l c := .inr h2
        exact ⟨⟨hi, hB.nodup, hB.sub, fun d hd => (hB.all d hd).imp id (fun h => addKey_mem.2 (.inl h)),
          fun d hd => (addKey_mem.1 hd).elim (hB.full d) (fun h => h ▸ hF)⟩, rfl, rfl, rfl, rfl, hN.store _ _,
          fun d hd => .inl hd, fun d hd => hd,
          fun _ => ⟨rfl, rfl, rfl, rfl, rfl, .inl hF⟩, fun h => (by cases h)⟩
      · rw [if_neg h2]
        have hN1 := hN.prepare hc (Plc.placementsOnChip st.store c).1
        by_cases h3 : free.length < n ∨ M.costs.total (needs M l c ++ [sdram]) > M.sdram c
        · rw [if_pos h3]
          cases hf : couldFit M n sdram with
          | error e =>
            unfold couldFit at hf
            split at hf
            · cases hf
            · cases hf
              exact ⟨.inl rfl, (by decide)⟩
          | ok u =>
            refine ⟨⟨hi, hB.nodup, hB.sub, hB.all, hB.full⟩, rfl, rfl, rfl, rfl, hN1,
              fun d hd => addKey_mem.1 hd, fun d hd => addKey_mem.2 (.inl hd),
              fun _ => ⟨rfl, rfl, rfl, rfl, rfl, .inr ?_⟩, fun h => (by cases h)⟩
            unfold Small
            omega
        · rw [if_neg h3]
          cases ha : addNeighbours M (M.links c) { { { st with
              store := (Plc.placementsOnChip st.store c).1 } with prepared := addKey st.prepared c } with
              cur := some c, free := free, used := needs M l c ++ [sdram] } with
          | error e =>
            obtain ⟨rfl, d, hd, hd'⟩ := addNeighbours_error ha
            refine ⟨.inr (.inr ⟨(by decide), ?_⟩), (by decide)⟩
            intro hS
            have := hS.links c hh d hd
            rw [hd'] at this
            cases this
          | ok st' =>
            obtain ⟨s1, o1, he, hN', hm⟩ := addNeighbours_ok ha
              ⟨hN1.nodup, hN1.fresh, hN1.has, hN1.same, hN1.other⟩
            subst he
            refine ⟨⟨hi, hB.nodup, hB.sub, hB.all, hB.full⟩, rfl, rfl, rfl, rfl, hN',
              fun d hd => addKey_mem.1 hd, fun d hd => addKey_mem.2 (.inl hd), fun h => (by cases h),
              fun _ => ⟨⟨rfl, hh, by simp only; omega, r1, ?_, rfl, by simp only; omega, r3⟩,
                addKey_mem.2 (.inr rfl), hm⟩⟩
            intro hn
            obtain ⟨r4, r5⟩ := r2 hn
            refine ⟨r4, ?_⟩
            intro p hp a ha hac he
            exact r5 p hp (List.mem_map.2 ⟨a, mem_at.2 ⟨ha, hac⟩, he⟩)

/-! ### Starts -/

theorem dropWhile_spec {α : Type} (p : α → Bool) (l : List α) :
    ∃ d, l = d ++ l.dropWhile p ∧ ∀ x ∈ d, p x = true := by
  induction l with
  | nil => exact ⟨[], rfl, by simp⟩
  | cons a l ih =>
    rw [List.dropWhile_cons]
    split
    · rename_i ha
      obtain ⟨d, h1, h2⟩ := ih
      exact ⟨a :: d, by rw [List.cons_append, ← h1], by simpa [ha] using h2⟩
    · exact ⟨[], rfl, by simp⟩

/-- The next start, and nothing that is not full is dropped. -/
theorem popStart_spec {st : State} :
    match popStart st with
    | .ok (c, st') => ∃ d restored chips, st' = { st with restored := restored, chips := chips } ∧
        st.restored ++ st.chips = d ++ c :: (restored ++ chips) ∧ ∀ x ∈ d, x ∈ st.full
    | .error e => e = .place ∧ ∀ x ∈ st.restored ++ st.chips, x ∈ st.full := by
  unfold popStart
  obtain ⟨d1, h1, h1'⟩ := dropWhile_spec (fun c => decide (c ∈ st.full)) st.restored
  obtain ⟨d2, h2, h2'⟩ := dropWhile_spec (fun c => decide (c ∈ st.full)) st.chips
  have h1' : ∀ x ∈ d1, x ∈ st.full := fun x hx => by simpa using h1' x hx
  have h2' : ∀ x ∈ d2, x ∈ st.full := fun x hx => by simpa using h2' x hx
  cases hr : st.restored.dropWhile (fun c => decide (c ∈ st.full)) with
  | cons c r =>
    rw [hr] at h1
    refine ⟨d1, r, st.chips, rfl, ?_, h1'⟩
    rw [h1]
    simp
  | nil =>
    rw [hr, List.append_nil] at h1
    cases hc : st.chips.dropWhile (fun c => decide (c ∈ st.full)) with
    | cons c r =>
      rw [hc] at h2
      refine ⟨d1 ++ d2, [], r, rfl, ?_, ?_⟩
      · rw [h1, h2]
        simp
      · intro x hx
        rcases List.mem_append.1 hx with hx | hx
        · exact h1' x hx
        · exact h2' x hx
    | nil =>
      rw [hc, List.append_nil] at h2
      refine ⟨rfl, ?_⟩
      intro x hx
      rw [h1, h2] at hx
      rcases List.mem_append.1 hx with hx | hx
      · exact h1' x hx
      · exact h2' x hx

/-- The outcome of the search for a start. -/
structure Begun (M : Machine) (l : List Placement) (n sdram : Nat) (c : XY) (st st' : State) : Prop where
  book : Book M st' l
  near : Near M st'
  room : Room M l n sdram c st'
  prepared : c ∈ st'.prepared
  linked : ∀ d ∈ st'.same ++ st'.other, d ∈ M.links c
  less : (st'.restored ++ st'.chips).length < (st.restored ++ st.chips).length
  kept : ∀ d ∈ st.restored ++ st.chips, ¬ Filled M l d → ¬ Small M l n sdram d → d = c ∨ d ∈ st'.restored ++ st'.chips

theorem startLoop_spec {M : Machine} {l : List Placement} {n sdram fuel : Nat} {st : State}
    (hB : Book M st l) (hs : st.same = []) (ho : st.other = [])
    (hf : (st.restored ++ st.chips).length < fuel) :
    match startLoop M n sdram fuel st with
    | .ok (c, st') => Begun M l n sdram c st st'
    | .error e => Err M l e ∧ (e = .place → (∀ c ∈ st.tried, Filled M l c ∨ Small M l n sdram c) →
        ∀ c ∈ M.chips, Filled M l c ∨ Small M l n sdram c) ∧
        (e = .place → ∀ c ∈ st.restored ++ st.chips, Filled M l c ∨ Small M l n sdram c) := by
  induction fuel generalizing st with
  | zero => omega
  | succ fuel ih =>
    rw [startLoop]
    have hP := popStart_spec (st := st)
    cases hp : popStart st with
    | error e =>
      rw [hp] at hP
      obtain ⟨rfl, hx⟩ := hP
      refine ⟨.inr (.inl rfl), fun _ ht c hc => ?_, fun _ c hc => .inl (hB.full c (hx c hc))⟩
      rcases hB.all c hc with h | h
      · rcases List.mem_append.1 h with h | h
        · exact ht c h
        · exact .inl (hB.full c (hx c h))
      · exact .inl (hB.full c h)
    | ok r =>
      obtain ⟨c, st1⟩ := r
      rw [hp] at hP
      obtain ⟨d, re, ch, rfl, he, hd⟩ := hP
      simp only
      have hB1 : Book M { st with restored := re, chips := ch, tried := st.tried ++ [c], eth := some (M.board c) } l := by
        refine ⟨hB.inv, ?_, ?_, ?_, hB.full⟩
        · have := hB.nodup
          rw [he] at this
          simp only
          refine List.Nodup.sublist ?_ this
          rw [List.append_assoc]
          refine List.Sublist.append (List.Sublist.refl _) ?_
          exact List.sublist_append_right ..
        · intro x hx
          refine hB.sub x ?_
          rw [he]
          simp only [List.mem_append, List.mem_singleton] at hx
          simp only [List.mem_append, List.mem_cons]
          rcases hx with (hx | hx) | hx
          · exact .inl hx
          · exact .inr (.inr (.inl hx))
          · exact .inr (.inr (.inr hx))
        · intro x hx
          rcases hB.all x hx with h | h
          · rw [he] at h
            simp only [List.mem_append, List.mem_cons] at h
            simp only [List.mem_append, List.mem_singleton]
            rcases h with h | h | h | h
            · exact .inl (.inl (.inl h))
            · exact .inr (hd x h)
            · exact .inl (.inl (.inr h))
            · exact .inl (.inr h)
          · exact .inr h
      have hN1 : Near M { st with restored := re, chips := ch, tried := st.tried ++ [c], eth := some (M.board c) } := by
        refine ⟨?_, ?_, ?_, ?_, ?_⟩ <;> simp [hs, ho]
      have hcm : c ∈ M.chips := hB.sub c (by rw [he]; simp)
      have hS := spaceOn_spec (n := n) (sdram := sdram) (c := c) hB1 hN1 (by simp [hs, ho]) (mem_chips.1 hcm).2.2
      cases hsp : spaceOn M c n sdram
          { st with restored := re, chips := ch, tried := st.tried ++ [c], eth := some (M.board c) } with
      | error e =>
        rw [hsp] at hS
        exact ⟨hS.1, fun h => absurd h hS.2, fun h => absurd h hS.2⟩
      | ok r =>
        obtain ⟨st2, b⟩ := r
        rw [hsp] at hS
        have hlen : (st2.restored ++ st2.chips).length < (st.restored ++ st.chips).length := by
          rw [he, hS.restored, hS.chips]
          simp only [List.length_append, List.length_cons]
          omega
        have hpool : ∀ x ∈ st.restored ++ st.chips, Filled M l x ∨ x = c ∨ x ∈ st2.restored ++ st2.chips := by
          intro x hx
          rw [he] at hx
          rw [hS.restored, hS.chips]
          rcases List.mem_append.1 hx with hx | hx
          · exact .inl (hB.full x (hd x hx))
          · exact .inr (List.mem_cons.1 hx)
        cases b with
        | true =>
          obtain ⟨h1, h2, h3⟩ := hS.yes rfl
          refine ⟨hS.book, hS.near, h1, h2, ?_, hlen, fun x hx k1 _ => (hpool x hx).resolve_left k1⟩
          intro x hx
          rcases h3 x hx with h | h
          · simp [hs, ho] at h
          · exact h
        | false =>
          obtain ⟨h1, h2, _, _, _, h6⟩ := hS.no rfl
          have := ih hS.book (h1.trans hs) (h2.trans ho) (by omega)
          simp only
          cases hL : startLoop M n sdram fuel st2 with
          | error e =>
            rw [hL] at this
            refine ⟨this.1, fun he ht => this.2.1 he ?_, fun he x hx => ?_⟩
            · intro x hx
              rw [hS.tried] at hx
              rcases List.mem_append.1 hx with hx | hx
              · exact ht x hx
              · rw [List.mem_singleton] at hx
                subst hx
                exact h6
            · rcases hpool x hx with h | rfl | h
              · exact .inl h
              · exact h6
              · exact this.2.2 he x h
          | ok r =>
            obtain ⟨c', st3⟩ := r
            rw [hL] at this
            refine ⟨this.book, this.near, this.room, this.prepared, this.linked, by have := this.less; omega, ?_⟩
            intro x hx k1 k2
            rcases hpool x hx with h | rfl | h
            · exact absurd h k1
            · exact absurd h6 (fun h => h.elim k1 k2)
            · exact this.kept x h k1 k2

end Pacman.Placer
