import Verif.Proofs.FixedRoute
/-
C36, C66: fixed routes reach the Ethernet chip of the board, by a shortest way.
-/

namespace Pacman.FixedRoute

/-- C36: when the router succeeds, a packet put at any chip of any board goes, over existing links
between chips of this board, to the Ethernet chip of the board, and there to the first core with a
vertex of the destination class. For every machine and every order in which Python goes through
its sets. -/
theorem C36_delivered {m : Mach} (ho : SetOrder m) {t : FTable} (h : build m = .ok t) {e : XY}
    (he : e ∈ m.eths) :
    ∃ p, (m.dests e).head? = some p ∧
      ∀ c ∈ m.board e, ∃ n, Delivered m t (m.board e) c n e p := by
  obtain ⟨_, _, _, _, h5⟩ := buildFrom_ok ho m.eths h
  obtain ⟨p, hp, hc⟩ := h5 e he
  refine ⟨p, hp, fun c hcB => ?_⟩
  obtain ⟨n, hd, _⟩ := hc c hcB
  exact ⟨n, hd⟩

/-- C36: there is an entry exactly for the chips of the boards. -/
theorem C36_chips {m : Mach} (ho : SetOrder m) {t : FTable} (h : build m = .ok t) (c : XY) :
    t.get? c ≠ none ↔ ∃ e ∈ m.eths, c ∈ m.board e := by
  obtain ⟨_, _, _, h4, h5⟩ := buildFrom_ok ho m.eths h
  constructor
  · intro hc
    apply Classical.byContradiction
    intro hne
    apply hc
    rw [h4 c (fun e he hcB => hne ⟨e, he, hcB⟩)]
    rfl
  · rintro ⟨e, he, hcB⟩
    obtain ⟨p, _, hd⟩ := h5 e he
    obtain ⟨n, hd, _⟩ := hd c hcB
    exact delivered_mem hd

/-- C36: the router always ends, and if it fails then a chip cannot reach the Ethernet chip
of its board over the links of the board, or there is no destination vertex, or the machine does
not consist of separate boards. -/
theorem C36_fails {m : Mach} (ho : SetOrder m) {x : PyErr} (h : build m = .error x) :
    (x = .routing ∧ ∃ e ∈ m.eths, ∃ c ∈ m.board e, ∀ n, ¬ Way m (m.board e) e c n) ∨
    (x = .configuration ∧ ∃ e ∈ m.eths, m.dests e = []) ∨
    ((x = .keyError ∨ x = .alreadyExists) ∧ ¬ Boards m) := by
  rcases buildFrom_error ho m.eths h with ⟨h1, e, he, h2⟩ | h1 | h1 | ⟨h1, h2⟩
  · exact Or.inr (Or.inr ⟨Or.inl h1, fun hb => h2 (hb.2.1 e he)⟩)
  · exact Or.inl h1
  · exact Or.inr (Or.inl h1)
  · refine Or.inr (Or.inr ⟨Or.inr h1, fun hb => ?_⟩)
    rcases h2 with ⟨e, _, c, _, h3⟩ | h2 | ⟨e, he, f, hf, c, hce, hcf, hef⟩
    · exact h3 rfl
    · exact h2 hb.1
    · exact hef (hb.2.2 e he f hf c hce hcf)

/-- C36: exactly when the router succeeds. -/
theorem C36_succeeds {m : Mach} (ho : SetOrder m) :
    (∃ t, build m = .ok t) ↔
    Boards m ∧ ∀ e ∈ m.eths, m.dests e ≠ [] ∧ ∀ c ∈ m.board e, ∃ n, Way m (m.board e) e c n := by
  constructor
  · rintro ⟨t, h⟩
    obtain ⟨h1, h2, h3, h4, h5⟩ := buildFrom_ok ho m.eths h
    refine ⟨⟨h1, fun e he => (h2 e he).1, h3⟩, fun e he => ?_⟩
    obtain ⟨p, hp, hc⟩ := h5 e he
    refine ⟨fun hd => (by rw [hd] at hp; cases hp), fun c hcB => ?_⟩
    obtain ⟨n, _, ⟨hw, _⟩, _⟩ := hc c hcB
    exact ⟨n, hw⟩
  · rintro ⟨hb, hall⟩
    cases h : build m with
    | ok t => exact ⟨t, rfl⟩
    | error x =>
      exfalso
      rcases C36_fails ho h with ⟨_, e, he, c, hc, h2⟩ | ⟨_, e, he, h2⟩ | ⟨_, h2⟩
      · obtain ⟨n, hw⟩ := (hall e he).2 c hc
        exact h2 n hw
      · exact (hall e he).1 h2
      · exact h2 hb

/-- C66: no way from a chip to the Ethernet chip over links of the board has fewer hops than
the fixed route. -/
theorem C66_shortest {m : Mach} (ho : SetOrder m) {t : FTable} (h : build m = .ok t) {e c f : XY}
    {n p k : Nat} (he : e ∈ m.eths) (hc : c ∈ m.board e)
    (hd : Delivered m t (m.board e) c n f p) (hw : Way m (m.board e) e c k) : n ≤ k := by
  obtain ⟨_, _, _, _, h5⟩ := buildFrom_ok ho m.eths h
  obtain ⟨q, _, hall⟩ := h5 e he
  obtain ⟨n', hd', ⟨_, hmin⟩, _⟩ := hall c hc
  have huniq : ∀ {n n' : Nat} {c f g : XY} {p q : Nat}, Delivered m t (m.board e) c n f p →
      Delivered m t (m.board e) c n' g q → n = n' := by
    intro n
    induction n with
    | zero =>
      intro n' c f g p q h1 h2
      cases h1 with
      | core _ hg =>
        cases h2 with
        | core => rfl
        | hop _ hg' => rw [hg] at hg'; cases hg'
    | succ n ih =>
      intro n' c f g p q h1 h2
      cases h1 with
      | hop _ hg _ _ hd1 =>
        cases h2 with
        | core _ hg' => rw [hg] at hg'; cases hg'
        | hop _ hg' _ _ hd2 =>
          rw [hg] at hg'
          cases hg'
          rw [ih hd1 hd2]
  rw [huniq hd hd']
  exact hmin k hw

/-- C66: the entry of a chip is the first of the links 4, 3, 5, 2, 0, 1 that exists and leads one hop
nearer to the Ethernet chip. -/
theorem C66_entry {m : Mach} (ho : SetOrder m) {t : FTable} (h : build m = .ok t) {e c : XY}
    {n : Nat} (he : e ∈ m.eths) (hc : c ∈ m.board e) (hce : c ≠ e)
    (hn : Way m (m.board e) e c n) (hmin : ∀ k, Way m (m.board e) e c k → n ≤ k) :
    ∃ l pre post, t.get? c = some ⟨[l], []⟩ ∧ m.linkAt c l = true ∧
      Way m (m.board e) e (m.over c l) (n - 1) ∧ [4, 3, 5, 2, 0, 1] = pre ++ l :: post ∧
      ∀ l' ∈ pre, m.linkAt c l' = true → ¬ Way m (m.board e) e (m.over c l') (n - 1) := by
  obtain ⟨_, _, _, _, h5⟩ := buildFrom_ok ho m.eths h
  obtain ⟨q, _, hall⟩ := h5 e he
  obtain ⟨n', _, ⟨hw', hmin'⟩, hfirst⟩ := hall c hc
  have hnn : n' = n := Nat.le_antisymm (hmin' n hn) (hmin n' hw')
  subst hnn
  obtain ⟨l, h1, h2, h3, pre, post, h4, h6⟩ := hfirst hce
  exact ⟨l, pre, post, h1, h2, h3, h4, h6⟩

theorem way_order {m : Mach} {B : List XY} {e c : XY} {n : Nat} (o : Nat → List XY → List XY)
    (h : Way m B e c n) : Way { m with order := o } B e c n := by
  induction h with
  | here => exact .here
  | step h1 h2 h3 _ ih => exact .step h1 h2 h3 ih

/-- C66: the order in which Python goes through its sets makes no difference: the router succeeds
with any order or with none, and then gives every chip the same entry. -/
theorem C66_order {m : Mach} (ho : SetOrder m) {o : Nat → List XY → List XY}
    (ho' : ∀ n l, (o n l).Perm l) {t : FTable} (h : build m = .ok t) :
    ∃ t', build { m with order := o } = .ok t' ∧ ∀ c, t'.get? c = t.get? c := by
  have hS : SetOrder { m with order := o } := ho'
  obtain ⟨hb, hall⟩ := (C36_succeeds ho).1 ⟨t, h⟩
  obtain ⟨t', h'⟩ := (C36_succeeds hS).2 ⟨hb, fun e he => ⟨(hall e he).1, fun c hc => by
    obtain ⟨n, hw⟩ := (hall e he).2 c hc
    exact ⟨n, way_order o hw⟩⟩⟩
  refine ⟨t', h', fun c => ?_⟩
  by_cases hc : ∃ e ∈ m.eths, c ∈ m.board e
  · obtain ⟨e, he, hc⟩ := hc
    by_cases hce : c = e
    · subst hce
      obtain ⟨p, hp, hd⟩ := C36_delivered ho h he
      obtain ⟨p', hp', hd'⟩ := C36_delivered hS h' he
      have hpp : p = p' := by
        have : some p = some p' := by rw [← hp, ← hp']
        exact Option.some.inj this
      obtain ⟨n, hd1⟩ := hd c hc
      obtain ⟨n', hd1'⟩ := hd' c hc
      have z : n = 0 := Nat.le_zero.1 (C66_shortest ho h he hc hd1 .here)
      have z' : n' = 0 := Nat.le_zero.1 (C66_shortest hS h' he hc hd1' .here)
      subst z z' hpp
      cases hd1 with
      | core _ hg => cases hd1' with
        | core _ hg' => rw [hg, hg']
    · obtain ⟨n, hw, hmin⟩ := min_way ((hall e he).2 c hc)
      obtain ⟨l, pre, post, h1, h2, h3, h4, h6⟩ := C66_entry ho h he hc hce hw hmin
      obtain ⟨l', pre', post', h1', h2', h3', h4', h6'⟩ :=
        C66_entry hS h' he hc hce (way_order o hw) (fun k hk => hmin k (way_order (m := { m with order := o }) m.order hk))
      have hll : l = l' := by
        rw [h4] at h4'
        rcases List.append_eq_append_iff.1 h4' with ⟨as, g1, g2⟩ | ⟨bs, g1, g2⟩
        · cases as with
          | nil => simp only [List.nil_append, List.cons.injEq] at g2; exact g2.1
          | cons a as =>
            simp only [List.cons_append, List.cons.injEq] at g2
            obtain ⟨g3, _⟩ := g2
            subst g3
            exact absurd (way_order o h3) (h6' l (by rw [g1]; simp) h2)
        · cases bs with
          | nil => simp only [List.nil_append, List.cons.injEq] at g2; exact g2.1.symm
          | cons b bs =>
            simp only [List.cons_append, List.cons.injEq] at g2
            obtain ⟨g3, _⟩ := g2
            subst g3
            exact absurd (way_order (m := { m with order := o }) m.order h3') (h6 l' (by rw [g1]; simp) h2')
      rw [h1, h1', hll]
  · have a := C36_chips ho h c
    have b := C36_chips hS h' c
    have ha : t.get? c = none := Classical.byContradiction (fun hh => hc (a.1 hh))
    have hb' : t'.get? c = none := Classical.byContradiction (fun hh => hc (b.1 hh))
    rw [ha, hb']

/-! A machine of one board of four chips, in a row with one chip above, that lacks the link from
(2, 0) to (1, 0): its packets go round by (1, 1). -/

def exMach : Mach where
  eths := [(0, 0)]
  board := fun e => if e = (0, 0) then [(0, 0), (1, 0), (2, 0), (1, 1)] else []
  over := fun c l =>
    match l with
    | 0 => (c.1 + 1, c.2)
    | 1 => (c.1 + 1, c.2 + 1)
    | 2 => (c.1, c.2 + 1)
    | 3 => (c.1 - 1, c.2)
    | 4 => (c.1 - 1, c.2 - 1)
    | _ => (c.1, c.2 - 1)
  linkAt := fun c l => decide ((c, l) ∈
    [((1, 0), 3), ((0, 0), 0), ((1, 0), 0), ((1, 1), 4), ((0, 0), 1), ((1, 1), 5), ((1, 0), 2)])
  dests := fun e => if e = (0, 0) then [3, 7] else []
  order := fun _ l => l.reverse

/-- It has separate boards, but (2, 0) cannot reach the Ethernet chip: the router fails. -/
example : SetOrder exMach ∧ build exMach = .error .routing :=
  ⟨fun _ l => List.reverse_perm l, by decide +kernel⟩

/-- With a link from (2, 0) up to (2, 1) instead, a chip beside (1, 1). -/
def exMach2 : Mach :=
  { exMach with
    board := fun e => if e = (0, 0) then [(0, 0), (1, 0), (2, 0), (1, 1), (2, 1)] else []
    linkAt := fun c l => exMach.linkAt c l || decide ((c, l) ∈ [((2, 0), 2), ((2, 1), 3)]) }

example : SetOrder exMach2 ∧
    build exMach2 = .ok [((1, 1), ⟨[4], []⟩), ((1, 0), ⟨[3], []⟩), ((2, 1), ⟨[3], []⟩),
      ((2, 0), ⟨[2], []⟩), ((0, 0), ⟨[], [3]⟩)] ∧
    (0, 0) ∈ exMach2.eths ∧ (2, 0) ∈ exMach2.board (0, 0) ∧
    (exMach2.dests (0, 0)).head? = some 3 :=
  ⟨fun _ l => List.reverse_perm l, by decide +kernel, by decide, by decide, by decide⟩

/-- The way of the packets of (2, 0), a shortest one. -/
example : ∀ t, build exMach2 = .ok t →
    Delivered exMach2 t (exMach2.board (0, 0)) (2, 0) 3 (0, 0) 3 ∧
    Way exMach2 (exMach2.board (0, 0)) (0, 0) (2, 0) 3 := by
  intro t ht
  have h : build exMach2 = .ok [((1, 1), ⟨[4], []⟩), ((1, 0), ⟨[3], []⟩), ((2, 1), ⟨[3], []⟩),
      ((2, 0), ⟨[2], []⟩), ((0, 0), ⟨[], [3]⟩)] := by decide +kernel
  rw [ht] at h
  cases h
  exact ⟨.hop (l := 2) (by decide) (by decide) (by decide) (by decide)
    (.hop (l := 3) (by decide) (by decide) (by decide) (by decide)
      (.hop (l := 4) (by decide) (by decide) (by decide) (by decide)
        (.core (by decide) (by decide)))),
    .step (l := 2) (by decide) (by decide) (by decide)
      (.step (l := 3) (by decide) (by decide) (by decide)
        (.step (l := 4) (by decide) (by decide) (by decide) .here))⟩

end Pacman.FixedRoute
