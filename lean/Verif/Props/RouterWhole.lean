import Verif.Spec.RouterWhole
import Verif.Props.RouterPath
/-
C109: on a machine without faults, ways follow the dimensions and are as short as can be.
-/

namespace Pacman.RPath

theorem Chain.take {T : Topo} {s e : XY} {p : List Node} (h : Chain T s p e) : ∀ {k : Nat} {x : XY},
    (visits s p)[k]? = some x → Chain T s (p.take k) x := by
  induction h with
  | nil =>
    intro k x hx
    cases k with
    | zero =>
      simp only [visits, List.getElem?_cons_zero, Option.some.injEq] at hx
      subst hx; exact .nil
    | succ k => simp [visits] at hx
  | cons hl _ ih =>
    intro k x hx
    cases k with
    | zero =>
      simp only [visits, List.getElem?_cons_zero, Option.some.injEq] at hx
      subst hx; exact .nil
    | succ k =>
      rw [List.take_succ_cons]
      refine .cons hl (ih ?_)
      simpa [visits] using hx

theorem Chain.drop {T : Topo} {s e : XY} {p : List Node} (h : Chain T s p e) : ∀ {k : Nat} {x : XY},
    (visits s p)[k]? = some x → Chain T x (p.drop k) e := by
  induction h with
  | nil =>
    intro k x hx
    cases k with
    | zero =>
      simp only [visits, List.getElem?_cons_zero, Option.some.injEq] at hx
      subst hx; exact .nil
    | succ k => simp [visits] at hx
  | cons hl hc ih =>
    intro k x hx
    cases k with
    | zero =>
      simp only [visits, List.getElem?_cons_zero, Option.some.injEq] at hx
      subst hx; exact .cons hl hc
    | succ k =>
      rw [List.drop_succ_cons]
      refine ih ?_
      simpa [visits] using hx

/-- A shortest chain passes no place twice. -/
theorem Chain.nodup {T : Topo} {s t : XY} {p : List Node} (h : Chain T s p t)
    (hs : ∀ ns, Chain T s ns t → p.length ≤ ns.length) : (visits s p).Nodup := by
  apply Classical.byContradiction
  intro hn
  have : ∃ (i j : Nat) (x : XY), i < j ∧ (visits s p)[i]? = some x ∧ (visits s p)[j]? = some x := by
    apply Classical.byContradiction
    intro hno
    apply hn
    unfold List.Nodup
    rw [List.pairwise_iff_getElem]
    intro i j hi hj hij heq
    exact hno ⟨i, j, (visits s p)[j], hij, by rw [List.getElem?_eq_getElem hi, heq],
      List.getElem?_eq_getElem hj⟩
  obtain ⟨i, j, x, hij, hi, hj⟩ := this
  have hlen := hs _ ((h.take hi).append (h.drop hj))
  have hjl : j < (visits s p).length := (List.getElem?_eq_some_iff.1 hj).1
  simp only [visits, List.length_cons, List.length_map] at hjl
  rw [List.length_append, List.length_take, List.length_drop] at hlen
  omega

theorem longestFirst_length (T : Topo) (x y z : Int) (s : XY) :
    (longestFirst T x y z s).length = x.natAbs + y.natAbs + z.natAbs := by
  obtain ⟨a, b, c, hp, -, -, h⟩ := C39_longest_first T x y z s
  have h1 := congrArg List.length h
  have h2 := sumI_perm (hp.map (fun d => (d.2.natAbs : Int)))
  simp only [List.length_map, List.length_append, List.length_replicate] at h1
  simp only [List.map_cons, List.map_nil, List.sum_cons, List.sum_nil] at h2
  omega

/-- The links of the hops made from a vector. -/
theorem longestFirst_links {T : Topo} {x y z : Int} {s : XY} {n : Node} (hn : n ∈ longestFirst T x y z s) :
    (0 < x ∧ n.1 = 0) ∨ (x < 0 ∧ n.1 = 3) ∨ (0 < y ∧ n.1 = 2) ∨ (y < 0 ∧ n.1 = 5) ∨ (0 < z ∧ n.1 = 4) ∨
      (z < 0 ∧ n.1 = 1) := by
  obtain ⟨a, b, c, hp, -, -, h⟩ := C39_longest_first T x y z s
  have h1 : n.1 ∈ (longestFirst T x y z s).map (·.1) := List.mem_map_of_mem hn
  rw [h] at h1
  have key : ∀ d : Nat × Int, d ∈ [a, b, c] → n.1 ∈ List.replicate d.2.natAbs (towards d.1 (decide (0 < d.2))) →
      (0 < x ∧ n.1 = 0) ∨ (x < 0 ∧ n.1 = 3) ∨ (0 < y ∧ n.1 = 2) ∨ (y < 0 ∧ n.1 = 5) ∨ (0 < z ∧ n.1 = 4) ∨
      (z < 0 ∧ n.1 = 1) := by
    intro d hd h2
    obtain ⟨h3, h4⟩ := List.mem_replicate.1 h2
    have h5 : d ∈ [((0 : Nat), x), (1, y), (2, z)] := hp.mem_iff.1 hd
    rw [h4]
    by_cases h0 : 0 < d.2
    · rw [decide_eq_true h0]
      simp only [List.mem_cons, List.not_mem_nil, or_false] at h5
      rcases h5 with rfl | rfl | rfl
      · exact Or.inl ⟨h0, rfl⟩
      · exact Or.inr (Or.inr (Or.inl ⟨h0, rfl⟩))
      · exact Or.inr (Or.inr (Or.inr (Or.inr (Or.inl ⟨h0, rfl⟩))))
    · rw [decide_eq_false h0]
      have h6 : d.2 < 0 := by omega
      simp only [List.mem_cons, List.not_mem_nil, or_false] at h5
      rcases h5 with rfl | rfl | rfl
      · exact Or.inr (Or.inl ⟨h6, rfl⟩)
      · exact Or.inr (Or.inr (Or.inr (Or.inl ⟨h6, rfl⟩)))
      · exact Or.inr (Or.inr (Or.inr (Or.inr (Or.inr ⟨h6, rfl⟩))))
  rcases List.mem_append.1 h1 with h1 | h1
  · rcases List.mem_append.1 h1 with h1 | h1
    · exact key a (by simp) h1
    · exact key b (by simp) h1
  · exact key c (by simp) h1

/-- Without wrap-arounds a sum of coordinates that no hop makes smaller is not made smaller by all of them. -/
theorem Chain.mono {T : Topo} (hg : Grid T none none) {f : Int → Int → Int}
    (hf : ∀ a b c d, f (a + b) (c + d) = f a c + f b d) {s e : XY} {ns : List Node} (h : Chain T s ns e)
    (hl : ∀ n ∈ ns, 0 ≤ f (linkAdd n.1).1 (linkAdd n.1).2) : f s.1 s.2 ≤ f e.1 e.2 := by
  induction h with
  | nil => exact Int.le_refl _
  | @cons s e l ns h6 hc ih =>
    have h1 := ih (fun n hn => hl n (List.mem_cons_of_mem _ hn))
    have h2 := hl _ List.mem_cons_self
    rw [hg s l h6] at h1
    simp only [wrap, hf] at h1
    simp only at h2
    omega

/-- So it stays between its values at the ends, whichever way it goes. -/
theorem Chain.between {T : Topo} (hg : Grid T none none) {f : Int → Int → Int}
    (hf : ∀ a b c d, f (a + b) (c + d) = f a c + f b d) {s e : XY} {l : Nat} {ns : List Node} (h6 : l < 6)
    (h : Chain T (T.over s l) ns e)
    (hl : (∀ n ∈ (l, T.over s l) :: ns, 0 ≤ f (linkAdd n.1).1 (linkAdd n.1).2) ∨
      (∀ n ∈ (l, T.over s l) :: ns, f (linkAdd n.1).1 (linkAdd n.1).2 ≤ 0)) {lo hi : Int}
    (hs : lo ≤ f s.1 s.2 ∧ f s.1 s.2 ≤ hi) (he : lo ≤ f e.1 e.2 ∧ f e.1 e.2 ≤ hi) :
    lo ≤ f (T.over s l).1 (T.over s l).2 ∧ f (T.over s l).1 (T.over s l).2 ≤ hi := by
  have h0 : f (T.over s l).1 (T.over s l).2 = f s.1 s.2 + f (linkAdd l).1 (linkAdd l).2 := by
    rw [hg s l h6]; exact hf _ _ _ _
  rcases hl with hl | hl
  · have h1 := Chain.mono hg hf h (fun n hn => hl n (List.mem_cons_of_mem _ hn))
    have h2 := hl _ List.mem_cons_self
    simp only at h2
    omega
  · have h1 := Chain.mono (f := fun a b => - f a b) hg (fun a b c d => by rw [hf]; omega) h
      (fun n hn => by have := hl n (List.mem_cons_of_mem _ hn); omega)
    have h2 := hl _ List.mem_cons_self
    simp only at h1 h2
    omega

/-- Hops that go one way in each of the three directions stay on a board on which they start and end. -/
theorem Board.walk {T : Topo} {x y d : Int × Int} (hb : Board T x y d) (hw : Whole T) {s e : XY} {ns : List Node}
    (h : Chain T s ns e) (hs : s ∈ T.chips) (he : e ∈ T.chips)
    (h1 : (∀ n ∈ ns, 0 ≤ (linkAdd n.1).1) ∨ ∀ n ∈ ns, (linkAdd n.1).1 ≤ 0)
    (h2 : (∀ n ∈ ns, 0 ≤ (linkAdd n.1).2) ∨ ∀ n ∈ ns, (linkAdd n.1).2 ≤ 0)
    (h3 : (∀ n ∈ ns, 0 ≤ (linkAdd n.1).1 - (linkAdd n.1).2) ∨ ∀ n ∈ ns, (linkAdd n.1).1 - (linkAdd n.1).2 ≤ 0) :
    Walk T s ns e := by
  induction h with
  | nil => exact .nil
  | @cons s e l ns h6 hc ih =>
    obtain ⟨s1, s2, s3⟩ := (hb.all s).1 hs
    obtain ⟨e1, e2, e3⟩ := (hb.all e).1 he
    have hm : T.over s l ∈ T.chips := by
      refine (hb.all _).2 ⟨?_, ?_, ?_⟩
      · exact Chain.between (f := fun a _ => a) hb.grid (fun _ _ _ _ => rfl) h6 hc h1 s1 e1
      · exact Chain.between (f := fun _ b => b) hb.grid (fun _ _ _ _ => rfl) h6 hc h2 s2 e2
      · exact Chain.between (f := fun a b => a - b) hb.grid (fun _ _ _ _ => by omega) h6 hc h3 s3 e3
    refine .cons h6 (hw s hs l h6 hm) hm (ih hm he ?_ ?_ ?_)
    · exact h1.imp (fun h n hn => h n (List.mem_cons_of_mem _ hn)) (fun h n hn => h n (List.mem_cons_of_mem _ hn))
    · exact h2.imp (fun h n hn => h n (List.mem_cons_of_mem _ hn)) (fun h n hn => h n (List.mem_cons_of_mem _ hn))
    · exact h3.imp (fun h n hn => h n (List.mem_cons_of_mem _ hn)) (fun h n hn => h n (List.mem_cons_of_mem _ hn))

/-- Where everything wraps round there is no edge. -/
theorem Torus.walk {T : Topo} {w h : Nat} (ht : Torus T w h) (hw : Whole T) {s e : XY} {ns : List Node}
    (hc : Chain T s ns e) (hs : s ∈ T.chips) : Walk T s ns e := by
  induction hc with
  | nil => exact .nil
  | @cons s e l ns h6 _ ih =>
    obtain ⟨s1, s2⟩ := (ht.all s).1 hs
    have hm : T.over s l ∈ T.chips := by
      rw [ht.grid s l h6]
      refine (ht.all _).2 ⟨⟨?_, ?_⟩, ?_, ?_⟩
      · exact Int.emod_nonneg _ (by omega)
      · exact Int.emod_lt_of_pos _ (by omega)
      · exact Int.emod_nonneg _ (by omega)
      · exact Int.emod_lt_of_pos _ (by omega)
    exact .cons h6 (hw s hs l h6 hm) hm (ih hm)

theorem Walk.chain {T : Topo} {s e : XY} {ns : List Node} (h : Walk T s ns e) : Chain T s ns e := by
  induction h with
  | nil => exact .nil
  | cons h6 _ _ _ ih => exact .cons h6 ih

/-- A shortest vector has at most one positive and at most one negative component. -/
theorem short_signs {T : Topo} (hg : Grid T none none) {a b : XY} {v : Int × Int × Int} (hv : ShortVector T a b v) :
    let x := v.1; let y := v.2.1; let z := v.2.2
    (¬ (0 < x ∧ 0 < y)) ∧ (¬ (0 < x ∧ 0 < z)) ∧ (¬ (0 < y ∧ 0 < z)) ∧
    (¬ (x < 0 ∧ y < 0)) ∧ (¬ (x < 0 ∧ z < 0)) ∧ ¬ (y < 0 ∧ z < 0) := by
  intro x y z
  have hs : a = (wrap none a.1, wrap none a.2) := rfl
  have he := (C39_end hg x y z hs).end_unique hv.1
  have key : ∀ k : Int, x.natAbs + y.natAbs + z.natAbs ≤ (x + k).natAbs + (y + k).natAbs + (z + k).natAbs := by
    intro k
    have h1 := C39_end hg (x + k) (y + k) (z + k) hs
    have e1 : x + k - (z + k) = x - z := by omega
    have e2 : y + k - (z + k) = y - z := by omega
    rw [e1, e2, he] at h1
    have h2 := hv.2 _ h1
    rw [longestFirst_length] at h2
    exact h2
  have h1 := key 1
  have h2 := key (-1)
  omega

/-- C109: on a machine without faults (a board without wrap-arounds, or one that wraps round in both directions), a shortest
vector makes a walk that passes no chip twice; it is taken as it is, and no walk is shorter. -/
theorem C109_way {T : Topo} (hT : Intact T) {a b : XY} (ha : a ∈ T.chips) (hb : b ∈ T.chips) {v : Int × Int × Int}
    (hv : ShortVector T a b v) :
    let ns := longestFirst T v.1 v.2.1 v.2.2 a
    withoutErrors T a ns = .ok ns ∧ Walk T a ns b ∧ (visits a ns).Nodup ∧ ∀ ms, Walk T a ms b → ns.length ≤ ms.length := by
  intro ns
  obtain ⟨hw, hT⟩ := hT
  have hs : ∀ ms, Chain T a ms b → ns.length ≤ ms.length := by
    intro ms h
    rw [longestFirst_length]
    exact hv.2 ms h
  have hn := hv.1.nodup hs
  have hwalk : Walk T a ns b := by
    rcases hT with ⟨w, h, hT⟩ | ⟨x, y, d, hT⟩
    · exact hT.walk hw hv.1 ha
    · have hsg := short_signs hT.grid hv
      simp only at hsg
      obtain ⟨g1, g2, g3, g4, g5, g6⟩ := hsg
      have hl := fun n hn => longestFirst_links (T := T) (x := v.1) (y := v.2.1) (z := v.2.2) (s := a) (n := n) hn
      have pick : ∀ f : Nat → Int, (∀ n : Node, n ∈ ns → 0 ≤ f n.1) ∨ (∀ n : Node, n ∈ ns → f n.1 ≤ 0) ∨
          ∃ n ∈ ns, ∃ m ∈ ns, f n.1 < 0 ∧ 0 < f m.1 := by
        intro f
        by_cases h1 : ∀ n : Node, n ∈ ns → 0 ≤ f n.1
        · exact Or.inl h1
        · by_cases h2 : ∀ n : Node, n ∈ ns → f n.1 ≤ 0
          · exact Or.inr (Or.inl h2)
          · simp only [Classical.not_forall] at h1 h2
            obtain ⟨n, hn, h1⟩ := h1
            obtain ⟨m, hm, h2⟩ := h2
            exact Or.inr (Or.inr ⟨n, hn, m, hm, by omega, by omega⟩)
      refine hT.walk hw hv.1 ha hb ?_ ?_ ?_
      · rcases pick (fun l => (linkAdd l).1) with h | h | ⟨n, hn, m, hm, h1, h2⟩
        · exact Or.inl h
        · exact Or.inr h
        · exfalso
          rcases hl n hn with h | h | h | h | h | h <;> rw [h.2] at h1 <;> simp only [linkAdd] at h1 <;>
            rcases hl m hm with h' | h' | h' | h' | h' | h' <;> rw [h'.2] at h2 <;> simp only [linkAdd] at h2 <;> omega
      · rcases pick (fun l => (linkAdd l).2) with h | h | ⟨n, hn, m, hm, h1, h2⟩
        · exact Or.inl h
        · exact Or.inr h
        · exfalso
          rcases hl n hn with h | h | h | h | h | h <;> rw [h.2] at h1 <;> simp only [linkAdd] at h1 <;>
            rcases hl m hm with h' | h' | h' | h' | h' | h' <;> rw [h'.2] at h2 <;> simp only [linkAdd] at h2 <;> omega
      · rcases pick (fun l => (linkAdd l).1 - (linkAdd l).2) with h | h | ⟨n, hn, m, hm, h1, h2⟩
        · exact Or.inl h
        · exact Or.inr h
        · exfalso
          rcases hl n hn with h | h | h | h | h | h <;> rw [h.2] at h1 <;> simp only [linkAdd] at h1 <;>
            rcases hl m hm with h' | h' | h' | h' | h' | h' <;> rw [h'.2] at h2 <;> simp only [linkAdd] at h2 <;> omega
  refine ⟨C68_intact hwalk hn, hwalk, hn, ?_⟩
  exact fun ms hms => hs ms hms.chain

/-! Examples: the board with 48 chips, and four by four chips that wrap round. -/

/-- A shortest vector without wrap-arounds. -/
def hexVector (a b : XY) : Int × Int × Int :=
  let dx := b.1 - a.1
  let dy := b.2 - a.2
  let m := max (min dx dy) (min (max dx dy) 0)
  (dx - m, dy - m, - m)

theorem Chain.far {T : Topo} (hg : Grid T none none) {s e : XY} {ns : List Node} (h : Chain T s ns e) :
    (e.1 - s.1).natAbs ≤ ns.length ∧ (e.2 - s.2).natAbs ≤ ns.length ∧
    ((e.1 - s.1) - (e.2 - s.2)).natAbs ≤ ns.length := by
  induction h with
  | nil => simp
  | @cons s e l ns h6 _ ih =>
    rw [hg s l h6] at ih
    simp only [wrap] at ih
    have hl : ((linkAdd l).1).natAbs ≤ 1 ∧ ((linkAdd l).2).natAbs ≤ 1 ∧ ((linkAdd l).1 - (linkAdd l).2).natAbs ≤ 1 := by
      match l, h6 with
      | 0, _ => decide
      | 1, _ => decide
      | 2, _ => decide
      | 3, _ => decide
      | 4, _ => decide
      | 5, _ => decide
    rw [List.length_cons]
    omega

theorem hexVector_short {T : Topo} (hg : Grid T none none) (a b : XY) : ShortVector T a b (hexVector a b) := by
  constructor
  · have h := C39_end hg (hexVector a b).1 (hexVector a b).2.1 (hexVector a b).2.2 (s := a) rfl
    have e1 : wrap none (a.1 + ((hexVector a b).1 - (hexVector a b).2.2)) = b.1 := by
      simp only [wrap, hexVector]; omega
    have e2 : wrap none (a.2 + ((hexVector a b).2.1 - (hexVector a b).2.2)) = b.2 := by
      simp only [wrap, hexVector]; omega
    rw [e1, e2] at h
    exact h
  · intro ns h
    have := h.far hg
    simp only [hexVector]
    omega

/-- The chips of a board with 48 chips. -/
def board48 : List XY :=
  (List.range 8).flatMap (fun (x : Nat) => (List.range 8).filterMap (fun (y : Nat) =>
    if (x : Int) - y ≤ 4 ∧ (-3 : Int) ≤ (x : Int) - y then some ((x : Int), (y : Int)) else none))

/-- It without faults. -/
def spin5 : Topo where
  chips := board48
  linkAt := fun c l => decide ((c.1 + (linkAdd l).1, c.2 + (linkAdd l).2) ∈ board48)
  over := fun c l => (c.1 + (linkAdd l).1, c.2 + (linkAdd l).2)

theorem spin5_board : Board spin5 (0, 7) (0, 7) (-3, 4) where
  grid := fun _ _ _ => rfl
  all := by
    intro c
    show c ∈ board48 ↔ _
    unfold board48
    rw [List.mem_flatMap]
    constructor
    · rintro ⟨x, hx, h⟩
      obtain ⟨y, hy, h⟩ := List.mem_filterMap.1 h
      rw [List.mem_range] at hx hy
      split at h
      · rename_i h0
        injection h with h
        subst h
        simp only
        omega
      · cases h
    · intro h
      simp only at h
      refine ⟨c.1.toNat, List.mem_range.2 (by omega), List.mem_filterMap.2 ⟨c.2.toNat, List.mem_range.2 (by omega), ?_⟩⟩
      have h1 : ((c.1.toNat : Nat) : Int) = c.1 := by omega
      have h2 : ((c.2.toNat : Nat) : Int) = c.2 := by omega
      rw [h1, h2, if_pos (by omega)]

theorem spin5_intact : Intact spin5 :=
  ⟨fun _ _ _ _ h => decide_eq_true h, Or.inr ⟨_, _, _, spin5_board⟩⟩

example : board48.length = 48 ∧ hexVector (0, 2) (7, 6) = (3, 0, -4) ∧
    longestFirst spin5 3 0 (-4) (0, 2) = [(1, (1, 3)), (1, (2, 4)), (1, (3, 5)), (1, (4, 6)), (0, (5, 6)), (0, (6, 6)),
      (0, (7, 6))] := by decide +kernel

example : let ns := longestFirst spin5 3 0 (-4) (0, 2)
    withoutErrors spin5 (0, 2) ns = .ok ns ∧ Walk spin5 (0, 2) ns (7, 6) ∧ (visits (0, 2) ns).Nodup ∧
      ∀ ms, Walk spin5 (0, 2) ms (7, 6) → ns.length ≤ ms.length :=
  C109_way spin5_intact (by decide +kernel) (by decide +kernel) (hexVector_short spin5_board.grid (0, 2) (7, 6))

/-- Five by four chips that wrap round. -/
def ring54 : Topo where
  chips := (List.range 5).flatMap (fun (x : Nat) => (List.range 4).map (fun (y : Nat) => ((x : Int), (y : Int))))
  linkAt := fun _ _ => true
  over := fun c l => ((c.1 + (linkAdd l).1) % 5, (c.2 + (linkAdd l).2) % 4)

theorem ring54_torus : Torus ring54 5 4 where
  grid := fun _ _ _ => rfl
  all := by
    intro c
    show c ∈ (List.range 5).flatMap (fun (x : Nat) => (List.range 4).map (fun (y : Nat) => ((x : Int), (y : Int)))) ↔ _
    rw [List.mem_flatMap]
    constructor
    · rintro ⟨x, hx, h⟩
      obtain ⟨y, hy, h⟩ := List.mem_map.1 h
      rw [List.mem_range] at hx hy
      subst h
      simp only
      omega
    · intro h
      refine ⟨c.1.toNat, List.mem_range.2 (by omega), List.mem_map.2 ⟨c.2.toNat, List.mem_range.2 (by omega), ?_⟩⟩
      have h1 : ((c.1.toNat : Nat) : Int) = c.1 := by omega
      have h2 : ((c.2.toNat : Nat) : Int) = c.2 := by omega
      rw [h1, h2]

/-- From (4, 3) to (0, 1): one hop north over the edge, one to the north-east. -/
example : Intact ring54 ∧ ShortVector ring54 (4, 3) (0, 1) (0, 1, -1) ∧
    longestFirst ring54 0 1 (-1) (4, 3) = [(2, (4, 0)), (1, (0, 1))] := by
  refine ⟨⟨fun _ _ _ _ _ => rfl, Or.inl ⟨_, _, ring54_torus⟩⟩, ⟨?_, ?_⟩, by decide +kernel⟩
  · exact C39_end ring54_torus.grid 0 1 (-1) (s := (4, 3)) rfl
  · intro ns h
    match ns, h with
    | [], h => exact absurd (show ((4, 3) : XY) = (0, 1) by generalize hz : ((0, 1) : XY) = z at h; cases h; rfl) (by decide)
    | [n], h =>
      have h1 : ∀ l, l < 6 → ring54.over (4, 3) l ≠ (0, 1) := by decide
      generalize hz : ((0, 1) : XY) = z at h h1
      cases h with
      | @cons _ _ l _ h6 h =>
        generalize hy : ring54.over (4, 3) l = y at h
        cases h
        exact absurd hy (h1 l h6)
    | _ :: _ :: _, _ => simp

end Pacman.RPath
