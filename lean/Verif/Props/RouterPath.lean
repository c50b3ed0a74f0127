import Verif.Proofs.RouterLoops
/-
C37, C38, C39, C67, C68: the paths of the application router.
-/

namespace Pacman.RPath

/-! A machine of twelve chips with one way round, without wrap-around. -/

/-- The machine of the examples. -/
def exT : Topo where
  chips := [(3, 1), (2, 0), (1, 0), (0, 0), (0, 1), (1, 2), (1, 1), (2, 1), (0, 2), (1, 3), (1, 4),
    (0, 4)]
  linkAt := fun c l => decide ((c, l) ∈
    [((0, 0), 0), ((0, 0), 2), ((0, 1), 1), ((0, 1), 2), ((0, 1), 5), ((0, 2), 0), ((0, 2), 5),
     ((0, 4), 0), ((1, 0), 0), ((1, 0), 3), ((1, 1), 0), ((1, 1), 2), ((1, 2), 2), ((1, 2), 3),
     ((1, 2), 4), ((1, 2), 5), ((1, 3), 2), ((1, 3), 5), ((1, 4), 3), ((1, 4), 5), ((2, 0), 1),
     ((2, 0), 3), ((2, 1), 3), (((3, 1), 4) : XY × Nat)])
  over := fun c l => (c.1 + (linkAdd l).1, c.2 + (linkAdd l).2)

/-- A walk can be recognised by going along it. -/
def isWalk (T : Topo) : XY → List Node → XY → Bool
  | s, [], e => decide (s = e)
  | s, (l, n) :: ns, e =>
    decide (l < 6) && T.linkAt s l && decide (n = T.over s l) && decide (n ∈ T.chips) &&
      isWalk T n ns e

theorem isWalk_iff {T : Topo} {e : XY} (ns : List Node) : ∀ {s : XY},
    isWalk T s ns e = true ↔ Walk T s ns e := by
  induction ns with
  | nil =>
    intro s
    simp only [isWalk, decide_eq_true_eq]
    constructor
    · intro h; subst h; exact .nil
    · intro h; cases h; rfl
  | cons n ns ih =>
    intro s
    obtain ⟨l, n⟩ := n
    simp only [isWalk, Bool.and_eq_true, decide_eq_true_eq]
    rw [ih]
    constructor
    · rintro ⟨⟨⟨⟨h1, h2⟩, h3⟩, h4⟩, h5⟩
      subst h3
      exact .cons h1 h2 h4 h5
    · intro h
      cases h with
      | cons h1 h2 h4 h5 => exact ⟨⟨⟨⟨h1, h2⟩, rfl⟩, h4⟩, h5⟩

/-! C37: `_find_path` -/

/-- C37: what `_find_path` returns is a walk from the source to the target over working links and
existing chips. -/
theorem C37_walk {T : Topo} {s t : XY} {p : List Node} (h : findPath T s t = .ok p) :
    Walk T s p t := by
  rcases findPath_spec T s t with ⟨q, hq, hw, _⟩ | ⟨hq, _⟩
  · rw [h] at hq; cases hq; exact hw
  · rw [h] at hq; cases hq

/-- C37: it always ends; it fails only with `PacmanRoutingException`, and exactly when there is no
walk. -/
theorem C37_fails {T : Topo} {s t : XY} :
    ((∃ e, findPath T s t = .error e) ↔ ∀ p, ¬ Walk T s p t) ∧
    ∀ e, findPath T s t = .error e → e = .routing := by
  rcases findPath_spec T s t with ⟨q, hq, hw, _⟩ | ⟨hq, hno⟩
  · refine ⟨⟨?_, fun hno => absurd hw (hno q)⟩, ?_⟩
    · rintro ⟨e, he⟩; rw [hq] at he; cases he
    · intro e he; rw [hq] at he; cases he
  · refine ⟨⟨fun _ => hno, fun _ => ⟨_, hq⟩⟩, ?_⟩
    intro e he; rw [hq] at he; cases he; rfl

/-- C67: no walk is shorter. -/
theorem C67_shortest {T : Topo} {s t : XY} {p r : List Node} (h : findPath T s t = .ok p)
    (hr : Walk T s r t) : p.length ≤ r.length := by
  rcases findPath_spec T s t with ⟨q, hq, _, hmin⟩ | ⟨hq, _⟩
  · rw [h] at hq; cases hq; exact hmin r hr
  · rw [h] at hq; cases hq

theorem Walk.drop {T : Topo} {s e : XY} {p : List Node} (h : Walk T s p e) : ∀ {k : Nat} {x : XY},
    (visits s p)[k]? = some x → Walk T x (p.drop k) e := by
  induction h with
  | nil =>
    intro k x hx
    cases k with
    | zero =>
      simp only [visits, List.getElem?_cons_zero, Option.some.injEq] at hx
      subst hx; exact .nil
    | succ k => simp [visits] at hx
  | @cons s e l ns hl hk hc hw ih =>
    intro k x hx
    cases k with
    | zero =>
      simp only [visits, List.getElem?_cons_zero, Option.some.injEq] at hx
      subst hx; exact .cons hl hk hc hw
    | succ k => exact ih (by simpa [visits] using hx)

/-- C67: it passes no chip twice. -/
theorem C67_simple {T : Topo} {s t : XY} {p : List Node} (h : findPath T s t = .ok p) :
    (visits s p).Nodup := by
  have hw := C37_walk h
  apply Classical.byContradiction
  intro hn
  -- two equal chips: cut the part between them out
  have : ∃ (i j : Nat) (x : XY), i < j ∧ (visits s p)[i]? = some x ∧ (visits s p)[j]? = some x := by
    apply Classical.byContradiction
    intro hno
    apply hn
    unfold List.Nodup
    rw [List.pairwise_iff_getElem]
    intro i j hi hj hij heq
    exact hno ⟨i, j, (visits s p)[j], hij, by rw [List.getElem?_eq_getElem hi, heq],
      List.getElem?_eq_getElem hj⟩
  obtain ⟨i, j, x, hij, hi, hj⟩ := this
  have hwi := hw.take hi
  have hwj : Walk T x (p.drop j) t := hw.drop hj
  have hlen := C67_shortest h (hwi.append hwj)
  have hjl : j < (visits s p).length := (List.getElem?_eq_some_iff.1 hj).1
  simp only [visits, List.length_cons, List.length_map] at hjl
  rw [List.length_append, List.length_take, List.length_drop] at hlen
  omega

example : findPath exT (3, 1) (2, 1) = .ok
    [(4, (2, 0)), (3, (1, 0)), (3, (0, 0)), (2, (0, 1)), (1, (1, 2)), (5, (1, 1)), (0, (2, 1))] := by
  decide +kernel

/-- There is no chip (0, 3). -/
example : findPath exT (2, 1) (0, 3) = .error .routing := by decide +kernel

/-! C69: `_find_reachable` -/

/-- C69: `_find_reachable` always ends and returns exactly the chips that can be reached from the
source over working links through chips that are allowed and not disallowed. -/
theorem C69_reachable (T : Topo) (s : XY) (allowed disallowed : List XY) :
    ∃ r, findReachable T s allowed disallowed = .ok r ∧
      ∀ x, x ∈ r ↔ WalkIn T (fun c => c ∈ allowed ∧ c ∉ disallowed) s x :=
  findReachable_spec T s allowed disallowed

/-- The source is disallowed, and yet visited; (1, 1) is disallowed and cuts off (2, 1). -/
example : findReachable exT (0, 1) [(0, 1), (1, 2), (0, 2), (1, 1), (2, 1), (1, 4)]
    [(0, 1), (1, 1)] = .ok [(1, 2), (0, 2), (0, 1)] := by decide +kernel

/-! C38: `_path_without_loops` -/

/-- C38: for a walk on which no chip of a loop is visited again after the loop: what is returned is
a walk with the same ends that passes no chip twice.
Missing: walks on which a chip of a removed loop is visited again, for which it is false
(`C38_false`). -/
theorem C38_loops_partial {T : Topo} {s e : XY} {ns : List Node} (h : Walk T s ns e)
    (hn : NoReturn (visits s ns)) :
    ∃ r, withoutLoops s ns = .ok r ∧ Walk T s r e ∧ (visits s r).Nodup :=
  withoutLoops_spec h hn

/-- C38: for every hop list the loop ends, and returns some of the hops in their order. -/
theorem C38_ends (s : XY) (ns : List Node) :
    ∃ r, withoutLoops s ns = .ok r ∧ r.Sublist ns :=
  loopsLoop_sublist ns.length ns 0 _ (by omega)

/-- C38: a hop list that passes no chip twice is returned as it is. -/
theorem C38_simple {s : XY} {ns : List Node} (h : (visits s ns).Nodup) :
    withoutLoops s ns = .ok ns :=
  withoutLoops_simple h

/-- The walk (0, 1), (1, 2), (0, 1), (0, 2), (1, 2), (1, 3): the place of (1, 2) in the list
is remembered although the first loop has been removed. -/
def exLoop : List Node :=
  [(1, (1, 2)), (4, (0, 1)), (2, (0, 2)), (0, (1, 2)), (2, (1, 3))]

/-- C38 is false: from a walk it makes a hop list that is no walk at all: it goes from (0, 2) over
link 2 to (1, 3), where link 2 does not lead. -/
theorem C38_false : Walk exT (0, 1) exLoop (1, 3) ∧
    withoutLoops (0, 1) exLoop = .ok [(2, (0, 2)), (2, (1, 3))] ∧
    ∀ e, ¬ Walk exT (0, 1) [(2, (0, 2)), (2, (1, 3))] e := by
  refine ⟨(isWalk_iff _).1 (by decide), by decide, fun e h => ?_⟩
  cases h with
  | cons _ _ _ h =>
    have := (isWalk_iff _).2 h
    simp only [isWalk, Bool.and_eq_true, decide_eq_true_eq] at this
    exact absurd this.1.1.2 (by decide)

/-- C38 is false in another way: without the last hop the end of the walk is lost. -/
theorem C38_end_lost : Walk exT (0, 1) (exLoop.take 4) (1, 2) ∧
    withoutLoops (0, 1) (exLoop.take 4) = .ok [(2, (0, 2))] :=
  ⟨(isWalk_iff _).1 (by decide), by decide⟩

/-- Two loops, one inside the other, to which the theorem applies. -/
example : Walk exT (0, 0) [(2, (0, 1)), (1, (1, 2)), (5, (1, 1)), (2, (1, 2)), (4, (0, 1)),
      (2, (0, 2))] (0, 2) ∧
    withoutLoops (0, 0) [(2, (0, 1)), (1, (1, 2)), (5, (1, 1)), (2, (1, 2)), (4, (0, 1)),
      (2, (0, 2))] = .ok [(2, (0, 1)), (2, (0, 2))] :=
  ⟨(isWalk_iff _).1 (by decide), by decide⟩

/-- Looks at all positions. -/
def noReturnB (cs : List XY) : Bool :=
  (List.range cs.length).all (fun i => (List.range cs.length).all (fun k =>
    (List.range cs.length).all (fun j => (List.range cs.length).all (fun m =>
      !(decide (i < k) && decide (k < j) && decide (j < m) && decide (cs[i]? = cs[j]?) &&
        decide (cs[k]? ≠ cs[i]?) && decide (cs[k]? = cs[m]?))))))

/-- `NoReturn` can be decided by looking at all positions. -/
theorem noReturn_of {cs : List XY} (hB : noReturnB cs = true) : NoReturn cs := by
  have h : ∀ i, i < cs.length → ∀ k, k < cs.length → ∀ j, j < cs.length → ∀ m, m < cs.length →
      i < k → k < j → j < m → cs[i]? = cs[j]? → cs[k]? ≠ cs[i]? → cs[k]? ≠ cs[m]? := by
    intro i hi k hk j hj m hm h1 h2 h3 h4 h5 h6
    unfold noReturnB at hB
    have := List.all_eq_true.1 (List.all_eq_true.1 (List.all_eq_true.1 (List.all_eq_true.1 hB i
      (List.mem_range.2 hi)) k (List.mem_range.2 hk)) j (List.mem_range.2 hj)) m (List.mem_range.2 hm)
    rw [decide_eq_true h1, decide_eq_true h2, decide_eq_true h3, decide_eq_true h4,
      decide_eq_true h5, decide_eq_true h6] at this
    cases this
  intro P1 P2 P3 x hcs c hc hcx hc3
  obtain ⟨a, b, hab⟩ := List.append_of_mem hc
  obtain ⟨a', b', hab'⟩ := List.append_of_mem hc3
  subst hcs hab hab'
  have e1 : (P1 ++ x :: (a ++ c :: b) ++ x :: (a' ++ c :: b'))[P1.length]? = some x := by simp
  have e2 : (P1 ++ x :: (a ++ c :: b) ++ x :: (a' ++ c :: b'))[P1.length + 1 + a.length]? = some c := by
    have : P1 ++ x :: (a ++ c :: b) ++ x :: (a' ++ c :: b') =
      (P1 ++ x :: a) ++ c :: (b ++ x :: (a' ++ c :: b')) := by simp
    rw [this, List.getElem?_append_right (by simp; omega)]
    simp only [List.length_append, List.length_cons]
    rw [show P1.length + 1 + a.length - (P1.length + (a.length + 1)) = 0 by omega]
    rfl
  have e3 : (P1 ++ x :: (a ++ c :: b) ++ x :: (a' ++ c :: b'))[
      P1.length + 1 + a.length + 1 + b.length]? = some x := by
    have : P1 ++ x :: (a ++ c :: b) ++ x :: (a' ++ c :: b') =
      (P1 ++ x :: (a ++ c :: b)) ++ x :: (a' ++ c :: b') := by simp
    rw [this, List.getElem?_append_right (by simp; omega)]
    simp only [List.length_append, List.length_cons]
    rw [show P1.length + 1 + a.length + 1 + b.length - (P1.length + (a.length + (b.length + 1) + 1)) = 0
      by omega]
    rfl
  have e4 : (P1 ++ x :: (a ++ c :: b) ++ x :: (a' ++ c :: b'))[
      P1.length + 1 + a.length + 1 + b.length + 1 + a'.length]? = some c := by
    have : P1 ++ x :: (a ++ c :: b) ++ x :: (a' ++ c :: b') =
      (P1 ++ x :: (a ++ c :: b) ++ x :: a') ++ c :: b' := by simp
    rw [this, List.getElem?_append_right (by simp; omega)]
    simp only [List.length_append, List.length_cons]
    rw [show P1.length + 1 + a.length + 1 + b.length + 1 + a'.length -
      (P1.length + (a.length + (b.length + 1) + 1) + (a'.length + 1)) = 0 by omega]
    rfl
  have hlt : ∀ {i : Nat} {y : XY}, (P1 ++ x :: (a ++ c :: b) ++ x :: (a' ++ c :: b'))[i]? = some y →
      i < (P1 ++ x :: (a ++ c :: b) ++ x :: (a' ++ c :: b')).length :=
    fun hh => (List.getElem?_eq_some_iff.1 hh).1
  refine h _ (hlt e1) _ (hlt e2) _ (hlt e3) _ (hlt e4) (by omega) (by omega) (by omega) ?_ ?_ ?_
  · rw [e1, e3]
  · rw [e2, e1]; intro hh; exact hcx (Option.some.inj hh)
  · rw [e2, e4]

example : NoReturn (visits (0, 0) [(2, (0, 1)), (1, (1, 2)), (5, (1, 1)), (2, (1, 2)), (4, (0, 1)),
    (2, (0, 2))]) :=
  noReturn_of (by decide +kernel)

/-! C68: `_path_without_errors` -/

/-- C68: before loops are removed: for hops that follow the grid, working or not, the repaired
hops are a walk over working links to the same end, or the call fails with
`PacmanRoutingException` because between two of the positions passed there is no walk. -/
theorem C68_repaired {T : Topo} {s e : XY} {ns : List Node} (h : Chain T s ns e) :
    (∃ r, fixErrors T s ns = .ok r ∧ Walk T s r e) ∨
    (fixErrors T s ns = .error .routing ∧
      ∃ a ∈ visits s ns, ∃ b ∈ visits s ns, ∀ r, ¬ Walk T a r b) :=
  fixErrors_spec h

/-- C68: what `_path_without_errors` returns is a walk to the same end that passes no chip twice, if
the repaired hops do not return to a removed loop.
Missing: repaired hops that do, for which it is false (`C68_false`). -/
theorem C68_walk_partial {T : Topo} {s e : XY} {ns r : List Node} (h : Chain T s ns e)
    (hn : ∀ ms, Walk T s ms e → fixErrors T s ns = .ok ms → NoReturn (visits s ms))
    (hr : withoutErrors T s ns = .ok r) : Walk T s r e ∧ (visits s r).Nodup := by
  rcases fixErrors_spec h with ⟨m, hm, hw⟩ | ⟨hm, _⟩
  · unfold withoutErrors at hr
    rw [hm] at hr
    obtain ⟨r', h1, h2, h3⟩ := withoutLoops_spec hw (hn m hw hm)
    simp only at hr
    rw [h1] at hr
    cases hr
    exact ⟨h2, h3⟩
  · unfold withoutErrors at hr
    rw [hm] at hr
    cases hr

theorem takeOk_walk {T : Topo} {s e : XY} {ns : List Node} (h : Walk T s ns e) :
    takeOk T s ns = (ns, e, []) := by
  induction h with
  | nil => rfl
  | cons hl hk hc _ ih =>
    unfold takeOk
    rw [if_pos (isOk_iff.2 ⟨hk, hc⟩), ih]

/-- C68: hops that work and pass no chip twice are left as they are. -/
theorem C68_intact {T : Topo} {s e : XY} {ns : List Node} (h : Walk T s ns e)
    (hn : (visits s ns).Nodup) : withoutErrors T s ns = .ok ns := by
  unfold withoutErrors fixErrors
  have : fixLoop T ns.length s ns [] = .ok ns := by
    cases ns with
    | nil => rfl
    | cons n ns =>
      show fixLoop T (ns.length + 1) s (n :: ns) [] = _
      unfold fixLoop
      rw [takeOk_walk h]
      simp only [skipBad]
      unfold fixLoop
      cases ns <;> rfl
  rw [this]
  exact withoutLoops_simple hn

/-- C68 is false in general, also for the paths the router starts from: the route along the longest
dimensions from (3, 1) to (0, 4) is repaired, by taking loops out, to hops that are no walk: from
(0, 2) the hop over link 2 is said to lead to (1, 3). All chips can be reached from (3, 1). -/
theorem C68_false : Grid exT none none ∧
    longestFirst exT (-3) 3 0 (3, 1) =
      [(3, (2, 1)), (3, (1, 1)), (3, (0, 1)), (2, (0, 2)), (2, (0, 3)), (2, (0, 4))] ∧
    withoutErrors exT (3, 1) (longestFirst exT (-3) 3 0 (3, 1)) =
      .ok [(4, (2, 0)), (3, (1, 0)), (3, (0, 0)), (2, (0, 1)), (2, (0, 2)), (2, (1, 3)),
        (2, (1, 4)), (3, (0, 4))] ∧
    ¬ Walk exT (3, 1) [(4, (2, 0)), (3, (1, 0)), (3, (0, 0)), (2, (0, 1)), (2, (0, 2)), (2, (1, 3)),
        (2, (1, 4)), (3, (0, 4))] (0, 4) ∧
    ∀ c ∈ exT.chips, ∃ p, Walk exT (3, 1) p c := by
  refine ⟨fun c l _ => rfl, by decide +kernel, by decide +kernel, ?_, ?_⟩
  · rw [← isWalk_iff]; decide
  · have : ∀ c ∈ exT.chips, ∃ p, findPath exT (3, 1) c = .ok p := by
      intro c hc
      have h : ∀ c ∈ exT.chips, (match findPath exT (3, 1) c with
        | .ok _ => true
        | .error _ => false) = true := by decide +kernel
      have := h c hc
      cases hh : findPath exT (3, 1) c with
      | ok p => exact ⟨p, rfl⟩
      | error e => rw [hh] at this; cases this
    intro c hc
    obtain ⟨p, hp⟩ := this c hc
    exact ⟨p, C37_walk hp⟩

/-- A broken bit that is repaired: the link from (0, 2) to the missing chip (0, 3). -/
example : Chain exT (0, 1) [(2, (0, 2)), (2, (0, 3)), (2, (0, 4))] (0, 4) ∧
    withoutErrors exT (0, 1) [(2, (0, 2)), (2, (0, 3)), (2, (0, 4))] =
      .ok [(2, (0, 2)), (0, (1, 2)), (2, (1, 3)), (2, (1, 4)), (3, (0, 4))] :=
  ⟨.cons (s := (0, 1)) (l := 2) (by decide) (.cons (s := (0, 2)) (l := 2) (by decide)
    (.cons (s := (0, 3)) (l := 2) (by decide) .nil)), by decide +kernel⟩

example : ∀ ms, fixErrors exT (0, 1) [(2, (0, 2)), (2, (0, 3)), (2, (0, 4))] = .ok ms →
    NoReturn (visits (0, 1) ms) := by
  intro ms h
  have : fixErrors exT (0, 1) [(2, (0, 2)), (2, (0, 3)), (2, (0, 4))] =
    .ok [(2, (0, 2)), (0, (1, 2)), (2, (1, 3)), (2, (1, 4)), (3, (0, 4))] := by decide +kernel
  rw [this] at h
  cases h
  exact noReturn_of (by decide +kernel)

/-! C39: vectors -/

/-- C39: on a grid, wrapped or not in each direction, the hops made from a vector follow the links
and end at the start displaced by the vector: (x, y, z) stands for x steps east, y north and z
south-west. -/
theorem C39_end {T : Topo} {w h : Option Nat} (hg : Grid T w h) (x y z : Int) {s : XY}
    (hs : s = (wrap w s.1, wrap h s.2)) :
    Chain T s (longestFirst T x y z s) (wrap w (s.1 + (x - z)), wrap h (s.2 + (y - z))) := by
  unfold longestFirst
  have hp : (stableSort (fun a b : Nat × Int => decide (b.2.natAbs ≤ a.2.natAbs))
      [(0, x), (1, y), (2, z)]).Perm [(0, x), (1, y), (2, z)] := stableSort_perm _ _
  have h1 := vectorToNodes_end hg (stableSort (fun a b : Nat × Int => decide (b.2.natAbs ≤ a.2.natAbs))
      [(0, x), (1, y), (2, z)]) s.1 s.2
  rw [sumI_perm (hp.map _), sumI_perm (hp.map _), ← hs] at h1
  simp only [List.map_cons, List.map_nil, List.sum_cons, List.sum_nil, dimAdd] at h1
  have e1 : x * 1 + (y * 0 + (z * -1 + 0)) = x - z := by omega
  have e2 : x * 0 + (y * 1 + (z * -1 + 0)) = y - z := by omega
  rw [e1, e2] at h1
  exact h1

/-- The link that moves in a dimension in a direction. -/
def towards : Nat → Bool → Nat
  | 0, true => 0
  | 0, false => 3
  | 1, true => 2
  | 1, false => 5
  | _, true => 4
  | _, false => 1

theorem linkFor_towards (d : Nat) (m : Int) : linkFor d m = towards d (decide (0 < m)) := by
  unfold linkFor
  by_cases h : 0 < m
  · rw [decide_eq_true h]
    match d with
    | 0 => rw [if_pos rfl, if_pos h]; rfl
    | 1 => rw [if_neg (by decide), if_pos rfl, if_pos h]; rfl
    | d + 2 => rw [if_neg (by omega), if_neg (by omega), if_pos h]; rfl
  · rw [decide_eq_false h]
    match d with
    | 0 => rw [if_pos rfl, if_neg h]; rfl
    | 1 => rw [if_neg (by decide), if_pos rfl, if_neg h]; rfl
    | d + 2 => rw [if_neg (by omega), if_neg (by omega), if_neg h]; rfl

/-- C39: the hops go in one dimension at a time, in each as many times as the vector says, in the
longest first. In particular there are |x| + |y| + |z| hops. -/
theorem C39_longest_first (T : Topo) (x y z : Int) (s : XY) :
    ∃ a b c : Nat × Int, [a, b, c].Perm [(0, x), (1, y), (2, z)] ∧
      b.2.natAbs ≤ a.2.natAbs ∧ c.2.natAbs ≤ b.2.natAbs ∧
      (longestFirst T x y z s).map (·.1) =
        List.replicate a.2.natAbs (towards a.1 (decide (0 < a.2))) ++
        List.replicate b.2.natAbs (towards b.1 (decide (0 < b.2))) ++
        List.replicate c.2.natAbs (towards c.1 (decide (0 < c.2))) := by
  unfold longestFirst
  have hp : (stableSort (fun a b : Nat × Int => decide (b.2.natAbs ≤ a.2.natAbs))
      [(0, x), (1, y), (2, z)]).Perm [(0, x), (1, y), (2, z)] := stableSort_perm _ _
  have hso := stableSort_sorted (fun a b : Nat × Int => decide (b.2.natAbs ≤ a.2.natAbs))
    (by intro a b; simp only [decide_eq_true_eq]; omega)
    (by intro a b c; simp only [decide_eq_true_eq]; omega) [(0, x), (1, y), (2, z)]
  generalize stableSort (fun a b : Nat × Int => decide (b.2.natAbs ≤ a.2.natAbs))
      [(0, x), (1, y), (2, z)] = v at *
  have hl := hp.length_eq
  match v, hl with
  | [a, b, c], _ =>
    obtain ⟨_, _, h3⟩ := vectorToNodes_chain (T := T) [a, b, c] s
    simp only [List.pairwise_cons, decide_eq_true_eq] at hso
    refine ⟨a, b, c, hp, hso.1 b (by simp), hso.2.1 c (by simp), ?_⟩
    rw [h3]
    simp only [List.flatMap_cons, List.flatMap_nil, List.append_nil, linkFor_towards,
      List.append_assoc]

/-- Grids wrapped at 4 and 8. -/
example : Grid { exT with over := fun c l =>
    (wrap (some 4) (c.1 + (linkAdd l).1), wrap (some 8) (c.2 + (linkAdd l).2)) } (some 4) (some 8) ∧
    ((3, 1) : XY) = (wrap (some 4) 3, wrap (some 8) 1) ∧
    longestFirst { exT with over := fun c l =>
      (wrap (some 4) (c.1 + (linkAdd l).1), wrap (some 8) (c.2 + (linkAdd l).2)) } 2 0 (-1) (3, 1) =
      [(0, (0, 1)), (0, (1, 1)), (1, (2, 2))] :=
  ⟨fun _ _ _ => rfl, rfl, by decide +kernel⟩

end Pacman.RPath
