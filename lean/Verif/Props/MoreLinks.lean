import Verif.Props.FixedRoute
import Verif.Props.RouterPath

/-!
# C156: ways on machines with more links
-/

namespace Pacman.FixedRoute

/-- The machine `m'` has the boards and monitors of `m`, and on each of them the links of `m` and maybe more. -/
structure MoreLinks (m m' : Mach) : Prop where
  eths : m'.eths = m.eths
  board : ∀ e, m'.board e = m.board e
  dests : ∀ e, m'.dests e = m.dests e
  over : ∀ c l, m.linkAt c l = true → m'.linkAt c l = true ∧ m'.over c l = m.over c l

theorem MoreLinks.way {m m' : Mach} (h : MoreLinks m m') {B : List XY} {e c : XY} {n : Nat} (hw : Way m B e c n) :
    Way m' B e c n := by
  induction hw with
  | here => exact .here
  | step h1 h2 h3 _ ih =>
    obtain ⟨h4, h5⟩ := h.over _ _ h3
    exact .step h1 h2 h4 (by rw [h5]; exact ih)

theorem delivered_way {m : Mach} {t : FTable} {B : List XY} {c e : XY} {n p : Nat} (h : Delivered m t B c n e p) :
    Way m B e c n := by
  induction h with
  | core _ _ => exact .here
  | hop h1 _ h3 h4 _ ih => exact .step h1 h3 h4 ih

/-- C156: with more links there are fixed routes still, and none of them has more hops. -/
theorem C156_fixed {m m' : Mach} (ho : SetOrder m) (ho' : SetOrder m') (h : MoreLinks m m') {t : FTable}
    (hb : build m = .ok t) : ∃ t', build m' = .ok t' ∧ ∀ e ∈ m.eths, ∃ p, (m.dests e).head? = some p ∧
      ∀ c ∈ m.board e, ∃ n n', Delivered m t (m.board e) c n e p ∧ Delivered m' t' (m.board e) c n' e p ∧ n' ≤ n := by
  obtain ⟨h1, h2⟩ := (C36_succeeds ho).1 ⟨t, hb⟩
  have hB : Boards m' := by
    obtain ⟨b1, b2, b3⟩ := h1
    refine ⟨?_, ?_, ?_⟩
    · simpa only [h.eths, h.board] using b1
    · simpa only [h.eths, h.board] using b2
    · simpa only [h.eths, h.board] using b3
  obtain ⟨t', hb'⟩ := (C36_succeeds ho').2 ⟨hB, fun e he => by
    rw [h.eths] at he
    rw [h.dests, h.board]
    exact ⟨(h2 e he).1, fun c hc => ((h2 e he).2 c hc).imp fun n hw => h.way hw⟩⟩
  refine ⟨t', hb', fun e he => ?_⟩
  have he' : e ∈ m'.eths := by rw [h.eths]; exact he
  obtain ⟨p, hp, hall⟩ := C36_delivered ho hb he
  obtain ⟨p', hp', hall'⟩ := C36_delivered ho' hb' he'
  rw [h.dests, hp] at hp'
  cases hp'
  refine ⟨p, hp, fun c hc => ?_⟩
  obtain ⟨n, hn⟩ := hall c hc
  have hc' : c ∈ m'.board e := by rw [h.board]; exact hc
  obtain ⟨n', hn'⟩ := hall' c hc'
  have hle := C66_shortest ho' hb' he' hc' hn' (by rw [h.board]; exact h.way (delivered_way hn))
  rw [h.board] at hn'
  exact ⟨n, n', hn, hn', hle⟩

/-- With the link from (2, 0) to (1, 0) as well, one hop less. -/
def exMach3 : Mach := { exMach2 with linkAt := fun c l => exMach2.linkAt c l || decide ((c, l) ∈ [((2, 0), 3)]) }

example : SetOrder exMach2 ∧ SetOrder exMach3 ∧ MoreLinks exMach2 exMach3 ∧
    (build exMach2).map (fun t => t.get? (2, 0)) = .ok (some ⟨[2], []⟩) ∧
    (build exMach3).map (fun t => t.get? (2, 0)) = .ok (some ⟨[3], []⟩) :=
  ⟨fun _ l => List.reverse_perm l, fun _ l => List.reverse_perm l,
    ⟨rfl, fun _ => rfl, fun _ => rfl, fun c l hl => ⟨by change (exMach2.linkAt c l || _) = true; rw [hl]; rfl, rfl⟩⟩,
    by decide +kernel, by decide +kernel⟩

end Pacman.FixedRoute

namespace Pacman.RPath

/-- `T'` has the chips and links of `T` and maybe more. -/
structure MoreLinks (T T' : Topo) : Prop where
  chips : ∀ c ∈ T.chips, c ∈ T'.chips
  over : ∀ c l, T.linkAt c l = true → T'.linkAt c l = true ∧ T'.over c l = T.over c l

theorem MoreLinks.walk {T T' : Topo} (h : MoreLinks T T') {s t : XY} {p : List Node} (hw : Walk T s p t) : Walk T' s p t := by
  induction hw with
  | nil => exact .nil
  | cons h1 h2 h3 _ ih =>
    obtain ⟨h4, h5⟩ := h.over _ _ h2
    rw [← h5] at h3 ih ⊢
    exact .cons h1 h4 (h.chips _ h3) ih

/-- C156: with more chips and links a path is found still, and it is not longer. -/
theorem C156_path {T T' : Topo} (h : MoreLinks T T') {s t : XY} {p : List Node} (hp : findPath T s t = .ok p) :
    ∃ p', findPath T' s t = .ok p' ∧ p'.length ≤ p.length := by
  have hw := h.walk (C37_walk hp)
  cases hf : findPath T' s t with
  | error e => exact absurd hw (C37_fails.1.1 ⟨e, hf⟩ p)
  | ok p' => exact ⟨p', rfl, C67_shortest hf hw⟩

/-- `exT` with a link from (1, 0) to (1, 1). -/
def exMore : Topo := { exT with linkAt := fun c l => exT.linkAt c l || decide ((c, l) ∈ [((1, 0), 2)]) }

example : MoreLinks exT exMore ∧ (findPath exT (3, 1) (2, 1)).map List.length = .ok 7 ∧
    findPath exMore (3, 1) (2, 1) = .ok [(4, (2, 0)), (3, (1, 0)), (2, (1, 1)), (0, (2, 1))] :=
  ⟨⟨fun _ h => h, fun c l hl => ⟨by change (exT.linkAt c l || _) = true; rw [hl]; rfl, rfl⟩⟩, by decide +kernel, by decide +kernel⟩

end Pacman.RPath
