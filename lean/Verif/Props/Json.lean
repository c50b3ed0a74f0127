import Verif.Model.Json
import Verif.Proofs.Dict
/-
C54: JSON conversions of tag resources and placements (routing tables: `Props/RoutingTables.lean`).
-/

namespace Pacman.Json

/-- C54, IP tags: reading back what was written gives the same resource. -/
theorem C54_iptag (r : IPRes) : ipFromJson (ipToJson r) = .ok r := by
  obtain ⟨ip, port, strip, tag, traffic⟩ := r
  unfold ipToJson ipFromJson setSome item getOr
  by_cases h1 : port = .null <;> by_cases h2 : tag = .null <;>
    simp [h1, h2, Dict.set, Dict.get?, bind, Except.bind, pure, Except.pure]

theorem mapM_map {α β : Type} (f : α → β) (g : β → Except PyErr α) (h : ∀ a, g (f a) = .ok a) (l : List α) :
    (l.map f).mapM g = .ok l := by
  induction l with
  | nil => rfl
  | cons a l ih =>
    rw [List.map_cons, List.mapM_cons, h]
    simp only [bind, Except.bind, ih, pure, Except.pure]

/-- C54, lists of IP tags. -/
theorem C54_iptags (l : List IPRes) : ipsFromJson (ipsToJson l) = .ok l :=
  mapM_map _ _ C54_iptag l

/-- C54, reverse IP tags. -/
theorem C54_reverse_iptag (r : RevRes) : revFromJson (revToJson r) = .ok r := by
  obtain ⟨port, sdp, tag⟩ := r
  unfold revToJson revFromJson setSome item getOr
  by_cases h1 : port = .null <;> by_cases h2 : tag = .null <;>
    simp [h1, h2, Dict.set, Dict.get?, bind, Except.bind, pure, Except.pure]

/-- C54, lists of reverse IP tags. -/
theorem C54_reverse_iptags (l : List RevRes) : revsFromJson (revsToJson l) = .ok l :=
  mapM_map _ _ C54_reverse_iptag l

example : ipToJson ⟨.str "127.0.0.1", .null, .bool true, .int 3, .str "DEFAULT"⟩ =
    [("ip_address", .str "127.0.0.1"), ("strip_sdp", .bool true), ("tag", .int 3),
     ("traffic_identifier", .str "DEFAULT")] := by decide

theorem plFromJson_eq (fresh : Nat) (a : Placement) :
    plFromJson fresh (plToJson a) = .ok ⟨newVertex fresh a.vertex.label, a.x, a.y, a.p⟩ := by
  unfold plToJson plFromJson item
  simp [Dict.set, Dict.get?, bind, Except.bind, pure, Except.pure, pyInt]

/-- C54, placements: coordinates and label are kept (partial: the vertex is a new object, see the next
theorem). -/
theorem C54_placement_partial (fresh : Nat) (a : Placement) (hl : a.vertex.label ≠ .null) :
    ∃ b, plFromJson fresh (plToJson a) = .ok b ∧ b.x = a.x ∧ b.y = a.y ∧ b.p = a.p ∧
      b.vertex.label = a.vertex.label := by
  refine ⟨_, plFromJson_eq fresh a, rfl, rfl, rfl, ?_⟩
  simp [newVertex, hl]

/-- C54 is false of placements: what is read back is never equal to the placement, as its vertex is a new
object. -/
theorem C54_placement_never_equal (fresh : Nat) (a b : Placement) (hf : a.vertex.id ≠ fresh)
    (h : plFromJson fresh (plToJson a) = .ok b) : a.eq b = false := by
  rw [plFromJson_eq] at h
  cases h
  simp [Placement.eq, newVertex, hf]

example : plFromJson 8 (plToJson ⟨⟨7, .str "PVertex"⟩, 1, 2, 3⟩) = .ok ⟨⟨8, .str "PVertex"⟩, 1, 2, 3⟩ ∧
    Placement.eq ⟨⟨7, .str "PVertex"⟩, 1, 2, 3⟩ ⟨⟨8, .str "PVertex"⟩, 1, 2, 3⟩ = false := by decide

/-- C54: what is read needs the fields that are always written; otherwise a `KeyError` is raised. -/
theorem C54_missing (d : JObj) :
    ((∃ r, ipFromJson d = .ok r) ↔ ∀ k ∈ ["ip_address", "strip_sdp", "traffic_identifier"], d.get? k ≠ none) ∧
    ((∃ r, revFromJson d = .ok r) ↔ d.get? "sdp_port" ≠ none) ∧
    (∀ e, ipFromJson d = .error e → e = .keyError) ∧ ∀ e, revFromJson d = .error e → e = .keyError := by
  unfold ipFromJson revFromJson item
  refine ⟨?_, ?_, ?_, ?_⟩
  · cases h1 : d.get? "ip_address" <;> cases h2 : d.get? "strip_sdp" <;> cases h3 : d.get? "traffic_identifier" <;>
      simp [bind, Except.bind, pure, Except.pure, h1, h2, h3]
  · cases h1 : d.get? "sdp_port" <;> simp [bind, Except.bind, pure, Except.pure]
  · intro e
    cases d.get? "ip_address" <;> cases d.get? "strip_sdp" <;> cases d.get? "traffic_identifier" <;>
      simp [bind, Except.bind, pure, Except.pure] <;> exact fun h => h.symm
  · intro e
    cases d.get? "sdp_port" <;> simp [bind, Except.bind, pure, Except.pure]
    exact fun h => h.symm

end Pacman.Json
