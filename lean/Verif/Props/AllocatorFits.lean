import Verif.Spec.AllocatorFits
import Verif.Proofs.Allocator
import Verif.Proofs.MergeEntries
import Verif.Props.Allocator
/-
C126: keys are allocated exactly when they fit.
-/

namespace Pacman.Pipe

open Alloc (bitsNeeded maxKeys)

theorem bitsNeeded_le {n b : Nat} (h : n ≤ 2 ^ b) : bitsNeeded n ≤ b := by
  unfold bitsNeeded
  split
  · exact Nat.zero_le _
  · exact Gen.clog2_le h

theorem maxKeys_le {b : Nat} {l : List Alloc.MVertex} (h : ∀ v ∈ l, v.nKeys ≤ b) : maxKeys l ≤ b := by
  induction l with
  | nil => exact Nat.zero_le _
  | cons v l ih =>
    exact Nat.max_le.2 ⟨h v List.mem_cons_self, ih (fun u hu => h u (List.mem_cons_of_mem _ hu))⟩

end Pacman.Pipe

namespace Pacman.Alloc

/-! ### Fixed keys -/

theorem agreed_of_findOne {p : Part} {s s' : FState} (hn : (p.outgoing.map (·.id)).Nodup)
    (hi : p.outgoing = [] → p.fixed = none) (h : findOne s p = .ok s') : Agreed p := by
  unfold findOne at h
  cases hm : findMachine p p.outgoing s false false with
  | error e => rw [hm] at h; simp [bind, Except.bind] at h
  | ok r =>
    obtain ⟨s1, f1⟩ := r
    rw [hm] at h
    simp only [bind, Except.bind, pure, Except.pure] at h
    obtain ⟨-, -, h3⟩ := findMachine_ok p p.outgoing s s1 false f1 false hn hm
    cases hp : p.fixed with
    | none =>
      rcases h3 with ⟨k1, _⟩ | ⟨_, _, _, ⟨akm, k4, _⟩, _⟩
      · exact Or.inl ⟨hp, k1⟩
      · rw [hp] at k4; cases k4
    | some akm =>
      rw [hp] at h
      simp only at h
      rcases h3 with ⟨k1, k2, rfl, _⟩ | ⟨_, _, rfl, ⟨akm', k4, k5⟩, k6⟩
      · simp only [Bool.false_eq_true, if_false] at h
        split at h
        · simp at h
        · rename_i hlen
          have hne : p.outgoing ≠ [] := fun h0 => by rw [hi h0] at hp; cases hp
          refine Or.inr ⟨akm, hp, Or.inr ?_⟩
          cases hout : p.outgoing with
          | nil => exact absurd hout hne
          | cons a l =>
            rw [hout] at hlen
            cases l with
            | nil => exact ⟨a, rfl, k1 a (by rw [hout]; exact List.mem_cons_self)⟩
            | cons b l => simp at hlen
      · rw [hp] at k4
        cases k4
        refine Or.inr ⟨akm, hp, Or.inl (fun v hv => ?_)⟩
        obtain ⟨km, j1, j2, -⟩ := k5 v hv
        exact ⟨km, j1, j2⟩

theorem findMachine_none (p : Part) : ∀ (vs : List MVertex) (s : FState) (u : Bool), (∀ v ∈ vs, v.fixed = none) →
    ∃ s', findMachine p vs s false u = .ok (s', false) ∧ s'.fixed = s.fixed ∧ s'.vert = vs.getLast?.or s.vert := by
  intro vs
  induction vs with
  | nil => exact fun s u _ => ⟨s, rfl, rfl, rfl⟩
  | cons v vs ih =>
    intro s u h
    obtain ⟨s', h1, h2, h3⟩ := ih { s with vert := some v } true (fun w hw => h w (List.mem_cons_of_mem _ hw))
    refine ⟨s', ?_, h2, ?_⟩
    · rw [findMachine]
      simp only [h v List.mem_cons_self, Bool.false_eq_true, if_false]
      exact h1
    · rw [h3, List.getLast?_cons]
      cases vs.getLast? <;> rfl

theorem findMachine_some (p : Part) {akm : Word × Word} (hp : p.fixed = some akm) : ∀ (vs : List MVertex) (s : FState) (f : Bool),
    (∀ v ∈ vs, ∃ km, v.fixed = some km ∧ km.1 &&& akm.2 = akm.1) →
    ∃ s', findMachine p vs s f false = .ok (s', if vs = [] then f else true) := by
  intro vs
  induction vs with
  | nil => exact fun s f _ => ⟨s, rfl⟩
  | cons v vs ih =>
    intro s f h
    obtain ⟨km, h1, h2⟩ := h v List.mem_cons_self
    obtain ⟨s', h3⟩ := ih { s with vert := some v, fixed := s.fixed.set (p.ident, .mach v.id) km } true
      (fun w hw => h w (List.mem_cons_of_mem _ hw))
    refine ⟨s', ?_⟩
    rw [findMachine]
    simp only [h1, hp, h2, Bool.false_eq_true, if_false, ne_eq, not_true_eq_false]
    rw [h3]
    simp

theorem findOne_of_agreed {p : Part} (s : FState) (hi : p.outgoing = [] → p.fixed = none) (h : Agreed p) :
    ∃ s', findOne s p = .ok s' := by
  unfold findOne
  rcases h with ⟨h1, h2⟩ | ⟨akm, h1, h2 | ⟨v, h2, h3⟩⟩
  · obtain ⟨s', e1, -, -⟩ := findMachine_none p p.outgoing s false h2
    rw [e1]
    simp only [bind, Except.bind, h1, pure, Except.pure]
    exact ⟨_, rfl⟩
  · obtain ⟨s', e1⟩ := findMachine_some p h1 p.outgoing s false h2
    have hne : p.outgoing ≠ [] := fun h0 => by rw [hi h0] at h1; cases h1
    rw [e1, if_neg hne]
    simp only [bind, Except.bind, h1, pure, Except.pure, if_true]
    exact ⟨_, rfl⟩
  · obtain ⟨s', e1, -, e2⟩ := findMachine_none p p.outgoing s false (by
      intro w hw; rw [h2, List.mem_singleton] at hw; rw [hw]; exact h3)
    rw [e1]
    rw [h2] at e2
    simp only [bind, Except.bind, h1, pure, Except.pure, h2, List.length_singleton, Nat.lt_irrefl, if_false, gt_iff_lt,
      Bool.false_eq_true]
    have : s'.vert = some v := e2
    rw [this]
    exact ⟨_, rfl⟩

theorem findFixed_of_agreed : ∀ (ps : List Part) (s : FState), NoIdleFixed ps → (∀ p ∈ ps, Agreed p) →
    ∃ s', findFixed s ps = .ok s' := by
  intro ps
  induction ps with
  | nil => exact fun s _ _ => ⟨s, rfl⟩
  | cons p ps ih =>
    intro s hi h
    obtain ⟨s1, h1⟩ := findOne_of_agreed s (hi p List.mem_cons_self) (h p List.mem_cons_self)
    obtain ⟨s2, h2⟩ := ih s1 (fun q hq => hi q (List.mem_cons_of_mem _ hq)) (fun q hq => h q (List.mem_cons_of_mem _ hq))
    exact ⟨s2, by rw [findFixed, h1]; exact h2⟩

/-- What is in the dictionary of fixed keys is fixed, and what is fixed is there. -/
theorem fixed_iff {ps : List Part} (hwf : WF ps) (hi : NoIdleFixed ps) {f : FState}
    (h : findFixed ⟨[], true, none⟩ ps = .ok f) (km : Word × Word) :
    (∃ k, f.fixed.get? k = some km) ↔ IsFixed ps km := by
  obtain ⟨ha, -, hfr⟩ := findFixed_ok ps _ f hwf hi (fun _ _ => ⟨rfl, fun _ _ => rfl⟩) h
  constructor
  · rintro ⟨k, hk⟩
    by_cases h0 : ∀ p ∈ ps, k ≠ ak p ∧ ∀ v ∈ p.outgoing, k ≠ mk p v
    · rw [hfr k h0] at hk; cases hk
    · obtain ⟨p, hp0⟩ := Classical.not_forall.1 h0
      obtain ⟨hp, hp2⟩ := Classical.not_imp.1 hp0
      by_cases hk1 : k = ak p
      · subst hk1
        cases hpf : p.fixed with
        | none => rw [(ha.none p hp hpf).1] at hk; cases hk
        | some akm =>
          rw [ha.app p hp akm hpf] at hk
          cases hk
          exact ⟨p, hp, Or.inl hpf⟩
      · have : ∃ v ∈ p.outgoing, k = mk p v := by
          apply Classical.byContradiction
          intro hno
          exact hp2 ⟨hk1, fun v hv hh => hno ⟨v, hv, hh⟩⟩
        obtain ⟨v, hv, rfl⟩ := this
        cases hpf : p.fixed with
        | none => rw [((ha.none p hp hpf).2 v hv).1] at hk; cases hk
        | some akm =>
          rw [(ha.mach p hp akm hpf v hv).1] at hk
          cases hvf : v.fixed with
          | none => rw [hvf] at hk; cases hk; exact ⟨p, hp, Or.inl hpf⟩
          | some vkm => rw [hvf] at hk; cases hk; exact ⟨p, hp, Or.inr ⟨v, hv, hvf⟩⟩
  · rintro ⟨p, hp, h1 | ⟨v, hv, h1⟩⟩
    · exact ⟨ak p, ha.app p hp km h1⟩
    · cases hpf : p.fixed with
      | none => rw [((ha.none p hp hpf).2 v hv).2] at h1; cases h1
      | some akm => exact ⟨mk p v, by rw [(ha.mach p hp akm hpf v hv).1, h1]; rfl⟩

theorem isFixed_valid {ps : List Part} (hwf : WF ps) {km : Word × Word} (h : IsFixed ps km) : km.1 &&& km.2 = km.1 := by
  obtain ⟨p, hp, h1 | ⟨v, hv, h1⟩⟩ := h
  · exact hwf.valid p hp km h1
  · exact hwf.validM p hp v hv km h1

/-! ### Blocks with fixed keys -/

/-- Each blocked index has a fixed key. -/
theorem blockedBy_hit {b : Nat} (hb : b ≤ 32) {km : Word × Word} (hv : km.1 &&& km.2 = km.1) {i : Nat} (hi : i ∈ blockedBy b km) :
    ∃ x : Word, x &&& km.2 = km.1 ∧ x.toNat / 2 ^ b = i := by
  have h2 := blocked_bits b km.2 km.1
  rw [hv] at h2
  unfold blockedBy at hi
  obtain ⟨r, hr, hi⟩ := List.mem_flatMap.1 hi
  obtain ⟨j, hj, rfl⟩ := List.mem_map.1 hi
  obtain ⟨y, hy, h1⟩ := ((KeyMask.C02_key_ranges_partition _ _ h2).2 (r.1.toNat + j)).1
    ⟨r, hr, by rw [List.mem_range] at hj; exact ⟨Nat.le_add_right _ _, by omega⟩⟩
  have hbit : ∀ n, n < 32 → (y.getLsbD n && (km.2.getLsbD (b + n) || decide (32 - b ≤ n))) = km.1.getLsbD (b + n) := by
    intro n hn
    have := congrArg (fun z : Word => z.getLsbD n) h1
    simp only [BitVec.getLsbD_and, BitVec.getLsbD_or, BitVec.getLsbD_ushiftRight, BitVec.getLsbD_ofNat,
      Nat.testBit_mul_two_pow, bitsInKey, hn, decide_true, Bool.true_and] at this
    rw [← this]
    by_cases hc : 32 - b ≤ n
    · have : n - (32 - b) < b := by omega
      simp [hc, Nat.testBit_two_pow_sub_one, this]
    · simp [hc]
  have htop : y.toNat < 2 ^ (32 - b) := by
    apply Nat.lt_pow_two_of_testBit
    intro n hn
    by_cases h32 : n < 32
    · have h3 := hbit n h32
      have h4 : km.1.getLsbD (b + n) = false := BitVec.getLsbD_of_ge _ _ (by omega)
      rw [h4] at h3
      have h5 : y.getLsbD n = false := by simpa [hn] using h3
      exact h5
    · exact BitVec.getLsbD_of_ge y n (by omega)
  refine ⟨BitVec.ofNat 32 (2 ^ b * y.toNat + km.1.toNat % 2 ^ b), ?_, ?_⟩
  · apply word_ext
    intro n hn
    simp only [BitVec.getLsbD_and, BitVec.getLsbD_ofNat, hn, decide_true, Bool.true_and]
    rw [Nat.testBit_two_pow_mul_add _ (Nat.mod_lt _ (Nat.two_pow_pos b))]
    by_cases hc : n < b
    · rw [if_pos hc, Nat.testBit_mod_two_pow]
      have := congrArg (fun z : Word => z.getLsbD n) hv
      simp only [BitVec.getLsbD_and] at this
      simp only [hc, decide_true, Bool.true_and]
      exact this
    · rw [if_neg hc]
      have h3 := hbit (n - b) (by omega)
      have e1 : b + (n - b) = n := by omega
      rw [e1] at h3
      have e2 : ¬ 32 - b ≤ n - b := by omega
      simp only [e2, decide_false, Bool.or_false] at h3
      exact h3
  · have hlt : 2 ^ b * y.toNat + km.1.toNat % 2 ^ b < 2 ^ 32 := by
      have h3 := Nat.mod_lt km.1.toNat (Nat.two_pow_pos b)
      have h4 : 2 ^ b * (y.toNat + 1) ≤ 2 ^ b * 2 ^ (32 - b) := Nat.mul_le_mul_left _ htop
      rw [← Nat.pow_add, show b + (32 - b) = 32 by omega, Nat.mul_add, Nat.mul_one] at h4
      omega
    rw [BitVec.toNat_ofNat, Nat.mod_eq_of_lt hlt, Nat.mul_add_div (Nat.two_pow_pos b),
      Nat.div_eq_of_lt (Nat.mod_lt _ (Nat.two_pow_pos b)), Nat.add_zero, hy]

theorem nodup_eraseDups {α : Type} [BEq α] [LawfulBEq α] (n : Nat) : ∀ l : List α, l.length ≤ n → l.eraseDups.Nodup := by
  induction n with
  | zero =>
    intro l h
    cases l with
    | nil => exact List.nodup_nil
    | cons a l => simp at h
  | succ n ih =>
    intro l h
    cases l with
    | nil => exact List.nodup_nil
    | cons a l =>
      rw [List.eraseDups_cons, List.nodup_cons]
      refine ⟨?_, ih _ (Nat.le_trans (List.length_filter_le _ _) (by simpa using h))⟩
      rw [List.mem_eraseDups]
      simp

theorem fixedUsed_hit {ps : List Part} (hwf : WF ps) (hi : NoIdleFixed ps) {f : FState}
    (h : findFixed ⟨[], true, none⟩ ps = .ok f) {b : Nat} (hb : b ≤ 32) (i : Nat) :
    i ∈ fixedUsed b f.fixed ↔ Hit ps b i := by
  have hnd := findFixed_nodup ps ⟨[], true, none⟩ f List.nodup_nil h
  constructor
  · intro h0
    unfold fixedUsed at h0
    rw [List.mem_eraseDups, List.mem_flatMap] at h0
    obtain ⟨q, hq, h0⟩ := h0
    have hfix : IsFixed ps q.2 := (fixed_iff hwf hi h q.2).1 ⟨q.1, Dict.get?_of_mem hnd hq⟩
    exact ⟨q.2, hfix, blockedBy_hit hb (isFixed_valid hwf hfix) h0⟩
  · rintro ⟨km, h1, x, h2, rfl⟩
    obtain ⟨k, hk⟩ := (fixed_iff hwf hi h km).2 h1
    exact mem_fixedUsed hk (isFixed_valid hwf h1) h2

theorem Hit.up {ps : List Part} {w i : Nat} (h : Hit ps w i) (d : Nat) : Hit ps (w + d) (i / 2 ^ d) := by
  obtain ⟨km, h1, x, h2, h3⟩ := h
  exact ⟨km, h1, x, h2, by rw [Nat.pow_add, ← Nat.div_div_eq_div_mul, h3]⟩

/-- Wider blocks with fixed keys make up at most as many narrower ones as there are in them. -/
theorem hits_le {L U : List Nat} {d : Nat} (hU : U.Nodup) (h : ∀ i ∈ U, i / 2 ^ d ∈ L) : U.length ≤ L.length * 2 ^ d := by
  have h1 := List.Nodup.length_le_of_subset hU (l₂ := L.flatMap (fun j => (List.range (2 ^ d)).map (fun n => 2 ^ d * j + n))) (by
    intro i hi
    refine List.mem_flatMap.2 ⟨i / 2 ^ d, h i hi, List.mem_map.2 ⟨i % 2 ^ d, ?_, Nat.div_add_mod i (2 ^ d)⟩⟩
    exact List.mem_range.2 (Nat.mod_lt _ (Nat.two_pow_pos d)))
  refine Nat.le_trans h1 (Nat.le_of_eq ?_)
  clear h1 h hU
  induction L with
  | nil => simp
  | cons a L ih =>
    rw [List.flatMap_cons, List.length_append, ih, List.length_map, List.length_range, List.length_cons, Nat.add_mul]
    omega

/-! ### The zones -/

theorem wide_zones {ps : List Part} (hwf : WF ps) (hc : Counted ps) {f : FState} (ha : AllFixed ps f.fixed) :
    Wide ps (calculateZones f.fixed ps).both := by
  intro p hp hpf
  have hz := calculateZones_inv f.fixed ps hwf.pairs
  by_cases hm : 0 < maxKeys p.outgoing
  · refine ⟨_, _, fun v hv => Nat.le_trans (le_maxKeys hv) (le_two_pow_bitsNeeded _), le_two_pow_bitsNeeded _, ?_⟩
    rw [Nat.add_comm]
    exact (hz.fits p hp (ha.none p hp hpf).1 hm).both
  · have h0 := maxKeys_zero (vs := p.outgoing) (by omega)
    refine ⟨0, 0, fun v hv => by rw [h0 v hv]; exact Nat.zero_le _, ?_, Nat.zero_le _⟩
    exact hc p hp hpf h0

theorem zones_least {ps : List Part} {f : FState} (ha : AllFixed ps f.fixed) {w : Nat} (h : Wide ps w) :
    (calculateZones f.fixed ps).both ≤ w := by
  have key : ∀ (qs : List Part) (z : Zones), (∀ p ∈ qs, p ∈ ps) → z.both ≤ w → (qs.foldl (zoneOne f.fixed) z).both ≤ w := by
    intro qs
    induction qs with
    | nil => exact fun z _ hz => hz
    | cons p qs ih =>
      intro z hq hz
      rw [List.foldl_cons]
      refine ih _ (fun q h => hq q (List.mem_cons_of_mem _ h)) ?_
      unfold zoneOne
      split
      · exact hz
      · split
        · simp only
          split
          · exact hz
          · rename_i hs
            have hpf : p.fixed = none := by
              cases hpf : p.fixed with
              | none => rfl
              | some akm =>
                have := ha.app p (hq p List.mem_cons_self) akm hpf
                exact absurd (by rw [show f.fixed.get? (p.ident, VId.app p.pre) = some akm from this]; rfl) hs
            obtain ⟨a, m, h1, h2, h3⟩ := h p (hq p List.mem_cons_self) hpf
            refine Nat.max_le.2 ⟨hz, ?_⟩
            have e1 := Pipe.bitsNeeded_le h2
            have e2 := Pipe.bitsNeeded_le (Pipe.maxKeys_le h1)
            omega
        · exact hz
  exact key ps _ (fun p hp => hp) (Nat.zero_le _)

theorem checkZones_iff (flexible : Bool) (d : Fixed) (z : Zones) :
    (∃ r, checkZones flexible d z = .ok r) ↔
      bitsNeeded z.perPart.length + z.both ≤ 32 ∧ bitsNeeded (z.perPart.length + (fixedUsed z.both d).length) + z.both ≤ 32 := by
  unfold checkZones
  have hk : bitsInKey = 32 := rfl
  simp only
  constructor
  · rintro ⟨r, h⟩
    split at h
    · cases h
    · split at h
      · cases h
      · omega
  · rintro ⟨h1, h2⟩
    rw [if_neg (by omega), if_neg (by omega)]
    split
    · exact ⟨_, rfl⟩
    · split <;> exact ⟨_, rfl⟩

/-- C126: keys are allocated, in either mode, exactly when the fixed keys of each partition agree and there is some size of
blocks that is large enough for each partition without fixed key and of which there are enough without fixed keys. -/
theorem C126_iff {flexible : Bool} {ps : List Part} (hwf : WF ps) (hi : NoIdleFixed ps) (hc : Counted ps) :
    (∃ infos, allocate flexible ps = .ok infos) ↔ (∀ p ∈ ps, Agreed p) ∧ ∃ w, w ≤ 32 ∧ Wide ps w ∧ Room ps w := by
  constructor
  · rintro ⟨infos, h⟩
    cases h1 : findFixed ⟨[], true, none⟩ ps with
    | error e => unfold allocate at h; rw [h1] at h; simp [bind, Except.bind] at h
    | ok f =>
      obtain ⟨ha, -, -⟩ := findFixed_ok ps _ f hwf hi (fun _ _ => ⟨rfl, fun _ _ => rfl⟩) h1
      refine ⟨fun p hp => ?_, ?_⟩
      · obtain ⟨t, t', h2⟩ := findOne_of_findFixed ps _ f h1 p hp
        exact agreed_of_findOne (hwf.ids hp) (hi p hp) h2
      · cases h2 : checkZones flexible f.fixed (calculateZones f.fixed ps) with
        | error e => unfold allocate at h; rw [h1] at h; simp [bind, Except.bind, h2] at h
        | ok r =>
          obtain ⟨h3, h4⟩ := (checkZones_iff flexible f.fixed _).1 ⟨r, h2⟩
          have hlen := (calculateZones_inv f.fixed ps hwf.pairs).length
          simp only [List.length_nil, Nat.zero_add] at hlen
          have hb : (calculateZones f.fixed ps).both ≤ 32 := by omega
          refine ⟨_, hb, wide_zones hwf hc ha, fixedUsed (calculateZones f.fixed ps).both f.fixed,
            fun i hh => (fixedUsed_hit hwf hi h1 hb i).2 hh, ?_⟩
          rw [← hlen]
          refine Nat.le_trans (le_two_pow_bitsNeeded _) (Nat.pow_le_pow_right (by omega) ?_)
          omega
  · rintro ⟨hag, w, hw, hwide, L, hL, hroom⟩
    obtain ⟨f, h1⟩ := findFixed_of_agreed ps ⟨[], true, none⟩ hi hag
    obtain ⟨ha, -, -⟩ := findFixed_ok ps _ f hwf hi (fun _ _ => ⟨rfl, fun _ _ => rfl⟩) h1
    have hle := zones_least ha hwide
    have hlen := (calculateZones_inv f.fixed ps hwf.pairs).length
    simp only [List.length_nil, Nat.zero_add] at hlen
    have hU := hits_le (L := L) (d := w - (calculateZones f.fixed ps).both)
      (U := fixedUsed (calculateZones f.fixed ps).both f.fixed) (nodup_eraseDups _ _ (Nat.le_refl _)) (by
        intro i hh
        have := ((fixedUsed_hit hwf hi h1 (by omega) i).1 hh).up (w - (calculateZones f.fixed ps).both)
        rw [show (calculateZones f.fixed ps).both + (w - (calculateZones f.fixed ps).both) = w by omega] at this
        exact hL _ this)
    have hfit : (calculateZones f.fixed ps).perPart.length + (fixedUsed (calculateZones f.fixed ps).both f.fixed).length ≤
        2 ^ (32 - (calculateZones f.fixed ps).both) := by
      rw [hlen]
      have e1 : 32 - (calculateZones f.fixed ps).both = (32 - w) + (w - (calculateZones f.fixed ps).both) := by omega
      rw [e1, Nat.pow_add]
      refine Nat.le_trans ?_ (Nat.mul_le_mul_right _ hroom)
      rw [Nat.add_mul]
      exact Nat.add_le_add (Nat.le_mul_of_pos_right _ (Nat.two_pow_pos _)) hU
    obtain ⟨r, h2⟩ := (checkZones_iff flexible f.fixed (calculateZones f.fixed ps)).2 ⟨by
      have := Pipe.bitsNeeded_le (Nat.le_trans (Nat.le_add_right _ _) hfit); omega, by
      have := Pipe.bitsNeeded_le hfit; omega⟩
    obtain ⟨infos, _, _, h3, _⟩ := allocate_shape (flexible := flexible) (z' := r.1) (used := r.2) hwf hi hc h1 h2
    exact ⟨infos, h3⟩

/-- The allocation of `mixed`, with and without fixed keys, fits blocks of 256 keys. -/
example : ∃ infos, allocate false mixed = .ok infos := by
  refine (C126_iff mixed_wf.1 mixed_wf.2.1 mixed_wf.2.2).2 ⟨?_, 8, by decide, ?_, [1], ?_, by decide⟩
  · intro p hp
    simp only [mixed, List.mem_cons, List.not_mem_nil, or_false] at hp
    rcases hp with rfl | rfl | rfl
    · exact Or.inl ⟨rfl, by decide⟩
    · exact Or.inr ⟨_, rfl, Or.inr ⟨_, rfl, rfl⟩⟩
    · exact Or.inl ⟨rfl, by decide⟩
  · intro p hp hpf
    simp only [mixed, List.mem_cons, List.not_mem_nil, or_false] at hp
    rcases hp with rfl | rfl | rfl
    · exact ⟨4, 2, by decide, by decide, by decide⟩
    · cases hpf
    · exact ⟨8, 0, by decide, by decide, by decide⟩
  · rintro i ⟨km, ⟨p, hp, h⟩, x, h2, h3⟩
    have hkm : km = (0x100, 0xFFFFFFF0) := by
      simp only [mixed, List.mem_cons, List.not_mem_nil, or_false] at hp
      rcases hp with rfl | rfl | rfl
      · rcases h with h | ⟨v, hv, h⟩
        · cases h
        · simp only [free, List.mem_cons, List.not_mem_nil, or_false] at hv
          rcases hv with rfl | rfl | rfl <;> cases h
      · rcases h with h | ⟨v, hv, h⟩
        · exact (Option.some.inj h).symm
        · rw [List.mem_singleton] at hv
          subst hv; cases h
      · rcases h with h | ⟨v, hv, h⟩
        · cases h
        · rw [List.mem_singleton] at hv
          subst hv; cases h
    subst hkm
    have h4 := (covers_maskOf (y := 0x10) (a := 4) (by decide) x).1 (by
      have := congrArg BitVec.toNat h2
      rw [BitVec.toNat_and] at this
      exact this)
    simp only [List.mem_singleton]
    omega

/-- C126: the two modes succeed for the same partitions. -/
theorem C126_modes {ps : List Part} (hwf : WF ps) (hi : NoIdleFixed ps) (hc : Counted ps) :
    (∃ infos, allocate true ps = .ok infos) ↔ ∃ infos, allocate false ps = .ok infos :=
  (C126_iff hwf hi hc).trans (C126_iff hwf hi hc).symm

/-- C126: what is needed is more than the keys: a partition with fixed keys is counted among those that need a block. Half of
all keys are asked for, one more key is fixed in the other half, and the allocator raises; without the fixed key it returns. -/
theorem C126_wasted : allocate true [⟨1, 0, [free 10 (2 ^ 31) 0], none, 1⟩,
      ⟨2, 0, [free 20 1 0], some (0x80000000, 0xFFFFFFFF), 1⟩] = .error .routeInfoAllocation ∧
    (allocate true [⟨1, 0, [free 10 (2 ^ 31) 0], none, 1⟩]).isOk = true := by
  constructor <;> decide +kernel

end Pacman.Alloc
