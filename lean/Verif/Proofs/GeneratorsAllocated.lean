import Verif.Proofs.Generators
import Verif.Props.Allocator
/-
What the allocator returns is ready for the generators.
-/

namespace Pacman.Gen

open Alloc (VId Part Infos Info maskOf WF NoIdleFixed Counted)

theorem machIn_eq {infos : Infos} (hn : (infos.map Info.of).Nodup) {p v k m idx : Nat}
    (h : .mach p v k m idx ∈ infos) :
    machIn infos v p = some ⟨BitVec.ofNat 32 k, BitVec.ofNat 32 m, idx⟩ := by
  unfold machIn
  cases hf : infos.findSome? (fun j => match j with
    | .mach q u k m idx => if q = p ∧ u = v then some (MInfo.mk (BitVec.ofNat 32 k) (BitVec.ofNat 32 m) idx) else none
    | _ => none) with
  | none =>
    have := List.findSome?_eq_none_iff.1 hf _ h
    simp at this
  | some i =>
    obtain ⟨j, hj, hji⟩ := List.exists_of_findSome?_eq_some hf
    cases j with
    | app => simp at hji
    | mach q u k' m' idx' =>
      simp only at hji
      split at hji
      · rename_i hc
        obtain ⟨rfl, rfl⟩ := hc
        have := Alloc.info_unique hn hj h rfl
        rw [Alloc.Info.mach.injEq] at this
        obtain ⟨-, -, rfl, rfl, rfl⟩ := this
        rw [← hji]
      · simp at hji

theorem appIn_eq {infos : Infos} (hn : (infos.map Info.of).Nodup) {p v k m mm nb : Nat} {mi : Int}
    (h : .app p v k m mm nb mi ∈ infos) :
    appIn infos v p = some ⟨BitVec.ofNat 32 k, BitVec.ofNat 32 m, BitVec.ofNat 32 mm, nb, mi⟩ := by
  unfold appIn
  cases hf : infos.findSome? (fun j => match j with
    | .app q u k m mm nb mi =>
      if q = p ∧ u = v then some (AppInfo.mk (BitVec.ofNat 32 k) (BitVec.ofNat 32 m) (BitVec.ofNat 32 mm) nb mi) else none
    | _ => none) with
  | none =>
    have := List.findSome?_eq_none_iff.1 hf _ h
    simp at this
  | some i =>
    obtain ⟨j, hj, hji⟩ := List.exists_of_findSome?_eq_some hf
    cases j with
    | mach => simp at hji
    | app q u k' m' mm' nb' mi' =>
      simp only at hji
      split at hji
      · rename_i hc
        obtain ⟨rfl, rfl⟩ := hc
        have := Alloc.info_unique hn hj h rfl
        rw [Alloc.Info.app.injEq] at this
        obtain ⟨-, -, rfl, rfl, rfl, rfl, rfl⟩ := this
        rw [← hji]
      · simp at hji

theorem maskOf_lt (b : Nat) : maskOf b < 2 ^ 32 := by unfold maskOf; omega

/-- The info of a source, with words as key and mask. -/
structure Good (infos : Infos) (src : VId × Nat) (k m : Nat) : Prop where
  mem : ∃ j ∈ infos, j.of = (src.2, src.1) ∧ j.km = (k, m)
  key : k < 2 ^ 32
  mask : m < 2 ^ 32
  valid : k &&& m = k

section
variable {ps : List Part} {infos : Infos}

theorem good_of (hwf : WF ps) (hi : NoIdleFixed ps) (hc : Counted ps)
    (h : Alloc.allocate flexible ps = .ok infos) {q : Part} (hq : q ∈ ps) (hne : q.outgoing ≠ [])
    {src : VId × Nat} (hs : FromPart q src) : ∃ k m, Good infos src k m := by
  obtain ⟨d, z', used, ab, L, sh⟩ := Alloc.allocate_ok hwf hi hc h
  have h32 := sh.both_le
  cases hf : q.fixed with
  | none =>
    rcases hs with rfl | ⟨v, hv, rfl⟩
    · obtain ⟨ap, mm, nb, mi, hap, hmem⟩ := sh.free_app hq hf hne
      have hlt : (ap + 1) * 2 ^ z'.both ≤ 2 ^ 32 := Alloc.block_lt (sh.num.lt _ hap) sh.room
      have hpos := Nat.two_pow_pos z'.both
      rw [Nat.add_mul] at hlt
      have hk : ap * 2 ^ z'.both < 2 ^ 32 := by omega
      exact ⟨_, _, ⟨_, hmem, rfl, rfl⟩, hk, maskOf_lt _, Alloc.land_maskOf_mul hk h32⟩
    · obtain ⟨ap, i, a, m, hap, _, him, ham, hn, _, hmem⟩ := sh.free_mach hc hq hf hv
      have hlt : (ap + 1) * 2 ^ z'.both ≤ 2 ^ 32 := Alloc.block_lt (sh.num.lt _ hap) sh.room
      have hblk := (@Alloc.mach_block ap a m i him).2
      rw [ham] at hblk
      have hpos := Nat.two_pow_pos a
      have hk : (ap * 2 ^ m + i) * 2 ^ a < 2 ^ 32 := by omega
      exact ⟨_, _, ⟨_, hmem, rfl, rfl⟩, hk, maskOf_lt _, Alloc.land_maskOf_mul hk (by omega)⟩
  | some akm =>
    rcases hs with rfl | ⟨v, hv, rfl⟩
    · obtain ⟨mm, nb, mi, hmem⟩ := sh.fixed_app hq hf hne
      refine ⟨_, _, ⟨_, hmem, rfl, rfl⟩, akm.1.isLt, akm.2.isLt, ?_⟩
      rw [← BitVec.toNat_and, hwf.valid q hq akm hf]
    · obtain ⟨i, hmem⟩ := sh.fixed_mach hq hf hv
      refine ⟨_, _, ⟨_, hmem, rfl, rfl⟩, (v.fixed.getD akm).1.isLt, (v.fixed.getD akm).2.isLt, ?_⟩
      rw [← BitVec.toNat_and, hwf.fixedKM hq hf hv]

theorem ofNat_valid {k m : Nat} (hk : k < 2 ^ 32) (hm : m < 2 ^ 32) (x : Word) :
    x &&& BitVec.ofNat 32 m = BitVec.ofNat 32 k ↔ Alloc.Covers k m x := by
  unfold Alloc.Covers
  rw [← BitVec.toNat_inj, BitVec.toNat_and, BitVec.toNat_ofNat, BitVec.toNat_ofNat,
    Nat.mod_eq_of_lt hk, Nat.mod_eq_of_lt hm]

theorem Good.owns (hn : (infos.map Info.of).Nodup) {src : VId × Nat} {k m : Nat} (h : Good infos src k m)
    (appOf : Nat → Option Nat) (x : Word) : (ofInfos infos appOf).Owns src x ↔ Alloc.Covers k m x := by
  obtain ⟨⟨j, hj, hof, hkm⟩, hk, hm, -⟩ := h
  obtain ⟨s, p⟩ := src
  cases j with
  | mach q u k' m' idx =>
    simp only [Alloc.Info.of, Prod.mk.injEq] at hof
    simp only [Alloc.Info.km, Prod.mk.injEq] at hkm
    obtain ⟨rfl, rfl⟩ := hof
    obtain ⟨rfl, rfl⟩ := hkm
    have he := machIn_eq hn hj
    rw [← ofNat_valid hk hm]
    constructor
    · rintro ⟨i, h1, h2⟩
      have h1' : machIn infos u q = some i := h1
      rw [he] at h1'
      cases h1'
      exact h2
    · exact fun h => ⟨_, he, h⟩
  | app q u k' m' mm nb mi =>
    simp only [Alloc.Info.of, Prod.mk.injEq] at hof
    simp only [Alloc.Info.km, Prod.mk.injEq] at hkm
    obtain ⟨rfl, rfl⟩ := hof
    obtain ⟨rfl, rfl⟩ := hkm
    have he := appIn_eq hn hj
    rw [← ofNat_valid hk hm]
    constructor
    · rintro ⟨i, h1, h2⟩
      have h1' : appIn infos u q = some i := h1
      rw [he] at h1'
      cases h1'
      exact h2
    · exact fun h => ⟨_, he, h⟩

theorem map_inj {α β : Type} {f : α → β} {l : List α} (hn : (l.map f).Nodup) {a b : α} (ha : a ∈ l)
    (hb : b ∈ l) (h : f a = f b) : a = b := by
  induction l with
  | nil => simp at ha
  | cons c l ih =>
    rw [List.map_cons, List.nodup_cons] at hn
    rcases List.mem_cons.1 ha with h1 | h1 <;> rcases List.mem_cons.1 hb with h2 | h2
    · rw [h1, h2]
    · subst h1
      exact absurd (List.mem_map.2 ⟨b, h2, h.symm⟩) hn.1
    · subst h2
      exact absurd (List.mem_map.2 ⟨a, h1, h⟩) hn.1
    · exact ih hn.2 h1 h2

/-- The block of an application vertex without a fixed key is not met by sources of other partitions. -/
theorem app_block_own (hwf : WF ps) (hi : NoIdleFixed ps) (hc : Counted ps)
    (hG : Alloc.Given ps infos) (appOf : Nat → Option Nat) {q q' : Part} (hq : q ∈ ps)
    (hq' : q' ∈ ps) (hne : q ≠ q') (ho : q.outgoing ≠ []) (ho' : q'.outgoing ≠ []) (hf : q.fixed = none)
    {t : VId × Nat} (ht : FromPart q' t) (x : Word)
    (hx : (ofInfos infos appOf).Owns (.app q.pre, q.ident) x) : ¬ (ofInfos infos appOf).Owns t x := by
  obtain ⟨fl, hcl, h⟩ := id hG
  obtain ⟨d, z', used, ab, L, sh⟩ := Alloc.allocate_ok hwf hi hc h
  obtain ⟨k, m, hg⟩ := good_of hwf hi hc h hq ho (.inl rfl)
  obtain ⟨k', m', hg'⟩ := good_of hwf hi hc h hq' ho' ht
  rw [hg.owns sh.nodup] at hx
  rw [hg'.owns sh.nodup]
  obtain ⟨⟨j, hj, hof, hkm⟩, -⟩ := hg
  obtain ⟨⟨j', hj', hof', hkm'⟩, -⟩ := hg'
  cases j with
  | mach => simp [Alloc.Info.of] at hof
  | app a1 a2 a3 a4 a5 a6 a7 =>
    simp only [Alloc.Info.of, Prod.mk.injEq, VId.app.injEq] at hof
    simp only [Alloc.Info.km, Prod.mk.injEq] at hkm
    obtain ⟨rfl, rfl⟩ := hof
    obtain ⟨rfl, rfl⟩ := hkm
    have hpq : (q.pre, q.ident) ≠ (q'.pre, q'.ident) := fun h => hne (map_inj hwf.pairs hq hq' h)
    have hd := Alloc.C18_clear_app_disjoint_partial hwf hi hc hcl h hq hq' hf hpq ho hj x hx
    rcases ht with rfl | ⟨v, hv, rfl⟩
    · cases j' with
      | mach => simp [Alloc.Info.of] at hof'
      | app b1 b2 b3 b4 b5 b6 b7 =>
        simp only [Alloc.Info.of, Prod.mk.injEq, VId.app.injEq] at hof'
        simp only [Alloc.Info.km, Prod.mk.injEq] at hkm'
        obtain ⟨rfl, rfl⟩ := hof'
        obtain ⟨rfl, rfl⟩ := hkm'
        exact hd.1 _ _ _ _ _ ho' hj'
    · cases j' with
      | app => simp [Alloc.Info.of] at hof'
      | mach b1 b2 b3 b4 b5 =>
        simp only [Alloc.Info.of, Prod.mk.injEq, VId.mach.injEq] at hof'
        simp only [Alloc.Info.km, Prod.mk.injEq] at hkm'
        obtain ⟨rfl, rfl⟩ := hof'
        obtain ⟨rfl, rfl⟩ := hkm'
        exact hd.2 v hv _ _ _ hj'

/-- A machine vertex without a fixed key has its keys in the block of its application vertex. -/
theorem mach_in_app (hwf : WF ps) (hi : NoIdleFixed ps) (hc : Counted ps)
    (hG : Alloc.Given ps infos) (appOf : Nat → Option Nat) {q : Part} (hq : q ∈ ps)
    (hf : q.fixed = none) {t : VId × Nat} (ht : FromPart q t) (x : Word)
    (hx : (ofInfos infos appOf).Owns t x) : (ofInfos infos appOf).Owns (.app q.pre, q.ident) x := by
  rcases ht with rfl | ⟨v, hv, rfl⟩
  · exact hx
  · obtain ⟨fl, hcl, h⟩ := id hG
    obtain ⟨d, z', used, ab, L, sh⟩ := Alloc.allocate_ok hwf hi hc h
    have ho : q.outgoing ≠ [] := fun h => by rw [h] at hv; simp at hv
    obtain ⟨k, m, hg⟩ := good_of hwf hi hc h hq ho (.inl rfl)
    obtain ⟨k', m', hg'⟩ := good_of hwf hi hc h hq ho (.inr ⟨v, hv, rfl⟩)
    obtain ⟨k1, m1, i, n, K, M, mm, nb, mi, h1, h2, h3, h4, -, -, -, h5⟩ :=
      Alloc.C19_block_fits hwf hi hc h hq hf hv
    rw [hg'.owns sh.nodup] at hx
    rw [hg.owns sh.nodup]
    obtain ⟨⟨j, hj, hof, hkm⟩, -⟩ := hg
    obtain ⟨⟨j', hj', hof', hkm'⟩, -⟩ := hg'
    rw [h4 j hj hof] at hkm
    rw [h3 j' hj' hof'] at hkm'
    simp only [Alloc.Info.km, Prod.mk.injEq] at hkm hkm'
    obtain ⟨rfl, rfl⟩ := hkm
    obtain ⟨rfl, rfl⟩ := hkm'
    exact h5 x hx

/-- Sources of a partition without fixed keys share no key with other sources. -/
theorem free_disjoint (hwf : WF ps) (hi : NoIdleFixed ps) (hc : Counted ps)
    (hG : Alloc.Given ps infos) (appOf : Nat → Option Nat) {q q' : Part} (hq : q ∈ ps)
    (hq' : q' ∈ ps) (ho : q.outgoing ≠ []) (ho' : q'.outgoing ≠ []) (hf : q.fixed = none)
    {s t : VId × Nat} (hs : FromPart q s) (ht : FromPart q' t) (hst : s ≠ t)
    (hmix : ¬ (q = q' ∧ (s = (.app q.pre, q.ident) ∨ t = (.app q.pre, q.ident)))) (x : Word) :
    ¬ ((ofInfos infos appOf).Owns s x ∧ (ofInfos infos appOf).Owns t x) := by
  rintro ⟨h1, h2⟩
  by_cases hqq : q = q'
  · subst hqq
    have hs' : ∃ v ∈ q.outgoing, s = (.mach v.id, q.ident) := by
      rcases hs with hs | hs
      · exact absurd ⟨rfl, .inl hs⟩ hmix
      · exact hs
    have ht' : ∃ v ∈ q.outgoing, t = (.mach v.id, q.ident) := by
      rcases ht with ht | ht
      · exact absurd ⟨rfl, .inr ht⟩ hmix
      · exact ht
    obtain ⟨v, hv, rfl⟩ := hs'
    obtain ⟨v', hv', rfl⟩ := ht'
    obtain ⟨fl, hcl, h⟩ := id hG
    obtain ⟨d, z', used, ab, L, sh⟩ := Alloc.allocate_ok hwf hi hc h
    obtain ⟨k, m, hg⟩ := good_of hwf hi hc h hq ho hs
    obtain ⟨k', m', hg'⟩ := good_of hwf hi hc h hq ho ht
    rw [hg.owns sh.nodup] at h1
    rw [hg'.owns sh.nodup] at h2
    obtain ⟨⟨j, hj, hof, hkm⟩, -⟩ := hg
    obtain ⟨⟨j', hj', hof', hkm'⟩, -⟩ := hg'
    cases j with
    | app => simp [Alloc.Info.of] at hof
    | mach a1 a2 a3 a4 a5 =>
      cases j' with
      | app => simp [Alloc.Info.of] at hof'
      | mach b1 b2 b3 b4 b5 =>
        simp only [Alloc.Info.of, Prod.mk.injEq, VId.mach.injEq] at hof hof'
        simp only [Alloc.Info.km, Prod.mk.injEq] at hkm hkm'
        obtain ⟨rfl, rfl⟩ := hof
        obtain ⟨rfl, rfl⟩ := hkm
        obtain ⟨rfl, rfl⟩ := hof'
        obtain ⟨rfl, rfl⟩ := hkm'
        refine Alloc.C18_clear_disjoint_partial hwf hi hc hcl h hq hq hf hv hv' ?_ hj hj' x ⟨h1, h2⟩
        intro he
        apply hst
        simp only [Prod.mk.injEq, true_and] at he
        rw [he]
  · exact app_block_own hwf hi hc hG appOf hq hq' hqq ho ho' hf ht x
      (mach_in_app hwf hi hc hG appOf hq hf hs x h1) h2

theorem known_of (hwf : WF ps) (hi : NoIdleFixed ps) (hc : Counted ps)
    (hG : Alloc.Given ps infos) {appOf : Nat → Option Nat}
    (happ : ∀ q ∈ ps, ∀ v ∈ q.outgoing, appOf v.id = some q.pre) {q : Part} (hq : q ∈ ps)
    (ho : q.outgoing ≠ []) {s : VId × Nat} (hs : FromPart q s) : (ofInfos infos appOf).Known s := by
  obtain ⟨fl, hcl, h⟩ := id hG
  obtain ⟨d, z', used, ab, L, sh⟩ := Alloc.allocate_ok hwf hi hc h
  obtain ⟨k, m, hg⟩ := good_of hwf hi hc h hq ho (.inl rfl)
  have happinfo : ∃ i, appIn infos q.pre q.ident = some i ∧ i.key = BitVec.ofNat 32 k ∧
      i.mask = BitVec.ofNat 32 m := by
    obtain ⟨⟨j, hj, hof, hkm⟩, -⟩ := hg
    cases j with
    | mach => simp [Alloc.Info.of] at hof
    | app a1 a2 a3 a4 a5 a6 a7 =>
      simp only [Alloc.Info.of, Prod.mk.injEq, VId.app.injEq] at hof
      simp only [Alloc.Info.km, Prod.mk.injEq] at hkm
      obtain ⟨rfl, rfl⟩ := hof
      obtain ⟨rfl, rfl⟩ := hkm
      exact ⟨_, appIn_eq sh.nodup hj, rfl, rfl⟩
  obtain ⟨i, hi1, hi2, hi3⟩ := happinfo
  rcases hs with rfl | ⟨v, hv, rfl⟩
  · refine ⟨i, hi1, ?_⟩
    rw [hi2, hi3, ofNat_valid hg.key hg.mask]
    unfold Alloc.Covers
    rw [BitVec.toNat_ofNat, Nat.mod_eq_of_lt hg.key]
    exact hg.valid
  · obtain ⟨k', m', hg'⟩ := good_of hwf hi hc h hq ho (.inr ⟨v, hv, rfl⟩)
    refine ⟨?_, ?_⟩
    · obtain ⟨⟨j, hj, hof, hkm⟩, hk, hm, hv'⟩ := hg'
      cases j with
      | app => simp [Alloc.Info.of] at hof
      | mach a1 a2 a3 a4 a5 =>
        simp only [Alloc.Info.of, Prod.mk.injEq, VId.mach.injEq] at hof
        simp only [Alloc.Info.km, Prod.mk.injEq] at hkm
        obtain ⟨rfl, rfl⟩ := hof
        obtain ⟨rfl, rfl⟩ := hkm
        refine ⟨_, machIn_eq sh.nodup hj, ?_⟩
        simp only
        rw [ofNat_valid hk hm]
        unfold Alloc.Covers
        rw [BitVec.toNat_ofNat, Nat.mod_eq_of_lt hk]
        exact hv'
    · intro a ha
      have : a = q.pre := by
        have h1 := happ q hq v hv
        have ha' : appOf v.id = some a := ha
        rw [h1] at ha'
        exact (Option.some.inj ha').symm
      subst this
      exact ⟨i, hi1⟩

/-- The info of a machine vertex with a fixed key. -/
theorem mach_fixed {fl : Bool} (hwf : WF ps) (hi : NoIdleFixed ps) (hc : Counted ps) (h : Alloc.allocate fl ps = .ok infos)
    {q : Part} (hq : q ∈ ps) {v : Alloc.MVertex} (hv : v ∈ q.outgoing) (hf : q.fixed ≠ none) {k : Word × Word}
    (hk : v.fixed = some k) {i : MInfo} (hm : machIn infos v.id q.ident = some i) : i.key = k.1 ∧ i.mask = k.2 := by
  obtain ⟨d, z', used, ab, L, sh⟩ := Alloc.allocate_ok hwf hi hc h
  obtain ⟨akm, hf⟩ := Option.ne_none_iff_exists'.1 hf
  obtain ⟨-, -, c3⟩ := Alloc.C20_fixed_honoured_partial hwf hi hc h hq hf
  obtain ⟨⟨j, hj, hof⟩, d2, -, -⟩ := c3 v hv
  have hkm := d2 j hj hof
  rw [hk, Option.getD_some] at hkm
  cases j with
  | app => simp [Alloc.Info.of] at hof
  | mach a1 a2 a3 a4 a5 =>
    simp only [Alloc.Info.of, Prod.mk.injEq, VId.mach.injEq] at hof
    simp only [Alloc.Info.km, Prod.mk.injEq] at hkm
    obtain ⟨rfl, rfl⟩ := hof
    obtain ⟨rfl, rfl⟩ := hkm
    rw [machIn_eq sh.nodup hj] at hm
    cases hm
    exact ⟨BitVec.ofNat_toNat _ _ |>.trans (by simp), BitVec.ofNat_toNat _ _ |>.trans (by simp)⟩

/-- The keys of a machine vertex with a fixed key. -/
theorem mach_own {fl : Bool} (hwf : WF ps) (hi : NoIdleFixed ps) (hc : Counted ps) (h : Alloc.allocate fl ps = .ok infos)
    {q : Part} (hq : q ∈ ps) {v : Alloc.MVertex} (hv : v ∈ q.outgoing) (hf : q.fixed ≠ none) {k : Word × Word}
    (hk : v.fixed = some k) {appOf : Nat → Option Nat} {x : Word}
    (hx : (ofInfos infos appOf).Owns (.mach v.id, q.ident) x) : x &&& k.2 = k.1 := by
  obtain ⟨i, h1, h2⟩ := hx
  obtain ⟨h3, h4⟩ := mach_fixed hwf hi hc h hq hv hf hk h1
  rw [← h3, ← h4]
  exact h2

theorem not_prefix {m : Word} (h : ∀ n < 33, m.toNat + 2 ^ n ≠ 2 ^ 32) : ¬ Prefix m := by
  rintro ⟨n, hn⟩
  refine h n ?_ hn
  apply Classical.byContradiction
  intro h0
  have := Nat.pow_le_pow_right (n := 2) (by omega) (show 33 ≤ n by omega)
  omega

theorem maskOf_inj {a n : Nat} (hn : n < 32) (h : maskOf a = maskOf n) : a = n := by
  unfold maskOf at h
  have h1 : 2 ^ n < 2 ^ 32 := Nat.pow_lt_pow_right (by decide) hn
  have h2 := Nat.two_pow_pos a
  have h3 : 2 ^ a = 2 ^ n := by
    have := Nat.two_pow_pos n
    omega
  exact (Nat.pow_right_inj (by decide)).1 h3

theorem line_base {akm : Word × Word} (hv : akm.1 &&& akm.2 = akm.1) {n m : Nat} (hb : n + m ≤ 32)
    (hm : akm.2.toNat = maskOf (n + m)) : ∃ b, akm.1.toNat = b * 2 ^ (n + m) := by
  refine ⟨akm.1.toNat / 2 ^ (n + m), ?_⟩
  rw [← Alloc.land_maskOf akm.1.isLt hb, ← hm, ← BitVec.toNat_and, hv]

theorem line_div {akm k : Word × Word} (hv : akm.1 &&& akm.2 = akm.1) {n m i : Nat} (hb : n + m ≤ 32)
    (hm : akm.2.toNat = maskOf (n + m)) (hk : k.1.toNat = akm.1.toNat + i * 2 ^ n) (hk' : k.2.toNat = maskOf n) {x : Word}
    (hx : x &&& k.2 = k.1) : x.toNat / 2 ^ n = akm.1.toNat / 2 ^ n + i := by
  have h1 := congrArg BitVec.toNat hx
  rw [BitVec.toNat_and, hk', Alloc.land_maskOf x.isLt (by omega), hk] at h1
  have h2 := congrArg (· / 2 ^ n) h1
  rw [Nat.mul_div_cancel _ (Nat.two_pow_pos n), Nat.add_mul_div_right _ _ (Nat.two_pow_pos n)] at h2
  exact h2

/-- What the allocator returns is ready for the generators. -/
theorem allocated_ready (hwf : WF ps) (hi : NoIdleFixed ps) (hc : Counted ps)
    (hG : Alloc.Given ps infos) {appOf : Nat → Option Nat}
    (happ : ∀ q ∈ ps, ∀ v ∈ q.outgoing, appOf v.id = some q.pre) {srcs : List (VId × Nat)}
    (hn : srcs.Nodup) (hfrom : ∀ s ∈ srcs, ∃ q ∈ ps, q.outgoing ≠ [] ∧ FromPart q s)
    (hmix : ∀ q ∈ ps, (.app q.pre, q.ident) ∈ srcs → ∀ v ∈ q.outgoing, (.mach v.id, q.ident) ∉ srcs)
    (hsingle : ∀ q ∈ ps, q.fixed ≠ none → FixedWell ps q)
    (hfix : ∀ q ∈ ps, ∀ q' ∈ ps, q.fixed ≠ none → q'.fixed ≠ none → q ≠ q' →
      ∀ s t, FromPart q s → FromPart q' t →
      ∀ x, ¬ ((ofInfos infos appOf).Owns s x ∧ (ofInfos infos appOf).Owns t x)) :
    Ready (ofInfos infos appOf) srcs := by
  obtain ⟨fl, hcl, h⟩ := id hG
  obtain ⟨d, z', used, ab, L, sh⟩ := Alloc.allocate_ok hwf hi hc h
  have notmix : ∀ q ∈ ps, ∀ s ∈ srcs, ∀ t ∈ srcs, FromPart q s → FromPart q t → s ≠ t →
      ¬ (s = (.app q.pre, q.ident) ∨ t = (.app q.pre, q.ident)) := by
    intro q hq s hs t ht hqs hqt hne hor
    rcases hor with rfl | rfl
    · rcases hqt with rfl | ⟨v, hv, rfl⟩
      · exact hne rfl
      · exact hmix q hq hs v hv ht
    · rcases hqs with rfl | ⟨v, hv, rfl⟩
      · exact hne rfl
      · exact hmix q hq ht v hv hs
  refine ⟨hn, ?_, ?_, ?_⟩
  · intro s hs
    obtain ⟨q, hq, ho, hqs⟩ := hfrom s hs
    exact known_of hwf hi hc hG happ hq ho hqs
  · intro s hs t ht hne x
    obtain ⟨q, hq, ho, hqs⟩ := hfrom s hs
    obtain ⟨q', hq', ho', hqt⟩ := hfrom t ht
    by_cases hf : q.fixed = none
    · refine free_disjoint hwf hi hc hG appOf hq hq' ho ho' hf hqs hqt hne ?_ x
      rintro ⟨rfl, hor⟩
      exact notmix q hq s hs t ht hqs hqt hne hor
    · by_cases hf' : q'.fixed = none
      · have := free_disjoint hwf hi hc hG appOf hq' hq ho' ho hf' hqt hqs (Ne.symm hne) (by
          rintro ⟨rfl, hor⟩
          exact notmix q' hq' t ht s hs hqt hqs (Ne.symm hne) hor) x
        rintro ⟨h1, h2⟩
        exact this ⟨h2, h1⟩
      · by_cases hqq : q = q'
        · subst hqq
          have hnm := notmix q hq s hs t ht hqs hqt hne
          rcases hqs with hqs | ⟨v, hv, rfl⟩
          · exact absurd (.inl hqs) hnm
          · rcases hqt with hqt | ⟨v', hv', rfl⟩
            · exact absurd (.inr hqt) hnm
            · rcases hsingle q hq hf with hl | hl | ⟨akm, n, m, hqf, hl, hix, -⟩
              · exfalso
                match hout : q.outgoing, hl with
                | [u], _ =>
                  rw [hout, List.mem_singleton] at hv hv'
                  exact hne (by rw [hv, hv'])
                | [], _ => exact ho hout
              · obtain ⟨k, hk, -⟩ := hl.each v hv
                obtain ⟨k', hk', -⟩ := hl.each v' hv'
                rintro ⟨h1, h2⟩
                exact hl.apart v hv v' hv' (fun h => hne (by rw [h])) k k' hk hk' x
                  ⟨mach_own hwf hi hc h hq hv hf hk h1, mach_own hwf hi hc h hq hv' hf hk' h2⟩
              · rintro ⟨h1, h2⟩
                obtain ⟨i, hiv⟩ := List.mem_iff_getElem?.1 hv
                obtain ⟨i', hiv'⟩ := List.mem_iff_getElem?.1 hv'
                obtain ⟨-, k, hk, hk1, hk2⟩ := hl.each i v hiv
                obtain ⟨-, k', hk', hk1', hk2'⟩ := hl.each i' v' hiv'
                have e1 := line_div (hwf.valid q hq akm hqf) hl.bits hl.mask hk1 hk2 (mach_own hwf hi hc h hq hv hf hk h1)
                have e2 := line_div (hwf.valid q hq akm hqf) hl.bits hl.mask hk1' hk2' (mach_own hwf hi hc h hq hv' hf hk' h2)
                have : i = i' := by omega
                subst this
                rw [hiv] at hiv'
                cases hiv'
                exact hne rfl
        · exact hfix q hq q' hq' hf hf' hqq s t hqs hqt x
  · intro a p A hA
    by_cases hex : ∃ v, (VId.mach v, p) ∈ srcs ∧ appOf v = some a
    · obtain ⟨v0, hv0, ha0⟩ := hex
      have findq : ∀ v, (VId.mach v, p) ∈ srcs → appOf v = some a →
          ∃ q ∈ ps, q.pre = a ∧ q.ident = p ∧ ∃ u ∈ q.outgoing, u.id = v := by
        intro v hv ha
        obtain ⟨q, hq, ho, hqs⟩ := hfrom _ hv
        rcases hqs with hqs | ⟨u, hu, hqs⟩
        · simp at hqs
        · simp only [Prod.mk.injEq, VId.mach.injEq] at hqs
          obtain ⟨rfl, rfl⟩ := hqs
          have := happ q hq u hu
          rw [ha] at this
          exact ⟨q, hq, (Option.some.inj this).symm, rfl, u, hu, rfl⟩
      obtain ⟨q, hq, rfl, rfl, u0, hu0, rfl⟩ := findq v0 hv0 ha0
      have findu : ∀ v, (VId.mach v, q.ident) ∈ srcs → appOf v = some q.pre →
          ∃ u ∈ q.outgoing, u.id = v := by
        intro v hv ha
        obtain ⟨q', hq', h1, h2, u, hu, h3⟩ := findq v hv ha
        have : q' = q := map_inj hwf.pairs hq' hq (by rw [h1, h2])
        subst this
        exact ⟨u, hu, h3⟩
      have ho : q.outgoing ≠ [] := fun h => by rw [h] at hu0; simp at hu0
      by_cases hf : q.fixed = none
      · right
        obtain ⟨ap, hap⟩ := sh.number hq ho
        have hnone := (sh.all.none q hq hf).1
        have happ' : Alloc.Info.app q.ident q.pre (ap * 2 ^ z'.both) (maskOf z'.both)
            (maskOf (Alloc.bitsOf fl z' q).1) (Alloc.bitsOf fl z' q).1
            (((Alloc.sortMachine q.outgoing).length : Int) - 1) ∈ infos := by
          refine sh.mem ⟨q, hq, hf⟩ hap (List.mem_append.2 (.inr (List.mem_singleton.2 ?_)))
          unfold Alloc.appKmOf
          simp only [hnone]
        have hA' : appIn infos q.pre q.ident = some A := hA
        rw [appIn_eq sh.nodup happ'] at hA'
        have hA2 := Option.some.inj hA'
        obtain ⟨m, hm⟩ : ∃ m, (Alloc.bitsOf fl z' q).1 + m = z'.both := by
          obtain ⟨_, _, a, m, _, _, _, ham, _, ha, _⟩ := sh.free_mach hc hq hf hu0
          exact ⟨m, by rw [← ha, ham]⟩
        have h32 := sh.both_le
        have hlt : (ap + 1) * 2 ^ z'.both ≤ 2 ^ 32 := Alloc.block_lt (sh.num.lt _ hap) sh.room
        have hpos := Nat.two_pow_pos z'.both
        rw [Nat.add_mul] at hlt
        have hkey : (BitVec.ofNat 32 (ap * 2 ^ z'.both)).toNat = ap * 2 ^ z'.both := by
          rw [BitVec.toNat_ofNat, Nat.mod_eq_of_lt (by omega)]
        have hmk : ∀ b, (BitVec.ofNat 32 (maskOf b)).toNat = maskOf b := fun b => by
          rw [BitVec.toNat_ofNat, Nat.mod_eq_of_lt (maskOf_lt b)]
        refine ⟨m, ?_⟩
        subst hA2
        refine ⟨by simp only; omega, ⟨ap, by simp only [hm]; exact hkey⟩, by simp only [hm]; exact hmk _,
          hmk _, ?_, ?_⟩
        · intro v hv ha i hi'
          obtain ⟨u, hu, rfl⟩ := findu v hv ha
          obtain ⟨ap', idx, a', m', hap', hgv, him, ham, _, haa, hmem⟩ := sh.free_mach hc hq hf hu
          have hapeq : ap = ap' := sh.index_fun hwf hap hap'
          subst hapeq
          have hi2 : machIn infos u.id q.ident = some i := hi'
          rw [machIn_eq sh.nodup hmem] at hi2
          have hi3 := Option.some.inj hi2
          subst hi3
          have hmm : m' = m := by omega
          subst hmm
          have hblk := (@Alloc.mach_block ap a' m' idx him).2
          rw [ham, Nat.add_mul ap] at hblk
          have hpa := Nat.two_pow_pos a'
          have hil := (List.getElem?_eq_some_iff.1 hgv).1
          refine ⟨?_, by rw [haa], him, by simp only; omega⟩
          simp only [hkey]
          rw [BitVec.toNat_ofNat, Nat.mod_eq_of_lt (by omega), ← ham, Nat.pow_add, ← haa, Nat.add_mul]
          ac_rfl
        · intro s hs hnm x hx
          obtain ⟨q', hq', ho', hqs⟩ := hfrom s hs
          have hne : q ≠ q' := by
            rintro rfl
            rcases hqs with rfl | ⟨u, hu, rfl⟩
            · exact hmix q hq hs u0 hu0 hv0
            · exact hnm ⟨u.id, rfl, happ q hq u hu⟩
          have hx' : (ofInfos infos appOf).Owns (.app q.pre, q.ident) x := ⟨_, hA, hx⟩
          refine ⟨app_block_own hwf hi hc hG appOf hq hq' hne ho ho' hf hqs x hx', ?_⟩
          intro a' A' hm' hA'' hxA
          obtain ⟨v', hs', hv'⟩ := hm'
          rcases hqs with rfl | ⟨u, hu, rfl⟩
          · simp at hs'
          · simp only [Prod.mk.injEq, VId.mach.injEq, and_true] at hs'
            subst hs'
            have h1 := happ q' hq' u hu
            have h2 : appOf u.id = some a' := hv'
            rw [h1] at h2
            cases h2
            exact app_block_own hwf hi hc hG appOf hq hq' hne ho ho' hf (.inl rfl) x hx' ⟨A', hA'', hxA⟩
      · have hone : q.outgoing.length ≤ 1 → Apart (ofInfos infos appOf) srcs q.pre q.ident A := by
          intro hl v v' hv hv' ha ha' i i' hi1 hi2 _ _
          obtain ⟨u, hu, rfl⟩ := findu v hv ha
          obtain ⟨u', hu', rfl⟩ := findu v' hv' ha'
          have : u = u' := by
            match hout : q.outgoing, hl with
            | [w], _ =>
              rw [hout, List.mem_singleton] at hu hu'
              rw [hu, hu']
            | [], _ => exact absurd hout ho
          subst this
          rw [hi1] at hi2
          cases hi2
          omega
        rcases hsingle q hq hf with hl | hl | ⟨akm, n, m, hqf, hl, hix, hlast⟩
        · exact .inl (hone hl)
        · left
          intro v v' hv hv' ha ha' i i' hi1 hi2 _ hpre
          obtain ⟨u, hu, rfl⟩ := findu v hv ha
          obtain ⟨k, hk, hk'⟩ := hl.each u hu
          rw [(mach_fixed hwf hi hc h hq hu hf hk hi1).2] at hpre
          exact absurd hpre hk'
        · by_cases hl1 : q.outgoing.length ≤ 1
          · exact .inl (hone hl1)
          obtain ⟨nb, mi, hmemA, hmi⟩ := sh.fixed_last hq hqf ho hlast
          have hA' : appIn infos q.pre q.ident = some A := hA
          rw [appIn_eq sh.nodup hmemA] at hA'
          have hA2 := Option.some.inj hA'
          have hmk : ∀ b, (BitVec.ofNat 32 (maskOf b)).toNat = maskOf b := fun b => by
            rw [BitVec.toNat_ofNat, Nat.mod_eq_of_lt (maskOf_lt b)]
          have hwd : ∀ x : Word, BitVec.ofNat 32 x.toNat = x := fun x => by simp
          by_cases hnb : nb = n
          · right
            subst hnb
            refine ⟨m, ?_⟩
            subst hA2
            obtain ⟨b, hb⟩ := line_base (hwf.valid q hq akm hqf) hl.bits hl.mask
            refine ⟨hl.bits, ⟨b, by rw [hwd]; exact hb⟩, by simp only [hwd]; exact hl.mask, hmk _, ?_, ?_⟩
            · intro v hv ha i hi'
              obtain ⟨u, hu, rfl⟩ := findu v hv ha
              obtain ⟨j, hj⟩ := List.mem_iff_getElem?.1 hu
              obtain ⟨hj1, k, hk, hk1, hk2⟩ := hl.each j u hj
              have hsort : Alloc.sortMachine q.outgoing = q.outgoing :=
                stableSort_same _ _ (hl.order.imp (fun h => by simpa using h))
              have hmem := sh.fixed_index hq hqf (v := u) (i := j) (by rw [hsort]; exact hj)
                (fun q' hq' u' hu' he => (hix q' hq' u' hu' u hu he).trans hj1)
              rw [hk, Option.getD_some] at hmem
              have hi2 : machIn infos u.id q.ident = some i := hi'
              rw [machIn_eq sh.nodup hmem] at hi2
              cases hi2
              have hjl := (List.getElem?_eq_some_iff.1 hj).1
              refine ⟨by simp only [hwd]; exact hk1, ?_, Nat.lt_of_lt_of_le hjl hl.fits, by simp only; omega⟩
              simp only [hwd]
              apply BitVec.eq_of_toNat_eq
              rw [hmk]
              exact hk2
            · intro s hs hnm x hx
              obtain ⟨q', hq', ho', hqs⟩ := hfrom s hs
              have hne : q ≠ q' := by
                rintro rfl
                rcases hqs with rfl | ⟨u, hu, rfl⟩
                · exact hmix q hq hs u0 hu0 hv0
                · exact hnm ⟨u.id, rfl, happ q hq u hu⟩
              have hx' : (ofInfos infos appOf).Owns (.app q.pre, q.ident) x := ⟨_, hA, hx⟩
              have hno : ∀ s', FromPart q' s' → ¬ (ofInfos infos appOf).Owns s' x := by
                intro s' hs' hxs
                by_cases hf' : q'.fixed = none
                · refine free_disjoint hwf hi hc hG appOf hq' hq ho' ho hf' hs' (.inl rfl) ?_ (fun h => hne h.1.symm) x ⟨hxs, hx'⟩
                  rintro rfl
                  rcases hs' with he | ⟨u, -, he⟩
                  · simp only [Prod.mk.injEq, VId.app.injEq] at he
                    exact hne (map_inj hwf.pairs hq hq' (by rw [he.1, he.2]))
                  · simp at he
                · exact hfix q hq q' hq' hf hf' hne _ s' (.inl rfl) hs' x ⟨hx', hxs⟩
              refine ⟨hno s hqs, ?_⟩
              intro a' A' hm' hA'' hxA
              obtain ⟨v', hs', hv'⟩ := hm'
              rcases hqs with rfl | ⟨u, hu, rfl⟩
              · simp at hs'
              · simp only [Prod.mk.injEq, VId.mach.injEq, and_true] at hs'
                subst hs'
                have h1 := happ q' hq' u hu
                have h2 : appOf u.id = some a' := hv'
                rw [h1] at h2
                cases h2
                exact hno _ (.inl rfl) ⟨A', hA'', hxA⟩
          · left
            intro v v' hv hv' ha ha' i i' hi1 hi2 hmm _
            obtain ⟨u, hu, rfl⟩ := findu v hv ha
            obtain ⟨j, hj⟩ := List.mem_iff_getElem?.1 hu
            obtain ⟨hj1, k, hk, hk1, hk2⟩ := hl.each j u hj
            rw [(mach_fixed hwf hi hc h hq hu hf hk hi1).2, ← hA2] at hmm
            exfalso
            rw [hmm, hmk] at hk2
            have hm1 : 1 ≤ m := by
              have := hl.fits
              rcases Nat.eq_zero_or_pos m with h0 | h0
              · rw [h0] at this; omega
              · exact h0
            exact hnb (maskOf_inj (by have := hl.bits; omega) hk2)
    · left
      intro v v' hv hv' ha
      exact absurd ⟨v, hv, ha⟩ hex

end

end Pacman.Gen
