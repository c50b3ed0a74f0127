import Verif.Model.Generators
import Verif.Spec.Generators
import Verif.Proofs.Allocator
/-
Helper lemmas for `merge_machine_entries`.
-/

namespace Pacman.Gen

open Alloc (clog2 maskOf)
open ByPart (REntry)

theorem lowBit_spec : ∀ (i : Nat), 0 < i → ∃ t q, i = 2 ^ t * (2 * q + 1) := by
  intro i
  induction i using Nat.strongRecOn with
  | ind i ih =>
    intro h
    rcases Nat.mod_two_eq_zero_or_one i with h2 | h2
    · obtain ⟨t, q, hq⟩ := ih (i / 2) (by omega) (by omega)
      refine ⟨t + 1, q, ?_⟩
      have : i = 2 * (i / 2) := by omega
      rw [this, hq, Nat.pow_succ]
      simp only [Nat.mul_comm, Nat.mul_left_comm]
    · exact ⟨0, i / 2, by simp; omega⟩

/-- The lowest set bit. -/
theorem lowBit_eq {t q : Nat} : lowBit (2 ^ t * (2 * q + 1)) = 2 ^ t := by
  have hpos : 0 < 2 ^ t * (2 * q + 1) := Nat.mul_pos (Nat.two_pow_pos t) (by omega)
  have hlt := Nat.lt_log2_self (n := 2 ^ t * (2 * q + 1))
  unfold lowBit
  generalize hL : (2 ^ t * (2 * q + 1)).log2 + 1 = L at *
  have htL : t < L := by
    apply Nat.lt_of_not_le
    intro hle
    have h1 := Nat.pow_le_pow_right (n := 2) (by omega) hle
    have h2 : 2 ^ t * 1 ≤ 2 ^ t * (2 * q + 1) := Nat.mul_le_mul_left _ (by omega)
    omega
  obtain ⟨d, rfl⟩ : ∃ d, L = t + (d + 1) := ⟨L - t - 1, by omega⟩
  have hsplit : 2 ^ (t + (d + 1)) = 2 ^ t * (2 * 2 ^ d) := by
    rw [Nat.pow_add, Nat.pow_succ, Nat.mul_comm 2]
  have hq : 2 * q + 1 < 2 * 2 ^ d := by
    rw [hsplit] at hlt
    exact Nat.lt_of_mul_lt_mul_left hlt
  have hsub : 2 ^ (t + (d + 1)) - 2 ^ t * (2 * q + 1) = 2 ^ t * (2 * (2 ^ d - 1 - q) + 1) := by
    rw [hsplit, ← Nat.mul_sub]
    congr 1
    omega
  rw [hsub]
  apply Nat.eq_of_testBit_eq
  intro j
  rw [Nat.testBit_and, Nat.testBit_two_pow_mul, Nat.testBit_two_pow_mul, Nat.testBit_two_pow]
  by_cases h1 : t ≤ j
  · simp only [h1, decide_true, Bool.true_and]
    by_cases h2 : t = j
    · subst h2
      simp [Nat.testBit_zero]
    · obtain ⟨s, rfl⟩ : ∃ s, j = t + (s + 1) := ⟨j - t - 1, by omega⟩
      have e1 : t + (s + 1) - t = s + 1 := by omega
      rw [e1, Nat.testBit_succ, Nat.testBit_succ]
      have e2 : (2 * q + 1) / 2 = q := by omega
      have e3 : (2 * (2 ^ d - 1 - q) + 1) / 2 = 2 ^ d - 1 - q := by omega
      rw [e2, e3]
      have hqd : q < 2 ^ d := by omega
      have e4 : 2 ^ d - 1 - q = 2 ^ d - (q + 1) := by omega
      rw [e4, Nat.testBit_two_pow_sub_succ hqd]
      simp only [h2, decide_false]
      cases q.testBit s <;> simp
  · have : ¬ t = j := by omega
    simp [h1, this]

theorem clog2_le {n m : Nat} (h : n ≤ 2 ^ m) : clog2 n ≤ m := by
  unfold clog2
  split
  · omega
  · have : (n - 1).log2 < m := (Nat.log2_lt (by omega)).2 (by omega)
    omega

/-- How many entries are taken: a power of two dividing the index, staying within the block. -/
theorem nSequential_spec {i n m : Nat} (hi : i < 2 ^ m) (hn : n ≤ 2 ^ m) :
    ∃ t, nSequential i n = 2 ^ t ∧ 2 ^ t ∣ i ∧ i + 2 ^ t ≤ 2 ^ m ∧ (i = 0 → n ≤ 2 ^ t) := by
  unfold nSequential
  split
  · rename_i h
    obtain ⟨t, q, rfl⟩ := lowBit_spec i h
    refine ⟨t, lowBit_eq, ⟨_, rfl⟩, ?_, by omega⟩
    have htm : t ≤ m := by
      apply Nat.le_of_not_lt
      intro hlt
      have h1 := Nat.pow_le_pow_right (n := 2) (by omega) (Nat.le_of_lt hlt)
      have h2 : 2 ^ t * 1 ≤ 2 ^ t * (2 * q + 1) := Nat.mul_le_mul_left _ (by omega)
      omega
    obtain ⟨d, rfl⟩ := Nat.exists_eq_add_of_le htm
    rw [Nat.pow_add] at hi ⊢
    have := Nat.lt_of_mul_lt_mul_left hi
    calc 2 ^ t * (2 * q + 1) + 2 ^ t = 2 ^ t * (2 * q + 1 + 1) := by rw [Nat.mul_add (2 ^ t) (2 * q + 1)]; simp
      _ ≤ 2 ^ t * 2 ^ d := Nat.mul_le_mul_left _ (by omega)
  · have h0 : i = 0 := by omega
    subst h0
    exact ⟨clog2 n, rfl, Nat.dvd_zero _, by simpa using Nat.pow_le_pow_right (by omega) (clog2_le hn),
      fun _ => Alloc.le_two_pow_clog2 n⟩

theorem groupMask_eq {app : AppInfo} {t : Nat} (hm : app.machineMask.toNat = maskOf app.nBitsAtoms)
    (h : app.nBitsAtoms + t ≤ 32) :
    groupMask app (2 ^ t) = .ok (BitVec.ofNat 32 (maskOf (app.nBitsAtoms + t))) := by
  have h1 : 2 ^ (app.nBitsAtoms + t) ≤ 2 ^ 32 := Nat.pow_le_pow_right (by omega) h
  have h2 : (2 ^ t - 1) <<< app.nBitsAtoms = 2 ^ (app.nBitsAtoms + t) - 2 ^ app.nBitsAtoms := by
    rw [Nat.shiftLeft_eq, Nat.sub_mul, Nat.pow_add, Nat.one_mul, Nat.mul_comm (2 ^ t)]
  have h3 : 2 ^ app.nBitsAtoms ≤ 2 ^ (app.nBitsAtoms + t) := Nat.pow_le_pow_right (by omega) (by omega)
  have h4 := Nat.two_pow_pos app.nBitsAtoms
  unfold groupMask
  rw [h2, hm]
  unfold maskOf
  rw [if_neg (by omega)]
  congr 2
  omega

/-- An entry for the machine indices from `lo` to before `lo + 2 ^ t` of the block starting at machine
index `g`, with a flag from the list. -/
def IsBlock (D : List Bool) (g a r : Nat) (e : Entry) (lo t : Nat) : Prop :=
  e.Valid ∧ (e.route = r ∧ e.defaultable ∈ D) ∧ ∀ x, e.Matches x ↔ g + lo ≤ x.toNat / 2 ^ a ∧ x.toNat / 2 ^ a < g + lo + 2 ^ t

/-- Entries for adjacent ranges of machine indices from `lo` to before `hi`. -/
def Chain (D : List Bool) (g a r : Nat) : Nat → List Entry → Nat → Prop
  | lo, [], hi => lo = hi
  | lo, e :: es, hi => ∃ t, IsBlock D g a r e lo t ∧ Chain D g a r (lo + 2 ^ t) es hi

theorem Chain.le {D : List Bool} {g a r : Nat} : ∀ {es : List Entry} {lo hi : Nat}, Chain D g a r lo es hi → lo ≤ hi
  | [], _, _, h => Nat.le_of_eq h
  | _ :: _, _, _, ⟨_, _, h⟩ => Nat.le_trans (Nat.le_add_right _ _) h.le

theorem Chain.covers {D : List Bool} {g a r : Nat} : ∀ {es : List Entry} {lo hi : Nat}, Chain D g a r lo es hi →
    ∀ x : Word, (∃ e ∈ es, e.Matches x) ↔ g + lo ≤ x.toNat / 2 ^ a ∧ x.toNat / 2 ^ a < g + hi
  | [], lo, hi, h, x => by
    have : lo = hi := h
    subst this
    simp
  | e :: es, lo, hi, ⟨t, hb, h⟩, x => by
    have ih := h.covers x
    have hle := h.le
    have hm := hb.2.2 x
    have hp := Nat.two_pow_pos t
    constructor
    · rintro ⟨e', he', hx⟩
      rcases List.mem_cons.1 he' with rfl | he'
      · have := hm.1 hx; omega
      · have := ih.1 ⟨e', he', hx⟩; omega
    · intro hx
      by_cases hc : x.toNat / 2 ^ a < g + lo + 2 ^ t
      · exact ⟨e, List.mem_cons_self, hm.2 ⟨hx.1, hc⟩⟩
      · obtain ⟨e', he', hx'⟩ := ih.2 (by omega)
        exact ⟨e', List.mem_cons_of_mem _ he', hx'⟩

theorem Chain.each {D : List Bool} {g a r : Nat} : ∀ {es : List Entry} {lo hi : Nat}, Chain D g a r lo es hi →
    ∀ e ∈ es, e.Valid ∧ e.route = r ∧ e.defaultable ∈ D
  | _ :: _, _, _, ⟨_, hb, h⟩, e', he' => by
    rcases List.mem_cons.1 he' with rfl | he'
    · exact ⟨hb.1, hb.2.1⟩
    · exact h.each e' he'

/-- An entry does not divide the keys of a machine index. -/
theorem Chain.uniform {D : List Bool} {g a r : Nat} : ∀ {es : List Entry} {lo hi : Nat}, Chain D g a r lo es hi →
    ∀ e ∈ es, ∀ x z : Word, x.toNat / 2 ^ a = z.toNat / 2 ^ a → e.Matches x → e.Matches z
  | _ :: _, _, _, ⟨_, hb, h⟩, e', he', x, z, hxz, hm => by
    rcases List.mem_cons.1 he' with rfl | he'
    · rw [hb.2.2 x, hxz, ← hb.2.2 z] at hm
      exact hm
    · exact h.uniform e' he' x z hxz hm

theorem Chain.orthogonal {D : List Bool} {g a r : Nat} : ∀ {es : List Entry} {lo hi : Nat}, Chain D g a r lo es hi →
    Orthogonal es
  | [], _, _, _ => List.Pairwise.nil
  | _ :: _, _, _, ⟨_, hb, h⟩ => by
    refine List.Pairwise.cons ?_ h.orthogonal
    rintro e' he' ⟨x, hx, hx'⟩
    have h1 := (hb.2.2 x).1 hx
    have h2 := (h.covers x).1 ⟨e', he', hx'⟩
    omega

/-- One `yield` gives the entry of an aligned block. -/
theorem yieldOne_ok {app : AppInfo} {entries : List (REntry × MInfo)} {m r i0 i t : Nat}
    (hz : Zoned app m r i0 entries) (hi : i < entries.length) (hd : 2 ^ t ∣ i0 + i)
    (hle : i0 + i + 2 ^ t ≤ 2 ^ m) :
    ∃ e, yieldOne app entries i (2 ^ t) = .ok e ∧
      IsBlock (entries.map (·.1.defaultable))
        (app.key.toNat / 2 ^ app.nBitsAtoms) app.nBitsAtoms r e (i0 + i) t := by
  obtain ⟨⟨re, info⟩, hg⟩ : ∃ p, entries[i]? = some p := ⟨entries[i], List.getElem?_eq_getElem hi⟩
  obtain ⟨hr, hix, hk, -⟩ := hz.each i re info hg
  obtain ⟨b, hb⟩ := hz.base
  have hbits := hz.bits
  have htm : t ≤ m := by
    apply Nat.le_of_not_lt
    intro hlt
    have h1 := Nat.pow_lt_pow_right (a := 2) (by omega) hlt
    omega
  obtain ⟨d, rfl⟩ := Nat.exists_eq_add_of_le htm
  obtain ⟨y, hy⟩ := hd
  generalize ha : app.nBitsAtoms = a at *
  have hkey : info.key.toNat = (b * 2 ^ d + y) * 2 ^ (a + t) := by
    rw [hk, hb, hy, Nat.add_mul, Nat.pow_add, Nat.pow_add, Nat.pow_add]
    ac_rfl
  have hbase : app.key.toNat / 2 ^ a = b * 2 ^ d * 2 ^ t := by
    rw [hb]
    have : b * 2 ^ (a + (t + d)) = b * 2 ^ d * 2 ^ t * 2 ^ a := by
      rw [Nat.pow_add, Nat.pow_add]
      ac_rfl
    rw [this, Nat.mul_div_cancel _ (Nat.two_pow_pos a)]
  have hmask : (BitVec.ofNat 32 (maskOf (a + t))).toNat = maskOf (a + t) := by
    rw [BitVec.toNat_ofNat, Nat.mod_eq_of_lt]
    unfold maskOf
    omega
  have hvalid : info.key &&& BitVec.ofNat 32 (maskOf (a + t)) = info.key := by
    apply BitVec.eq_of_toNat_eq
    rw [BitVec.toNat_and, hmask, hkey]
    exact Alloc.land_maskOf_mul (by rw [← hkey]; exact info.key.isLt) (by omega)
  refine ⟨⟨info.key, BitVec.ofNat 32 (maskOf (a + t)), re.route, re.defaultable⟩, ?_, hvalid,
    ⟨hr, List.mem_map.2 ⟨(re, info), List.mem_of_getElem? hg, rfl⟩⟩, ?_⟩
  · have := groupMask_eq (app := app) (t := t) (by have := hz.mask; unfold maskOf; omega) (by omega)
    unfold yieldOne
    rw [this, ha]
    simp only [bind, Except.bind, getE, hg, mkEntry]
    rw [if_pos hvalid]
  · intro x
    have h1 : (Entry.mk info.key (BitVec.ofNat 32 (maskOf (a + t))) re.route re.defaultable).Matches x ↔
        Alloc.Covers ((b * 2 ^ d + y) * 2 ^ (a + t)) (maskOf (a + t)) x := by
      unfold Entry.Matches Alloc.Covers
      rw [← BitVec.toNat_inj, BitVec.toNat_and, hmask, hkey]
    rw [h1, Alloc.covers_maskOf (by omega), Nat.pow_add, ← Nat.div_div_eq_div_mul, hbase, hy,
      Nat.div_eq_iff (Nat.two_pow_pos t)]
    have e1 : (b * 2 ^ d + y) * 2 ^ t = b * 2 ^ d * 2 ^ t + 2 ^ t * y := by
      rw [Nat.add_mul, Nat.mul_comm y]
    have := Nat.two_pow_pos t
    omega

theorem splitLoop_ok {app : AppInfo} {entries : List (REntry × MInfo)} {m r i0 : Nat}
    (hz : Zoned app m r i0 entries) : ∀ (fuel i toGo T : Nat), i + toGo = entries.length →
    toGo < fuel → 2 ^ T ∣ i0 + i → toGo < 2 ^ T →
    ∃ out, splitLoop app entries fuel i toGo = .ok out ∧
      Chain (entries.map (·.1.defaultable))
        (app.key.toNat / 2 ^ app.nBitsAtoms) app.nBitsAtoms r (i0 + i) out (i0 + entries.length)
  | 0, _, _, _, _, hf, _, _ => by omega
  | fuel + 1, i, toGo, T, hn, hf, hd, hT => by
    unfold splitLoop
    by_cases h0 : toGo = 0
    · rw [if_pos h0]
      exact ⟨[], rfl, show i0 + i = _ by omega⟩
    · rw [if_neg h0]
      have hs := Nat.log2_self_le h0
      have hs' := Nat.lt_log2_self (n := toGo)
      have hsT : toGo.log2 < T := (Nat.log2_lt h0).2 hT
      generalize toGo.log2 = s at *
      have hds : 2 ^ s ∣ i0 + i := Nat.dvd_trans (Nat.pow_dvd_pow 2 (Nat.le_of_lt hsT)) hd
      have hpos := Nat.two_pow_pos s
      have hlen := hz.fits
      rw [Nat.pow_succ] at hs'
      obtain ⟨e, he, hb⟩ := yieldOne_ok hz (i := i) (t := s) (by omega) hds (by omega)
      obtain ⟨out, ho, hc⟩ := splitLoop_ok hz fuel (i + 2 ^ s) (toGo - 2 ^ s) s (by omega) (by omega)
        (by rw [← Nat.add_assoc]; exact Nat.dvd_add hds (Nat.dvd_refl _)) (by omega)
      refine ⟨e :: out, ?_, s, hb, by rw [Nat.add_assoc]; exact hc⟩
      simp only [bind, Except.bind, pure, Except.pure, he, ho]

theorem mergeLoop_ok {app : AppInfo} {entries : List (REntry × MInfo)} {m r i0 : Nat} {isLast : Bool}
    (hz : Zoned app m r i0 entries) : ∀ (fuel i : Nat), 0 < fuel → entries.length < i + fuel →
    (i ≤ entries.length ∨ isLast = true ∧ i0 + i ≤ 2 ^ m) →
    ∃ out hi, mergeLoop app entries isLast fuel i = .ok out ∧
      Chain (entries.map (·.1.defaultable))
        (app.key.toNat / 2 ^ app.nBitsAtoms) app.nBitsAtoms r (i0 + i) out hi ∧
      (hi = i0 + entries.length ∨ isLast = true ∧ i0 + entries.length ≤ hi ∧ hi ≤ 2 ^ m)
  | 0, _, h0, _, _ => absurd h0 (by omega)
  | fuel + 1, i, _, hf, hi => by
    unfold mergeLoop
    by_cases hlt : i < entries.length
    · rw [if_pos hlt]
      obtain ⟨⟨re, info⟩, hg⟩ : ∃ p, entries[i]? = some p := ⟨entries[i], List.getElem?_eq_getElem hlt⟩
      obtain ⟨hr, hix, hk, -⟩ := hz.each i re info hg
      have hlen := hz.fits
      obtain ⟨t, ht, hd, hle, h0⟩ := nSequential_spec (i := info.index) (n := entries.length) (m := m)
        (by omega) (by omega)
      have hpos := Nat.two_pow_pos t
      rw [hix] at hd hle h0
      simp only [bind, Except.bind, getE, hg, ht]
      by_cases hc : 2 ^ t ≤ entries.length - i ∨ isLast = true
      · rw [if_pos hc]
        obtain ⟨e, he, hb⟩ := yieldOne_ok hz hlt hd hle
        obtain ⟨out, hi', ho, hch, hend⟩ := mergeLoop_ok hz (isLast := isLast) fuel (i + 2 ^ t) (by omega) (by omega)
          (by rcases hc with hc | hc
              · left; omega
              · right; exact ⟨hc, by omega⟩)
        refine ⟨e :: out, hi', ?_, ⟨t, hb, by rw [Nat.add_assoc]; exact hch⟩, hend⟩
        simp only [he, ho, pure, Except.pure]
      · rw [if_neg hc]
        obtain ⟨out, ho, hch⟩ := splitLoop_ok hz (entries.length + 1) i (entries.length - i) t (by omega)
          (by omega) hd (by omega)
        exact ⟨out, _, ho, hch, Or.inl rfl⟩
    · rw [if_neg hlt]
      refine ⟨[], i0 + i, rfl, rfl, ?_⟩
      rcases hi with hi | hi
      · left; omega
      · right; exact ⟨hi.1, by omega, hi.2⟩

theorem mergeLoop_merge {app : AppInfo} {entries : List (REntry × MInfo)} {m r i0 : Nat}
    (hz : Zoned app m r i0 entries) :
    ∃ out hi, mergeEntries app entries = .ok out ∧
      Chain (entries.map (·.1.defaultable))
        (app.key.toNat / 2 ^ app.nBitsAtoms) app.nBitsAtoms r i0 out hi ∧
      (hi = i0 + entries.length ∨ app.maxIndex + 1 = ((i0 + entries.length : Nat) : Int) ∧
        i0 + entries.length ≤ hi ∧ hi ≤ 2 ^ m) := by
  have hpos : 0 < entries.length := List.length_pos_iff.2 hz.some
  have hg : entries[entries.length - 1]? = some entries[entries.length - 1] :=
    List.getElem?_eq_getElem (by omega)
  generalize entries[entries.length - 1] = last at hg
  obtain ⟨re, info⟩ := last
  have hix := (hz.each _ re info hg).2.1
  obtain ⟨out, hi, ho, hc, hend⟩ := mergeLoop_ok (isLast := decide ((info.index : Int) = app.maxIndex)) hz
    (entries.length + 1) 0 (by omega) (by omega) (Or.inl (by omega))
  refine ⟨out, hi, ?_, hc, ?_⟩
  · unfold mergeEntries
    rw [List.getLast?_eq_getElem?, hg]
    exact ho
  · rcases hend with h | ⟨h1, h2, h3⟩
    · exact Or.inl h
    · refine Or.inr ⟨?_, h2, h3⟩
      have := of_decide_eq_true h1
      omega

/-- The infos of an application vertex without a fixed key are zoned. -/
theorem allocated_zoned {flexible : Bool} {ps : List Alloc.Part} {infos : Alloc.Infos}
    (hwf : Alloc.WF ps) (hi : Alloc.NoIdleFixed ps) (hc : Alloc.Counted ps)
    (h : Alloc.allocate flexible ps = .ok infos) {p : Alloc.Part} (hp : p ∈ ps) (hpf : p.fixed = none)
    {app : AppInfo} {r i0 : Nat} {entries : List (REntry × MInfo)} (hne : entries ≠ [])
    (happ : .app p.ident p.pre app.key.toNat app.mask.toNat app.machineMask.toNat app.nBitsAtoms
      app.maxIndex ∈ infos)
    (heach : ∀ j e info, entries[j]? = some (e, info) → e.route = r ∧ info.index = i0 + j ∧
      ∃ v ∈ p.outgoing, .mach p.ident v.id info.key.toNat info.mask.toNat info.index ∈ infos) :
    ∃ m, Zoned app m r i0 entries ∧
      app.mask.toNat = 2 ^ 32 - 1 - (2 ^ (app.nBitsAtoms + m) - 1) := by
  obtain ⟨d, z', used, ab, L, hs⟩ := Alloc.allocate_ok hwf hi hc h
  have hlen : 0 < entries.length := List.length_pos_iff.2 hne
  have hout : p.outgoing ≠ [] := by
    obtain ⟨-, -, v, hv, -⟩ := heach 0 _ _ (List.getElem?_eq_getElem hlen)
    intro h0
    rw [h0] at hv
    simp at hv
  have hnone := (hs.all.none p hp hpf).1
  obtain ⟨ap, hap⟩ := hs.number hp hout
  have happ' : Alloc.Info.app p.ident p.pre (ap * 2 ^ z'.both) (maskOf z'.both)
      (maskOf (Alloc.bitsOf flexible z' p).1) (Alloc.bitsOf flexible z' p).1
      (((Alloc.sortMachine p.outgoing).length : Int) - 1) ∈ infos := by
    refine hs.mem ⟨p, hp, hpf⟩ hap (List.mem_append.2 (.inr (List.mem_singleton.2 ?_)))
    unfold Alloc.appKmOf
    simp only [hnone]
  have heq := Alloc.info_unique hs.nodup happ happ' rfl
  simp only [Alloc.Info.app.injEq, true_and] at heq
  obtain ⟨e1, e2, e3, e4, e5⟩ := heq
  obtain ⟨m, hm⟩ : ∃ m, app.nBitsAtoms + m = z'.both := by
    obtain ⟨-, -, v, hv, -⟩ := heach 0 _ _ (List.getElem?_eq_getElem hlen)
    obtain ⟨_, _, a, m, _, _, _, ham, _, ha, _⟩ := hs.free_mach hc hp hpf hv
    exact ⟨m, by rw [e4, ← ha, ham]⟩
  have hmach : ∀ j e info, entries[j]? = some (e, info) → i0 + j < 2 ^ m ∧
      i0 + j < p.outgoing.length ∧
      info.key.toNat = app.key.toNat + (i0 + j) * 2 ^ app.nBitsAtoms ∧ info.mask = app.machineMask := by
    intro j e info hg
    obtain ⟨-, hix, v, hv, hmem⟩ := heach j e info hg
    obtain ⟨ap', i, a, m', hap', hgv, him, ham, _, ha, hmem'⟩ := hs.free_mach hc hp hpf hv
    have hapeq : ap = ap' := hs.index_fun hwf hap hap'
    subst hapeq
    have heq := Alloc.info_unique hs.nodup hmem hmem' rfl
    simp only [Alloc.Info.mach.injEq, true_and] at heq
    have haa : app.nBitsAtoms = a := by rw [e4, ha]
    have hmm : m = m' := by omega
    subst hmm
    have hil := (List.getElem?_eq_some_iff.1 hgv).1
    rw [(Alloc.sortMachine_perm _).length_eq] at hil
    obtain ⟨q1, q2, q3⟩ := heq
    refine ⟨by omega, by omega, ?_, ?_⟩
    · rw [q1, e1, haa, ← ham, Nat.pow_add, ← q3, hix, Nat.add_mul]
      ac_rfl
    · apply BitVec.eq_of_toNat_eq
      rw [q2, e3, ← ha]
  have hlast := hmach (entries.length - 1) _ _ (List.getElem?_eq_getElem (by omega))
  have h32 := hs.both_le
  refine ⟨m, ⟨by omega, ⟨ap, by rw [e1, hm]⟩, by rw [e3, e4]; rfl, ?_, hne, by omega, ?_⟩, ?_⟩
  · intro j e info hg
    obtain ⟨h1, h2, -⟩ := heach j e info hg
    exact ⟨h1, h2, (hmach j e info hg).2.2⟩
  · rw [e5, (Alloc.sortMachine_perm _).length_eq]
    omega
  · rw [e2, hm]
    rfl

end Pacman.Gen
