import Verif.Proofs.MergeEntries
import Verif.Props.Allocator
/-
C22: `merge_machine_entries`.
-/

namespace Pacman.Gen

open ByPart (REntry)
open Alloc (maskOf)

/-- **C22.** Merging consecutive machine vertices of one application vertex with keys from the zoned
allocator and with one route succeeds, and gives disjoint entries that could have been constructed.  They
send each key of each vertex to its route, and are defaultable or not like some given entry.  Any other key they match lies in the block of the application
vertex, after the last machine vertex, and this only if the last machine vertex is among those given. -/
theorem C22_merge_preserves {app : AppInfo} {m r i0 : Nat} {entries : List (REntry × MInfo)}
    (hz : Zoned app m r i0 entries)
    (hm : app.mask.toNat = 2 ^ 32 - 1 - (2 ^ (app.nBitsAtoms + m) - 1)) :
    ∃ out, mergeEntries app entries = .ok out ∧ AllValid out ∧ Orthogonal out ∧
      (∀ p ∈ entries, ∀ x, p.2.Owns x → routeOf out x = some p.1.route) ∧
      (∀ e ∈ out, ∀ x, e.Matches x → app.Owns x) ∧
      (∀ e ∈ out, ∃ p ∈ entries, p.1.defaultable = e.defaultable) ∧
      (∀ e ∈ out, ∀ x, e.Matches x → (∃ p ∈ entries, p.2.Owns x) ∨
        (∃ p ∈ entries, (p.2.index : Int) = app.maxIndex) ∧
          app.key.toNat + (app.maxIndex + 1) * 2 ^ app.nBitsAtoms ≤ (x.toNat : Int)) := by
  obtain ⟨out, hi, ho, hc, hend⟩ := mergeLoop_merge hz
  have hcov := hc.covers
  obtain ⟨b, hb⟩ := hz.base
  have hbits := hz.bits
  have hfits := hz.fits
  have hbase : app.key.toNat / 2 ^ app.nBitsAtoms = b * 2 ^ m := by
    rw [hb, Nat.pow_add, Nat.mul_comm (2 ^ _), ← Nat.mul_assoc,
      Nat.mul_div_cancel _ (Nat.two_pow_pos _)]
  have hkey : app.key.toNat = b * 2 ^ m * 2 ^ app.nBitsAtoms := by
    rw [hb, Nat.pow_add, Nat.mul_comm (2 ^ _), Nat.mul_assoc]
  have howns : ∀ j e info, entries[j]? = some (e, info) → ∀ x : Word,
      info.Owns x ↔ x.toNat / 2 ^ app.nBitsAtoms = b * 2 ^ m + (i0 + j) := by
    intro j e info hg x
    obtain ⟨-, -, hk, hmask⟩ := hz.each j e info hg
    rw [← Alloc.covers_maskOf (by omega)]
    unfold MInfo.Owns Alloc.Covers
    rw [← BitVec.toNat_inj, BitVec.toNat_and, hmask, hz.mask, hk, hkey, ← Nat.add_mul]
    rfl
  have happ : ∀ x : Word, app.Owns x ↔ x.toNat / 2 ^ (app.nBitsAtoms + m) = b := by
    intro x
    rw [← Alloc.covers_maskOf (by omega)]
    unfold AppInfo.Owns Alloc.Covers
    rw [← BitVec.toNat_inj, BitVec.toNat_and, hm, hb]
    rfl
  have hrange : ∀ e ∈ out, ∀ x : Word, e.Matches x → b * 2 ^ m + i0 ≤ x.toNat / 2 ^ app.nBitsAtoms ∧
      x.toNat / 2 ^ app.nBitsAtoms < b * 2 ^ m + hi := by
    intro e he x hx
    have := (hcov x).1 ⟨e, he, hx⟩
    rwa [hbase] at this
  have hhi : hi ≤ 2 ^ m := by
    rcases hend with h | h
    · omega
    · exact h.2.2
  refine ⟨out, ho, fun e he => (hc.each e he).1, hc.orthogonal, ?_, ?_, ?_, ?_⟩
  · rintro ⟨e, info⟩ hp x hx
    obtain ⟨j, hj⟩ := List.mem_iff_getElem?.1 hp
    have hjl := (List.getElem?_eq_some_iff.1 hj).1
    have h1 := (howns j e info hj x).1 hx
    obtain ⟨e', he', hx'⟩ := (hcov x).2 (by rw [hbase]; rcases hend with h | h <;> omega)
    unfold routeOf lookup
    cases hf : out.find? (fun e => decide (e.Matches x)) with
    | none =>
      rw [List.find?_eq_none] at hf
      exact absurd hx' (by simpa using hf e' he')
    | some e'' =>
      have := (hc.each e'' (List.mem_of_find?_eq_some hf)).2.1
      simp only [Option.map_some, this, (hz.each j e info hj).1]
  · intro e he x hx
    have := hrange e he x hx
    rw [happ, Nat.pow_add, ← Nat.div_div_eq_div_mul, Nat.div_eq_iff (Nat.two_pow_pos m)]
    omega
  · intro e he
    obtain ⟨p, hp, hd⟩ := List.mem_map.1 (hc.each e he).2.2
    exact ⟨p, hp, hd⟩
  · intro e he x hx
    have h1 := hrange e he x hx
    by_cases h2 : x.toNat / 2 ^ app.nBitsAtoms < b * 2 ^ m + (i0 + entries.length)
    · left
      obtain ⟨j, hj⟩ := Nat.exists_eq_add_of_le h1.1
      have hjl : j < entries.length := by omega
      refine ⟨entries[j], List.getElem_mem hjl, ?_⟩
      exact (howns j _ _ (List.getElem?_eq_getElem hjl) x).2 (by omega)
    · right
      rcases hend with h | h
      · omega
      · have hlast : app.maxIndex + 1 = ((i0 + entries.length : Nat) : Int) := h.1
        have hpos : 0 < entries.length := List.length_pos_iff.2 hz.some
        have hlt : entries.length - 1 < entries.length := by omega
        obtain ⟨⟨re, info⟩, hg⟩ : ∃ p, entries[entries.length - 1]? = some p :=
          ⟨_, List.getElem?_eq_getElem hlt⟩
        refine ⟨⟨_, List.mem_of_getElem? hg, ?_⟩, ?_⟩
        · have := (hz.each _ re info hg).2.1
          simp only
          omega
        have h3 : (b * 2 ^ m + (i0 + entries.length)) * 2 ^ app.nBitsAtoms ≤ x.toNat :=
          (Nat.le_div_iff_mul_le (Nat.two_pow_pos _)).1 (by omega)
        rw [hlast, hkey]
        rw [Nat.add_mul] at h3
        exact_mod_cast h3

/-- Machine vertices 2 to 6 of an application vertex with 8 vertices of 16 keys from `0x400`. -/
def sampleApp : AppInfo := ⟨0x400, 0xFFFFFF80, 0xFFFFFFF0, 4, 7⟩

/-- Their entries, with route 5. -/
def sample : List (REntry × MInfo) :=
  [(⟨5, false⟩, ⟨0x420, 0xFFFFFFF0, 2⟩), (⟨5, true⟩, ⟨0x430, 0xFFFFFFF0, 3⟩),
   (⟨5, false⟩, ⟨0x440, 0xFFFFFFF0, 4⟩), (⟨5, false⟩, ⟨0x450, 0xFFFFFFF0, 5⟩),
   (⟨5, false⟩, ⟨0x460, 0xFFFFFFF0, 6⟩)]

theorem sample_zoned : Zoned sampleApp 3 5 2 sample := by
  refine ⟨by decide +kernel, ⟨8, by decide +kernel⟩, by decide +kernel, ?_, by decide +kernel, by decide +kernel, by decide +kernel⟩
  intro j e info h
  have hj : j < 5 := (List.getElem?_eq_some_iff.1 h).1
  have : j = 0 ∨ j = 1 ∨ j = 2 ∨ j = 3 ∨ j = 4 := by omega
  rcases this with rfl | rfl | rfl | rfl | rfl <;>
    (simp only [sample, List.getElem?_cons_zero, List.getElem?_cons_succ, Option.some.injEq,
      Prod.mk.injEq] at h
     obtain ⟨rfl, rfl⟩ := h
     decide +kernel)

/-- The hypotheses hold, and the entries are those of vertices 2 and 3, 4 and 5, and 6. -/
example : (∃ out, mergeEntries sampleApp sample = .ok out ∧ AllValid out ∧ Orthogonal out) ∧
    mergeEntries sampleApp sample = .ok [⟨0x420, 0xFFFFFFE0, 5, false⟩, ⟨0x440, 0xFFFFFFE0, 5, false⟩,
      ⟨0x460, 0xFFFFFFF0, 5, false⟩] := by
  obtain ⟨out, h1, h2, h3, -⟩ := C22_merge_preserves sample_zoned (by decide +kernel)
  exact ⟨⟨out, h1, h2, h3⟩, by decide +kernel⟩

/-- **C22, for what the allocator returns.** In both modes, for an application vertex without a fixed key:
any consecutive machine vertices of it, with the keys the allocator gave them and one route, are merged
into entries that send each of their keys to that route and match nothing outside the block of the
application vertex.  What is missing is application vertices with fixed keys, see
`C22_fixed_keys_lost`. -/
theorem C22_allocated_partial {flexible : Bool} {ps : List Alloc.Part} {infos : Alloc.Infos}
    (hwf : Alloc.WF ps) (hi : Alloc.NoIdleFixed ps) (hc : Alloc.Counted ps)
    (h : Alloc.allocate flexible ps = .ok infos) {p : Alloc.Part} (hp : p ∈ ps) (hpf : p.fixed = none)
    {app : AppInfo} {r i0 : Nat} {entries : List (REntry × MInfo)} (hne : entries ≠ [])
    (happ : .app p.ident p.pre app.key.toNat app.mask.toNat app.machineMask.toNat app.nBitsAtoms
      app.maxIndex ∈ infos)
    (heach : ∀ j e info, entries[j]? = some (e, info) → e.route = r ∧ info.index = i0 + j ∧
      ∃ v ∈ p.outgoing, .mach p.ident v.id info.key.toNat info.mask.toNat info.index ∈ infos) :
    ∃ out, mergeEntries app entries = .ok out ∧ AllValid out ∧ Orthogonal out ∧
      (∀ q ∈ entries, ∀ x, q.2.Owns x → routeOf out x = some q.1.route) ∧
      (∀ e ∈ out, ∀ x, e.Matches x → app.Owns x) := by
  obtain ⟨m, hz, hm⟩ := allocated_zoned hwf hi hc h hp hpf hne happ heach
  obtain ⟨out, h1, h2, h3, h4, h5, -⟩ := C22_merge_preserves hz hm
  exact ⟨out, h1, h2, h3, h4, h5⟩

/-- The first two vertices of the partition allocated in `Alloc.mixed`. -/
example : ∃ out, mergeEntries ⟨0, 0xFFFFFF00, 0xFFFFFFF0, 4, 2⟩
      [(⟨3, false⟩, ⟨0x10, 0xFFFFFFF0, 1⟩), (⟨3, false⟩, ⟨0x20, 0xFFFFFFF0, 2⟩)] = .ok out ∧
    routeOf out 0x1F = some 3 ∧ routeOf out 0x20 = some 3 := by
  obtain ⟨out, h1, -, -, h4, -⟩ := C22_allocated_partial (r := 3) (i0 := 1)
    (app := ⟨0, 0xFFFFFF00, 0xFFFFFFF0, 4, 2⟩)
    (entries := [(⟨3, false⟩, ⟨0x10, 0xFFFFFFF0, 1⟩), (⟨3, false⟩, ⟨0x20, 0xFFFFFFF0, 2⟩)])
    Alloc.mixed_wf.1 Alloc.mixed_wf.2.1 Alloc.mixed_wf.2.2 Alloc.mixed_ok
    (p := Alloc.mixed[0]) (by decide +kernel) (by decide +kernel) (by decide +kernel) (by decide +kernel) (by
      intro j e info h
      have hj : j < 2 := (List.getElem?_eq_some_iff.1 h).1
      have : j = 0 ∨ j = 1 := by omega
      rcases this with rfl | rfl <;>
        (simp only [List.getElem?_cons_zero, List.getElem?_cons_succ, Option.some.injEq,
          Prod.mk.injEq] at h
         obtain ⟨rfl, rfl⟩ := h
         decide +kernel))
  refine ⟨out, h1, h4 _ List.mem_cons_self _ ?_, h4 _ (List.mem_cons_of_mem _ List.mem_cons_self) _ ?_⟩
  · unfold MInfo.Owns; decide +kernel
  · unfold MInfo.Owns; decide +kernel

/-- **C22 is false for fixed keys.** Two machine vertices with the fixed keys `0` and `0x200`, of 256 keys
each, in an application block of 4096 keys, beside another application vertex.  The allocator accepts this
and numbers them 0 and 1.  They are merged to one entry for `0` to `0x1FF`: the second vertex has no route at all. -/
theorem C22_fixed_keys_lost :
    Alloc.allocate true [⟨1, 0, [⟨10, 256, 0, some (0, 0xFFFFFF00), 0⟩,
        ⟨11, 256, 256, some (0x200, 0xFFFFFF00), 1⟩], some (0, 0xFFFFF000), 2⟩,
        ⟨2, 0, [Alloc.free 20 4096 0], none, 1⟩] =
      .ok [.mach 0 10 0 0xFFFFFF00 0, .mach 0 11 0x200 0xFFFFFF00 1,
        .app 0 1 0 0xFFFFF000 0xFFFFFF00 8 1,
        .mach 0 20 0x2000 0xFFFFF000 0, .app 0 2 0x2000 0xFFFFF000 0xFFFFF000 12 0] ∧
    ∃ out, mergeEntries ⟨0, 0xFFFFF000, 0xFFFFFF00, 8, 1⟩
        [(⟨3, false⟩, ⟨0, 0xFFFFFF00, 0⟩), (⟨3, false⟩, ⟨0x200, 0xFFFFFF00, 1⟩)] = .ok out ∧
      routeOf out 0x200 = none ∧ routeOf out 0x100 = some 3 := by
  refine ⟨by decide +kernel, [⟨0, 0xFFFFFE00, 3, false⟩], by decide +kernel, by decide +kernel, by decide +kernel⟩

end Pacman.Gen
