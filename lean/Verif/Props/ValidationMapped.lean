import Verif.Spec.ValidationMapped
import Verif.Proofs.ValidationAccepts
import Verif.Props.Validation
import Verif.Props.Wanted
import Verif.Props.CompressedFits
/-
C124: the routes that the mapping makes for a graph pass the check of the routes (false; partial).
-/

namespace Pacman.Pipe

open Alloc (VId Infos)
open Router (Net NetContract NoReturns NetAllSend NetOutside NetWants NetSends NetAsked Leaves Even Listed heading
  entryFor)
open RPath (XY)
open Tables (TablesMap tablesOf)
open Gen (ofInfos)
open Valid (Way)

/-- A packet without a direction at first takes the same ways in both accounts. -/
theorem way_trip {V : Valid.Scene} {k : Word} {src : XY} {w : List Nat} {c : XY} (h : Way V k src w c) :
    (∀ l ∈ w, l < 6) ∧ Trip V k src none w c := by
  induction h with
  | start => exact ⟨by simp, .start⟩
  | hop _ h2 h3 h4 h5 ih =>
    exact ⟨fun l hl => (List.mem_cons.mp hl).elim (fun h => h ▸ h3) (ih.1 l), .hop ih.2 (Or.inl ⟨_, h2, h4⟩) h3 h5⟩
  | straight _ h2 h5 ih =>
    have h3 := ih.1 _ List.mem_cons_self
    exact ⟨fun l hl => (List.mem_cons.mp hl).elim (fun h => h ▸ h3) (ih.1 l), .hop ih.2 (Or.inr ⟨h2, rfl⟩) h3 h5⟩

section
variable {N : Net} {K : Keys} {fuel : Nat} {S : ByPart.State} {infos : Infos} {g : Generator}
  {same : Entry → Entry → Bool} {tm : TablesMap} {a ident m : Nat} {k : Word}

theorem infos_nodup (hN : NetContract N) (hK : KeyContract N K) (ha : Allocated N K infos) :
    (infos.map Alloc.Info.of).Nodup := by
  obtain ⟨ps, hps, fl, -, hal⟩ := allocated_ok ha
  obtain ⟨d, z', used, ab, L, sh⟩ := Alloc.allocate_ok (parts_wf hN hK hps) (parts_idle hK hps)
    (parts_counted hK hps) hal
  exact sh.nodup

/-- The entries of a chip are disjoint, valid, and their keys are blocks. -/
theorem entries_good (hN : NetContract N) (hn : NoReturns N.base) (hK : KeyContract N K) (hB : FixedBlocks K)
    (hp : Positive N.base.T) (h : Router.routeGraph N fuel = .ok S) (ha : Allocated N K infos)
    (hg : generate g same (ofInfos infos N.base.appOf) S = .ok tm) (c : XY) :
    AllValid ((sceneOf N.base.T tm).entries c) ∧ Orthogonal ((sceneOf N.base.T tm).entries c) ∧
      ∀ e ∈ (sceneOf N.base.T tm).entries c, Valid.BlockMask e.mask := by
  obtain ⟨tm', h1, hm, _⟩ := generate_ok g same hN hn hK hp h ha
  rw [hg] at h1
  cases h1
  have hmask := C118_masks hN hn hK hB hp h ha hg
  unfold Valid.Scene.entries
  cases hc : (sceneOf N.base.T tm).tables.get? c with
  | none => exact ⟨(by intro e he; cases he), List.Pairwise.nil, (by intro e he; cases he)⟩
  | some es =>
    obtain ⟨p, hpm, he⟩ := List.mem_map.mp (show (c, es) ∈ tm.map _ from Dict.mem_of_get? hc)
    injection he with _ he
    have ht : p.2 ∈ tablesOf tm := List.mem_map_of_mem hpm
    simp only [Option.getD_some]
    rw [← he]
    refine ⟨(hm.good _ ht).1, (hm.good _ ht).2, fun e hmem => ?_⟩
    obtain ⟨n, hn1, hn2⟩ := (hmask _ ht).2 e hmem
    refine ⟨n, hn1, ?_⟩
    rw [hn2, BitVec.toNat_ofNat, Nat.mod_eq_of_lt]
    have := Nat.two_pow_pos n
    omega

/-- On every chip that a packet gets to there is one entry for all keys of its vertex. -/
theorem way_entry (hN : NetContract N) (hn : NoReturns N.base) (ho : NetOutside N) (hK : KeyContract N K)
    (hp : Positive N.base.T) (h : Router.routeGraph N fuel = .ok S) (ha : Allocated N K infos)
    (hg : generate g same (ofInfos infos N.base.appOf) S = .ok tm) (hl : Leaves N a ident)
    (hm : NetSends N a ident m) (hk : HasKey infos m ident k) {w : List Nat} {c : XY}
    (hw : Way (sceneOf N.base.T tm) k (N.base.locate m).1 w c) :
    ∃ e ∈ (sceneOf N.base.T tm).entries c, ∀ k', HasKey infos m ident k' → e.Matches k' := by
  obtain ⟨tm', h1, h2, _⟩ := generate_ok g same hN hn hK hp h ha
  rw [hg] at h1
  cases h1
  have ht := Router.routeGraph_tidy hN hn h
  have hc := made_carries hN hK hp ht ha h2 hl hm hk
  obtain ⟨ms, j1, j2⟩ := sends_outgoing hK hm
  have hmet := fun c => Router.C79_met_partial hN hn ho h hl j1 j2 (c := c)
  obtain ⟨re, hre⟩ := Option.isSome_iff_exists.mp (hmet c (comes_of_way hp ht hc hmet hw))
  obtain ⟨v, hv, -⟩ := entryFor_present hre
  obtain ⟨t, k1, e, k2, -, -, -, k3⟩ := made_entry hN hK hp ht ha h2 hl hm hk hre
  refine ⟨e, ?_, k3⟩
  rw [scene_entries hp tm (present_chip ht hv), k1]
  exact k2

theorem wants_iff (hN : NetContract N) (hL : Listed N) {atoms : Nat → Nat} (hl : Leaves N a ident) (t : Nat) :
    Valid.Wants (checked N infos tm atoms) a ident m t ↔ NetWants N a ident m t := by
  have ha : a ∈ N.verts := by
    rcases hl with ⟨p, hp, rfl, -⟩ | ⟨h, -⟩
    · exact hL p hp
    · exact h
  refine or_congr ?_ ?_
  · constructor
    · rintro ⟨p, hp, rfl, rfl, d, hd, v, hv, rfl, s, hs, hor⟩
      refine ⟨p, hp, rfl, rfl, d, hd, v, hv, rfl, s, hs, hor.imp_right ?_⟩
      rintro ⟨b, ms, rfl, h1, h2⟩
      rcases hN.sources p hp d hd v hv _ hs with h | ⟨l, x, -, -, h⟩
      · cases h
        exact ⟨rfl, ms, h1, h2⟩
      · cases h
    · rintro ⟨p, hp, rfl, rfl, d, hd, v, hv, rfl, s, hs, hor⟩
      refine ⟨p, hp, rfl, rfl, d, hd, v, hv, rfl, s, hs, hor.imp_right ?_⟩
      rintro ⟨rfl, ms, h1, h2⟩
      exact ⟨_, ms, rfl, h1, h2⟩
  · exact ⟨fun h => ⟨ha, h⟩, fun h => h.2⟩

theorem place_iff {atoms : Nat → Nat} {c : XY} {p t : Nat} : (checked N infos tm atoms).place t = some (c, p) ↔
    (N.base.locate t).1 = c ∧ (N.base.locate t).2.1 = some p := by
  show (N.base.locate t).2.1.map (fun p => ((N.base.locate t).1, p)) = some (c, p) ↔ _
  cases (N.base.locate t).2.1 with
  | none => simp
  | some q => simp

/-- C124, exactly when: the check accepts a mapped graph if and only if all targets are on cores, and no entry on the
way of a vertex begins with the key after the last one of its atoms.
Missing: sources asked for in two ways, returning ways, and so on, see `C87_exact_partial`. -/
theorem C124_exact_partial (hN : NetContract N) (hL : Listed N) (hE : Even N) (hn : NoReturns N.base)
    (hs : NetAllSend N) (ho : NetOutside N) (hK : KeyContract N K) (hB : FixedBlocks K) (hp : Positive N.base.T)
    (h : Router.routeGraph N fuel = .ok S) (ha : Allocated N K infos)
    (hg : generate g same (ofInfos infos N.base.appOf) S = .ok tm)
    (h6 : ∀ t l, (N.base.locate t).2.2 = some l → l < 6) {atoms : Nat → Nat} (hat : Keyed N infos atoms)
    {rounds : Nat} (hr : tm.length < rounds) :
    Valid.validate (checked N infos tm atoms) rounds = .ok () ↔ OnCores N ∧ NoneBeside N infos tm atoms := by
  have hgood := entries_good hN hn hK hB hp h ha hg
  have hnd := infos_nodup hN hK ha
  have hlen : (checked N infos tm atoms).scene.tables.length < rounds := by
    show (tm.map _).length < rounds
    rw [List.length_map]
    exact hr
  -- What is known of a vertex that sends from a core.
  have hone : ∀ {a ident m : Nat}, Leaves N a ident → NetSends N a ident m →
      (N.base.locate m).2.1.isSome = true → 0 < atoms m ∧ ∃ key mask index, .mach ident m key mask index ∈ infos ∧
        (BitVec.ofNat 32 key).toNat = key ∧ key + atoms m ≤ 2 ^ 32 ∧
        (checked N infos tm atoms).info m ident = some (BitVec.ofNat 32 key) ∧
        ∀ i, i < atoms m → HasKey infos m ident (BitVec.ofNat 32 key + BitVec.ofNat 32 i) := by
    intro a ident m hl hm hv
    obtain ⟨h0, key, mask, index, h1, h2, h3⟩ := hat a ident m hl hm hv
    have hk : (BitVec.ofNat 32 key).toNat = key := by
      rw [BitVec.toNat_ofNat]
      exact Nat.mod_eq_of_lt (by omega)
    refine ⟨h0, key, mask, index, h1, hk, h2, ?_, fun i hi => ⟨key, mask, index, h1, ?_⟩⟩
    · show (Gen.machIn infos m ident).map (·.key) = _
      rw [Gen.machIn_eq hnd h1]
      rfl
    · rw [Valid.key_add (by rw [hk]; exact h2) hi, hk]
      exact h3 i hi
  have halike : ∀ k k', Valid.Alike (sceneOf N.base.T tm) k k' := by
    intro k k' c e he hm
    exact absurd ((hgood c).2.2 e he) hm
  constructor
  · intro hv
    refine ⟨?_, ?_⟩
    · intro a ident t hl ht
      have := Valid.validate_placed hv hN.distinct hl ht
      simpa [checked] using this
    · intro a ident m key mask index hl hm hv' hmem w c hw e he hek
      obtain ⟨h0, key', mask', index', h1, h2, h3, h4, h5⟩ := hone hl hm hv'
      have := Alloc.info_unique hnd hmem h1 rfl
      rw [Alloc.Info.mach.injEq] at this
      obtain ⟨-, -, rfl, rfl, rfl⟩ := this
      obtain ⟨-, at_, key', dests, k1, k2, k3, -⟩ := Valid.validate_ok hv hN.distinct hl hm
        (by show (N.base.locate m).2.1.isNone = false; rw [Option.isNone_eq_false_iff]; exact hv')
      rw [h4] at k2
      cases k2
      obtain ⟨ax, ap⟩ := at_
      obtain ⟨rfl, -⟩ := place_iff.mp k1
      have k3' : Valid.search (sceneOf N.base.T tm) rounds (N.base.locate m).1 dests (BitVec.ofNat 32 key) (atoms m) =
        .ok () := k3
      obtain ⟨st, m1, -⟩ := Valid.search_ok.mp k3'
      have hz : BitVec.ofNat 32 key + BitVec.ofNat 32 0 = BitVec.ofNat 32 key := by simp
      have hk0 : HasKey infos m ident (BitVec.ofNat 32 key) := by
        have := h5 0 h0
        rwa [hz] at this
      have htab : ∀ w c, Way (sceneOf N.base.T tm) (BitVec.ofNat 32 key) (N.base.locate m).1 w c →
          ((sceneOf N.base.T tm).tables.get? c).isSome = true := by
        intro w c hw
        obtain ⟨e, he, -⟩ := way_entry hN hn ho hK hp h ha hg hl hm hk0 hw
        unfold Valid.Scene.entries at he
        cases hc : (sceneOf N.base.T tm).tables.get? c with
        | none => rw [hc] at he; cases he
        | some t => rfl
      rcases Valid.start_ok m1 with ⟨m2, -⟩ | ⟨e', -, m2⟩
      · have := htab _ _ .start
        rw [m2] at this
        cases this
      · have hst := Valid.steps_of_way (i := 0) (by rw [h2]; exact h3) h0 (halike _ _) m2
          (by rw [hz]; exact fun l w c hw => htab _ _ hw) (w := w) (c := c) (by rw [hz]; exact hw)
        obtain ⟨e'', t, m3, m4⟩ := m2.found hst
        have he' : e ∈ t := by
          unfold Valid.Scene.entries at he
          rw [m3] at he
          exact he
        exact Valid.C42_beside he' ((hgood c).1 e he) ((hgood c).2.2 e he) (by rw [h2]; exact hek) h0 e'' m4
  · rintro ⟨hcore, hnone⟩
    obtain ⟨r, hpart, -⟩ := Router.routeGraph_ok h
    have hleaves : ∀ p ∈ r, Leaves N p.pre p.ident := by
      intro p hpr
      obtain ⟨extra, rfl, h3, _⟩ := Router.appPartitions_ok hpart
      rcases List.mem_append.mp hpr with hq | hq
      · exact Or.inl ⟨p, hq, rfl, rfl⟩
      · obtain ⟨-, -, k1, k2⟩ := h3 p hq
        exact Or.inr ⟨k1, k2⟩
    have hout : ∀ {a ident}, Leaves N a ident → (N.outgoing ident a).isSome = true := by
      intro a ident hl
      obtain ⟨ps, hps, -⟩ := allocated_ok ha
      obtain ⟨q, hq, rfl, rfl⟩ := (vertexParts_ok hps).2.2 a ident (Or.inl hl)
      obtain ⟨ms, k1, -⟩ := ((vertexParts_ok hps).2.1 q hq).1.out
      rw [k1]
      rfl
    refine Valid.validate_accepts hpart hN.distinct ?_ ?_ ?_ ?_
    · intro p hp d hd v hv b hb
      rcases hN.sources p hp d hd v hv _ hb with hs' | ⟨l, x, -, -, hs'⟩
      · cases hs'
        exact hout (Or.inl ⟨p, hp, rfl, rfl⟩)
      · cases hs'
    · intro p hpr
      refine ⟨hout (hleaves p hpr), ?_⟩
      have hv : p.pre ∈ N.verts := by
        rcases hleaves p hpr with ⟨q, hq, k1, -⟩ | ⟨k1, -⟩
        · rw [← k1]; exact hL q hq
        · exact k1
      obtain ⟨extra, -, -, h3, _⟩ := Router.appPartitions_ok hpart
      obtain ⟨is, his, -⟩ := h3 _ hv
      show (N.internals p.pre).isSome = true
      rw [his]
      rfl
    · intro p hpr t ht
      have := hcore _ _ _ (hleaves p hpr) ht
      simpa [checked] using this
    · intro p hpr m hm hv
      have hl := hleaves p hpr
      have hv' : (N.base.locate m).2.1.isSome = true := by
        have hv2 : (N.base.locate m).2.1.isNone = false := hv
        rwa [Option.isNone_eq_false_iff] at hv2
      obtain ⟨q, hq⟩ := Option.isSome_iff_exists.mp hv'
      obtain ⟨h0, key, mask, index, h1, h2, h3, h4, h5⟩ := hone hl hm hv'
      refine ⟨((N.base.locate m).1, q), BitVec.ofNat 32 key, place_iff.mpr ⟨rfl, hq⟩, h4, fun dests hd hmem => ?_⟩
      have hz : BitVec.ofNat 32 key + BitVec.ofNat 32 0 = BitVec.ofNat 32 key := by simp
      have hk0 : HasKey infos m p.ident (BitVec.ofNat 32 key) := by
        have := h5 0 h0
        rwa [hz] at this
      have hhead : heading (N.base.locate m) = none := by
        unfold heading
        split
        · rename_i heq
          rw [heq] at hq
          cases hq
        · rfl
      refine Valid.C41_accepts (V := sceneOf N.base.T tm) hlen (by rw [h2]; exact h3) (fun c => (hgood c).1) ?_ ?_ ?_
        (fun i _ => halike _ _) hd ?_
      · intro w c hw
        obtain ⟨e, he, hall⟩ := way_entry hN hn ho hK hp h ha hg hl hm hk0 hw
        exact ⟨e, Gen.lookup_orth (hgood c).2.1 he (hall _ hk0)⟩
      · intro w w' c hw hw'
        refine C84_one_way_partial (c := c) hN hn hs ho hK hp h ha hg hl hm hk0 ?_ ?_
        · unfold Travels; rw [hhead]; exact (way_trip hw).2
        · unfold Travels; rw [hhead]; exact (way_trip hw').2
      · intro w c hw e he hb
        obtain ⟨e0, he0, hall⟩ := way_entry hN hn ho hK hp h ha hg hl hm hk0 hw
        by_cases hee : e = e0
        · subst hee
          exact Or.inl ⟨hall _ hk0, fun i hi => hall _ (h5 i hi)⟩
        · right
          have hno : ∀ i, i < atoms m → ¬ e.Matches (BitVec.ofNat 32 key + BitVec.ofNat 32 i) := by
            intro i hi hmt
            have l1 := Gen.lookup_orth (hgood c).2.1 he hmt
            have l2 := Gen.lookup_orth (hgood c).2.1 he0 (hall _ (h5 i hi))
            rw [l1] at l2
            exact hee (Option.some.inj l2)
          obtain ⟨e1, he1, hem⟩ := Valid.mem_rangeMasks.mp (Valid.rangeMask_iff.mpr hb)
          have hblk := Range.isBlock_of_valid ((hgood c).1 e he) he1 hem
          have hne := hnone _ _ m key mask index hl hm hv' h1 w c hw e he
          intro k hk1 hk2 hmt
          rw [h2] at hk1 hk2
          rw [hblk.matches] at hmt
          have hkat : ∀ i, i < atoms m → ¬ (e.key.toNat ≤ key + i ∧ key + i < e.key.toNat + 2 ^ e1) := by
            intro i hi
            have := hno i hi
            rw [hblk.matches, Valid.key_add (by rw [h2]; exact h3) hi, h2] at this
            exact this
          have hk2' : k.toNat = key + atoms m := by
            have := hkat (k.toNat - key)
            rcases Nat.lt_or_ge (k.toNat - key) (atoms m) with hlt | hge
            · have := this hlt
              have : key + (k.toNat - key) = k.toNat := by omega
              omega
            · show k.toNat = key + atoms m
              have : k.toNat ≤ key + atoms m := hk2
              omega
          have := hkat (atoms m - 1) (by omega)
          omega
      · intro c q'
        rw [hmem, C87_exact_partial hN hL hE hn hs ho hK hp h ha hg hl hm hk0 h6]
        constructor
        · rintro ⟨t, k1, k2⟩
          exact ⟨t, (wants_iff hN hL hl t).mp k1, place_iff.mp k2⟩
        · rintro ⟨t, k1, k2⟩
          exact ⟨t, (wants_iff hN hL hl t).mpr k1, place_iff.mpr k2⟩

/-- Keys that are fixed are a block. -/
theorem keyed_of_fixed (hN : NetContract N) (hK : KeyContract N K) {fl : Bool} {ps : List Alloc.Part}
    (hps : vertexParts N K = .ok ps) (hal : Alloc.allocate fl ps = .ok infos) (hB : FixedBlocks K) {q : Alloc.Part} (hq : q ∈ ps)
    {akm : Word × Word} (hf : K.fixed q.pre q.ident = some akm) {m : Nat} (hv : K.vertex q.ident m ∈ q.outgoing) {n : Nat}
    (hn : n ≤ sureKeys K q.pre q.ident m) :
    ∃ key mask index, .mach q.ident m key mask index ∈ infos ∧ key + n ≤ 2 ^ 32 ∧ ∀ i, i < n → (key + i) &&& mask = key := by
  have hseen := ((vertexParts_ok hps).2.1 q hq).1
  obtain ⟨-, -, c3⟩ := Alloc.C20_fixed_honoured_partial (parts_wf hN hK hps) (parts_idle hK hps) (parts_counted hK hps) hal hq
    (hseen.fixed.trans hf)
  obtain ⟨⟨j, hj, hof⟩, d2, -, -⟩ := c3 _ hv
  have hkm := d2 j hj hof
  rw [show (K.vertex q.ident m).fixed = K.machFixed m q.ident from rfl] at hkm
  have hmem : j ∈ infos := hj
  have hgood : ∃ km : Word × Word, (K.machFixed m q.ident).getD akm = km ∧ km.1 &&& km.2 = km.1 ∧ Range.Contiguous km.2 := by
    cases h : K.machFixed m q.ident with
    | none => exact ⟨akm, rfl, hK.valid _ _ _ hf, hB.app _ _ _ hf⟩
    | some km => exact ⟨km, rfl, hK.validM _ _ _ h, hB.mach _ _ _ h⟩
  obtain ⟨km, e1, e2, p, hp, e3⟩ := hgood
  unfold sureKeys at hn
  rw [hf] at hn
  simp only [e1] at hn hkm
  have hblk := Range.isBlock_of_valid (e := ⟨km.1, km.2, 0, false⟩) e2 hp e3
  have hmask : km.2.toNat = 2 ^ 32 - 2 ^ p := by rw [e3, BitVec.toNat_ofNat, Nat.mod_eq_of_lt (by have := Nat.two_pow_pos p; omega)]
  have hp2 : 2 ^ p ≤ 2 ^ 32 := Nat.pow_le_pow_right (by decide) hp
  have hroom : km.1.toNat + 2 ^ p ≤ 2 ^ 32 := by
    have h1 := hblk.dvd
    have h2 : km.1.toNat / 2 ^ p < 2 ^ (32 - p) := by
      refine Nat.div_lt_of_lt_mul ?_
      rw [← Nat.pow_add, show p + (32 - p) = 32 by omega]
      exact km.1.isLt
    have h3 : (km.1.toNat / 2 ^ p + 1) * 2 ^ p ≤ 2 ^ (32 - p) * 2 ^ p := Nat.mul_le_mul_right _ h2
    rw [← Nat.pow_add, show 32 - p + p = 32 by omega, Nat.add_mul, Nat.one_mul] at h3
    have h4 : (⟨km.1, km.2, 0, false⟩ : Entry).key.toNat = km.1.toNat := rfl
    rw [h4] at h1
    omega
  cases j with
  | app => simp [Alloc.Info.of] at hof
  | mach a1 a2 a3 a4 a5 =>
    simp only [Alloc.Info.of, Prod.mk.injEq, VId.mach.injEq] at hof
    simp only [Alloc.Info.km, Prod.mk.injEq] at hkm
    obtain ⟨rfl, hof⟩ := hof
    have hof : a2 = m := hof
    subst hof
    obtain ⟨rfl, rfl⟩ := hkm
    refine ⟨_, _, _, hmem, by omega, fun i hi => ?_⟩
    have hlt : km.1.toNat + i < 2 ^ 32 := by omega
    have h1 := (hblk.matches (BitVec.ofNat 32 (km.1.toNat + i))).2 (by
      rw [BitVec.toNat_ofNat, Nat.mod_eq_of_lt hlt]
      exact ⟨Nat.le_add_right _ _, by show km.1.toNat + i < km.1.toNat + 2 ^ p; omega⟩)
    have h2 : BitVec.ofNat 32 (km.1.toNat + i) &&& km.2 = km.1 := h1
    have h3 := congrArg BitVec.toNat h2
    rwa [BitVec.toNat_and, BitVec.toNat_ofNat, Nat.mod_eq_of_lt hlt] at h3

/-- Vertices that are sure to get at least one key for each of their atoms have them. -/
theorem keyed_of_asked (hN : NetContract N) (hK : KeyContract N K) (ha : Allocated N K infos) (hB : FixedBlocks K)
    {atoms : Nat → Nat}
    (hat : ∀ a ident m, Leaves N a ident → NetSends N a ident m → 0 < atoms m ∧ atoms m ≤ sureKeys K a ident m) :
    Keyed N infos atoms := by
  intro a ident m hl hm _
  refine ⟨(hat a ident m hl hm).1, ?_⟩
  obtain ⟨ps, hps, fl, -, hal⟩ := allocated_ok ha
  obtain ⟨q, hq, rfl, rfl⟩ := (vertexParts_ok hps).2.2 a ident (Or.inl hl)
  have hseen := ((vertexParts_ok hps).2.1 q hq).1
  obtain ⟨ms, k1, k2⟩ := hseen.out
  obtain ⟨ms', j1, j2⟩ := sends_outgoing hK hm
  rw [k1] at j1
  cases j1
  have hv : K.vertex q.ident m ∈ q.outgoing := by rw [k2]; exact List.mem_map.mpr ⟨m, j2, rfl⟩
  cases hf : K.fixed q.pre q.ident with
  | some akm => exact keyed_of_fixed hN hK hps hal hB hq hf hv (hat _ _ m hl hm).2
  | none =>
    obtain ⟨k, mask, i, b, _, _, _, _, _, hmem, _, _, _, hkeys, hle, hcov, _⟩ :=
      Alloc.C19_block_fits (parts_wf hN hK hps) (parts_idle hK hps) (parts_counted hK hps) hal hq
        (by rw [hseen.fixed]; exact hf) hv
    have hn : atoms m ≤ 2 ^ b := by
      have h1 := (hat _ _ m hl hm).2
      unfold sureKeys at h1
      rw [hf] at h1
      exact Nat.le_trans h1 hkeys
    refine ⟨k, mask, i, hmem, by omega, fun j hj => ?_⟩
    have e : (BitVec.ofNat 32 (k + j)).toNat = k + j := by
      rw [BitVec.toNat_ofNat, Nat.mod_eq_of_lt (by omega)]
    have := (hcov (BitVec.ofNat 32 (k + j))).mpr (by rw [e]; omega)
    unfold Alloc.Covers at this
    rwa [e] at this

/-- C124, the part that holds: if all targets are on cores, and each vertex has a key for at least one atom more than
it has, the check accepts the mapped graph.
Missing: see `C124_full` and `C124_exact_partial`. -/
theorem C124_spare_partial (hN : NetContract N) (hL : Listed N) (hE : Even N) (hn : NoReturns N.base)
    (hs : NetAllSend N) (ho : NetOutside N) (hK : KeyContract N K) (hB : FixedBlocks K) (hp : Positive N.base.T)
    (h : Router.routeGraph N fuel = .ok S) (ha : Allocated N K infos)
    (hg : generate g same (ofInfos infos N.base.appOf) S = .ok tm)
    (h6 : ∀ t l, (N.base.locate t).2.2 = some l → l < 6) {atoms : Nat → Nat}
    (h0 : ∀ a ident m, Leaves N a ident → NetSends N a ident m → 0 < atoms m)
    (hat : Keyed N infos (fun m => atoms m + 1)) (hc : OnCores N)
    {rounds : Nat} (hr : tm.length < rounds) :
    Valid.validate (checked N infos tm atoms) rounds = .ok () := by
  refine (C124_exact_partial hN hL hE hn hs ho hK hB hp h ha hg h6 ?_ hr).mpr ⟨hc, ?_⟩
  · intro a ident m hl hm hv
    obtain ⟨-, key, mask, index, h1, h2, h3⟩ := hat a ident m hl hm hv
    simp only at h2 h3
    exact ⟨h0 a ident m hl hm, key, mask, index, h1, by omega, fun i hi => h3 i (by omega)⟩
  · intro a ident m key mask index hl hm hv hmem w c hw e he hek
    obtain ⟨-, key', mask', index', h1, h2, h3⟩ := hat a ident m hl hm hv
    have := Alloc.info_unique (infos_nodup hN hK ha) hmem h1 rfl
    rw [Alloc.Info.mach.injEq] at this
    obtain ⟨-, -, rfl, rfl, rfl⟩ := this
    have hkey : ∀ i, i < atoms m + 1 → ∀ k : Word, k.toNat = key + i → HasKey infos m ident k :=
      fun i hi k hk => ⟨key, mask, index, h1, by rw [hk]; exact h3 i hi⟩
    have hk : (BitVec.ofNat 32 key).toNat = key := by
      rw [BitVec.toNat_ofNat]
      exact Nat.mod_eq_of_lt (by omega)
    obtain ⟨e0, he0, hall⟩ := way_entry hN hn ho hK hp h ha hg hl hm (hkey 0 (by omega) _ (by rw [hk]; rfl)) hw
    obtain ⟨hval, horth, hblk⟩ := entries_good hN hn hK hB hp h ha hg c
    have hself : e.Matches e.key := hval e he
    have l1 := Gen.lookup_orth horth he hself
    have l2 := Gen.lookup_orth horth he0 (hall e.key (hkey (atoms m) (by omega) _ hek))
    rw [l1] at l2
    cases l2
    have hm0 := hall (BitVec.ofNat 32 key) (hkey 0 (by omega) _ (by rw [hk]; rfl))
    obtain ⟨p, hp1, hpm⟩ := Valid.mem_rangeMasks.mp (Valid.rangeMask_iff.mpr (hblk e he))
    rw [(Range.isBlock_of_valid (hval e he) hp1 hpm).matches, hk] at hm0
    have := h0 a ident m hl hm
    omega

/-- C124 for vertices that ask for more keys than they have atoms, or have more of them fixed.
Missing: see `C124_spare_partial`. -/
theorem C124_asked_partial (hN : NetContract N) (hL : Listed N) (hE : Even N) (hn : NoReturns N.base)
    (hs : NetAllSend N) (ho : NetOutside N) (hK : KeyContract N K) (hB : FixedBlocks K) (hp : Positive N.base.T)
    (h : Router.routeGraph N fuel = .ok S) (ha : Allocated N K infos)
    (hg : generate g same (ofInfos infos N.base.appOf) S = .ok tm)
    (h6 : ∀ t l, (N.base.locate t).2.2 = some l → l < 6)
    {atoms : Nat → Nat}
    (hat : ∀ a ident m, Leaves N a ident → NetSends N a ident m → 0 < atoms m ∧ atoms m < sureKeys K a ident m)
    (hc : OnCores N)
    {rounds : Nat} (hr : tm.length < rounds) :
    Valid.validate (checked N infos tm atoms) rounds = .ok () :=
  C124_spare_partial hN hL hE hn hs ho hK hB hp h ha hg h6
    (fun a ident m hl hm => (hat a ident m hl hm).1)
    (keyed_of_asked hN hK ha hB (fun a ident m hl hm => ⟨by omega, (hat a ident m hl hm).2⟩)) hc hr

end

/-! ### Graphs that are refused -/

/-- C124: the check accepts what the mapping makes of a graph whose vertices have a key for each of their atoms. -/
def C124_full : Prop := ∀ (N : Net) (K : Keys) (fuel : Nat) (S : ByPart.State) (infos : Infos)
  (g : Generator) (same : Entry → Entry → Bool) (tm : TablesMap) (atoms : Nat → Nat) (rounds : Nat),
  NetContract N → Listed N → Even N → NoReturns N.base → NetAllSend N → NetOutside N → KeyContract N K →
  FixedBlocks K → Positive N.base.T → Router.routeGraph N fuel = .ok S → Allocated N K infos →
  generate g same (ofInfos infos N.base.appOf) S = .ok tm → (∀ t l, (N.base.locate t).2.2 = some l → l < 6) →
  Keyed N infos atoms → tm.length < rounds → Valid.validate (checked N infos tm atoms) rounds = .ok ()

theorem mini_even {T : RPath.Topo} {home : XY} {vs : List MiniV} {parts : List Router.AppPart} {verts : List Nat}
    (h : ∀ p ∈ parts, p.pre ∉ p.edges) : Even (miniN false T home vs parts verts) := by
  rintro a ident c _ _ _ (⟨p, hp, rfl, rfl, d, hd, v, hv, hc, hor⟩ | ⟨is, his, i, hi, _⟩)
  · simp only [miniN, Bool.false_eq_true, if_false] at hv
    obtain ⟨x, -, rfl⟩ := List.mem_map.mp hv
    rcases hor with rfl | ⟨m, hm⟩
    · exact h p hp hd
    · simp at hm
  · simp only [miniN] at his
    cases his
    cases hi

theorem mini_cores {each : Bool} {T : RPath.Topo} {home : XY} {vs : List MiniV} {parts : List Router.AppPart}
    {verts : List Nat} : OnCores (miniN each T home vs parts verts) := by
  intro a ident t _ _
  simp only [miniN, miniC]
  split <;> rfl

theorem mini_links {each : Bool} {T : RPath.Topo} {home : XY} {vs : List MiniV} {parts : List Router.AppPart}
    {verts : List Nat} (t l : Nat) (h : ((miniN each T home vs parts verts).base.locate t).2.2 = some l) : l < 6 := by
  simp only [miniN, miniC] at h
  split at h <;> cases h

/-- One chip; application vertices 0 and 1, of one machine vertex each, send to application vertex 2. -/
def nextN : Net := miniN false (miniT [(0, 0)] []) (0, 0)
  [⟨0, (0, 0), 1, true⟩, ⟨1, (0, 0), 2, true⟩, ⟨2, (0, 0), 3, true⟩] [⟨0, 0, [2]⟩, ⟨1, 0, [2]⟩] [0, 1, 2]

/-- Sixteen keys for each vertex and identifier. -/
def fullK : Keys := { lineK with nKeys := fun _ _ => 16 }

def nextS : ByPart.State := [((0, 0), [((.mach 0, 0), ⟨512, false⟩), ((.mach 1, 0), ⟨512, false⟩)])]

def nextInfos : Infos :=
  [.mach 0 0 0 4294967280 0, .app 0 0 0 4294967280 4294967280 4 0,
   .mach 0 1 16 4294967280 0, .app 0 1 16 4294967280 4294967280 4 0]

theorem next_routed : Router.routeGraph nextN 20 = .ok nextS := by decide +kernel
theorem next_allocated : Allocated nextN fullK nextInfos := .flexible (by decide +kernel)

theorem full_keys (each : Bool) (T : RPath.Topo) (home : XY) (vs : List MiniV) (parts : List Router.AppPart)
    (verts : List Nat) : KeyContract (miniN each T home vs parts verts) fullK := by
  have h := mini_keys each T home vs parts verts
  refine ⟨h.once, h.valid, h.validM, h.idle, ?_, h.single, h.inside, h.apart, h.internal⟩
  intro a ident ms _ h1 _ h2
  cases ms with
  | nil => exact Nat.zero_le _
  | cons m ms => have := h2 m List.mem_cons_self; cases this

theorem full_blocks : FixedBlocks fullK := ⟨(by intro _ _ _ h; cases h), (by intro _ _ _ h; cases h)⟩

theorem next_listed : Listed nextN := by
  intro p hp
  simp only [nextN, miniN, List.mem_cons, List.not_mem_nil, or_false] at hp ⊢
  rcases hp with rfl | rfl <;> decide

/-- Sixteen atoms, and as many keys. -/
theorem next_keyed : Keyed nextN nextInfos (fun _ => 16) :=
  keyed_of_asked (mini_net (by decide) (by decide) (by decide)) (full_keys _ _ _ _ _ _) next_allocated
    ⟨fun _ _ _ h => (by cases h), fun _ _ _ h => (by cases h)⟩ (fun _ _ _ _ _ => ⟨by omega, Nat.le_refl _⟩)

/-- What is refused: the keys 0-15 of the sixteen atoms of machine vertex 0 end where those of machine vertex 1 begin,
so an error is raised, whichever generator made the tables. -/
theorem C124_beside (g : Generator) : ∃ tm, generate g (fun _ _ => true) (ofInfos nextInfos nextN.base.appOf) nextS =
    .ok tm ∧ Valid.validate (checked nextN nextInfos tm (fun _ => 16)) 2 = .error .configuration := by
  cases g with
  | basic =>
    refine ⟨[((0, 0), .u ⟨0, 0, [((0, 0xfffffff0), ⟨0, 0xfffffff0, 512, false⟩),
      ((16, 0xfffffff0), ⟨16, 0xfffffff0, 512, false⟩)], 0⟩)], ?_, ?_⟩ <;> decide +kernel
  | merged =>
    refine ⟨[((0, 0), .u ⟨0, 0, [((0, 0xfffffff0), ⟨0, 0xfffffff0, 512, false⟩),
      ((16, 0xfffffff0), ⟨16, 0xfffffff0, 512, false⟩)], 0⟩)], ?_, ?_⟩ <;> decide +kernel

/-- C124 is false: the key after the last one is taken for one of the vertex. -/
theorem C124_false_beside : ¬ C124_full := by
  intro h
  obtain ⟨tm, h1, h2⟩ := C124_beside .merged
  have hlen : tm.length < 2 := by
    have : generate .merged (fun _ _ => true) (ofInfos nextInfos nextN.base.appOf) nextS = .ok
      [((0, 0), .u ⟨0, 0, [((0, 0xfffffff0), ⟨0, 0xfffffff0, 512, false⟩),
        ((16, 0xfffffff0), ⟨16, 0xfffffff0, 512, false⟩)], 0⟩)] := by decide +kernel
    rw [this] at h1
    cases h1
    decide
  have := h nextN fullK 20 nextS nextInfos .merged _ tm (fun _ => 16) 2 (mini_net (by decide) (by decide) (by decide))
    next_listed (mini_even (by decide)) (mini_noReturns _ (by decide +kernel) _ _ _ _) (mini_allSend _ (by decide) _ _)
    (mini_outside _ _ _ _ _ _) (full_keys _ _ _ _ _ _) full_blocks (mini_positive (by decide)) next_routed
    next_allocated h1 mini_links next_keyed hlen
  rw [h2] at this
  cases this

/-- What is refused: any graph with a device among the targets. The check asks where all targets are placed, and
devices are not. -/
theorem C124_device {N : Net} (hd : (N.parts.map (fun p => (p.pre, p.ident))).Nodup) {a ident t : Nat}
    (hl : Leaves N a ident) (ht : NetAsked N a ident t) (hv : (N.base.locate t).2.1 = none) (infos : Infos)
    (tm : TablesMap) (atoms : Nat → Nat) (rounds : Nat) :
    Valid.validate (checked N infos tm atoms) rounds ≠ .ok () := by
  intro h
  have := Valid.validate_placed (W := checked N infos tm atoms) h hd hl ht
  simp [checked, hv] at this

/-- The routes of `devN` are right (C87), but an error is raised: the device is not placed. -/
example : ∃ tm, generate .merged (fun _ _ => true) (ofInfos mixInfos devN.base.appOf) devS = .ok tm ∧
    Valid.validate (checked devN mixInfos tm (fun _ => 10)) 3 = .error .notPlaced ∧
    Valid.validate (checked devN mixInfos tm (fun _ => 10)) 3 ≠ .ok () := by
  refine ⟨(generate .merged (fun _ _ => true) (ofInfos mixInfos devN.base.appOf) devS).toOption.getD [],
    by decide +kernel, by decide +kernel, ?_⟩
  refine C124_device (N := devN) (t := 3) (by decide) (mix_leaves (.app 0)) (Or.inl ?_) rfl _ _ _ _
  exact ⟨⟨0, 0, [1, 2]⟩, by simp [devN, mixN, miniN], rfl, rfl, 2, by simp, (3, [.app 0]), by simp [devN, mixN], rfl⟩

/-! ### Graphs that are accepted -/

theorem row_listed : Listed rowN := by
  intro p hp
  simp only [rowN, miniN, List.mem_singleton] at hp
  subst hp
  simp [rowN, miniN]

/-- Each vertex has nine atoms and asks for ten keys: accepted, with both generators. -/
example (g : Generator) (same : Entry → Entry → Bool) : ∃ tm, generate g same (ofInfos rowInfos rowN.base.appOf) rowS =
    .ok tm ∧ Valid.validate (checked rowN rowInfos tm (fun _ => 9)) (tm.length + 1) = .ok () := by
  obtain ⟨tm, h1, -⟩ := generate_ok g same row_net row_noReturns row_keys row_positive row_routed row_allocated
  exact ⟨tm, h1, C124_asked_partial row_net row_listed (mini_even (by decide)) row_noReturns row_allSend row_outside
    row_keys line_blocks row_positive row_routed row_allocated h1 mini_links
    (fun _ _ _ _ _ => by show 0 < 9 ∧ 9 < 10; omega) mini_cores (Nat.lt_succ_self _)⟩

/-- Each vertex has sixteen keys. -/
theorem row_keyed (n : Nat) (hn : n ≤ 16) (h0 : 0 < n) : Keyed rowN rowInfos (fun _ => n) := by
  intro a ident m hl hm _
  have hmem := row_list hm hl
  show 0 < n ∧ ∃ key mask index, .mach ident m key mask index ∈ rowInfos ∧ key + n ≤ 2 ^ 32 ∧
    ∀ i, i < n → (key + i) &&& mask = key
  have key : ∀ i, i < 16 → i &&& 4294967280 = 0 ∧ (16 + i) &&& 4294967280 = 16 ∧ (32 + i) &&& 4294967280 = 32 := by
    decide
  simp only [List.mem_cons, Prod.mk.injEq, List.not_mem_nil, or_false] at hmem
  rcases hmem with ⟨rfl, rfl⟩ | ⟨rfl, rfl⟩ | ⟨rfl, rfl⟩
  · exact ⟨h0, 0, 4294967280, 0, by decide, by omega, fun i hi => by rw [Nat.zero_add]; exact (key i (by omega)).1⟩
  · exact ⟨h0, 16, 4294967280, 1, by decide, by omega, fun i hi => (key i (by omega)).2.1⟩
  · exact ⟨h0, 32, 4294967280, 2, by decide, by omega, fun i hi => (key i (by omega)).2.2⟩

/-- Ten atoms, and sixteen keys. -/
example : Valid.validate (checked rowN rowInfos rowBasic (fun _ => 10)) 6 = .ok () :=
  C124_spare_partial row_net row_listed (mini_even (by decide)) row_noReturns row_allSend row_outside
    row_keys line_blocks row_positive row_routed row_allocated row_basic mini_links
    (fun _ _ _ _ _ => by omega) (row_keyed 11 (by omega) (by omega)) mini_cores (by decide +kernel)

/-- Sixteen atoms, and sixteen keys: accepted with merged entries, refused with the entries of the basic generator. -/
example : Valid.validate (checked rowN rowInfos rowMerged (fun _ => 16)) 6 = .ok () ∧
    NoneBeside rowN rowInfos rowMerged (fun _ => 16) ∧ ¬ NoneBeside rowN rowInfos rowBasic (fun _ => 16) := by
  have h1 : Valid.validate (checked rowN rowInfos rowMerged (fun _ => 16)) 6 = .ok () := by decide +kernel
  refine ⟨h1, ?_, fun h => ?_⟩
  · exact ((C124_exact_partial row_net row_listed (mini_even (by decide)) row_noReturns row_allSend row_outside
      row_keys line_blocks row_positive row_routed row_allocated row_merged mini_links
      (row_keyed 16 (by omega) (by omega)) (by decide +kernel)).mp h1).2
  · have h2 := (C124_exact_partial row_net row_listed (mini_even (by decide)) row_noReturns row_allSend row_outside
      row_keys line_blocks row_positive row_routed row_allocated row_basic mini_links
      (row_keyed 16 (by omega) (by omega)) (rounds := 6) (by decide +kernel)).mpr ⟨mini_cores, h⟩
    have h3 : Valid.validate (checked rowN rowInfos rowBasic (fun _ => 16)) 6 ≠ .ok () := by decide +kernel
    exact h3 h2

end Pacman.Pipe
