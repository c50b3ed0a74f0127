import Verif.Proofs.PipelineTables
/-
Helper lemmas: the masks of the keys of a graph and of the entries made from them are ones followed by
zeros, and no table made for a graph is empty.
-/

namespace Pacman.Pipe

open Alloc (VId Part Infos Info Fixed FState MVertex maskOf)
open Router (Net Leaves NetContract NoReturns)
open Gen (ofInfos Item AppInfo MInfo)
open Tables (UTable Table TablesMap addTable tablesOf)
open Range (Contiguous)
open ByPart (REntry)

/-! ### The allocator -/

theorem contiguous_maskOf (b : Nat) : Contiguous (BitVec.ofNat 32 (maskOf b)) := by
  unfold maskOf
  by_cases h : b ≤ 32
  · refine ⟨b, h, ?_⟩
    congr 1
    have := Nat.two_pow_pos b
    omega
  · refine ⟨32, Nat.le_refl _, ?_⟩
    have := Nat.pow_le_pow_right (n := 2) (by omega) (Nat.le_of_lt (Nat.lt_of_not_le h))
    have h0 : 0xFFFFFFFF - (2 ^ b - 1) = 0 := by omega
    rw [h0, Nat.sub_self]

/-- The masks of an info are ones followed by zeros. -/
def InfoFine : Info → Prop
  | .mach _ _ _ mask _ => Contiguous (BitVec.ofNat 32 mask)
  | .app _ _ _ mask mm nb _ => Contiguous (BitVec.ofNat 32 mask) ∧ mm = maskOf nb

theorem findMachine_fixed (P : Word × Word → Prop) (p : Part) (vs : List MVertex) :
    ∀ (s : FState) (a b : Bool) (s' : FState) (c : Bool),
    (∀ v ∈ vs, ∀ km, v.fixed = some km → P km) → (∀ f ∈ s.fixed, P f.2) →
    Alloc.findMachine p vs s a b = .ok (s', c) → ∀ f ∈ s'.fixed, P f.2 := by
  induction vs with
  | nil =>
    intro s a b s' c _ hs h
    simp only [Alloc.findMachine] at h
    cases h
    exact hs
  | cons v vs ih =>
    intro s a b s' c hv hs h
    simp only [Alloc.findMachine] at h
    split at h
    · rename_i km hkm
      split at h
      · cases h
      · split at h
        · cases h
        · split at h
          · cases h
          · refine ih _ _ _ _ _ (fun w hw => hv w (List.mem_cons_of_mem _ hw)) ?_ h
            intro f hf
            rcases Router.mem_set hf with hf | rfl
            · exact hs f hf
            · exact hv v List.mem_cons_self _ hkm
    · split at h
      · cases h
      · refine ih _ _ _ _ _ (fun w hw => hv w (List.mem_cons_of_mem _ hw)) ?_ h
        exact hs

theorem findOne_fixed (P : Word × Word → Prop) {s s' : FState} {p : Part}
    (hv : ∀ v ∈ p.outgoing, ∀ km, v.fixed = some km → P km) (hp : ∀ km, p.fixed = some km → P km)
    (hs : ∀ f ∈ s.fixed, P f.2) (h : Alloc.findOne s p = .ok s') : ∀ f ∈ s'.fixed, P f.2 := by
  unfold Alloc.findOne at h
  cases hm : Alloc.findMachine p p.outgoing s false false with
  | error e => rw [hm] at h; cases h
  | ok r =>
    obtain ⟨s1, b⟩ := r
    rw [hm] at h
    have h1 := findMachine_fixed P p _ _ _ _ _ _ hv hs hm
    simp only [bind, Except.bind] at h
    split at h
    · cases h; exact h1
    · rename_i akm hakm
      split at h
      · cases h
        intro f hf
        rcases Router.mem_set hf with hf | rfl
        · exact h1 f hf
        · exact hp _ hakm
      · split at h
        · cases h
        · split at h
          · cases h
          · cases h
            intro f hf
            rcases Router.mem_set hf with hf | rfl
            · rcases Router.mem_set hf with hf | rfl
              · exact h1 f hf
              · exact hp _ hakm
            · exact hp _ hakm

theorem findFixed_fixed (P : Word × Word → Prop) (ps : List Part) : ∀ (s s' : FState),
    (∀ p ∈ ps, (∀ v ∈ p.outgoing, ∀ km, v.fixed = some km → P km) ∧ ∀ km, p.fixed = some km → P km) →
    (∀ f ∈ s.fixed, P f.2) → Alloc.findFixed s ps = .ok s' → ∀ f ∈ s'.fixed, P f.2 := by
  induction ps with
  | nil =>
    intro s s' _ hs h
    simp only [Alloc.findFixed] at h
    cases h
    exact hs
  | cons p ps ih =>
    intro s s' hp hs h
    simp only [Alloc.findFixed, bind, Except.bind] at h
    split at h
    · cases h
    · rename_i s1 h1
      exact ih _ _ (fun q hq => hp q (List.mem_cons_of_mem _ hq))
        (findOne_fixed P (hp p List.mem_cons_self).1 (hp p List.mem_cons_self).2 hs h1) h

theorem addInfo_fine {s s' : Infos} {i : Info} (hs : ∀ j ∈ s, InfoFine j) (hi : InfoFine i)
    (h : Alloc.addInfo s i = .ok s') : ∀ j ∈ s', InfoFine j := by
  unfold Alloc.addInfo at h
  split at h
  · cases h
  · cases h
    intro j hj
    rcases List.mem_append.mp hj with hj | hj
    · exact hs j hj
    · rw [List.mem_singleton] at hj; rw [hj]; exact hi

theorem mkKM_snd {k m : Nat} {r : Nat × Nat} (h : Alloc.mkKM k m = .ok r) : r.2 = m := by
  unfold Alloc.mkKM at h
  split at h <;> cases h
  rfl

theorem word_fine {m : Word} (h : Contiguous m) : Contiguous (BitVec.ofNat 32 m.toNat) := by
  rw [BitVec.ofNat_toNat, BitVec.setWidth_eq]; exact h

theorem allocMachine_fine {d : Fixed} (hd : ∀ f ∈ d, Contiguous f.2.2) {ap nb : Nat} {nm : Int}
    {ident : Nat} (vs : List MVertex) : ∀ (i : Nat) (s s' : Infos), (∀ j ∈ s, InfoFine j) →
    Alloc.allocMachine d ap nb nm ident vs i s = .ok s' → ∀ j ∈ s', InfoFine j := by
  induction vs with
  | nil =>
    intro i s s' hs h
    simp only [Alloc.allocMachine] at h
    cases h
    exact hs
  | cons v vs ih =>
    intro i s s' hs h
    simp only [Alloc.allocMachine, bind, Except.bind] at h
    split at h
    · cases h
    · rename_i km hkm
      split at h
      · cases h
      · rename_i s1 h1
        refine ih _ _ _ (addInfo_fine hs ?_ h1) h
        show Contiguous (BitVec.ofNat 32 km.2)
        unfold Alloc.machineKM at hkm
        split at hkm
        · rename_i f hf
          cases hkm
          exact word_fine (hd _ (Dict.mem_of_get? hf))
        · simp only [bind, Except.bind] at hkm
          split at hkm
          · cases hkm
          · rw [mkKM_snd hkm]; exact contiguous_maskOf _

theorem appKM_fine {d : Fixed} (hd : ∀ f ∈ d, Contiguous f.2.2) {ap nb : Nat} {nm : Int} {p : Part}
    {km : Nat × Nat} (h : Alloc.appKM d ap nb nm p = .ok km) : Contiguous (BitVec.ofNat 32 km.2) := by
  unfold Alloc.appKM at h
  split at h
  · rename_i f hf
    cases h
    exact word_fine (hd _ (Dict.mem_of_get? hf))
  · simp only [bind, Except.bind] at h
    split at h
    · cases h
    · rw [mkKM_snd h]; exact contiguous_maskOf _

theorem allocOne_fine {flexible : Bool} {d : Fixed} (hd : ∀ f ∈ d, Contiguous f.2.2) {z : Alloc.Zones}
    {used : List Nat} {ap : Nat} {s : Infos} {p : Part} {r : Nat × Infos} (hs : ∀ j ∈ s, InfoFine j)
    (h : Alloc.allocOne flexible d z used ap s p = .ok r) : ∀ j ∈ r.2, InfoFine j := by
  unfold Alloc.allocOne at h
  simp only [bind, Except.bind] at h
  split at h
  · cases h
  · split at h
    · cases h; exact hs
    · split at h
      · cases h
      · split at h
        · cases h
        · rename_i s1 h1
          split at h
          · cases h
          · rename_i km hkm
            split at h
            · cases h
            · rename_i s2 h2
              cases h
              refine addInfo_fine (allocMachine_fine hd _ _ _ _ hs h1) ?_ h2
              exact ⟨appKM_fine hd hkm, rfl⟩

theorem allocLoop_fine {flexible : Bool} {d : Fixed} (hd : ∀ f ∈ d, Contiguous f.2.2) {z : Alloc.Zones}
    {used : List Nat} (ps : List Part) : ∀ (ap : Nat) (s s' : Infos), (∀ j ∈ s, InfoFine j) →
    Alloc.allocLoop flexible d z used ps ap s = .ok s' → ∀ j ∈ s', InfoFine j := by
  induction ps with
  | nil =>
    intro ap s s' hs h
    simp only [Alloc.allocLoop] at h
    cases h
    exact hs
  | cons p ps ih =>
    intro ap s s' hs h
    simp only [Alloc.allocLoop, bind, Except.bind] at h
    split at h
    · cases h
    · rename_i r hr
      exact ih _ _ _ (allocOne_fine hd hs hr) h

theorem fixedInfo_fine {ps : List Part} {z : Alloc.Zones} {f : (Nat × VId) × (Word × Word)}
    (hf : Contiguous f.2.2) {i : Info} (h : Alloc.fixedInfo ps z f = .ok i) : InfoFine i := by
  unfold Alloc.fixedInfo at h
  split at h
  · split at h
    · cases h; exact ⟨word_fine hf, rfl⟩
    · cases h
  · split at h
    · cases h; exact word_fine hf
    · cases h

theorem allocFixed_fine {ps : List Part} {z : Alloc.Zones} (fs : Fixed) : ∀ (s s' : Infos),
    (∀ f ∈ fs, Contiguous f.2.2) → (∀ j ∈ s, InfoFine j) →
    Alloc.allocFixed ps z fs s = .ok s' → ∀ j ∈ s', InfoFine j := by
  induction fs with
  | nil =>
    intro s s' _ hs h
    simp only [Alloc.allocFixed] at h
    cases h
    exact hs
  | cons f fs ih =>
    intro s s' hd hs h
    simp only [Alloc.allocFixed, bind, Except.bind] at h
    split at h
    · cases h
    · rename_i i hi
      split at h
      · cases h
      · rename_i s1 h1
        exact ih _ _ (fun g hg => hd g (List.mem_cons_of_mem _ hg))
          (addInfo_fine hs (fixedInfo_fine (hd f List.mem_cons_self) hi) h1) h

theorem allocate_fine {flexible : Bool} {ps : List Part} {infos : Infos}
    (hp : ∀ p ∈ ps, (∀ v ∈ p.outgoing, ∀ km, v.fixed = some km → Contiguous km.2) ∧
      ∀ km, p.fixed = some km → Contiguous km.2)
    (h : Alloc.allocate flexible ps = .ok infos) : ∀ j ∈ infos, InfoFine j := by
  unfold Alloc.allocate at h
  simp only [bind, Except.bind] at h
  split at h
  · cases h
  · rename_i f hf
    have hd := findFixed_fixed (fun km => Contiguous km.2) ps _ _ hp (by intro f h; cases h) hf
    split at h
    · cases h
    · split at h
      · exact allocFixed_fine _ _ _ hd (by intro j h; cases h) h
      · exact allocLoop_fine hd _ _ _ _ (by intro j h; cases h) h

/-! ### The generators -/

/-- The masks of all infos are ones followed by zeros. -/
structure Blocky (w : Gen.World) : Prop where
  mach : ∀ v p i, w.machInfo v p = some i → Contiguous i.mask
  app : ∀ a p A, w.appInfo a p = some A → Contiguous A.mask ∧
    A.machineMask = BitVec.ofNat 32 (maskOf A.nBitsAtoms)

theorem blocky_ofInfos {infos : Infos} (h : ∀ j ∈ infos, InfoFine j) (appOf : Nat → Option Nat) :
    Blocky (ofInfos infos appOf) := by
  constructor
  · intro v p i hi
    obtain ⟨j, hj, he⟩ := List.exists_of_findSome?_eq_some (show Gen.machIn infos v p = some i from hi)
    have := h j hj
    cases j with
    | mach q u k m idx =>
      simp only at he
      split at he
      · cases he; exact this
      · cases he
    | app => cases he
  · intro v p i hi
    obtain ⟨j, hj, he⟩ := List.exists_of_findSome?_eq_some (show Gen.appIn infos v p = some i from hi)
    have := h j hj
    cases j with
    | app q u k m mm nb mi =>
      simp only at he
      split at he
      · cases he; exact ⟨this.1, by simp only; rw [this.2]⟩
      · cases he
    | mach => cases he

theorem mkEntry_mask {k m : Word} {e : REntry} {x : Entry} (h : Gen.mkEntry k m e = .ok x) :
    x.mask = m := by
  unfold Gen.mkEntry at h
  split at h <;> cases h
  rfl

theorem groupMask_fine {A : AppInfo} (hA : A.machineMask = BitVec.ofNat 32 (maskOf A.nBitsAtoms))
    {t : Nat} {m : Word} (h : Gen.groupMask A (2 ^ t) = .ok m) : Contiguous m := by
  unfold Gen.groupMask at h
  split at h
  · cases h
  · rename_i hle
    cases h
    rw [hA] at hle ⊢
    have hlt : maskOf A.nBitsAtoms < 2 ^ 32 := by unfold maskOf; omega
    rw [BitVec.toNat_ofNat, Nat.mod_eq_of_lt hlt] at hle ⊢
    rw [Nat.shiftLeft_eq, Nat.sub_mul, Nat.one_mul, ← Nat.pow_add] at hle ⊢
    have hmono := Nat.pow_le_pow_right (n := 2) (by omega) (Nat.le_add_left A.nBitsAtoms t)
    have hpos := Nat.two_pow_pos A.nBitsAtoms
    unfold maskOf at hle ⊢
    by_cases hb : 2 ^ A.nBitsAtoms ≤ 2 ^ 32
    · refine ⟨t + A.nBitsAtoms, (Nat.pow_le_pow_iff_right (a := 2) (by omega)).mp (by omega), ?_⟩
      congr 1
      omega
    · refine ⟨32, Nat.le_refl _, ?_⟩
      congr 1
      omega

theorem yieldOne_fine {A : AppInfo} (hA : A.machineMask = BitVec.ofNat 32 (maskOf A.nBitsAtoms))
    {es : List (REntry × MInfo)} {i t : Nat} {e : Entry} (h : Gen.yieldOne A es i (2 ^ t) = .ok e) :
    Contiguous e.mask := by
  unfold Gen.yieldOne at h
  simp only [bind, Except.bind] at h
  split at h
  · cases h
  · rename_i m hm
    split at h
    · cases h
    · rw [mkEntry_mask h]; exact groupMask_fine hA hm

theorem splitLoop_fine {A : AppInfo} (hA : A.machineMask = BitVec.ofNat 32 (maskOf A.nBitsAtoms))
    {es : List (REntry × MInfo)} : ∀ (fuel i n : Nat) (xs : List Entry),
    Gen.splitLoop A es fuel i n = .ok xs → ∀ e ∈ xs, Contiguous e.mask := by
  intro fuel
  induction fuel with
  | zero => intro i n xs h; cases h
  | succ fuel ih =>
    intro i n xs h
    simp only [Gen.splitLoop] at h
    split at h
    · cases h; intro e he; cases he
    · simp only [bind, Except.bind] at h
      split at h
      · cases h
      · rename_i x hx
        split at h
        · cases h
        · rename_i rest hrest
          cases h
          intro e he
          rcases List.mem_cons.mp he with rfl | he
          · exact yieldOne_fine hA hx
          · exact ih _ _ _ hrest e he

theorem nSequential_pow (i n : Nat) : ∃ t, Gen.nSequential i n = 2 ^ t := by
  unfold Gen.nSequential
  split
  · rename_i h
    obtain ⟨t, q, rfl⟩ := Gen.lowBit_spec i h
    exact ⟨t, Gen.lowBit_eq⟩
  · exact ⟨_, rfl⟩

theorem mergeLoop_fine {A : AppInfo} (hA : A.machineMask = BitVec.ofNat 32 (maskOf A.nBitsAtoms))
    {es : List (REntry × MInfo)} {last : Bool} : ∀ (fuel i : Nat) (xs : List Entry),
    Gen.mergeLoop A es last fuel i = .ok xs → ∀ e ∈ xs, Contiguous e.mask := by
  intro fuel
  induction fuel with
  | zero => intro i xs h; cases h
  | succ fuel ih =>
    intro i xs h
    simp only [Gen.mergeLoop] at h
    split at h
    · simp only [bind, Except.bind] at h
      split at h
      · cases h
      · rename_i y hy
        split at h
        · split at h
          · cases h
          · rename_i x hx
            split at h
            · cases h
            · rename_i rest hrest
              cases h
              obtain ⟨t, ht⟩ := nSequential_pow y.2.index es.length
              rw [ht] at hx
              intro e he
              rcases List.mem_cons.mp he with rfl | he
              · exact yieldOne_fine hA hx
              · exact ih _ _ hrest e he
        · exact splitLoop_fine hA _ _ _ _ h
    · cases h; intro e he; cases he

theorem mergedRound_fine {w : Gen.World} (hw : Blocky w) {src : VId × Nat} {e : REntry}
    {items : List Item} {r : List Entry × List Item} (h : Gen.mergedRound w src e items = .ok r) :
    ∀ x ∈ r.1, Contiguous x.mask := by
  have hone : ∀ {k m : Word} {e : REntry} {x : Entry}, Contiguous m → Gen.mkEntry k m e = .ok x →
      ∀ y ∈ [x], Contiguous y.mask := by
    intro k m e x hm hx y hy
    rw [List.mem_singleton] at hy
    rw [hy, mkEntry_mask hx]
    exact hm
  unfold Gen.mergedRound at h
  split at h
  · simp only [bind, Except.bind] at h
    split at h
    · cases h
    · rename_i i hi
      split at h
      · cases h
      · rename_i x hx
        cases h
        refine hone ?_ hx
        unfold Gen.World.app at hi
        split at hi <;> cases hi
        rename_i hi
        exact (hw.app _ _ _ hi).1
  · simp only [bind, Except.bind] at h
    split at h
    · cases h
    · rename_i i hi
      have hmach : Contiguous i.mask := by
        unfold Gen.World.mach at hi
        split at hi <;> cases hi
        rename_i hi
        exact hw.mach _ _ _ hi
      split at h
      · split at h
        · cases h
        · rename_i x hx
          cases h
          exact hone hmach hx
      · split at h
        · cases h
        · rename_i A hA
          have happ : A.machineMask = BitVec.ofNat 32 (maskOf A.nBitsAtoms) := by
            unfold Gen.World.app at hA
            split at hA <;> cases hA
            rename_i hA
            exact (hw.app _ _ _ hA).2
          split at h
          · cases h
          · rename_i es hes
            split at h
            · cases h
            · rename_i xs hxs
              cases h
              unfold Gen.mergedKeysAndMasks at hxs
              split at hxs
              · cases hxs; intro x hx; cases hx
              · rename_i heq
                injection heq with h1 h2
                injection h1 with h3 h4
                subst h3 h4
                simp only [bind, Except.bind] at hxs
                split at hxs
                · cases hxs
                · rename_i x hx
                  cases hxs
                  exact hone hmach hx
              · unfold Gen.mergeEntries at hxs
                split at hxs
                · cases hxs
                · exact mergeLoop_fine happ _ _ _ hxs

theorem add_values {same : Entry → Entry → Bool} {t t' : UTable} {e : Entry}
    (h : t.add same e = .ok t') : ∀ x ∈ t'.values, x ∈ t.values ∨ x = e := by
  unfold UTable.add at h
  split at h
  · split at h
    · cases h; intro x hx; exact Or.inl hx
    · cases h
  · cases h
    intro x hx
    obtain ⟨p, hp, rfl⟩ := List.mem_map.mp hx
    rcases Router.mem_set hp with hp | rfl
    · exact Or.inl (List.mem_map_of_mem hp)
    · exact Or.inr rfl

theorem addAll_fine {same : Entry → Entry → Bool} (es : List Entry) : ∀ (t t' : UTable),
    (∀ x ∈ es, Contiguous x.mask) → (∀ x ∈ t.values, Contiguous x.mask) →
    UTable.addAll same t es = .ok t' → ∀ x ∈ t'.values, Contiguous x.mask := by
  induction es with
  | nil => intro t t' _ ht h; simp only [UTable.addAll] at h; cases h; exact ht
  | cons e es ih =>
    intro t t' he ht h
    simp only [UTable.addAll] at h
    split at h
    · cases h
    · rename_i t1 h1
      refine ih _ _ (fun x hx => he x (List.mem_cons_of_mem _ hx)) ?_ h
      intro x hx
      rcases add_values h1 x hx with hx | rfl
      · exact ht x hx
      · exact he _ List.mem_cons_self

theorem keyMask_fine {w : Gen.World} (hw : Blocky w) {src : VId} {p : Nat} {km : Word × Word}
    (h : w.keyMask src p = .ok km) : Contiguous km.2 := by
  unfold Gen.World.keyMask at h
  split at h
  · simp only [bind, Except.bind] at h
    split at h
    · cases h
    · rename_i i hi
      cases h
      unfold Gen.World.app at hi
      split at hi <;> cases hi
      rename_i hi
      exact (hw.app _ _ _ hi).1
  · simp only [bind, Except.bind] at h
    split at h
    · cases h
    · rename_i i hi
      cases h
      unfold Gen.World.mach at hi
      split at hi <;> cases hi
      rename_i hi
      exact hw.mach _ _ _ hi

theorem basicLoop_fine {same : Entry → Entry → Bool} {w : Gen.World} (hw : Blocky w)
    (items : List Item) : ∀ (s : Gen.Sources) (t t' : UTable), (∀ x ∈ t.values, Contiguous x.mask) →
    Gen.basicLoop same w items s t = .ok t' → ∀ x ∈ t'.values, Contiguous x.mask := by
  induction items with
  | nil => intro s t t' ht h; simp only [Gen.basicLoop] at h; cases h; exact ht
  | cons it items ih =>
    obtain ⟨src, e⟩ := it
    intro s t t' ht h
    simp only [Gen.basicLoop, bind, Except.bind] at h
    split at h
    · cases h
    · rename_i km hkm
      split at h
      · cases h
      · split at h
        · cases h
        · rename_i x hx
          split at h
          · cases h
          · rename_i t1 h1
            refine ih _ _ _ ?_ h
            intro y hy
            rcases add_values h1 y hy with hy | rfl
            · exact ht y hy
            · rw [mkEntry_mask hx]; exact keyMask_fine hw hkm

theorem mergedLoop_fine {same : Entry → Entry → Bool} {w : Gen.World} (hw : Blocky w) :
    ∀ (fuel : Nat) (items : List Item) (s : Gen.Sources) (t t' : UTable),
    (∀ x ∈ t.values, Contiguous x.mask) → Gen.mergedLoop same w fuel items s t = .ok t' →
    ∀ x ∈ t'.values, Contiguous x.mask := by
  intro fuel
  induction fuel with
  | zero => intro items s t t' _ h; cases h
  | succ fuel ih =>
    intro items s t t' ht h
    cases items with
    | nil => simp only [Gen.mergedLoop] at h; cases h; exact ht
    | cons it items =>
      obtain ⟨src, e⟩ := it
      simp only [Gen.mergedLoop, bind, Except.bind] at h
      split at h
      · cases h
      · split at h
        · cases h
        · split at h
          · cases h
          · rename_i r hr
            split at h
            · cases h
            · rename_i t1 h1
              exact ih _ _ _ _ (addAll_fine _ _ _ (mergedRound_fine hw hr) ht h1) h

theorem create_fine {g : Generator} {same : Entry → Entry → Bool} {w : Gen.World} (hw : Blocky w)
    {x y : Nat} {items : List Item} {t : UTable} (h : g.create same w x y items = .ok t) :
    ∀ e ∈ t.values, Contiguous e.mask := by
  cases g with
  | basic => exact basicLoop_fine hw _ _ _ _ (by intro e he; cases he) h
  | merged => exact mergedLoop_fine hw _ _ _ _ _ (by intro e he; cases he) h

theorem generateLoop_fine {g : Generator} {same : Entry → Entry → Bool} {w : Gen.World} (hw : Blocky w)
    (S : ByPart.State) : ∀ (m m' : TablesMap), (∀ t ∈ tablesOf m, ∀ e ∈ t.entries, Contiguous e.mask) →
    generateLoop g same w S m = .ok m' → ∀ t ∈ tablesOf m', ∀ e ∈ t.entries, Contiguous e.mask := by
  induction S with
  | nil => intro m m' hm h; simp only [generateLoop] at h; cases h; exact hm
  | cons x S ih =>
    obtain ⟨c, items⟩ := x
    intro m m' hm h
    simp only [generateLoop] at h
    split at h
    · cases h
    · rename_i t ht
      split at h
      · cases h
      · rename_i m1 h1
        refine ih _ _ ?_ h
        unfold addTable at h1
        split at h1
        · cases h1
        · cases h1
          intro t' ht'
          obtain ⟨p, hp, rfl⟩ := List.mem_map.mp ht'
          rcases Router.mem_set hp with hp | rfl
          · exact hm _ (List.mem_map_of_mem hp)
          · exact create_fine hw ht

/-! ### No empty tables -/

theorem owns_some {w : Gen.World} {src : VId × Nat} (h : w.Known src) : ∃ k, w.Owns src k := by
  unfold Gen.World.Known at h
  unfold Gen.World.Owns
  split at h
  · obtain ⟨i, h1, h2⟩ := h
    exact ⟨i.key, i, h1, h2⟩
  · obtain ⟨⟨i, h1, h2⟩, _⟩ := h
    exact ⟨i.key, i, h1, h2⟩

theorem tableOf_ne {g : Generator} {w : Gen.World} {items : List Item} {t : UTable}
    (h : TableOf g w items t) (hr : Gen.Ready w (items.map (·.1))) (hne : items ≠ []) : t.values ≠ [] := by
  cases items with
  | nil => exact absurd rfl hne
  | cons it items =>
    obtain ⟨k, hk⟩ := owns_some (hr.known it.1 (by simp))
    obtain ⟨e, he, _⟩ := h.served it List.mem_cons_self k hk
    exact List.ne_nil_of_mem he

end Pacman.Pipe
