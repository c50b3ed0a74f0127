import Verif.Proofs.MergeEntries
import Verif.Props.MergeEntries
import Verif.Proofs.RoutingTables
/-
Helper lemmas for the routing table generators.
-/

namespace Pacman.Gen

open Alloc (VId)
open ByPart (REntry)
open Tables (UTable UInv)

theorem valid_matches {e : Entry} (h : e.Valid) : e.Matches e.key := h

theorem meets_self {a b : Entry} (ha : a.Valid) (h : (a.key, a.mask) = (b.key, b.mask)) : a.Meets b := by
  simp only [Prod.mk.injEq] at h
  refine ⟨a.key, ha, ?_⟩
  unfold Entry.Matches
  rw [← h.1, ← h.2]
  exact ha

/-- Adding disjoint entries never fails. -/
theorem addAll_ok (same : Entry → Entry → Bool) : ∀ (xs : List Entry) (t : UTable), UInv t →
    AllValid xs → Orthogonal (t.values ++ xs) →
    ∃ t', UTable.addAll same t xs = .ok t' ∧ UInv t' ∧ t'.values = t.values ++ xs ∧ t'.x = t.x ∧ t'.y = t.y
  | [], t, hI, _, _ => ⟨t, rfl, hI, by simp, rfl, rfl⟩
  | e :: xs, t, hI, hv, ho => by
    have hnone : t.entries.get? (e.key, e.mask) = none := by
      cases hg : t.entries.get? (e.key, e.mask) with
      | none => rfl
      | some old =>
        have hm := Dict.mem_of_get? hg
        have hold : old ∈ t.values := List.mem_map.2 ⟨_, hm, rfl⟩
        have hkey := hI.own _ hm
        have hne := (List.pairwise_append.1 ho).2.2 old hold e List.mem_cons_self
        refine absurd ?_ hne
        obtain ⟨x, h1, h2⟩ := meets_self (hv e List.mem_cons_self) hkey
        exact ⟨x, h2, h1⟩
    obtain ⟨t1, h1⟩ : ∃ t1, t.add same e = .ok t1 := by
      unfold UTable.add
      rw [hnone]
      exact ⟨_, rfl⟩
    have hI1 := Tables.uinv_add hI h1
    have h1' : t1.values = t.values ++ [e] ∧ t1.x = t.x ∧ t1.y = t.y := by
      unfold UTable.add at h1
      rw [hnone] at h1
      simp only [Except.ok.injEq] at h1
      subst h1
      refine ⟨?_, rfl, rfl⟩
      unfold UTable.values
      simp only [Dict.set_new hnone, List.map_append, List.map_cons, List.map_nil]
    obtain ⟨t', h2, hI2, h3, h4, h5⟩ := addAll_ok same xs t1 hI1
      (fun e' he' => hv e' (List.mem_cons_of_mem _ he'))
      (by rw [h1'.1, List.append_assoc]; exact ho)
    refine ⟨t', ?_, hI2, ?_, by rw [h4, h1'.2.1], by rw [h5, h1'.2.2]⟩
    · unfold UTable.addAll
      rw [h1]
      exact h2
    · rw [h3, h1'.1, List.append_assoc]
      rfl

/-! ### Sources -/

theorem keyMask_ok {w : World} {src : VId × Nat} (h : w.Known src) :
    ∃ km, w.keyMask src.1 src.2 = .ok km ∧ km.1 &&& km.2 = km.1 ∧ ∀ x, w.Owns src x ↔ x &&& km.2 = km.1 := by
  obtain ⟨v, p⟩ := src
  cases v with
  | app a =>
    obtain ⟨i, hi, hv⟩ := h
    refine ⟨(i.key, i.mask), ?_, hv, ?_⟩
    · simp only [World.keyMask, World.app, hi, bind, Except.bind, pure, Except.pure]
    · intro x
      constructor
      · rintro ⟨j, hj, hx⟩
        rw [hi] at hj
        cases hj
        exact hx
      · exact fun hx => ⟨i, hi, hx⟩
  | mach v =>
    obtain ⟨⟨i, hi, hv⟩, -⟩ := h
    refine ⟨(i.key, i.mask), ?_, hv, ?_⟩
    · simp only [World.keyMask, World.mach, hi, bind, Except.bind, pure, Except.pure]
    · intro x
      constructor
      · rintro ⟨j, hj, hx⟩
        rw [hi] at hj
        cases hj
        exact hx
      · exact fun hx => ⟨i, hi, hx⟩

/-- What the dictionary of sources holds: sources seen, under their key and mask. -/
def SInv (w : World) (s : Sources) (seen : List (VId × Nat)) : Prop :=
  ∀ km src, (km, src) ∈ s → src ∈ seen ∧ ∀ x, x &&& km.2 = km.1 → w.Owns src x

theorem checkSource_ok {w : World} {s : Sources} {seen rest : List (VId × Nat)} {src : VId × Nat}
    (hr : Ready w (seen ++ src :: rest)) (hs : SInv w s seen) {km : Word × Word}
    (hv : km.1 &&& km.2 = km.1) (hk : ∀ x, w.Owns src x ↔ x &&& km.2 = km.1) :
    ∃ s', checkSource s km src = .ok s' ∧ SInv w s' (seen ++ [src]) := by
  have hn := (Tables.nodup_append_cons hr.nodup)
  have hnone : s.get? km = none := by
    cases hg : s.get? km with
    | none => rfl
    | some other =>
      obtain ⟨h1, h2⟩ := hs _ _ (Dict.mem_of_get? hg)
      have hne : other ≠ src := by
        rintro rfl
        have := hr.nodup
        rw [List.nodup_append] at this
        exact this.2.2 other h1 other List.mem_cons_self rfl
      exact absurd ⟨h2 km.1 hv, (hk km.1).2 hv⟩
        (hr.disjoint other (List.mem_append_left _ h1) src (by simp) hne km.1)
  refine ⟨s.set km src, ?_, ?_⟩
  · unfold checkSource
    rw [hnone]
  · intro km' src' hm
    rw [Dict.set_new hnone, List.mem_append, List.mem_singleton] at hm
    rcases hm with hm | hm
    · obtain ⟨h1, h2⟩ := hs _ _ hm
      exact ⟨List.mem_append_left _ h1, h2⟩
    · cases hm
      exact ⟨by simp, fun x hx => (hk x).2 hx⟩

theorem SInv.mono {w : World} {s : Sources} {seen seen' : List (VId × Nat)} (h : SInv w s seen)
    (hs : ∀ x ∈ seen, x ∈ seen') : SInv w s seen' :=
  fun km src hm => ⟨hs _ (h km src hm).1, (h km src hm).2⟩

/-! ### What entries do for items -/

/-- Disjoint valid entries reach each item with an entry of its route in relation `Q` to it, one for all of its
keys, and match only words of the territories `T` of the items; one for a single word is for an item with no more. -/
structure Served (w : World) (T : VId × Nat → Word → Prop) (Q : Item → Entry → Prop) (vals : List Entry)
    (items : List Item) : Prop where
  valid : AllValid vals
  orth : Orthogonal vals
  reach : ∀ it ∈ items, ∀ x, w.Owns it.1 x → ∃ e ∈ vals, e.Matches x ∧ e.route = it.2.route ∧ Q it e ∧
    ∀ y, w.Owns it.1 y → e.Matches y
  only : ∀ e ∈ vals, ∀ x, e.Matches x → ∃ it ∈ items, T it.1 x
  single : ∀ e ∈ vals, e.mask = 0xFFFFFFFF#32 → ∃ it ∈ items, ∀ x y, w.Owns it.1 x → w.Owns it.1 y → x = y

theorem Served.append {w : World} {T : VId × Nat → Word → Prop} {Q : Item → Entry → Prop}
    {vals xs : List Entry} {items grp : List Item} (h : Served w T Q vals items) (h' : Served w T Q xs grp)
    (hd : ∀ s ∈ items, ∀ t ∈ grp, ∀ x, ¬ (T s.1 x ∧ T t.1 x)) :
    Served w T Q (vals ++ xs) (items ++ grp) := by
  refine ⟨?_, ?_, ?_, ?_, ?_⟩
  · intro e he
    rcases List.mem_append.1 he with he | he
    · exact h.valid e he
    · exact h'.valid e he
  · refine List.pairwise_append.2 ⟨h.orth, h'.orth, ?_⟩
    rintro a ha b hb ⟨x, h1, h2⟩
    obtain ⟨s, hs, h3⟩ := h.only a ha x h1
    obtain ⟨t, ht, h4⟩ := h'.only b hb x h2
    exact hd s hs t ht x ⟨h3, h4⟩
  · intro it hit x hx
    rcases List.mem_append.1 hit with hit | hit
    · obtain ⟨e, he, h1⟩ := h.reach it hit x hx
      exact ⟨e, List.mem_append_left _ he, h1⟩
    · obtain ⟨e, he, h1⟩ := h'.reach it hit x hx
      exact ⟨e, List.mem_append_right _ he, h1⟩
  · intro e he x hx
    rcases List.mem_append.1 he with he | he
    · obtain ⟨s, hs, h1⟩ := h.only e he x hx
      exact ⟨s, List.mem_append_left _ hs, h1⟩
    · obtain ⟨s, hs, h1⟩ := h'.only e he x hx
      exact ⟨s, List.mem_append_right _ hs, h1⟩
  · intro e he hm
    rcases List.mem_append.1 he with he | he
    · obtain ⟨s, hs, h1⟩ := h.single e he hm
      exact ⟨s, List.mem_append_left _ hs, h1⟩
    · obtain ⟨s, hs, h1⟩ := h'.single e he hm
      exact ⟨s, List.mem_append_right _ hs, h1⟩

theorem Served.nil {w : World} {T : VId × Nat → Word → Prop} {Q : Item → Entry → Prop} :
    Served w T Q [] [] :=
  ⟨by simp [AllValid], List.Pairwise.nil, by simp, by simp, by simp⟩

theorem and_ones (x : Word) : x &&& 0xFFFFFFFF#32 = x := BitVec.and_allOnes

/-- In disjoint entries the first match is any match. -/
theorem lookup_orth {vals : List Entry} (h : Orthogonal vals) {e : Entry} (he : e ∈ vals) {x : Word}
    (hx : e.Matches x) : lookup vals x = some e := by
  unfold lookup
  induction vals with
  | nil => simp at he
  | cons a l ih =>
    obtain ⟨h1, h2⟩ := List.pairwise_cons.1 h
    rw [List.find?_cons]
    rcases List.mem_cons.1 he with rfl | he
    · simp [hx]
    · have : ¬ a.Matches x := fun ha => h1 e he ⟨x, ha, hx⟩
      simp only [this, decide_false]
      exact ih h2 he

theorem single_served {w : World} {src : VId × Nat} {e : REntry} {km : Word × Word}
    {T : VId × Nat → Word → Prop} {Q : Item → Entry → Prop}
    (hT : ∀ x, w.Owns src x → T src x) (hv : km.1 &&& km.2 = km.1)
    (hk : ∀ x, w.Owns src x ↔ x &&& km.2 = km.1) (hQ : Q (src, e) ⟨km.1, km.2, e.route, e.defaultable⟩) :
    Served w T Q [⟨km.1, km.2, e.route, e.defaultable⟩] [(src, e)] := by
  refine ⟨?_, ?_, ?_, ?_, ?_⟩
  · intro e' he'
    rw [List.mem_singleton.1 he']
    exact hv
  · exact List.pairwise_singleton _ _
  · intro it hit x hx
    rw [List.mem_singleton.1 hit] at hx ⊢
    exact ⟨_, List.mem_singleton.2 rfl, (hk x).1 hx, rfl, hQ, fun y hy => (hk y).1 hy⟩
  · intro e' he' x hx
    rw [List.mem_singleton.1 he'] at hx
    exact ⟨_, List.mem_singleton.2 rfl, hT x ((hk x).2 hx)⟩
  · intro e' he' hm
    rw [List.mem_singleton.1 he'] at hm
    simp only at hm
    refine ⟨_, List.mem_singleton.2 rfl, fun x y hx hy => ?_⟩
    have h1 := (hk x).1 hx
    have h2 := (hk y).1 hy
    rw [hm, and_ones] at h1 h2
    rw [h1, h2]

/-! ### The basic generator -/

/-- The entry is as the item says. -/
def Same (it : Item) (e : Entry) : Prop := e.defaultable = it.2.defaultable

theorem basicLoop_ok (same : Entry → Entry → Bool) {w : World} : ∀ (items seen : List Item) (s : Sources)
    (t : UTable), Ready w ((seen ++ items).map (·.1)) → SInv w s (seen.map (·.1)) → UInv t →
    Served w w.Owns Same t.values seen →
    ∃ t', basicLoop same w items s t = .ok t' ∧ t'.x = t.x ∧ t'.y = t.y ∧
      Served w w.Owns Same t'.values (seen ++ items)
  | [], seen, s, t, _, _, _, hS => ⟨t, rfl, rfl, rfl, by simpa using hS⟩
  | (src, e) :: items, seen, s, t, hr, hs, hI, hS => by
    have hr' : Ready w (seen.map (·.1) ++ src :: items.map (·.1)) := by simpa using hr
    obtain ⟨km, h1, hv, hk⟩ := keyMask_ok (hr'.known src (by simp))
    obtain ⟨s', h2, hs'⟩ := checkSource_ok hr' hs hv hk
    have hx : mkEntry km.1 km.2 e = .ok ⟨km.1, km.2, e.route, e.defaultable⟩ := by
      unfold mkEntry
      rw [if_pos hv]
    have hS1 := single_served (w := w) (e := e) (T := w.Owns) (Q := Same) (fun _ h => h) hv hk rfl
    have hS2 := hS.append hS1 (by
      intro a ha b hb
      rw [List.mem_singleton.1 hb]
      refine hr'.disjoint a.1 (List.mem_append_left _ (List.mem_map_of_mem ha)) src (by simp) ?_
      rintro rfl
      have := hr'.nodup
      rw [List.nodup_append] at this
      exact this.2.2 a.1 (List.mem_map_of_mem ha) a.1 List.mem_cons_self rfl)
    obtain ⟨t1, h3, hI1, h4, h5, h6⟩ := addAll_ok same [⟨km.1, km.2, e.route, e.defaultable⟩] t hI
      hS1.valid hS2.orth
    have h3' : t.add same ⟨km.1, km.2, e.route, e.defaultable⟩ = .ok t1 := by
      unfold UTable.addAll at h3
      split at h3
      · simp at h3
      · rename_i t2 ht2
        rw [ht2]
        unfold UTable.addAll at h3
        exact h3
    obtain ⟨t', h7, h8, h9, h10⟩ := basicLoop_ok same items (seen ++ [(src, e)]) s' t1
      (by simpa using hr) (by simpa using hs') hI1 (by rw [h4]; exact hS2)
    refine ⟨t', ?_, by rw [h8, h5], by rw [h9, h6], by simpa using h10⟩
    unfold basicLoop
    simp only [bind, Except.bind, h1, h2, hx, h3']
    exact h7

/-! ### The merged generator -/

/-- The words of the block of the application vertex past the last machine vertex, which the entry of the
last machine vertex may match too. -/
def Slack (w : World) (srcs : List (VId × Nat)) (src : VId × Nat) (x : Word) : Prop :=
  ∃ v p a A m i, src = (.mach v, p) ∧ w.appOf v = some a ∧ w.appInfo a p = some A ∧
    Zone w srcs a p A m ∧ w.machInfo v p = some i ∧ (i.index : Int) = A.maxIndex ∧ A.Owns x ∧
    A.key.toNat + (A.maxIndex + 1) * 2 ^ A.nBitsAtoms ≤ (x.toNat : Int)

/-- The words a source may be matched for. -/
def Terr (w : World) (srcs : List (VId × Nat)) (src : VId × Nat) (x : Word) : Prop :=
  w.Owns src x ∨ Slack w srcs src x

theorem zone_owns {w : World} {srcs : List (VId × Nat)} {a p m : Nat} {A : AppInfo}
    (hz : Zone w srcs a p A m) {v : Nat} (hv : (.mach v, p) ∈ srcs) (ha : w.appOf v = some a) {i : MInfo}
    (hi : w.machInfo v p = some i) (x : Word) :
    i.Owns x ↔ x.toNat / 2 ^ A.nBitsAtoms = A.key.toNat / 2 ^ A.nBitsAtoms + i.index := by
  obtain ⟨b, hb⟩ := hz.base
  have hbits := hz.bits
  obtain ⟨h1, h2, -⟩ := hz.mach v hv ha i hi
  have hkey : A.key.toNat = b * 2 ^ m * 2 ^ A.nBitsAtoms := by
    rw [hb, Nat.pow_add, Nat.mul_comm (2 ^ _), Nat.mul_assoc]
  have hbase : A.key.toNat / 2 ^ A.nBitsAtoms = b * 2 ^ m := by
    rw [hkey, Nat.mul_div_cancel _ (Nat.two_pow_pos _)]
  rw [hbase, ← Alloc.covers_maskOf (by omega)]
  unfold MInfo.Owns Alloc.Covers
  rw [← BitVec.toNat_inj, BitVec.toNat_and, h2, hz.machineMask, h1, hkey, ← Nat.add_mul]
  rfl

theorem own_slack {w : World} {srcs : List (VId × Nat)} {s t : VId × Nat} (hs : s ∈ srcs) {x : Word}
    (h1 : w.Owns s x) (h2 : Slack w srcs t x) : False := by
  obtain ⟨v, p, a, A, m, i, rfl, hv, hA, hz, hi, hlast, hx, hge⟩ := h2
  by_cases hm : w.MachOf a p s
  · obtain ⟨v', rfl, hv'⟩ := hm
    obtain ⟨i', hi', hx'⟩ := h1
    have h3 := (zone_owns hz hs hv' hi' x).1 hx'
    obtain ⟨-, -, -, h4⟩ := hz.mach v' hs hv' i' hi'
    obtain ⟨b, hb⟩ := hz.base
    have hkey : A.key.toNat = b * 2 ^ m * 2 ^ A.nBitsAtoms := by
      rw [hb, Nat.pow_add, Nat.mul_comm (2 ^ _), Nat.mul_assoc]
    have hbase : A.key.toNat / 2 ^ A.nBitsAtoms = b * 2 ^ m := by
      rw [hkey, Nat.mul_div_cancel _ (Nat.two_pow_pos _)]
    rw [hbase] at h3
    have hlt : x.toNat < (b * 2 ^ m + i'.index + 1) * 2 ^ A.nBitsAtoms :=
      (Nat.div_lt_iff_lt_mul (Nat.two_pow_pos _)).1 (by omega)
    obtain ⟨M, hM⟩ : ∃ M : Nat, A.maxIndex = M := ⟨i.index, hlast.symm⟩
    rw [hM] at h4 hge
    have hle : (b * 2 ^ m + i'.index + 1) * 2 ^ A.nBitsAtoms ≤ A.key.toNat + (M + 1) * 2 ^ A.nBitsAtoms := by
      rw [hkey, ← Nat.add_mul]
      exact Nat.mul_le_mul_right _ (by omega)
    have hge' : A.key.toNat + (M + 1) * 2 ^ A.nBitsAtoms ≤ x.toNat := by exact_mod_cast hge
    omega
  · exact (hz.own s hs hm x hx).1 h1

theorem terr_disjoint {w : World} {srcs : List (VId × Nat)} (hr : Ready w srcs) {s t : VId × Nat}
    (hs : s ∈ srcs) (ht : t ∈ srcs) (hne : s ≠ t) (x : Word) : ¬ (Terr w srcs s x ∧ Terr w srcs t x) := by
  rintro ⟨h1 | h1, h2 | h2⟩
  · exact hr.disjoint s hs t ht hne x ⟨h1, h2⟩
  · exact own_slack hs h1 h2
  · exact own_slack ht h2 h1
  · obtain ⟨v, p, a, A, m, i, rfl, hv, hA, hz, hi, hlast, hx, -⟩ := h1
    obtain ⟨v', p', a', A', m', i', rfl, hv', hA', hz', hi', hlast', hx', -⟩ := h2
    by_cases hm : w.MachOf a p (.mach v', p')
    · obtain ⟨u, hu, hua⟩ := hm
      simp only [Prod.mk.injEq, VId.mach.injEq] at hu
      obtain ⟨rfl, rfl⟩ := hu
      rw [hv'] at hua
      cases hua
      rw [hA] at hA'
      cases hA'
      have hidx : i.index = i'.index := by omega
      have hk := (hz.mach v hs hv i hi).1
      obtain ⟨⟨j, hj, hvalid⟩, -⟩ := hr.known _ hs
      rw [hi] at hj
      cases hj
      have h1 : i.Owns i.key := hvalid
      have h2 := (zone_owns hz hs hv hi i.key).1 h1
      rw [hidx] at h2
      exact hr.disjoint _ hs _ ht hne i.key ⟨⟨i, hi, h1⟩, ⟨i', hi', (zone_owns hz ht hv' hi' i.key).2 h2⟩⟩
    · exact (hz.own _ ht hm x hx).2 a' A' ⟨v', rfl, hv'⟩ hA' hx'

/-- The items collected and the entries to merge belong together. -/
def Run (w : World) (a p r : Nat) : Nat → List Item → List (REntry × MInfo) → Prop
  | _, [], es => es = []
  | idx, it :: run, es => ∃ v e i es', it = ((.mach v, p), e) ∧ es = (e, i) :: es' ∧
      w.machInfo v p = some i ∧ w.appOf v = some a ∧ i.index = idx + 1 ∧ e.route = r ∧
      Run w a p r (idx + 1) run es'

/-- The test for holes: without any, the ones of the mask are above its zeros. -/
theorem noHoles {m : Word} (h : maskHasHoles m = false) : Prefix m := by
  unfold maskHasHoles at h
  simp only [Nat.add_sub_cancel, decide_eq_false_iff_not, Decidable.not_not] at h
  have h1 := (Nat.and_sub_one_eq_zero_iff_isPowerOfTwo (n := (~~~m).toNat + 1) (by omega)).1
    (by rw [Nat.add_sub_cancel]; exact h)
  obtain ⟨n, hn⟩ := h1
  refine ⟨n, ?_⟩
  rw [← hn, BitVec.toNat_not]
  have := m.isLt
  omega

theorem takeRun_ok {w : World} {srcs : List (VId × Nat)} (hr : Ready w srcs) {a p : Nat} {A : AppInfo} :
    ∀ (items : List Item) (v : Nat) (i : MInfo) (e : REntry), (∀ it ∈ items, it.1 ∈ srcs) →
    w.appOf v = some a →
    ∃ run rest es, takeRun w A v p i e items = .ok (es, rest) ∧ items = run ++ rest ∧
      Run w a p e.route i.index run es ∧ (run ≠ [] → i.mask = A.machineMask ∧ Prefix i.mask)
  | [], v, i, e, _, _ => ⟨[], [], [], rfl, rfl, rfl, by simp⟩
  | ((next, q), e') :: items, v, i, e, hin, ha => by
    have stop : ∀ b, matchNext w v p i e A (((next, q), e') :: items) = .ok b → b = false →
        ∃ run rest es, takeRun w A v p i e (((next, q), e') :: items) = .ok (es, rest) ∧
          ((next, q), e') :: items = run ++ rest ∧
          Run w a p e.route i.index run es ∧ (run ≠ [] → i.mask = A.machineMask ∧ Prefix i.mask) := by
      rintro b hb rfl
      refine ⟨[], _, [], ?_, rfl, rfl, by simp⟩
      unfold takeRun
      simp only [bind, Except.bind, hb, pure, Except.pure]
    have hdef : ∀ b, matchNext w v p i e A (((next, q), e') :: items) = .ok b → b = false ∨ b = true :=
      fun b _ => by cases b <;> simp
    by_cases h1 : i.mask ≠ A.machineMask
    · exact stop false (by unfold matchNext; simp only [if_pos h1]) rfl
    · cases next with
      | app n => exact stop false (by unfold matchNext; simp only [if_neg h1]) rfl
      | mach nv =>
        by_cases h2 : p ≠ q
        · exact stop false (by unfold matchNext; simp only [if_neg h1, if_pos h2]) rfl
        · have h2' : p = q := Classical.byContradiction h2
          subst h2'
          by_cases h3 : maskHasHoles i.mask = true
          · exact stop false (by unfold matchNext; simp only [if_neg h1, if_neg h2, if_pos h3]) rfl
          · obtain ⟨⟨j, hj, -⟩, -⟩ := hr.known _ (hin _ List.mem_cons_self)
            have hm : w.mach nv p = .ok j := by
              have hj' : w.machInfo nv p = some j := hj
              unfold World.mach
              rw [hj']
            by_cases h4 : j.index ≠ i.index + 1
            · exact stop false (by
                unfold matchNext
                simp only [if_neg h1, if_neg h2, if_neg h3, bind, Except.bind, hm, if_pos h4, pure,
                  Except.pure]) rfl
            · have hmatch : matchNext w v p i e A (((.mach nv, p), e') :: items) =
                  .ok (decide (w.appOf nv = w.appOf v) && decide (e.route = e'.route)) := by
                unfold matchNext
                simp only [if_neg h1, if_neg h2, if_neg h3, bind, Except.bind, hm, if_neg h4, pure,
                  Except.pure]
              by_cases h5 : (decide (w.appOf nv = w.appOf v) && decide (e.route = e'.route)) = true
              · rw [h5] at hmatch
                simp only [Bool.and_eq_true, decide_eq_true_eq] at h5
                obtain ⟨run, rest, es, k1, k2, k3, -⟩ := takeRun_ok hr (a := a) (p := p) (A := A) items nv j e'
                  (fun it hit => hin it (List.mem_cons_of_mem _ hit)) (by rw [h5.1, ha])
                refine ⟨((.mach nv, p), e') :: run, rest, (e', j) :: es, ?_, by rw [k2]; rfl, ?_,
                  fun _ => ⟨Classical.byContradiction h1, noHoles (by simpa using h3)⟩⟩
                · unfold takeRun
                  simp only [bind, Except.bind, hmatch, hm, k1, pure, Except.pure]
                · have hidx : j.index = i.index + 1 := Classical.byContradiction h4
                  refine ⟨nv, e', j, es, rfl, rfl, hj, by rw [h5.1, ha], hidx, h5.2.symm, ?_⟩
                  rw [← hidx, h5.2]
                  exact k3
              · exact stop _ hmatch (by simpa using h5)

theorem Run.get {w : World} {a p r : Nat} : ∀ {run : List Item} {idx : Nat} {es : List (REntry × MInfo)},
    Run w a p r idx run es → es.length = run.length ∧
    (∀ j e i, es[j]? = some (e, i) → e.route = r ∧ i.index = idx + 1 + j ∧
      ∃ v, ((.mach v, p), e) ∈ run ∧ w.machInfo v p = some i ∧ w.appOf v = some a) ∧
    ∀ it ∈ run, it.2.route = r ∧ ∃ v i, it.1 = (.mach v, p) ∧ w.machInfo v p = some i ∧
      w.appOf v = some a ∧ (it.2, i) ∈ es
  | [], idx, es, h => by
    have h' : es = [] := h
    subst h'
    simp
  | it :: run, idx, es, h => by
    obtain ⟨v, e, i, es', rfl, rfl, h1, h2, h3, h4, h5⟩ := h
    obtain ⟨k1, k2, k3⟩ := h5.get
    refine ⟨by simp [k1], ?_, ?_⟩
    · intro j e' i' hj
      cases j with
      | zero =>
        simp only [List.getElem?_cons_zero, Option.some.injEq, Prod.mk.injEq] at hj
        obtain ⟨rfl, rfl⟩ := hj
        exact ⟨h4, h3, v, List.mem_cons_self, h1, h2⟩
      | succ j =>
        rw [List.getElem?_cons_succ] at hj
        obtain ⟨q1, q2, u, q3, q4, q5⟩ := k2 j e' i' hj
        exact ⟨q1, by omega, u, List.mem_cons_of_mem _ q3, q4, q5⟩
    · intro it hit
      rcases List.mem_cons.1 hit with rfl | hit
      · exact ⟨h4, v, i, rfl, h1, h2, List.mem_cons_self⟩
      · obtain ⟨q1, u, i', q2, q3, q4, q5⟩ := k3 it hit
        exact ⟨q1, u, i', q2, q3, q4, List.mem_cons_of_mem _ q5⟩

/-- The flag of the entry is that of some item with the same route. -/
def Like (items : List Item) (_ : Item) (e : Entry) : Prop :=
  ∃ it ∈ items, it.2.route = e.route ∧ it.2.defaultable = e.defaultable

theorem mergedRound_ok {w : World} {all : List Item} (hr : Ready w (all.map (·.1))) {src : VId × Nat}
    {e : REntry} {items : List Item} (hin : ∀ it ∈ (src, e) :: items, it ∈ all) :
    ∃ xs run rest, mergedRound w src e items = .ok (xs, rest) ∧ items = run ++ rest ∧
      Served w (Terr w (all.map (·.1))) (Like all) xs ((src, e) :: run) := by
  have hsrc : src ∈ all.map (·.1) := List.mem_map.2 ⟨_, hin _ List.mem_cons_self, rfl⟩
  have hknown := hr.known src hsrc
  obtain ⟨km, hkm, hv, hk⟩ := keyMask_ok hknown
  have hx : mkEntry km.1 km.2 e = .ok ⟨km.1, km.2, e.route, e.defaultable⟩ := by
    unfold mkEntry
    rw [if_pos hv]
  have hone : Served w (Terr w (all.map (·.1))) (Like all) [⟨km.1, km.2, e.route, e.defaultable⟩]
      [(src, e)] :=
    single_served (fun _ h => Or.inl h) hv hk ⟨(src, e), hin _ List.mem_cons_self, rfl, rfl⟩
  obtain ⟨s, p⟩ := src
  cases s with
  | app a =>
    obtain ⟨i, hi, -⟩ := hknown
    have hi' : w.appInfo a p = some i := hi
    have hwa : w.app a p = .ok i := by unfold World.app; rw [hi']
    simp only [World.keyMask, hwa, bind, Except.bind, pure, Except.pure, Except.ok.injEq] at hkm
    refine ⟨_, [], items, ?_, rfl, hone⟩
    unfold mergedRound
    simp only [bind, Except.bind, hwa, pure, Except.pure]
    rw [← hkm] at hx
    simp only at hx
    rw [hx, ← hkm]
  | mach v =>
    obtain ⟨⟨i, hi, hvalid⟩, happ⟩ := hknown
    have hi' : w.machInfo v p = some i := hi
    have hwm : w.mach v p = .ok i := by unfold World.mach; rw [hi']
    simp only [World.keyMask, hwm, bind, Except.bind, pure, Except.pure, Except.ok.injEq] at hkm
    subst hkm
    simp only at hx hone
    cases ha : w.appOf v with
    | none =>
      refine ⟨_, [], items, ?_, rfl, hone⟩
      unfold mergedRound
      simp only [bind, Except.bind, hwm, pure, Except.pure, ha, hx]
    | some a =>
      obtain ⟨A, hA⟩ := happ a ha
      have hA' : w.appInfo a p = some A := hA
      have hwa : w.app a p = .ok A := by unfold World.app; rw [hA']
      obtain ⟨run, rest, es, k1, k2, k3, k4⟩ := takeRun_ok hr (a := a) (p := p) (A := A) items v i e
        (fun it hit => List.mem_map.2 ⟨it, hin it (List.mem_cons_of_mem _ hit), rfl⟩) ha
      obtain ⟨g1, g2, g3⟩ := k3.get
      have hround : ∀ xs, mergedKeysAndMasks A ((e, i) :: es) = .ok xs →
          mergedRound w (.mach v, p) e items = .ok (xs, rest) := by
        intro xs h
        unfold mergedRound
        simp only [bind, Except.bind, hwm, pure, Except.pure, ha, hwa, k1, h]
      cases es with
      | nil =>
        have hrun : run = [] := List.length_eq_zero_iff.1 g1.symm
        subst hrun
        refine ⟨_, [], rest, hround _ ?_, k2, hone⟩
        simp only [mergedKeysAndMasks, bind, Except.bind, hx, pure, Except.pure]
      | cons f es' =>
        have hrunin : ∀ it ∈ run, it ∈ all := fun it hit =>
          hin it (List.mem_cons_of_mem _ (by rw [k2]; exact List.mem_append_left _ hit))
        have hrun : run ≠ [] := by
          rintro rfl
          simp at g1
        rcases hr.zones a p A hA' with hap | ⟨m, hz⟩
        · exfalso
          obtain ⟨f1, f2⟩ := f
          obtain ⟨-, q2, u, q3, q4, q5⟩ := g2 0 f1 f2 rfl
          exact hap v u hsrc (List.mem_map.2 ⟨_, hrunin _ q3, rfl⟩) ha q5 i f2 hi' q4 (k4 hrun).1 (k4 hrun).2 q2
        · have hall : ∀ j e' i', ((e, i) :: f :: es')[j]? = some (e', i') →
              e'.route = e.route ∧ i'.index = i.index + j ∧
              ∃ u, ((.mach u, p), e') ∈ ((VId.mach v, p), e) :: run ∧ w.machInfo u p = some i' ∧
                w.appOf u = some a := by
            intro j e' i' hj
            cases j with
            | zero =>
              simp only [List.getElem?_cons_zero, Option.some.injEq, Prod.mk.injEq] at hj
              obtain ⟨rfl, rfl⟩ := hj
              exact ⟨rfl, rfl, v, List.mem_cons_self, hi', ha⟩
            | succ j =>
              rw [List.getElem?_cons_succ] at hj
              obtain ⟨q1, q2, u, q3, q4, q5⟩ := g2 j e' i' hj
              exact ⟨q1, by omega, u, List.mem_cons_of_mem _ q3, q4, q5⟩
          have hmem : ∀ it ∈ ((VId.mach v, p), e) :: run, it ∈ all := by
            intro it hit
            rcases List.mem_cons.1 hit with rfl | hit
            · exact hin _ List.mem_cons_self
            · exact hrunin it hit
          have hzm : ∀ j e' i', ((e, i) :: f :: es')[j]? = some (e', i') →
              i'.key.toNat = A.key.toNat + (i.index + j) * 2 ^ A.nBitsAtoms ∧ i'.mask = A.machineMask ∧
                i.index + j < 2 ^ m ∧ ((i.index + j : Nat) : Int) ≤ A.maxIndex := by
            intro j e' i' hj
            obtain ⟨q1, q2, u, q3, q4, q5⟩ := hall j e' i' hj
            have := hz.mach u (List.mem_map.2 ⟨_, hmem _ q3, rfl⟩) q5 i' q4
            rw [q2] at this
            exact this
          have hlast := hzm (es'.length + 1) _ _ (List.getElem?_eq_getElem (by simp))
          have hzoned : Zoned A m e.route i.index ((e, i) :: f :: es') := by
            refine ⟨hz.bits, hz.base, hz.machineMask, ?_, by simp, ?_, ?_⟩
            · intro j e' i' hj
              obtain ⟨q1, q2, -⟩ := hall j e' i' hj
              obtain ⟨q3, q4, -⟩ := hzm j e' i' hj
              exact ⟨q1, q2, q3, q4⟩
            · simp only [List.length_cons]
              omega
            · simp only [List.length_cons]
              omega
          obtain ⟨out, o1, o2, o3, o4, o5, o6, o7⟩ := C22_merge_preserves hzoned hz.mask
          have hroute : ∀ x ∈ out, x.route = e.route := fun x hx => by
            have := o4
            obtain ⟨out', hi2, o1', hc, -⟩ := mergeLoop_merge hzoned
            rw [o1] at o1'
            cases o1'
            exact (hc.each x hx).2.1
          have huni : ∀ y ∈ out, ∀ x z : Word, x.toNat / 2 ^ A.nBitsAtoms = z.toNat / 2 ^ A.nBitsAtoms →
              y.Matches x → y.Matches z := by
            obtain ⟨out', hi2, o1', hc, -⟩ := mergeLoop_merge hzoned
            rw [o1] at o1'
            cases o1'
            exact hc.uniform
          have hflag : ∀ x ∈ out, ∃ it ∈ all, it.2.route = x.route ∧ it.2.defaultable = x.defaultable := by
            intro x hx
            obtain ⟨⟨e', i'⟩, hp, hd⟩ := o6 x hx
            obtain ⟨j, hj⟩ := List.mem_iff_getElem?.1 hp
            obtain ⟨q1, -, u, q3, -⟩ := hall j e' i' hj
            exact ⟨_, hmem _ q3, by rw [hroute x hx]; exact q1, hd⟩
          refine ⟨out, run, rest, hround out ?_, k2, o2, o3, ?_, ?_, ?_⟩
          · unfold mergedKeysAndMasks
            exact o1
          · intro it hit x hx
            have hit' : it.2.route = e.route ∧ ∃ u i', it.1 = (.mach u, p) ∧ w.machInfo u p = some i' ∧
                (it.2, i') ∈ (e, i) :: f :: es' := by
              rcases List.mem_cons.1 hit with rfl | hit
              · exact ⟨rfl, v, i, rfl, hi', List.mem_cons_self⟩
              · obtain ⟨q1, u, i', q2, q3, -, q5⟩ := g3 it hit
                exact ⟨q1, u, i', q2, q3, List.mem_cons_of_mem _ q5⟩
            obtain ⟨q1, u, i', q2, q3, q4⟩ := hit'
            rw [q2] at hx
            obtain ⟨i'', q5, q6⟩ := hx
            have q5' : w.machInfo u p = some i'' := q5
            rw [q3] at q5'
            cases q5'
            have := o4 _ q4 x q6
            unfold routeOf lookup at this
            cases hf : out.find? (fun e => decide (e.Matches x)) with
            | none => rw [hf] at this; simp at this
            | some y =>
              have hy := List.mem_of_find?_eq_some hf
              have hym : y.Matches x := by simpa using List.find?_some hf
              refine ⟨y, hy, hym, by rw [hroute y hy, q1], hflag y hy, fun z hz' => ?_⟩
              rw [q2] at hz'
              obtain ⟨i'', r5, r6⟩ := hz'
              have r5' : w.machInfo u p = some i'' := r5
              rw [q3] at r5'
              cases r5'
              obtain ⟨j, hj⟩ := List.mem_iff_getElem?.1 q4
              obtain ⟨-, -, -, hmask⟩ := hzoned.each j _ _ hj
              have hb := hz.bits
              unfold MInfo.Owns at q6 r6
              rw [← BitVec.toNat_inj, BitVec.toNat_and, hmask, hz.machineMask] at q6 r6
              have h1 := Alloc.land_maskOf (k := x.toNat) (b := A.nBitsAtoms) x.isLt (by omega)
              have h2 := Alloc.land_maskOf (k := z.toNat) (b := A.nBitsAtoms) z.isLt (by omega)
              have h3 := h1.symm.trans (q6.trans (r6.symm.trans h2))
              exact huni y hy x z (Nat.eq_of_mul_eq_mul_right (Nat.two_pow_pos _) h3) hym
          · intro y hy x hyx
            rcases o7 y hy x hyx with ⟨⟨e', i'⟩, hp, hown⟩ | ⟨⟨⟨e', i'⟩, hp, hlast⟩, hge⟩
            · obtain ⟨j, hj⟩ := List.mem_iff_getElem?.1 hp
              obtain ⟨-, -, u, q3, q4, -⟩ := hall j e' i' hj
              exact ⟨_, q3, Or.inl ⟨i', q4, hown⟩⟩
            · obtain ⟨j, hj⟩ := List.mem_iff_getElem?.1 hp
              obtain ⟨-, -, u, q3, q4, q5⟩ := hall j e' i' hj
              exact ⟨_, q3, Or.inr ⟨u, p, a, A, m, i', rfl, q5, hA', hz, q4, hlast, o5 y hy x hyx, hge⟩⟩
          · intro y hy hm
            have hnb : A.nBitsAtoms = 0 := by
              rcases Nat.eq_zero_or_pos A.nBitsAtoms with h0 | h0
              · exact h0
              · exfalso
                have hone' : ∀ z : Word, y.Matches z → z = y.key := by
                  intro z hz'
                  unfold Entry.Matches at hz'
                  rwa [hm, and_ones] at hz'
                have hself : y.Matches y.key := o2 y hy
                have hb := Nat.two_pow_pos (A.nBitsAtoms - 1)
                have hp2 : 2 ^ A.nBitsAtoms = 2 * 2 ^ (A.nBitsAtoms - 1) := by
                  rw [← Nat.pow_succ', Nat.succ_eq_add_one, Nat.sub_add_cancel h0]
                have hlt := y.key.isLt
                let z : Word := BitVec.ofNat 32 (y.key.toNat / 2 * 2 + (1 - y.key.toNat % 2))
                have hzn : z.toNat = y.key.toNat / 2 * 2 + (1 - y.key.toNat % 2) := by
                  show (BitVec.ofNat 32 _).toNat = _
                  rw [BitVec.toNat_ofNat, Nat.mod_eq_of_lt (by omega)]
                have hzz := hone' z (huni y hy y.key z (by
                  rw [hp2, ← Nat.div_div_eq_div_mul, ← Nat.div_div_eq_div_mul]
                  congr 1
                  omega) hself)
                rw [hzz] at hzn
                omega
            refine ⟨_, List.mem_cons_self, fun x z hx hz' => ?_⟩
            obtain ⟨i1, r1, r2⟩ := hx
            obtain ⟨i2, s1, s2⟩ := hz'
            have r1' : w.machInfo v p = some i1 := r1
            have s1' : w.machInfo v p = some i2 := s1
            rw [hi'] at r1' s1'
            cases r1'
            cases s1'
            have hmask := (hzm 0 e i rfl).2.1
            unfold MInfo.Owns at r2 s2
            rw [← BitVec.toNat_inj, BitVec.toNat_and, hmask, hz.machineMask, hnb] at r2 s2
            have h1 := (Alloc.land_maskOf (k := x.toNat) (b := 0) x.isLt (by omega)).symm.trans r2
            have h2 := (Alloc.land_maskOf (k := z.toNat) (b := 0) z.isLt (by omega)).symm.trans s2
            rw [← BitVec.toNat_inj]
            simp only [Nat.pow_zero, Nat.div_one, Nat.mul_one] at h1 h2
            rw [h1, h2]

theorem mergedLoop_ok (same : Entry → Entry → Bool) {w : World} {all : List Item}
    (hr : Ready w (all.map (·.1))) : ∀ (fuel : Nat) (items seen : List Item) (s : Sources) (t : UTable),
    items.length < fuel → all = seen ++ items → SInv w s (seen.map (·.1)) → UInv t →
    Served w (Terr w (all.map (·.1))) (Like all) t.values seen →
    ∃ t', mergedLoop same w fuel items s t = .ok t' ∧ t'.x = t.x ∧ t'.y = t.y ∧
      Served w (Terr w (all.map (·.1))) (Like all) t'.values all
  | 0, items, seen, s, t, hf, _, _, _, _ => by omega
  | fuel + 1, [], seen, s, t, _, hall, _, _, hS => ⟨t, rfl, rfl, rfl, by simpa [hall] using hS⟩
  | fuel + 1, (src, e) :: items, seen, s, t, hf, hall, hs, hI, hS => by
    have hr' : Ready w (seen.map (·.1) ++ src :: items.map (·.1)) := by
      have := hr
      rw [hall] at this
      simpa using this
    obtain ⟨km, h1, hv, hk⟩ := keyMask_ok (hr'.known src (by simp))
    obtain ⟨s', h2, hs'⟩ := checkSource_ok hr' hs hv hk
    obtain ⟨xs, run, rest, h3, h4, hS1⟩ := mergedRound_ok hr (src := src) (e := e) (items := items)
      (fun it hit => by rw [hall]; exact List.mem_append_right _ hit)
    subst h4
    have hS2 := hS.append hS1 (by
      intro a ha b hb x
      have hb' : b ∈ (src, e) :: (run ++ rest) := by
        rcases List.mem_cons.1 hb with rfl | hb
        · exact List.mem_cons_self
        · exact List.mem_cons_of_mem _ (List.mem_append_left _ hb)
      refine terr_disjoint hr (List.mem_map_of_mem (by rw [hall]; exact List.mem_append_left _ ha))
        (List.mem_map_of_mem (by rw [hall]; exact List.mem_append_right _ hb')) ?_ x
      intro heq
      have hn := hr.nodup
      rw [hall, List.map_append, List.nodup_append] at hn
      exact hn.2.2 a.1 (List.mem_map_of_mem ha) b.1 (List.mem_map_of_mem hb') heq)
    obtain ⟨t1, h5, hI1, h6, h7, h8⟩ := addAll_ok same xs t hI hS1.valid hS2.orth
    obtain ⟨t', h9, h10, h11, h12⟩ := mergedLoop_ok same hr fuel rest (seen ++ (src, e) :: run) s' t1
      (by simp only [List.length_cons, List.length_append] at hf; omega) (by rw [hall]; simp)
      (hs'.mono (by simp only [List.map_append, List.map_cons, List.mem_append, List.mem_cons]
                    intro x hx
                    rcases hx with hx | hx | hx
                    · exact Or.inl hx
                    · exact Or.inr (Or.inl hx)
                    · simp at hx)) hI1 (by rw [h6]; exact hS2)
    refine ⟨t', ?_, by rw [h10, h7], by rw [h11, h8], h12⟩
    unfold mergedLoop
    simp only [bind, Except.bind, h1, h2, h3, h5]
    exact h9

end Pacman.Gen
