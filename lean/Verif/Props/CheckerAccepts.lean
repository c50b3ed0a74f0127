import Verif.Props.CompressionChecker
import Verif.Props.CompressTwice
import Verif.Props.OrderedCovering
import Verif.Props.RangeCompressor
/-
The compression checker accepts what the compressors return.
-/

namespace Pacman.Checker

theorem compareRoute_first {same : Entry → Entry → Bool} {o : Entry} {t : List Entry}
    (hv : AllValid t) {code : Code} (hl : code.length = 32)
    (hd : ∀ k c, In code (bitsOf k) → lookup t k = some c → c.defaultable = true →
      o.defaultable = true)
    (h : Serves o t code) :
    compareRoute same o (t.map (fun e => (codify e, e))) code = .ok () := by
  induction t generalizing code with
  | nil =>
    obtain ⟨b, hb⟩ := In.exists code
    obtain ⟨k, rfl⟩ := bitsOf_surj (b := b) (by rw [← hb.length, hl])
    rcases h k hb with h | h
    · simp [routeOf, lookup] at h
    · rw [List.map_nil, compareRoute, if_pos h.2]
  | cons c t ih =>
    have hv' : AllValid t := fun e he => hv e (by simp [he])
    have hcv := hv c (by simp)
    have hlc : code.length = (codify c).length := by rw [hl, codify_length]
    rw [List.map_cons, compareRoute]
    split
    · rename_i hcov
      obtain ⟨b, hb1, hb2⟩ := (covers_iff hlc).1 hcov
      obtain ⟨k, rfl⟩ := bitsOf_surj (b := b) (by rw [← hb1.length, hl])
      have hm := (in_codify hcv k).1 hb2
      have hroute : o.route = c.route := by
        rcases h k hb1 with h | h
        · unfold routeOf at h; rw [lookup_cons_pos hm] at h
          simpa using h.symm
        · rw [lookup_cons_pos hm] at h; simp at h
      rw [if_neg (by simpa using hroute), if_neg, forE_ok]
      · intro r hr
        have hsub : ∀ k, In r (bitsOf k) → In code (bitsOf k) ∧ ¬ c.Matches k := by
          intro k hk
          have := (remainders_iff hlc hcov (bitsOf k)).1 ⟨r, hr, hk⟩
          exact ⟨this.1, fun hm => this.2 ((in_codify hcv k).2 hm)⟩
        refine ih hv' (by rw [remainders_length hr, hl])
          (fun k e hk he => hd k e (hsub k hk).1 (by rw [lookup_cons_neg (hsub k hk).2]; exact he)) ?_
        intro k hk
        have := h k (hsub k hk).1
        unfold routeOf at this; rw [lookup_cons_neg (hsub k hk).2] at this
        exact this
      · have := hd k c hb1 (lookup_cons_pos hm)
        cases hod : o.defaultable <;> cases hcd : c.defaultable <;> simp_all
    · rename_i hcov
      have hm : ∀ k, In code (bitsOf k) → ¬ c.Matches k := fun k hk hm =>
        hcov ((covers_iff hlc).2 ⟨bitsOf k, hk, (in_codify hcv k).2 hm⟩)
      refine ih hv' hl (fun k e hk he => hd k e hk (by rw [lookup_cons_neg (hm k hk)]; exact he)) ?_
      intro k hk
      have := h k hk
      unfold routeOf at this; rw [lookup_cons_neg (hm k hk)] at this
      exact this

/-- **C160**, what is enough for the checker: each key of an original entry is first matched by an
entry of its route, which is defaultable only if the original is; or by none, if it is. This asks
less than C12: a defaultable entry may match the key after that. -/
theorem C160_enough (same : Entry → Entry → Bool) (original compressed : List Entry)
    (ho : AllValid original) (hc : AllValid compressed) (hd : DistinctKeyMasks compressed)
    (h : ∀ o ∈ original, ∀ k, o.Matches k →
      (∃ c, lookup compressed k = some c ∧ c.route = o.route ∧
        (c.defaultable = true → o.defaultable = true)) ∨
      (lookup compressed k = none ∧ o.defaultable = true)) :
    compareTables same original compressed = .ok () := by
  unfold compareTables
  simp only
  rw [codifyTable_nodup (codes_nodup hc hd), forE_ok]
  intro o hmem
  refine compareRoute_first hc (codify_length o) ?_ ?_
  · intro k c hk hl hcd
    rcases h o hmem k ((in_codify (ho o hmem) k).1 hk) with ⟨c', h1, _, h3⟩ | h1
    · rw [hl] at h1; cases h1; exact h3 hcd
    · rw [hl] at h1; simp at h1
  · intro k hk
    rcases h o hmem k ((in_codify (ho o hmem) k).1 hk) with ⟨c, h1, h2, _⟩ | h1
    · left; unfold routeOf; rw [h1, ← h2]; rfl
    · exact .inr h1

/-- The original entry is for one of the keys of the first compressed entry; the second is
defaultable and has that key too, which C12 does not allow. -/
example : compareTables (fun _ _ => true) [⟨0x10, 0xFFFFFFFF, 3, false⟩]
    [⟨0x10, 0xFFFFFFFE, 3, false⟩, ⟨0x10, 0xFFFFFFFC, 3, true⟩] = .ok () := by decide +kernel

theorem distinct_of_nodup {t : List Entry} (h : (t.map OC.kmOf).Nodup) : DistinctKeyMasks t := by
  refine (List.pairwise_map.1 h).imp ?_
  intro a b hne heq
  apply hne
  unfold OC.kmOf
  rw [heq.1, heq.2]

/-- **C160.** The checker accepts whatever ordered covering returns for a table in which no two
entries match the same key. -/
theorem C160_covering (same : Entry → Entry → Bool) (fuel : Nat) (timeUp : Nat → Bool)
    (t : List Entry) (target : Option Nat) (noRaise : Bool) (hv : AllValid t) (ho : Orthogonal t)
    (hf : t.length < fuel) (hne : t ≠ []) (t' : List Entry) (a' : OC.Aliases)
    (h : OC.orderedCovering fuel timeUp t target [] noRaise = .ok (t', a')) :
    compareTables same t t' = .ok () := by
  have hn := narrow_of_orthogonal hv ho
  obtain ⟨hI, _⟩ := OC.oc_inv hv hn hf hne h
  refine C160_enough same t t' hv (fun e he => hI.valid e he) (distinct_of_nodup hI.nodup) ?_
  intro o hmem k hk
  exact .inl (OC.lookup_of_inv (OC.sortGen_nodup hn) hI
    ((OC.lookup_sortGen hv hn k).trans (OC.lookup_orthogonal ho hmem hk)))

/-- **C160.** The same of the ordered covering compressor as a whole, which leaves out what default
routing does as well. -/
theorem C160_compressor (same : Entry → Entry → Bool) (fuel : Nat) (t : List Entry)
    (target : Option Nat) (hv : AllValid t) (ho : Orthogonal t) (hf : t.length < fuel)
    (hne : t ≠ []) (t' : List Entry) (h : OC.compressTable fuel t target = .ok t') :
    compareTables same t t' = .ok () := by
  have hn := narrow_of_orthogonal hv ho
  unfold OC.compressTable at h
  cases hoc : OC.orderedCovering fuel (fun _ => false) t target [] true with
  | error e => rw [hoc] at h; simp [bind, Except.bind] at h
  | ok r =>
    obtain ⟨t1, a1⟩ := r
    rw [hoc] at h
    simp only [bind, Except.bind] at h
    obtain ⟨hI, _⟩ := OC.oc_inv hv hn hf hne hoc
    have hv1 : AllValid t1 := fun e he => hI.valid e he
    obtain ⟨hs, hsub⟩ := OC.C10_remove_default_safe t1 target hv1 t' h
    refine C160_enough same t t' hv (fun e he => hv1 e (hsub.mem he))
      (distinct_of_nodup (hI.nodup.sublist (hsub.map _))) ?_
    intro o hmem k hk
    obtain ⟨e, h1, h2, h3⟩ := OC.lookup_of_inv (OC.sortGen_nodup hn) hI
      ((OC.lookup_sortGen hv hn k).trans (OC.lookup_orthogonal ho hmem hk))
    rcases hs k with h4 | ⟨h4, e', h5, h6⟩
    · exact .inl ⟨e, by rw [h4, h1], h2, h3⟩
    · rw [h1] at h5; cases h5
      exact .inr ⟨h4, h3 h6⟩

/-- The table of C08, with defaultable entries, of which two are merged and one is left out. -/
example : AllValid OC.exTable ∧ Orthogonal OC.exTable ∧ OC.compressTable 5 OC.exTable none =
    .ok [⟨0x10, 0xFFFFFFFE, 3, false⟩, ⟨0x00, 0xFFFFFFC0, 5, false⟩] :=
  ⟨OC.exTable_ok.1, OC.exTable_ok.2, by decide +kernel⟩

/-- **C160.** The checker accepts whatever the range compressor returns for a table of entries with
contiguous masks in which no two match the same key. -/
theorem C160_range (same : Entry → Entry → Bool) (fuel : Nat) (asFar : Bool) (target : Nat)
    (t t' : List Entry) (hv : AllValid t) (hc : ∀ e ∈ t, Range.Contiguous e.mask) (hne : t ≠ [])
    (hfuel : t.length ≤ fuel) (ho : Orthogonal t)
    (h : Range.compressTable fuel asFar target t = .ok t') :
    compareTables same t t' = .ok () := by
  obtain ⟨t1, h1, hs, _, hv', _⟩ := Range.C06_range_preserves_routing fuel asFar target t hv hc hne hfuel
  rw [h] at h1; cases h1
  obtain ⟨hn, hk'⟩ := Range.C134_range_narrow_first fuel asFar target t t' hv hc hne hfuel ho h
  have hd : DistinctKeyMasks t' := hn.imp (fun hab heq => hab.1 (by rw [heq.1, heq.2]))
  refine C160_enough same t t' hv hv' hd ?_
  intro o hmem k hk
  left
  have hl := OC.lookup_orthogonal ho hmem hk
  have hr : routeOf t' k = some o.route := by
    have e : routeOf t k = some o.route := by unfold routeOf; rw [hl]; rfl
    rw [hs k (by rw [e]; simp), e]
  unfold routeOf at hr
  cases hc' : lookup t' k with
  | none => rw [hc'] at hr; simp at hr
  | some c =>
    rw [hc'] at hr
    refine ⟨c, rfl, by simpa using hr, fun hcd => ?_⟩
    have hck : c.Matches k := by simpa using List.find?_some hc'
    have hct := hk' c (List.mem_of_find?_eq_some hc') hcd
    have := OC.lookup_orthogonal ho hct hck
    rw [hl] at this; cases this
    exact hcd

/-- The table of C06, of which three entries become one that overlaps the other. -/
example : AllValid Range.demo ∧ (∀ e ∈ Range.demo, Range.Contiguous e.mask) ∧
    Range.compressTable 4 true 1023 Range.demo =
      .ok [⟨4, 0xFFFFFFFF, 1, false⟩, ⟨4, 0xFFFFFFFC, 2, false⟩] ∧
    compareTables (fun _ _ => true) Range.demo
      [⟨4, 0xFFFFFFFF, 1, false⟩, ⟨4, 0xFFFFFFFC, 2, false⟩] = .ok () :=
  ⟨Range.demo_valid, Range.demo_contiguous, by decide +kernel, by decide +kernel⟩


/-- If every entry that has a key of the code has the route of `o`, and one has all of them and
is defaultable only if `o` is, the comparison ends well. -/
theorem compareRoute_within {same : Entry → Entry → Bool} {o w : Entry} {t : List Entry}
    (hv : AllValid t) {code : Code} (hl : code.length = 32)
    (hr : ∀ c ∈ t, ∀ k, In code (bitsOf k) → c.Matches k → c.route = o.route)
    (hs : ∀ c ∈ t, o.defaultable = false → c.defaultable = true → same o c = false)
    (hw : w ∈ t) (hwk : ∀ k, In code (bitsOf k) → w.Matches k)
    (hwd : w.defaultable = true → o.defaultable = true) :
    compareRoute same o (t.map (fun e => (codify e, e))) code = .ok () := by
  induction t generalizing code with
  | nil => simp at hw
  | cons c t ih =>
    have hv' : AllValid t := fun e he => hv e (by simp [he])
    have hcv := hv c (by simp)
    have hlc : code.length = (codify c).length := by rw [hl, codify_length]
    have hs' := fun e (he : e ∈ t) => hs e (List.mem_cons_of_mem _ he)
    have hr' := fun e (he : e ∈ t) => hr e (List.mem_cons_of_mem _ he)
    rw [List.map_cons, compareRoute]
    split
    · rename_i hcov
      obtain ⟨b, hb1, hb2⟩ := (covers_iff hlc).1 hcov
      obtain ⟨k, rfl⟩ := bitsOf_surj (b := b) (by rw [← hb1.length, hl])
      have hm := (in_codify hcv k).1 hb2
      have hroute := hr c (by simp) k hb1 hm
      have hsub : ∀ r ∈ calcRemainders code (codify c), ∀ k, In r (bitsOf k) →
          In code (bitsOf k) ∧ ¬ c.Matches k := by
        intro r hrm k hk
        have := (remainders_iff hlc hcov (bitsOf k)).1 ⟨r, hrm, hk⟩
        exact ⟨this.1, fun hm => this.2 ((in_codify hcv k).2 hm)⟩
      rw [if_neg (by simpa using hroute.symm)]
      rw [List.mem_cons] at hw
      split
      · rename_i hdef
        have hdef : o.defaultable = false ∧ c.defaultable = true := by simpa using hdef
        have hwt : w ∈ t := by
          rcases hw with rfl | hw
          · rw [hwd hdef.2] at hdef; simp at hdef
          · exact hw
        rw [hs c (by simp) hdef.1 hdef.2, if_neg (by simp)]
        exact ih hv' hl hr' hs' hwt hwk
      · rw [forE_ok]
        intro r hrm
        have hlr : r.length = 32 := by rw [remainders_length hrm, hl]
        rcases hw with rfl | hwt
        · obtain ⟨b, hb⟩ := In.exists r
          obtain ⟨k, rfl⟩ := bitsOf_surj (b := b) (by rw [← hb.length, hlr])
          have := hsub r hrm k hb
          exact absurd (hwk k this.1) this.2
        · exact ih hv' hlr (fun e he k hk => hr' e he k (hsub r hrm k hk).1) hs' hwt
            (fun k hk => hwk k (hsub r hrm k hk).1)
    · rename_i hcov
      obtain ⟨b, hb⟩ := In.exists code
      obtain ⟨k, rfl⟩ := bitsOf_surj (b := b) (by rw [← hb.length, hl])
      have hwt : w ∈ t := by
        rcases List.mem_cons.1 hw with rfl | hw
        · exact absurd ((covers_iff hlc).2 ⟨_, hb, (in_codify hcv k).2 (hwk k hb)⟩) hcov
        · exact hw
      exact ih hv' hl hr' hs' hwt hwk

theorem pairwise_either {α : Type} {R : α → α → Prop} {l : List α} (h : l.Pairwise R) {a b : α}
    (ha : a ∈ l) (hb : b ∈ l) (hne : a ≠ b) : R a b ∨ R b a := by
  induction l with
  | nil => simp at ha
  | cons c l ih =>
    rw [List.pairwise_cons] at h
    rw [List.mem_cons] at ha hb
    rcases ha with rfl | ha <;> rcases hb with rfl | hb
    · exact absurd rfl hne
    · exact .inl (h.1 b hb)
    · exact .inr (h.1 a ha)
    · exact ih h.2 ha hb

/-- **C160.** The checker accepts whatever the unordered compressor returns for a table in which
entries with different routes never match the same key. Entries are taken to be equal only if they
have the same key and mask (spinn_machine). -/
theorem C160_unordered (same : Entry → Entry → Bool)
    (hsame : ∀ a b, same a b = true → a.key = b.key ∧ a.mask = b.mask) (useC : Bool) (n : Nat)
    (t t' : List Entry) (hv : AllValid t) (hd : RouteDisjoint t)
    (h : Pair.compressTable false useC n t = .ok t') :
    compareTables same t t' = .ok () := by
  obtain ⟨hv', -, hcov⟩ := Pair.C03_pair_entries false useC n t t' hv h
  have hd' := (Pair.C04_unordered_order_independent useC n t t' hv hd h).1
  have hst := Pair.C139_no_merge_left false useC n t t' hv h
  unfold compareTables
  simp only
  rw [codifyTable_nodup (codes_nodup hv' (distinct_of_nodup (Pair.unordered_distinct hv hd h))),
    forE_ok]
  intro o hmem
  obtain ⟨w, hw, hwk, hwr, hwd⟩ := hcov o hmem
  refine compareRoute_within hv' (codify_length o) ?_ ?_ hw
    (fun k hk => hwk k ((in_codify (hv o hmem) k).1 hk)) hwd
  · intro c hc k hk hck
    apply Classical.byContradiction
    intro hne
    rw [← hwr] at hne
    exact hd' c hc w hw hne ⟨k, hck, hwk k ((in_codify (hv o hmem) k).1 hk)⟩
  · intro c hc hod hcd
    cases hs : same o c with
    | false => rfl
    | true =>
      exfalso
      obtain ⟨hk, hm⟩ := hsame o c hs
      have hcw : ∀ k, c.Matches k → w.Matches k := by
        intro k hck
        apply hwk
        unfold Entry.Matches at hck ⊢
        rw [hk, hm]; exact hck
      have hcv := hv' c hc
      have hroute : c.route = w.route := by
        apply Classical.byContradiction
        intro hne
        exact hd' c hc w hw hne ⟨c.key, hcv, hcw _ hcv⟩
      have hne : c ≠ w := by
        intro he
        rw [← he] at hwd
        rw [hwd hcd] at hod; cases hod
      rcases pairwise_either hst hc hw hne with h1 | h1
      · obtain ⟨x, hx, hxr, hxm⟩ := h1 hroute w (hv' w hw) (fun k hk => hk.elim (hcw k) id)
        exact hd' x hx w hw (by rw [← hroute]; exact hxr) hxm
      · obtain ⟨x, hx, hxr, hxm⟩ := h1 hroute.symm w (hv' w hw) (fun k hk => hk.elim id (hcw k))
        exact hd' x hx w hw hxr hxm

/-- The table of C03, of which three entries become one, a defaultable one among them. -/
example : AllValid Pair.demo ∧ RouteDisjoint Pair.demo ∧
    Pair.compressTable false true 1023 Pair.demo =
      .ok [⟨0x8, 0xFFFFFFFF, 2, false⟩, ⟨0x4, 0xFFFFFFFC, 1, false⟩] :=
  ⟨Pair.demo_valid, Pair.demo_disjoint, by decide +kernel⟩

end Pacman.Checker
