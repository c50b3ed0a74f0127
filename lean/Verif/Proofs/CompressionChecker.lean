import Verif.Model.CompressionChecker
import Verif.Proofs.Bits
import Verif.Proofs.Sort
/-
Lemmas on the compression checker.
-/

namespace Pacman.Checker

/-- A bit string is in a code. -/
inductive In : Code → List Bool → Prop
  | nil : In [] []
  | cons {o : Option Bool} {os : Code} {b : Bool} {bs : List Bool} :
      (o = none ∨ o = some b) → In os bs → In (o :: os) (b :: bs)

theorem in_cons {o : Option Bool} {os : Code} {b : Bool} {bs : List Bool} :
    In (o :: os) (b :: bs) ↔ (o = none ∨ o = some b) ∧ In os bs :=
  ⟨fun h => by cases h; exact ⟨by assumption, by assumption⟩, fun ⟨h1, h2⟩ => .cons h1 h2⟩

theorem In.length {c : Code} {b : List Bool} (h : In c b) : c.length = b.length := by
  induction h <;> simp_all

theorem In.exists (c : Code) : ∃ b, In c b := by
  induction c with
  | nil => exact ⟨[], .nil⟩
  | cons o os ih =>
    obtain ⟨b, h⟩ := ih
    cases o with
    | none => exact ⟨true :: b, .cons (.inl rfl) h⟩
    | some v => exact ⟨v :: b, .cons (.inr rfl) h⟩

theorem covers_all {o c : Code} : covers o c = true ↔ (o.zip c).all (fun oc => match oc with
    | (some true, some false) => false
    | (some false, some true) => false
    | _ => true) = true := by
  unfold covers
  rw [Bool.or_eq_true]
  constructor
  · rintro (h | h)
    · have : o = c := by simpa using h
      subst this
      clear h
      induction o with
      | nil => rfl
      | cons a o ih =>
        rw [List.zip_cons_cons, List.all_cons, ih, Bool.and_true]
        rcases a with _ | _ | _ <;> rfl
    · exact h
  · exact .inr

/-- Two codes of the same length cover each other iff they share a bit string. -/
theorem covers_iff {o c : Code} (hl : o.length = c.length) :
    covers o c = true ↔ ∃ b, In o b ∧ In c b := by
  rw [covers_all]
  induction o generalizing c with
  | nil =>
    cases c with
    | nil => simp only [List.zip_nil_left, List.all_nil, true_iff]; exact ⟨[], .nil, .nil⟩
    | cons => simp at hl
  | cons a o ih =>
    cases c with
    | nil => simp at hl
    | cons d c =>
      simp only [List.length_cons, Nat.add_right_cancel_iff] at hl
      simp only [List.zip_cons_cons, List.all_cons, Bool.and_eq_true, ih hl]
      constructor
      · rintro ⟨h, b, h1, h2⟩
        rcases a with _ | a
        · rcases d with _ | d
          · exact ⟨true :: b, .cons (.inl rfl) h1, .cons (.inl rfl) h2⟩
          · exact ⟨d :: b, .cons (.inl rfl) h1, .cons (.inr rfl) h2⟩
        · refine ⟨a :: b, .cons (.inr rfl) h1, .cons ?_ h2⟩
          rcases d with _ | d
          · exact .inl rfl
          · right; cases a <;> cases d <;> simp_all
      · rintro ⟨b, h1, h2⟩
        cases b with
        | nil => cases h1
        | cons b bs =>
          rw [in_cons] at h1 h2
          refine ⟨?_, bs, h1.2, h2.2⟩
          rcases h1.1 with rfl | rfl
          · rcases d with _ | _ | _ <;> rfl
          · rcases h2.1 with rfl | rfl <;> cases b <;> rfl

theorem mem_headRemainder {o c : Option Bool} {os r : Code} :
    r ∈ headRemainder o c os ↔ ∃ b, o = none ∧ c = some (!b) ∧ r = some b :: os := by
  unfold headRemainder
  rcases o with _ | o <;> rcases c with _ | _ | _ <;> simp

/-- The remainders have the length of the original code. -/
theorem remainders_length {o c : Code} {r : Code} (hr : r ∈ calcRemainders o c) :
    r.length = o.length := by
  induction o generalizing c r with
  | nil => simp [calcRemainders] at hr
  | cons a o ih =>
    cases c with
    | nil => simp [calcRemainders] at hr
    | cons d c =>
      rw [calcRemainders] at hr
      split at hr
      · simp at hr
      · rw [List.mem_append, List.mem_map] at hr
        rcases hr with ⟨t, ht, rfl⟩ | hr
        · simp [ih ht]
        · obtain ⟨b, _, _, rfl⟩ := mem_headRemainder.1 hr
          simp

/-- The remainders are together exactly the original code without the compressed one. -/
theorem remainders_iff {o c : Code} (hl : o.length = c.length) (hc : covers o c = true)
    (b : List Bool) :
    (∃ r ∈ calcRemainders o c, In r b) ↔ In o b ∧ ¬ In c b := by
  induction o generalizing c b with
  | nil =>
    cases c with
    | nil =>
      simp only [calcRemainders, List.not_mem_nil, false_and, exists_false, false_iff]
      exact fun h => h.2 h.1
    | cons => simp at hl
  | cons a o ih =>
    cases c with
    | nil => simp at hl
    | cons d c =>
      simp only [List.length_cons, Nat.add_right_cancel_iff] at hl
      rw [covers_all, List.zip_cons_cons, List.all_cons, Bool.and_eq_true] at hc
      have ih := fun b => ih hl (covers_all.2 hc.2) b
      rw [calcRemainders]
      split
      · rename_i he
        rw [he]
        simp only [List.not_mem_nil, false_and, exists_false, false_iff]
        exact fun h => h.2 h.1
      · cases b with
        | nil =>
          constructor
          · rintro ⟨r, hr, h⟩
            rw [List.mem_append, List.mem_map] at hr
            rcases hr with ⟨t, ht, rfl⟩ | hr
            · cases h
            · obtain ⟨b, _, _, rfl⟩ := mem_headRemainder.1 hr
              cases h
          · rintro ⟨h, _⟩; cases h
        | cons b bs =>
          have key : (∃ r ∈ (calcRemainders o c).map (fun tail => a :: tail) ++
              headRemainder a d o, In r (b :: bs)) ↔
              ((a = none ∨ a = some b) ∧ In o bs ∧ ¬ In c bs) ∨
              (a = none ∧ d = some (!b) ∧ In o bs) := by
            rw [← ih bs]
            constructor
            · rintro ⟨r, hr, h⟩
              rw [List.mem_append, List.mem_map] at hr
              rcases hr with ⟨t, ht, rfl⟩ | hr
              · rw [in_cons] at h
                exact .inl ⟨h.1, t, ht, h.2⟩
              · right
                obtain ⟨b', h1, h2, rfl⟩ := mem_headRemainder.1 hr
                rw [in_cons] at h
                have : b' = b := by simpa using h.1
                subst this
                exact ⟨h1, h2, h.2⟩
            · rintro (⟨h1, t, ht, h2⟩ | ⟨rfl, rfl, h⟩)
              · exact ⟨a :: t, List.mem_append.2 (.inl (List.mem_map.2 ⟨t, ht, rfl⟩)),
                  .cons h1 h2⟩
              · exact ⟨some b :: o, List.mem_append.2 (.inr (mem_headRemainder.2
                  ⟨b, rfl, rfl, rfl⟩)), .cons (.inr rfl) h⟩
          rw [key, in_cons, in_cons]
          rcases a with _ | a <;> rcases d with _ | d
          · simp
          · cases b <;> cases d <;> simp
            all_goals (intro h1 h2; exact h1)
          · simp [and_assoc]
          · have : a = d := by
              have := hc.1
              cases a <;> cases d <;> simp_all
            subst this
            simp
            grind

/-- The bits of a key, most significant first. -/
def bitsOf (k : Word) : List Bool := (List.range 32).reverse.map k.getLsbD

theorem in_map {l : List Nat} {f : Nat → Option Bool} {g : Nat → Bool} :
    In (l.map f) (l.map g) ↔ ∀ i ∈ l, f i = none ∨ f i = some (g i) := by
  induction l with
  | nil => simp; exact .nil
  | cons a l ih => simp only [List.map_cons, in_cons, ih, List.mem_cons, forall_eq_or_imp]

/-- A key is in the code of an entry iff the entry matches it. -/
theorem in_codify {e : Entry} (he : e.Valid) (k : Word) :
    In (codify e) (bitsOf k) ↔ e.Matches k := by
  unfold codify bitsOf Entry.Matches
  rw [in_map, and_eq_iff]
  have hv := and_eq_iff.1 he
  constructor
  · intro h i hi
    have h1 := h i (by simpa using hi)
    have h2 := hv i hi
    revert h1 h2
    cases e.mask.getLsbD i <;> cases e.key.getLsbD i <;> cases k.getLsbD i <;> simp
  · intro h i hi
    have hi : i < 32 := by simpa using hi
    have h1 := h i hi
    revert h1
    cases e.mask.getLsbD i <;> cases e.key.getLsbD i <;> cases k.getLsbD i <;> simp

/-- Each bit string of length 32 is that of a key. -/
theorem bitsOf_surj {b : List Bool} (hb : b.length = 32) : ∃ k, bitsOf k = b := by
  refine ⟨(BitVec.ofBoolListBE b).cast hb, ?_⟩
  apply List.ext_getElem
  · simp [bitsOf, hb]
  · intro i h1 h2
    have hi : i < 32 := by omega
    simp only [bitsOf, List.getElem_map, List.getElem_reverse, List.getElem_range,
      List.length_range, BitVec.getLsbD_cast, BitVec.getLsbD_ofBoolListBE, hb]
    have : 32 - 1 - (32 - 1 - i) = i := by omega
    rw [this]
    simp [List.getD_eq_getElem?_getD, h2]
    omega

theorem codify_length (e : Entry) : (codify e).length = 32 := by simp [codify]

/-- Two valid entries with the same code have the same key and mask. -/
theorem codify_inj {a b : Entry} (ha : a.Valid) (hb : b.Valid) (h : codify a = codify b) :
    a.key = b.key ∧ a.mask = b.mask := by
  unfold codify at h
  have h1 : ∀ i : Nat, i < 32 →
      (if a.mask.getLsbD i then some (a.key.getLsbD i) else none) =
      (if b.mask.getLsbD i then some (b.key.getLsbD i) else none) := by
    intro i hi
    exact (List.map_inj_left.1 h) i (by simpa using hi)
  have va := and_eq_iff.1 ha
  have vb := and_eq_iff.1 hb
  constructor <;> apply word_ext <;> intro i hi <;>
    have h2 := h1 i hi <;> have h3 := va i hi <;> have h4 := vb i hi <;>
    revert h2 h3 h4 <;>
    cases a.mask.getLsbD i <;> cases b.mask.getLsbD i <;>
    cases a.key.getLsbD i <;> cases b.key.getLsbD i <;> simp

theorem set_new {κ α : Type} [DecidableEq κ] {d : Dict κ α} {k : κ} {v : α}
    (h : ∀ p ∈ d, p.1 ≠ k) : d.set k v = d ++ [(k, v)] := by
  induction d with
  | nil => rfl
  | cons p d ih =>
    rw [Dict.set, if_neg (h p (by simp)), ih (fun q hq => h q (by simp [hq]))]
    rfl

theorem codifyTable_aux {t : List Entry} {d : Dict Code Entry}
    (h1 : (t.map codify).Nodup) (h2 : ∀ p ∈ d, p.1 ∉ t.map codify) :
    t.foldl (fun d e => d.set (codify e) e) d = d ++ t.map (fun e => (codify e, e)) := by
  induction t generalizing d with
  | nil => simp
  | cons e t ih =>
    rw [List.map_cons, List.nodup_cons] at h1
    rw [List.foldl_cons, set_new, ih h1.2]
    · simp
    · intro p hp
      rw [List.mem_append, List.mem_singleton] at hp
      rcases hp with hp | rfl
      · exact fun h => h2 p hp (by simp [List.mem_map.1 h])
      · exact h1.1
    · intro p hp h
      exact h2 p hp (by simp [h])

/-- Without repeated codes the dictionary lists the table in order. -/
theorem codifyTable_nodup {t : List Entry} (h : (t.map codify).Nodup) :
    codifyTable t = t.map (fun e => (codify e, e)) := by
  unfold codifyTable
  rw [codifyTable_aux h (by simp)]
  simp

theorem codes_nodup {t : List Entry} (hv : AllValid t)
    (h : t.Pairwise (fun a b => ¬ (a.key = b.key ∧ a.mask = b.mask))) :
    (t.map codify).Nodup := by
  rw [List.Nodup, List.pairwise_map]
  refine List.Pairwise.imp_of_mem ?_ h
  intro a b ha hb hne heq
  exact hne (codify_inj (hv a ha) (hv b hb) heq)

/-- What it means for the rest of a table to serve an entry on the keys of a code. -/
def Serves (o : Entry) (t : List Entry) (code : Code) : Prop :=
  ∀ k, In code (bitsOf k) → routeOf t k = some o.route ∨ (lookup t k = none ∧ o.defaultable = true)

theorem lookup_cons_pos {e : Entry} {t : List Entry} {k : Word} (h : e.Matches k) :
    lookup (e :: t) k = some e := by
  unfold lookup; rw [List.find?_cons_of_pos (by simpa using h)]

theorem lookup_cons_neg {e : Entry} {t : List Entry} {k : Word} (h : ¬ e.Matches k) :
    lookup (e :: t) k = lookup t k := by
  unfold lookup; rw [List.find?_cons_of_neg (by simpa using h)]

theorem compareRoute_sound {same : Entry → Entry → Bool} {o : Entry} {t : List Entry}
    (hv : AllValid t) {code : Code} (hl : code.length = 32)
    (h : compareRoute same o (t.map (fun e => (codify e, e))) code = .ok ()) :
    Serves o t code := by
  induction t generalizing code with
  | nil =>
    intro k hk
    rw [List.map_nil, compareRoute] at h
    split at h
    · exact .inr ⟨rfl, by assumption⟩
    · simp at h
  | cons c t ih =>
    have hv' : AllValid t := fun e he => hv e (by simp [he])
    have hcv := hv c (by simp)
    intro k hk
    rw [List.map_cons, compareRoute] at h
    have hlc : code.length = (codify c).length := by rw [hl, codify_length]
    split at h
    · rename_i hcov
      split at h
      · simp at h
      · rename_i hroute
        have hroute : o.route = c.route := by simpa using hroute
        by_cases hm : c.Matches k
        · left; unfold routeOf; rw [lookup_cons_pos hm, hroute]; rfl
        · unfold routeOf; rw [lookup_cons_neg hm]
          split at h
          · split at h
            · simp at h
            · exact ih hv' hl h k hk
          · rw [forE_ok] at h
            obtain ⟨r, hr, hrk⟩ := (remainders_iff hlc hcov (bitsOf k)).2
              ⟨hk, fun hh => hm ((in_codify hcv k).1 hh)⟩
            exact ih hv' (by rw [remainders_length hr, hl]) (h r hr) k hrk
    · rename_i hcov
      have hm : ¬ c.Matches k := fun hm =>
        hcov ((covers_iff hlc).2 ⟨bitsOf k, hk, (in_codify hcv k).2 hm⟩)
      unfold routeOf; rw [lookup_cons_neg hm]
      exact ih hv' hl h k hk

theorem compareRoute_complete {same : Entry → Entry → Bool} {o : Entry} {t : List Entry}
    (hv : AllValid t) {code : Code} (hl : code.length = 32)
    (hd : ∀ c ∈ t, ∀ k, In code (bitsOf k) → c.Matches k → c.defaultable = true →
      o.defaultable = true)
    (h : Serves o t code) :
    compareRoute same o (t.map (fun e => (codify e, e))) code = .ok () := by
  induction t generalizing code with
  | nil =>
    obtain ⟨b, hb⟩ := In.exists code
    obtain ⟨k, rfl⟩ := bitsOf_surj (b := b) (by rw [← hb.length, hl])
    rcases h k hb with h | h
    · simp [routeOf, lookup] at h
    · rw [List.map_nil, compareRoute, if_pos h.2]
  | cons c t ih =>
    have hv' : AllValid t := fun e he => hv e (by simp [he])
    have hcv := hv c (by simp)
    have hlc : code.length = (codify c).length := by rw [hl, codify_length]
    rw [List.map_cons, compareRoute]
    split
    · rename_i hcov
      obtain ⟨b, hb1, hb2⟩ := (covers_iff hlc).1 hcov
      obtain ⟨k, rfl⟩ := bitsOf_surj (b := b) (by rw [← hb1.length, hl])
      have hm := (in_codify hcv k).1 hb2
      have hroute : o.route = c.route := by
        rcases h k hb1 with h | h
        · unfold routeOf at h; rw [lookup_cons_pos hm] at h
          simpa using h.symm
        · rw [lookup_cons_pos hm] at h; simp at h
      rw [if_neg (by simpa using hroute), if_neg, forE_ok]
      · intro r hr
        have hsub : ∀ k, In r (bitsOf k) → In code (bitsOf k) ∧ ¬ c.Matches k := by
          intro k hk
          have := (remainders_iff hlc hcov (bitsOf k)).1 ⟨r, hr, hk⟩
          exact ⟨this.1, fun hm => this.2 ((in_codify hcv k).2 hm)⟩
        refine ih hv' (by rw [remainders_length hr, hl])
          (fun e he k hk => hd e (by simp [he]) k (hsub k hk).1) ?_
        intro k hk
        have := h k (hsub k hk).1
        unfold routeOf at this; rw [lookup_cons_neg (hsub k hk).2] at this
        exact this
      · have := hd c (by simp) k hb1 hm
        cases hod : o.defaultable <;> cases hcd : c.defaultable <;> simp_all
    · rename_i hcov
      refine ih hv' hl (fun e he => hd e (by simp [he])) ?_
      intro k hk
      have hm : ¬ c.Matches k := fun hm =>
        hcov ((covers_iff hlc).2 ⟨bitsOf k, hk, (in_codify hcv k).2 hm⟩)
      have := h k hk
      unfold routeOf at this; rw [lookup_cons_neg hm] at this
      exact this

end Pacman.Checker
