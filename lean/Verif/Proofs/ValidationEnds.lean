import Verif.Proofs.ValidationTrace
/-
The trace of the route checker ends, and accepts good routes.
-/

namespace Pacman.Valid

open Alloc (VId)
open RPath (XY)

/-! ### Termination -/

/-- How many tables have not been visited. -/
def unseen (V : Scene) (l : List XY) : Nat :=
  ((V.tables.map (·.1)).filter (fun c => decide (c ∉ l))).length

theorem filter_length_mono {α : Type} {p q : α → Bool} (l : List α) (h : ∀ a ∈ l, p a = true → q a = true) :
    (l.filter p).length ≤ (l.filter q).length := by
  induction l with
  | nil => exact Nat.le_refl _
  | cons a l ih =>
    have ih := ih (fun b hb => h b (List.mem_cons_of_mem _ hb))
    rw [List.filter_cons, List.filter_cons]
    have ha := h a List.mem_cons_self
    cases hp : p a <;> cases hq : q a
    · simp; exact ih
    · simp; omega
    · rw [hp, hq] at ha; exact absurd (ha rfl) (by simp)
    · simp; exact ih

theorem filter_length_lt {α : Type} {p q : α → Bool} (l : List α) (h : ∀ a ∈ l, p a = true → q a = true)
    {x : α} (hx : x ∈ l) (hp : p x = false) (hq : q x = true) :
    (l.filter p).length < (l.filter q).length := by
  induction l with
  | nil => cases hx
  | cons a l ih =>
    have hm := filter_length_mono l (fun b hb => h b (List.mem_cons_of_mem _ hb))
    rw [List.filter_cons, List.filter_cons]
    rcases List.mem_cons.mp hx with rfl | hx
    · rw [hp, hq]; simp; omega
    · have ih := ih (fun b hb => h b (List.mem_cons_of_mem _ hb)) hx
      have ha := h a List.mem_cons_self
      cases hp : p a <;> cases hq : q a
      · simp; exact ih
      · simp; omega
      · rw [hp, hq] at ha; exact absurd (ha rfl) (by simp)
      · simp; exact ih

theorem unseen_mono {V : Scene} {l l' : List XY} (h : ∀ x ∈ l, x ∈ l') : unseen V l' ≤ unseen V l := by
  unfold unseen
  refine filter_length_mono _ (fun a _ ha => ?_)
  simp only [decide_eq_true_eq] at ha ⊢
  exact fun hx => ha (h a hx)

theorem unseen_lt {V : Scene} {l : List XY} {d : XY} {t : List Entry} (ht : V.tables.get? d = some t)
    (hd : d ∉ l) : unseen V (l ++ [d]) < unseen V l := by
  unfold unseen
  refine filter_length_lt _ (fun a _ ha => ?_) (x := d) ?_ ?_ ?_
  · simp only [decide_eq_true_eq] at ha ⊢
    exact fun hx => ha (List.mem_append.mpr (Or.inl hx))
  · exact List.mem_map.mpr ⟨(d, t), Dict.mem_of_get? ht, rfl⟩
  · simp
  · simp [hd]

theorem locateLoop_error {key : Word} {n : Nat} (es : List Entry) : ∀ {found : Option Entry} {err : PyErr},
    locateLoop key n es found = .error err → err = .routing ∨ err = .configuration := by
  induction es with
  | nil => intro found err h; cases h
  | cons e es ih =>
    intro found err h
    simp only [locateLoop] at h
    split at h
    · split at h
      · cases h; exact Or.inl rfl
      · exact ih h
    · split at h
      · cases h; exact Or.inr rfl
      · exact ih h

theorem locate_error {t : List Entry} {key : Word} {n : Nat} {err : PyErr} (h : locate t key n = .error err) :
    err = .routing ∨ err = .configuration := by
  unfold locate at h
  split at h
  · rename_i h1; cases h; exact locateLoop_error _ h1
  · cases h; exact Or.inl rfl
  · cases h

theorem overLinks_ends {V : Scene} {key : Word} {n fuel : Nat}
    (ih : ∀ {c : XY} {e : Entry} {st : Trace} {err : PyErr}, Found V key n c e →
      unseen V st.visited < fuel → traceFrom V key n fuel c e st = .error err →
      err = .routing ∨ err = .configuration)
    {c : XY} {e : Entry} (he : Found V key n c e) (ls : List Nat) :
    ∀ {st : Trace} {err : PyErr}, unseen V st.visited < fuel + 1 →
      overLinks V key n (traceFrom V key n fuel) c ls st = .error err →
      err = .routing ∨ err = .configuration := by
  induction ls with
  | nil => intro st err _ h; cases h
  | cons l ls ih2 =>
    intro st err hu h
    simp only [overLinks] at h
    cases hl : V.link c l with
    | none => simp only [hl] at h; exact ih2 hu h
    | some d =>
      simp only [hl] at h
      cases ht : V.tables.get? d with
      | none => simp only [ht] at h; exact ih2 hu h
      | some t =>
        simp only [ht] at h
        split at h
        · cases h; exact Or.inl rfl
        · rename_i hv
          cases hloc : locate t key n with
          | error err => simp only [hloc] at h; cases h; exact locate_error hloc
          | ok e' =>
            simp only [hloc] at h
            have hd : Found V key n d e' := ⟨t, ht, hloc⟩
            have hlt : unseen V (st.enter d e' n key).visited < unseen V st.visited := unseen_lt ht hv
            cases hr : traceFrom V key n fuel d e' (st.enter d e' n key) with
            | error err =>
              simp only [hr] at h
              cases h
              exact ih hd (by omega) hr
            | ok s1 =>
              simp only [hr] at h
              refine ih2 ?_ h
              obtain ⟨new, hg⟩ := traceFrom_ok fuel hd hr
              have : unseen V s1.visited ≤ unseen V (st.enter d e' n key).visited := by
                refine unseen_mono (fun x hx => ?_)
                rw [hg.visited]
                exact List.mem_append.mpr (Or.inl hx)
              omega

theorem traceFrom_ends {V : Scene} {key : Word} {n : Nat} (fuel : Nat) :
    ∀ {c : XY} {e : Entry} {st : Trace} {err : PyErr}, Found V key n c e →
      unseen V st.visited < fuel → traceFrom V key n fuel c e st = .error err →
      err = .routing ∨ err = .configuration := by
  induction fuel with
  | zero => intro c e st err _ h _; omega
  | succ fuel ih =>
    intro c e st err hf hu h
    exact overLinks_ends ih hf (linksOf e) (st := st.dest c e) hu h

theorem unseen_le (V : Scene) (l : List XY) : unseen V l ≤ V.tables.length := by
  unfold unseen
  refine Nat.le_trans (List.length_filter_le _ _) ?_
  rw [List.length_map]
  exact Nat.le_refl _

theorem search_ends {V : Scene} {fuel : Nat} (hf : V.tables.length < fuel) {src : XY}
    {dests : List (XY × Nat)} {key : Word} {n : Nat} {err : PyErr}
    (h : search V fuel src dests key n = .error err) : err = .routing ∨ err = .configuration := by
  unfold search at h
  cases hs : start V key n fuel src with
  | ok st =>
    simp only [hs] at h
    split at h
    · cases h; exact Or.inl rfl
    · cases h
  | error err' =>
    simp only [hs] at h
    cases h
    unfold start at hs
    cases ht : V.tables.get? src with
    | none => simp only [ht] at hs; cases hs
    | some t =>
      simp only [ht] at hs
      cases hl : locate t key n with
      | error err => simp only [hl] at hs; cases hs; exact locate_error hl
      | ok e =>
        simp only [hl] at hs
        exact traceFrom_ends fuel ⟨t, ht, hl⟩ (Nat.lt_of_le_of_lt (unseen_le V _) hf) hs

/-! ### Entries that make no difference -/

theorem locateLoop_filter {key : Word} {n : Nat} {keep : Entry → Bool} (es : List Entry)
    (h : ∀ e ∈ es, keep e = false → ¬ e.Matches key ∧ Fine key n e) : ∀ (found : Option Entry),
    locateLoop key n (es.filter keep) found = locateLoop key n es found := by
  induction es with
  | nil => intro found; rfl
  | cons e es ih =>
    intro found
    have ih := ih (fun x hx => h x (List.mem_cons_of_mem _ hx))
    cases hk : keep e with
    | true =>
      rw [List.filter_cons_of_pos hk]
      simp only [locateLoop, ih]
    | false =>
      rw [List.filter_cons_of_neg (by rw [hk]; simp), ih]
      obtain ⟨h1, h2⟩ := h e List.mem_cons_self hk
      unfold Fine at h2
      rw [if_neg h1] at h2
      have h3 : ¬ e.mask &&& key = e.key := fun hm => h1 (matches_comm.mp hm)
      conv => rhs; rw [locateLoop]
      rw [if_neg h3, if_neg]
      intro hc
      rw [Bool.and_eq_true, decide_eq_true_eq, decide_eq_true_eq] at hc
      exact h2 hc.1 hc.2

theorem locate_filter {key : Word} {n : Nat} {keep : Entry → Bool} {t : List Entry}
    (h : ∀ e ∈ t, keep e = false → ¬ e.Matches key ∧ Fine key n e) :
    locate (t.filter keep) key n = locate t key n := by
  unfold locate
  rw [locateLoop_filter t h]

/-- What the trace sees of the tables. -/
def SameTables (V V' : Scene) (key : Word) (n : Nat) : Prop :=
  ∀ c, (V.tables.get? c = none ∧ V'.tables.get? c = none) ∨
    ∃ t t', V.tables.get? c = some t ∧ V'.tables.get? c = some t' ∧ locate t key n = locate t' key n

theorem overLinks_congr {V V' : Scene} {key : Word} {n : Nat} (hl : V'.link = V.link)
    (ht : SameTables V V' key n) {rec_ rec' : XY → Entry → Trace → Except PyErr Trace}
    (hr : ∀ c e st, rec_ c e st = rec' c e st) (c : XY) (ls : List Nat) : ∀ (st : Trace),
    overLinks V key n rec_ c ls st = overLinks V' key n rec' c ls st := by
  induction ls with
  | nil => intro st; rfl
  | cons l ls ih =>
    intro st
    simp only [overLinks, hl]
    cases V.link c l with
    | none => exact ih st
    | some d =>
      simp only
      rcases ht d with ⟨h1, h2⟩ | ⟨t, t', h1, h2, h3⟩
      · simp only [h1, h2]; exact ih st
      · simp only [h1, h2, h3, hr, ih]

theorem traceFrom_congr {V V' : Scene} {key : Word} {n : Nat} (hl : V'.link = V.link)
    (ht : SameTables V V' key n) (fuel : Nat) : ∀ (c : XY) (e : Entry) (st : Trace),
    traceFrom V key n fuel c e st = traceFrom V' key n fuel c e st := by
  induction fuel with
  | zero => intro c e st; rfl
  | succ fuel ih => intro c e st; exact overLinks_congr hl ht ih c (linksOf e) (st.dest c e)

theorem search_congr {V V' : Scene} {fuel : Nat} {src : XY} {dests : List (XY × Nat)} {key : Word} {n : Nat}
    (hl : V'.link = V.link) (ht : SameTables V V' key n) :
    search V fuel src dests key n = search V' fuel src dests key n := by
  have : start V key n fuel src = start V' key n fuel src := by
    unfold start
    rcases ht src with ⟨h1, h2⟩ | ⟨t, t', h1, h2, h3⟩
    · simp only [h1, h2]
    · simp only [h1, h2, h3, traceFrom_congr hl ht]
  unfold search
  rw [this]

/-! ### Good routes are accepted -/

theorem fine_of_clear {key : Word} {n : Nat} {e : Entry} (hv : e.Valid) (hn : key.toNat + n ≤ 2 ^ 32)
    (h : BlockMask e.mask → (e.Matches key ∧ ∀ i, i < n → e.Matches (key + BitVec.ofNat 32 i)) ∨
      ∀ k : Word, key.toNat ≤ k.toNat → k.toNat ≤ key.toNat + n → ¬ e.Matches k) : Fine key n e := by
  unfold Fine
  split
  · rename_i hm
    intro hr
    have hb' := rangeMask_iff.mp hr
    obtain ⟨p, hp, hmp⟩ := mem_rangeMasks.mp hr
    have hb := Range.isBlock_of_valid hv hp hmp
    have hl := lastKey_block hb
    rcases h hb' with h | h
    · cases n with
      | zero => have := (hb.matches _).mp h.1; omega
      | succ n =>
        have := (hb.matches _).mp (h.2 n (by omega))
        rw [key_add hn (by omega)] at this
        omega
    · exact absurd hm (h key (by omega) (by omega))
  · rename_i hm
    intro hr
    have hb' := rangeMask_iff.mp hr
    obtain ⟨p, hp, hmp⟩ := mem_rangeMasks.mp hr
    have hb := Range.isBlock_of_valid hv hp hmp
    have hl := lastKey_block hb
    rcases h hb' with h | h
    · exact absurd h.1 hm
    · intro hpos
      have hhigh := hb.high
      have hk : (BitVec.ofNat 32 (max e.key.toNat key.toNat) : Word).toNat = max e.key.toNat key.toNat := by
        rw [BitVec.toNat_ofNat]
        exact Nat.mod_eq_of_lt (by omega)
      refine h (BitVec.ofNat 32 (max e.key.toNat key.toNat)) (by omega) (by omega) ?_
      rw [hb.matches, hk]
      omega

section
variable {V : Scene} {key : Word} {n : Nat} {src : XY}

/-- The routes are good, as far as the base key is concerned. -/
structure Good (V : Scene) (key : Word) (n : Nat) (src : XY) : Prop where
  found : ∀ w c, Way V key src w c → ∃ e, Found V key n c e
  once : ∀ w w' c, Way V key src w c → Way V key src w' c → w = w'

theorem suffix_cons_eq {a b : Nat} {u w : List Nat} (ha : (a :: u) <:+ w) (hb : (b :: u) <:+ w) : a = b := by
  obtain ⟨x, hx⟩ := ha
  obtain ⟨y, hy⟩ := hb
  have h := hx.trans hy.symm
  have hlen : x.length = y.length := by
    have := congrArg List.length h
    simp at this
    exact this
  have := (List.append_inj h hlen).2
  exact (List.cons.inj this).1

theorem lookup_found {c : XY} {e : Entry} (h : Found V key n c e) : lookup (V.entries c) key = some e := by
  obtain ⟨t, ht, hl⟩ := h
  rw [entries_of ht]
  exact (locate_ok.mp hl).2

theorem overLinks_accepts {fuel : Nat} (hg : Good V key n src)
    (ih : ∀ {c : XY} {e : Entry} {st : Trace} {wc : List Nat}, Way V key src wc c → Found V key n c e →
      unseen V st.visited < fuel →
      (∀ x ∈ st.visited, ∃ w, Way V key src w x ∧ ∀ l, ¬ (l :: wc) <:+ w) →
      ∃ st', traceFrom V key n fuel c e st = .ok st' ∧
        ∀ x ∈ st'.visited, x ∈ st.visited ∨ ∃ w l, Way V key src w x ∧ (l :: wc) <:+ w)
    {c : XY} {e : Entry} {wc : List Nat} (hw : Way V key src wc c) (he : Found V key n c e)
    (ls : List Nat) : ∀ {st : Trace}, ls.Nodup → (∀ l ∈ ls, l ∈ linksOf e) →
      unseen V st.visited < fuel + 1 →
      (∀ x ∈ st.visited, ∃ w, Way V key src w x ∧ ∀ l ∈ ls, ¬ (l :: wc) <:+ w) →
      ∃ st', overLinks V key n (traceFrom V key n fuel) c ls st = .ok st' ∧
        ∀ x ∈ st'.visited, x ∈ st.visited ∨ ∃ w l, Way V key src w x ∧ (l :: wc) <:+ w := by
  induction ls with
  | nil =>
    intro st _ _ _ _
    exact ⟨st, rfl, fun x hx => Or.inl hx⟩
  | cons l ls ih2 =>
    intro st hnd hls hu hvis
    rw [List.nodup_cons] at hnd
    have hls' : ∀ k ∈ ls, k ∈ linksOf e := fun k hk => hls k (List.mem_cons_of_mem _ hk)
    have hvis' : ∀ x ∈ st.visited, ∃ w, Way V key src w x ∧ ∀ k ∈ ls, ¬ (k :: wc) <:+ w := by
      intro x hx
      obtain ⟨w, h1, h2⟩ := hvis x hx
      exact ⟨w, h1, fun k hk => h2 k (List.mem_cons_of_mem _ hk)⟩
    simp only [overLinks]
    cases hl : V.link c l with
    | none => exact ih2 hnd.2 hls' hu hvis'
    | some d =>
      have hle := mem_linksOf.mp (hls l List.mem_cons_self)
      have hwd : Way V key src (l :: wc) d := .hop hw (lookup_found he) hle.1 hle.2 hl
      obtain ⟨e', hd⟩ := hg.found _ _ hwd
      obtain ⟨t, ht, hloc⟩ := hd
      have hd : Found V key n d e' := ⟨t, ht, hloc⟩
      simp only [ht, hloc]
      have hv : d ∉ st.visited := by
        intro hv
        obtain ⟨w, h1, h2⟩ := hvis d hv
        rw [hg.once _ _ _ h1 hwd] at h2
        exact h2 l List.mem_cons_self (List.suffix_refl _)
      rw [if_neg hv]
      have hlt : unseen V (st.enter d e' n key).visited < unseen V st.visited := unseen_lt ht hv
      obtain ⟨s1, h1, h2⟩ := ih (st := st.enter d e' n key) hwd hd (by omega) (by
        intro x hx
        rcases List.mem_append.mp hx with hx | hx
        · obtain ⟨w, h3, h4⟩ := hvis x hx
          exact ⟨w, h3, fun k hk => h4 l List.mem_cons_self
            (List.IsSuffix.trans (List.suffix_cons k (l :: wc)) hk)⟩
        · rw [List.mem_singleton] at hx
          subst hx
          refine ⟨_, hwd, fun k hk => ?_⟩
          have := hk.length_le
          simp only [List.length_cons] at this
          omega)
      rw [h1]
      simp only
      have hs1 : ∀ x ∈ s1.visited, x ∈ st.visited ∨ ∃ w, Way V key src w x ∧ (l :: wc) <:+ w := by
        intro x hx
        rcases h2 x hx with hx | ⟨w, k, h3, h4⟩
        · rcases List.mem_append.mp hx with hx | hx
          · exact Or.inl hx
          · rw [List.mem_singleton] at hx
            subst hx
            exact Or.inr ⟨_, hwd, List.suffix_refl _⟩
        · exact Or.inr ⟨w, h3, List.IsSuffix.trans (List.suffix_cons k (l :: wc)) h4⟩
      have hmono : unseen V s1.visited ≤ unseen V (st.enter d e' n key).visited := by
        obtain ⟨new, hgr⟩ := traceFrom_ok fuel hd h1
        refine unseen_mono (fun x hx => ?_)
        rw [hgr.visited]
        exact List.mem_append.mpr (Or.inl hx)
      obtain ⟨s2, h5, h6⟩ := ih2 (st := s1) hnd.2 hls' (by omega) (by
        intro x hx
        rcases hs1 x hx with hx | ⟨w, h3, h4⟩
        · exact hvis' x hx
        · refine ⟨w, h3, fun k hk hs => ?_⟩
          rw [suffix_cons_eq hs h4] at hk
          exact hnd.1 hk)
      refine ⟨s2, h5, fun x hx => ?_⟩
      rcases h6 x hx with hx | hx
      · rcases hs1 x hx with hx | ⟨w, h3, h4⟩
        · exact Or.inl hx
        · exact Or.inr ⟨w, l, h3, h4⟩
      · exact Or.inr hx

theorem linksOf_nodup (e : Entry) : (linksOf e).Nodup :=
  List.Nodup.sublist List.filter_sublist List.nodup_range

theorem traceFrom_accepts (hg : Good V key n src) (fuel : Nat) :
    ∀ {c : XY} {e : Entry} {st : Trace} {wc : List Nat}, Way V key src wc c → Found V key n c e →
      unseen V st.visited < fuel →
      (∀ x ∈ st.visited, ∃ w, Way V key src w x ∧ ∀ l, ¬ (l :: wc) <:+ w) →
      ∃ st', traceFrom V key n fuel c e st = .ok st' ∧
        ∀ x ∈ st'.visited, x ∈ st.visited ∨ ∃ w l, Way V key src w x ∧ (l :: wc) <:+ w := by
  induction fuel with
  | zero => intro c e st wc _ _ h; omega
  | succ fuel ih =>
    intro c e st wc hw he hu hvis
    refine overLinks_accepts hg ih hw he (linksOf e) (st := st.dest c e) (linksOf_nodup e)
      (fun _ h => h) hu ?_
    intro x hx
    obtain ⟨w, h1, h2⟩ := hvis x hx
    exact ⟨w, h1, fun l _ => h2 l⟩

theorem start_accepts (hg : Good V key n src) {fuel : Nat} (hf : V.tables.length < fuel) :
    ∃ st, start V key n fuel src = .ok st ∧ Traced V key n src st := by
  obtain ⟨e, he⟩ := hg.found _ _ .start
  obtain ⟨t, ht, hl⟩ := he
  obtain ⟨st, h1, _⟩ := traceFrom_accepts hg fuel (st := ⟨[src], [], []⟩) .start ⟨t, ht, hl⟩
    (Nat.lt_of_le_of_lt (unseen_le V _) hf) (by
      intro x hx
      rw [List.mem_singleton] at hx
      subst hx
      exact ⟨[], .start, fun l h => by have := h.length_le; simp at this⟩)
  have : start V key n fuel src = .ok st := by
    unfold start
    simp only [ht, hl]
    exact h1
  refine ⟨st, this, ?_⟩
  rcases start_ok this with ⟨h2, _⟩ | ⟨_, _, h2⟩
  · rw [ht] at h2; cases h2
  · exact h2

end

end Pacman.Valid
