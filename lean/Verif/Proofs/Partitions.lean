import Verif.Proofs.Dict
import Verif.Proofs.Sdram
import Verif.Spec.Partitions

namespace Pacman.Parts

theorem assign_other (a : Addrs) (v : Int) (es : List Edge) {e : Edge} (h : e ∉ es) : assign a v es e = a e := by
  induction es generalizing a v with
  | nil => rfl
  | cons x es ih =>
    simp only [List.mem_cons, not_or] at h
    rw [assign, ih _ _ h.2, Addrs.put, if_neg h.1]

theorem totalSize_cons (e : Edge) (es : List Edge) : totalSize (e :: es) = e.size + totalSize es := by
  simp [totalSize]

theorem assign_segments (a : Addrs) (v : Int) (es : List Edge) (hn : es.Nodup) :
    Segments (assign a v es) es v (totalSize es) := by
  induction es generalizing a v with
  | nil =>
    refine ⟨by simp, List.Pairwise.nil, ?_, by simp⟩
    intro x h1 h2
    simp [totalSize] at h2
    omega
  | cons e es ih =>
    obtain ⟨h1, h2⟩ := List.nodup_cons.1 hn
    have H := ih (a.put e v) (v + e.size) h2
    have he : assign a v (e :: es) e = some v := by
      rw [assign, assign_other _ _ _ h1, Addrs.put, if_pos rfl]
    have ht := totalSize_cons e es
    have low : ∀ x, ∀ e' ∈ es, In (assign a v (e :: es)) e' x → v + e.size ≤ x := by
      intro x e' he' hx
      obtain ⟨s, hs, hs1, hs2⟩ := hx
      obtain ⟨s', hs', hlo, hhi⟩ := H.inside e' he'
      rw [assign, hs'] at hs
      cases hs
      omega
    refine ⟨?_, ?_, ?_, ?_⟩
    · intro e' he'
      rcases List.mem_cons.1 he' with rfl | he'
      · exact ⟨v, he, by omega, by omega⟩
      · obtain ⟨s, hs, hlo, hhi⟩ := H.inside e' he'
        exact ⟨s, hs, by omega, by omega⟩
    · refine List.Pairwise.cons ?_ H.order
      intro e' he'
      obtain ⟨s, hs, hlo, hhi⟩ := H.inside e' he'
      exact ⟨v, s, he, hs, hlo⟩
    · intro x hx1 hx2
      by_cases hx : x < v + e.size
      · exact ⟨e, List.mem_cons_self, v, he, hx1, hx⟩
      · obtain ⟨e', he', hin⟩ := H.cover x (by omega) (by omega)
        exact ⟨e', List.mem_cons_of_mem _ he', hin⟩
    · intro x e1 m1 e2 m2 i1 i2
      have eself : In (assign a v (e :: es)) e x → x < v + e.size := by
        rintro ⟨s, hs, -, hs2⟩
        rw [he] at hs
        cases hs
        exact hs2
      rcases List.mem_cons.1 m1 with q1 | q1 <;> rcases List.mem_cons.1 m2 with q2 | q2
      · rw [q1, q2]
      · have := low x e2 q2 i2
        have := eself (q1 ▸ i1)
        omega
      · have := low x e1 q1 i1
        have := eself (q2 ▸ i2)
        omega
      · exact H.one x e1 q1 e2 q2 i1 i2

theorem totalSize_perm {l l' : List Edge} (h : l.Perm l') : totalSize l = totalSize l' := by
  unfold totalSize
  exact (h.map _).sum_nat

theorem nodup_snoc {α : Type} {l : List α} {a : α} (h : l.Nodup) (ha : a ∉ l) : (l ++ [a]).Nodup := by
  rw [List.nodup_append]
  refine ⟨h, by simp, ?_⟩
  intro x hx y hy
  rw [List.mem_singleton] at hy
  subst hy
  rintro rfl
  exact ha hx

theorem baseAdd_err {edges : List Edge} {e : Edge} {x : PyErr} (h : (baseAdd edges e).2 = .error x) :
    (baseAdd edges e).1 = edges := by
  unfold baseAdd at h ⊢
  split
  · rfl
  · split
    · rfl
    · rename_i h1 h2
      rw [if_neg h1, if_neg h2] at h
      cases h

theorem baseAdd_ok {edges : List Edge} {e : Edge} (h : (baseAdd edges e).2 = .ok ()) :
    (baseAdd edges e).1 = edges ++ [e] ∧ e ∉ edges ∧ e.typeOk = true := by
  unfold baseAdd at h ⊢
  split at h
  · cases h
  · split at h
    · cases h
    · rename_i h1 h2
      rw [if_neg h1, if_neg h2]
      exact ⟨rfl, h2, by simpa using h1⟩

theorem singleAdd_err {pre : Nat} {edges : List Edge} {e : Edge} {x : PyErr} (hp : e.pre = pre)
    (h : (singleAdd pre edges e).2 = .error x) : (singleAdd pre edges e).1 = edges := by
  unfold singleAdd at h ⊢
  cases hb : baseAdd edges e with
  | mk es r =>
    have h1 : (baseAdd edges e).1 = es := by rw [hb]
    cases r with
    | error y =>
      have h2 : (baseAdd edges e).2 = .error y := by rw [hb]
      simp only
      rw [← h1]
      exact baseAdd_err h2
    | ok u =>
      simp only [hb, hp, ne_eq, not_true_eq_false, if_false] at h
      cases h

theorem singleAdd_ok {pre : Nat} {edges : List Edge} {e : Edge} (h : (singleAdd pre edges e).2 = .ok ()) :
    (singleAdd pre edges e).1 = edges ++ [e] ∧ e ∉ edges ∧ e.typeOk = true ∧ e.pre = pre := by
  unfold singleAdd at h ⊢
  cases hb : baseAdd edges e with
  | mk es r =>
    have h1 : (baseAdd edges e).1 = es := by rw [hb]
    cases r with
    | error y =>
      simp only [hb] at h
      cases h
    | ok u =>
      have h2 : (baseAdd edges e).2 = .ok () := by rw [hb]
      simp only [hb] at h
      by_cases hp : e.pre ≠ pre
      · rw [if_pos hp] at h
        cases h
      · simp only
        rw [if_neg hp]
        obtain ⟨a, b, c⟩ := baseAdd_ok h2
        exact ⟨by rw [← h1]; exact a, b, c, Classical.not_not.1 hp⟩

/-- The edges after `singleAdd`, whether it raised or not. -/
theorem singleAdd_cases (pre : Nat) (edges : List Edge) (e : Edge) :
    (singleAdd pre edges e).1 = edges ∨ (singleAdd pre edges e).1 = edges ++ [e] ∧ e ∉ edges ∧ e.typeOk = true := by
  unfold singleAdd
  cases hb : baseAdd edges e with
  | mk es r =>
    have h1 : (baseAdd edges e).1 = es := by rw [hb]
    cases r with
    | error y =>
      left
      have h2 : (baseAdd edges e).2 = .error y := by rw [hb]
      simp only
      rw [← h1]
      exact baseAdd_err h2
    | ok u =>
      right
      have h2 : (baseAdd edges e).2 = .ok () := by rw [hb]
      obtain ⟨a, b, c⟩ := baseAdd_ok h2
      refine ⟨?_, b, c⟩
      rw [h1] at a
      simp only
      split <;> exact a

/-! ### Destination segmented -/

theorem Dest.add_err {s : Dest} {e : Edge} {x : PyErr} (h : (s.add e).2 = .error x) : (s.add e).1 = s := by
  unfold Dest.add at h ⊢
  split
  · rfl
  · split
    · rfl
    · rename_i h1 h2
      rw [if_neg h1, if_neg h2] at h
      simp only at h ⊢
      rw [singleAdd_err (Classical.not_not.1 h2).symm h]

theorem Dest.add_ok {s : Dest} {e : Edge} (h : (s.add e).2 = .ok ()) :
    (s.add e).1 = { s with edges := s.edges ++ [e] } ∧ e ∉ s.edges ∧ e.pre = s.pre := by
  unfold Dest.add at h ⊢
  split at h
  · cases h
  · split at h
    · cases h
    · rename_i h1 h2
      rw [if_neg h1, if_neg h2]
      obtain ⟨a, b, c, d⟩ := singleAdd_ok h
      exact ⟨by rw [a], b, d⟩

theorem Dest.run_inv (os : List Op) : ∀ {s : Dest} {a : Addrs}, s.edges.Nodup → (∀ e ∈ s.edges, e.pre = s.pre) →
    (Dest.run (s, a) os).1.edges.Nodup ∧ (Dest.run (s, a) os).1.pre = s.pre ∧
      ∀ e ∈ (Dest.run (s, a) os).1.edges, e.pre = s.pre := by
  induction os with
  | nil => exact fun h1 h2 => ⟨h1, rfl, h2⟩
  | cons o os ih =>
    intro s a h1 h2
    cases o with
    | add e =>
      rw [Dest.run]
      cases hr : (s.add e).2 with
      | error x => rw [Dest.add_err hr]; exact ih h1 h2
      | ok u =>
        obtain ⟨e1, e2, e3⟩ := Dest.add_ok hr
        rw [e1]
        refine ih (nodup_snoc h1 e2) ?_
        intro e' he'
        rcases List.mem_append.1 he' with h | h
        · exact h2 e' h
        · rw [List.mem_singleton] at h
          rw [h, e3]
    | setBase v =>
      rw [Dest.run]
      unfold Dest.setBase
      split
      · exact ih h1 h2
      · exact ih (s := { s with base := some v }) h1 h2

/-! ### Constant -/

theorem foldl_put (es : List Edge) (a : Addrs) (v : Int) (e : Edge) :
    (es.foldl (fun a e => a.put e v) a) e = if e ∈ es then some v else a e := by
  induction es generalizing a with
  | nil => rfl
  | cons x es ih =>
    rw [List.foldl_cons, ih]
    by_cases h : e ∈ es
    · rw [if_pos h, if_pos (List.mem_cons_of_mem _ h)]
    · rw [if_neg h, Addrs.put]
      by_cases hx : e = x
      · rw [if_pos hx, if_pos (by rw [hx]; exact List.mem_cons_self)]
      · rw [if_neg hx, if_neg]
        simp only [List.mem_cons, not_or]
        exact ⟨hx, h⟩

/-- All edges have the one size. -/
def Const.Sized (s : Const) : Prop := ∀ e ∈ s.edges, s.size = some e.size

theorem Const.addSized_sized {s : Const} {e : Edge} (h : s.Sized) (he : s.size = some e.size) :
    (s.addSized e).1.Sized ∧ (s.addSized e).1.size = s.size := by
  unfold Const.addSized
  cases s.base with
  | some _ => exact ⟨h, rfl⟩
  | none =>
    refine ⟨?_, rfl⟩
    intro e' he'
    simp only at he' ⊢
    rcases singleAdd_cases s.pre s.edges e with hc | ⟨hc, -⟩
    · rw [hc] at he'; exact h e' he'
    · rw [hc] at he'
      rcases List.mem_append.1 he' with h' | h'
      · exact h e' h'
      · rw [List.mem_singleton] at h'
        rw [h', he]

theorem Const.add_sized {s : Const} {e : Edge} (h : s.Sized) : (s.add e).1.Sized := by
  unfold Const.add
  cases hs : s.size with
  | none =>
    refine (Const.addSized_sized (s := { s with size := some e.size }) ?_ rfl).1
    intro e' he'
    have := h e' he'
    rw [hs] at this
    cases this
  | some n =>
    simp only
    split
    · exact h
    · rename_i hn
      exact (Const.addSized_sized h (by rw [hs, Classical.not_not.1 hn])).1

theorem Const.run_sized (os : List Op) : ∀ {s : Const} {a : Addrs}, s.Sized → (Const.run (s, a) os).1.Sized := by
  induction os with
  | nil => exact fun h => h
  | cons o os ih =>
    intro s a h
    cases o with
    | add e => exact ih (Const.add_sized h)
    | setBase v =>
      rw [Const.run]
      unfold Const.setBase
      split
      · exact ih h
      · exact ih (s := { s with base := some v }) h

/-! ### Source segmented -/

/-- The dictionaries hold the edges by source and by destination; no source has two edges. -/
structure Src.Inv (ps : List Nat) (s : Src) : Prop where
  keys : Dict.keys s.pres = ps
  nodup : ps.Nodup
  edges : s.edges.Nodup
  pres : ∀ p ∈ ps, s.pres.get? p = some (s.edges.filter (fun e => decide (e.pre = p)))
  from_ : ∀ e ∈ s.edges, e.pre ∈ ps
  one : ∀ e ∈ s.edges, ∀ e' ∈ s.edges, e.pre = e'.pre → e = e'
  dests : ∀ d, s.dests.get? d ≠ none ↔ ∃ e ∈ s.edges, e.post = d
  post : ∀ e ∈ s.edges, ∀ e' ∈ s.edges, e.post = e'.post
  destsNil : s.dests.length = 0 → s.edges = []

theorem keys_foldl_set (ps : List Nat) (d : Dict Nat (List Edge)) (hd : (Dict.keys d).Nodup) (hv : ∀ q ∈ d, q.2 = []) :
    let d' := ps.foldl (fun d p => d.set p []) d
    (Dict.keys d').Nodup ∧ (∀ q ∈ d', q.2 = []) ∧ d'.length ≤ d.length + ps.length ∧
      (d'.length = d.length + ps.length → Dict.keys d' = Dict.keys d ++ ps) := by
  induction ps generalizing d with
  | nil => simp [hd]; exact fun a b h => hv (a, b) h
  | cons p ps ih =>
    have hv' : ∀ q ∈ Dict.set d p [], q.2 = [] := by
      clear ih hd
      induction d with
      | nil => simp [Dict.set]
      | cons x d ihd =>
        intro q hq
        rw [Dict.set] at hq
        split at hq
        · rcases List.mem_cons.1 hq with rfl | hq
          · rfl
          · exact hv q (List.mem_cons_of_mem _ hq)
        · rcases List.mem_cons.1 hq with rfl | hq
          · exact hv q List.mem_cons_self
          · exact ihd (fun q hq => hv q (List.mem_cons_of_mem _ hq)) q hq
    have hk := Dict.keys_set d p ([] : List Edge)
    have hlen : ∀ (d : Dict Nat (List Edge)), d.length = (Dict.keys d).length := fun d => by simp [Dict.keys]
    obtain ⟨h1, h2, h3, h4⟩ := ih (Dict.set d p []) (Dict.nodup_set hd p []) hv'
    simp only [List.foldl_cons] at h1 h2 h3 h4 ⊢
    by_cases hp : p ∈ Dict.keys d
    · rw [if_pos hp] at hk
      have : (Dict.set d p []).length = d.length := by rw [hlen, hk, ← hlen]
      refine ⟨h1, h2, by rw [List.length_cons]; omega, ?_⟩
      intro hl
      rw [List.length_cons] at hl
      omega
    · rw [if_neg hp] at hk
      have : (Dict.set d p []).length = d.length + 1 := by rw [hlen, hk, List.length_append, ← hlen]; rfl
      refine ⟨h1, h2, by rw [List.length_cons]; omega, ?_⟩
      intro hl
      rw [List.length_cons] at hl
      rw [h4 (by omega), hk]
      simp

theorem Src.inv_new {ps : List Nat} {s : Src} (h : Src.new ps = .ok s) : Src.Inv ps s := by
  unfold Src.new at h
  simp only at h
  split at h
  · cases h
  · rename_i hl
    cases h
    obtain ⟨h1, h2, -, h4⟩ := keys_foldl_set ps [] (by simp [Dict.keys]) (by simp)
    have hk := h4 (by simpa using hl)
    simp only [Dict.keys, List.map_nil, List.nil_append] at hk
    refine ⟨hk, hk ▸ h1, by simp, ?_, by simp, by simp, ?_, by simp, fun _ => rfl⟩
    · intro p hp
      rw [← hk] at hp
      obtain ⟨q, hq, rfl⟩ := List.mem_map.1 hp
      simp only [List.filter_nil]
      rw [Dict.get?_of_mem h1 hq, h2 q hq]
    · intro d
      simp [Dict.get?]

theorem Src.multiAdd_err {s : Src} {e : Edge} {x : PyErr} (h : (multiAdd s e).2 = .error x) : (multiAdd s e).1 = s := by
  unfold multiAdd at h ⊢
  cases hp : s.pres.get? e.pre with
  | none => rfl
  | some l =>
    simp only [hp] at h ⊢
    cases hb : baseAdd s.edges e with
    | mk es r =>
      have h1 : (baseAdd s.edges e).1 = es := by rw [hb]
      cases r with
      | error y =>
        have h2 : (baseAdd s.edges e).2 = .error y := by rw [hb]
        rw [baseAdd_err h2] at h1
        simp only
        rw [← h1]
      | ok u =>
        simp only [hb] at h
        cases h

theorem Src.add_err {s : Src} {e : Edge} {x : PyErr} (h : (s.add e).2 = .error x) : (s.add e).1 = s := by
  unfold Src.add at h ⊢
  split
  · rfl
  · rename_i h1
    rw [if_neg h1] at h
    cases hp : s.pres.get? e.pre with
    | none => rfl
    | some l =>
      simp only [hp] at h ⊢
      split
      · rfl
      · rename_i h2
        rw [if_neg h2] at h
        exact Src.multiAdd_err h

theorem Src.add_ok {ps : List Nat} {s : Src} (I : Src.Inv ps s) {e : Edge} (h : (s.add e).2 = .ok ()) :
    Src.Inv ps (s.add e).1 ∧ (s.add e).1.edges = s.edges ++ [e] := by
  unfold Src.add at h ⊢
  split at h
  · cases h
  · rename_i h1
    rw [if_neg h1]
    cases hp : s.pres.get? e.pre with
    | none => simp only [hp] at h; cases h
    | some l =>
      simp only [hp] at h ⊢
      split at h
      · cases h
      · rename_i h2
        rw [if_neg h2]
        have hl : l = [] := by
          cases l with
          | nil => rfl
          | cons _ _ => exact absurd (by simp) h2
        subst hl
        unfold multiAdd at h ⊢
        simp only [hp] at h ⊢
        cases hb : baseAdd s.edges e with
        | mk es r =>
          have hb1 : (baseAdd s.edges e).1 = es := by rw [hb]
          cases r with
          | error y => simp only [hb] at h; cases h
          | ok u =>
            have hb2 : (baseAdd s.edges e).2 = .ok () := by rw [hb]
            obtain ⟨e1, e2, -⟩ := baseAdd_ok hb2
            rw [hb1] at e1
            subst e1
            have hps : e.pre ∈ ps := by
              rw [← I.keys]
              exact List.mem_map.2 ⟨_, Dict.mem_of_get? hp, rfl⟩
            have hnone : ∀ e' ∈ s.edges, e'.pre ≠ e.pre := by
              intro e' he' hee
              have := I.pres e.pre hps
              rw [hp] at this
              have hm : e' ∈ s.edges.filter (fun e' => decide (e'.pre = e.pre)) := List.mem_filter.2 ⟨he', by simpa using hee⟩
              rw [← Option.some.inj this] at hm
              cases hm
            have hpost : ∀ e' ∈ s.edges, e'.post = e.post := by
              intro e' he'
              have hd : s.dests.length ≠ 0 := by
                intro hz
                rw [I.destsNil hz] at he'
                cases he'
              obtain ⟨e'', he'', hpe⟩ := (I.dests e.post).1 (fun hn => h1 ⟨hd, hn⟩)
              rw [← hpe]
              exact I.post e' he' e'' he''
            refine ⟨⟨?_, I.nodup, nodup_snoc I.edges e2, ?_, ?_, ?_, ?_, ?_, ?_⟩, rfl⟩
            · show Dict.keys (Dict.set s.pres e.pre (addToSet [] e)) = ps
              rw [Dict.keys_set, if_pos (by rw [I.keys]; exact hps), I.keys]
            · intro p hp'
              simp only
              rw [Dict.get?_set]
              by_cases hpe : e.pre = p
              · rw [if_pos hpe]
                rw [List.filter_append]
                have hf : s.edges.filter (fun e => decide (e.pre = p)) = [] := by
                  rw [List.filter_eq_nil_iff]
                  intro e' he'
                  have := hnone e' he'
                  rw [hpe] at this
                  simpa using this
                rw [hf]
                simp [addToSet, hpe]
              · rw [if_neg hpe, I.pres p hp', List.filter_append]
                simp [hpe]
            · intro e' he'
              rcases List.mem_append.1 he' with h' | h'
              · exact I.from_ e' h'
              · rw [List.mem_singleton] at h'
                rw [h']; exact hps
            · intro a ha b hb' hab
              rcases List.mem_append.1 ha with qa | qa <;> rcases List.mem_append.1 hb' with qb | qb
              · exact I.one a qa b qb hab
              · rw [List.mem_singleton] at qb
                subst qb
                exact absurd hab (hnone a qa)
              · rw [List.mem_singleton] at qa
                subst qa
                exact absurd hab.symm (hnone b qb)
              · rw [List.mem_singleton] at qa qb
                rw [qa, qb]
            · intro d
              simp only
              rw [Dict.get?_set]
              by_cases hd : e.post = d
              · rw [if_pos hd]
                exact ⟨fun _ => ⟨e, by simp, hd⟩, fun _ => Option.some_ne_none _⟩
              · rw [if_neg hd, I.dests d]
                constructor
                · rintro ⟨e', he', hh⟩
                  exact ⟨e', List.mem_append_left _ he', hh⟩
                · rintro ⟨e', he', hh⟩
                  rcases List.mem_append.1 he' with h' | h'
                  · exact ⟨e', h', hh⟩
                  · rw [List.mem_singleton] at h'
                    rw [h'] at hh
                    exact absurd hh hd
            · intro a ha b hb'
              have : ∀ c ∈ s.edges ++ [e], c.post = e.post := by
                intro c hc
                rcases List.mem_append.1 hc with hc | hc
                · exact hpost c hc
                · rw [List.mem_singleton] at hc
                  rw [hc]
              rw [this a ha, this b hb']
            · intro hz
              exfalso
              simp only at hz
              have := (Dict.mem_keys_set s.dests e.post e.post (addToSet ((s.dests.get? e.post).getD []) e)).2 (.inr rfl)
              rw [List.length_eq_zero_iff] at hz
              rw [hz] at this
              cases this

theorem Src.setBase_inv {ps : List Nat} {s : Src} (I : Src.Inv ps s) (a : Addrs) (v : Int) :
    Src.Inv ps (s.setBase a v).1.1 ∧ (s.setBase a v).1.1.edges = s.edges := by
  unfold Src.setBase
  split
  · exact ⟨I, rfl⟩
  · exact ⟨⟨I.keys, I.nodup, I.edges, I.pres, I.from_, I.one, I.dests, I.post, I.destsNil⟩, rfl⟩

theorem Src.run_inv {ps : List Nat} (os : List Op) : ∀ {s : Src} {a : Addrs}, Src.Inv ps s →
    Src.Inv ps (Src.run (s, a) os).1 := by
  induction os with
  | nil => exact fun h => h
  | cons o os ih =>
    intro s a I
    cases o with
    | add e =>
      rw [Src.run]
      cases hr : (s.add e).2 with
      | error x => rw [Src.add_err hr]; exact ih I
      | ok u => exact ih (Src.add_ok I hr).1
    | setBase v => exact ih (Src.setBase_inv I a v).1

theorem assignPres_eq (a : Addrs) (v : Int) (ds : List (Nat × List Edge)) (es : List Edge)
    (h : ds.map (·.2) = es.map (fun e => [e])) : assignPres a v ds = (assign a v es, .ok ()) := by
  induction ds generalizing a v es with
  | nil =>
    cases es with
    | nil => rfl
    | cons e es => cases h
  | cons d ds ih =>
    cases es with
    | nil => cases h
    | cons e es =>
      obtain ⟨p, l⟩ := d
      simp only [List.map_cons, List.cons.injEq] at h
      obtain ⟨rfl, h⟩ := h
      rw [assignPres]
      have : peek [e] = .ok e := rfl
      rw [this]
      exact ih _ _ _ h

/-- With as many edges as sources there is one edge for each source, in the order of the sources. -/
theorem Src.full {ps : List Nat} {s : Src} (I : Src.Inv ps s) (hl : s.pres.length = s.edges.length) :
    ∃ es : List Edge, es.Perm s.edges ∧ es.map (·.pre) = ps ∧ s.pres.map (·.2) = es.map (fun e => [e]) := by
  have hn : (s.edges.map (·.pre)).Nodup := by
    rw [List.nodup_iff_pairwise_ne, List.pairwise_map]
    have := I.edges
    rw [List.nodup_iff_pairwise_ne] at this
    refine this.imp_of_mem ?_
    intro a b ha hb hab he
    exact hab (I.one a ha b hb he)
  have hlen : s.pres.length = ps.length := by rw [← I.keys]; simp [Dict.keys]
  have hperm : (s.edges.map (·.pre)).Perm ps :=
    Sdram.subset_perm hn I.nodup (by
      intro p hp
      obtain ⟨e, he, rfl⟩ := List.mem_map.1 hp
      exact I.from_ e he) (by simp; omega)
  have hex : ∀ p ∈ ps, ∃ e ∈ s.edges, e.pre = p := by
    intro p hp
    obtain ⟨e, he, h⟩ := List.mem_map.1 (hperm.mem_iff.2 hp)
    exact ⟨e, he, h⟩
  have build : ∀ (d : Dict Nat (List Edge)), (∀ q ∈ d, q ∈ s.pres) → (Dict.keys d).Nodup →
      ∃ es : List Edge, (∀ e ∈ es, e ∈ s.edges) ∧ es.map (·.pre) = Dict.keys d ∧ d.map (·.2) = es.map (fun e => [e]) := by
    intro d
    induction d with
    | nil => intro _ _; exact ⟨[], by simp, rfl, rfl⟩
    | cons q d ih =>
      intro hq hnd
      obtain ⟨es, h1, h2, h3⟩ := ih (fun q hq' => hq q (List.mem_cons_of_mem _ hq')) (by
        simp only [Dict.keys, List.map_cons] at hnd
        exact (List.nodup_cons.1 hnd).2)
      have hm := hq q List.mem_cons_self
      have hps : q.1 ∈ ps := by rw [← I.keys]; exact List.mem_map.2 ⟨q, hm, rfl⟩
      obtain ⟨e, he, hep⟩ := hex q.1 hps
      have hg := Dict.get?_of_mem (by rw [I.keys]; exact I.nodup) hm
      have hf : s.edges.filter (fun e => decide (e.pre = q.1)) = [e] := by
        have hnf := I.edges.filter (fun e => decide (e.pre = q.1))
        have : ∀ x, x ∈ s.edges.filter (fun e => decide (e.pre = q.1)) ↔ x = e := by
          intro x
          rw [List.mem_filter, decide_eq_true_eq]
          exact ⟨fun h => I.one x h.1 e he (h.2.trans hep.symm), fun h => by rw [h]; exact ⟨he, hep⟩⟩
        have hp := (List.perm_ext_iff_of_nodup hnf (show [e].Nodup by simp)).2 (by
          intro x
          rw [this x, List.mem_singleton])
        exact List.perm_singleton.1 hp
      rw [I.pres q.1 hps, hf] at hg
      refine ⟨e :: es, ?_, ?_, ?_⟩
      · intro x hx
        rcases List.mem_cons.1 hx with rfl | hx
        · exact he
        · exact h1 x hx
      · rw [List.map_cons, hep, h2]
        rfl
      · rw [List.map_cons, List.map_cons, h3, ← Option.some.inj hg]
  obtain ⟨es, h1, h2, h3⟩ := build s.pres (fun _ h => h) (by rw [I.keys]; exact I.nodup)
  rw [I.keys] at h2
  refine ⟨es, ?_, h2, h3⟩
  have hne : es.Nodup := by
    have := I.nodup
    rw [← h2] at this
    rw [List.nodup_iff_pairwise_ne, List.pairwise_map] at this
    rw [List.nodup_iff_pairwise_ne]
    exact this.imp (fun h he => h (by rw [he]))
  refine Sdram.subset_perm hne I.edges h1 ?_
  have := congrArg List.length h2
  simp at this
  omega

end Pacman.Parts
