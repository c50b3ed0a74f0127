import Verif.Proofs.Sdram
/-
C49: SDRAM costs add up.
-/

namespace Pacman.Sdram

theorem plain_blocks {c : Cost} (h : Plain c) : blocks c = [] := by
  induction c using Cost.ind with
  | h1 n => rfl
  | h2 f p => rfl
  | h3 sh pc _ => exact h.elim
  | h4 c ih => rw [blocks]; exact ih h

theorem wf_blocks {c : Cost} (h : WF c) : ((blocks c).map (·.1)).Nodup ∧ ∀ q ∈ blocks c, WF q.2 := by
  induction c using Cost.ind with
  | h1 n => simp [blocks]
  | h2 f p => simp [blocks]
  | h3 sh pc ih =>
    cases h with
    | shared _ _ a1 a2 a3 =>
      obtain ⟨i1, i2⟩ := ih a1
      rw [blocks, List.map_append, List.map_map, List.map_map]
      refine ⟨List.nodup_append.2 ⟨?_, ?_, ?_⟩, ?_⟩
      · have : (sh.map ((·.1) ∘ fun q : String × Cost => ((0, q.1), q.2))) = (sh.map (·.1)).map (fun k => ((0 : Nat), k)) := by
          rw [List.map_map]; rfl
        rw [this]
        exact List.Pairwise.map _ (fun a b hab h => hab (congrArg Prod.snd h)) a2
      · have : ((blocks pc).map ((·.1) ∘ deeper)) = ((blocks pc).map (·.1)).map (fun k => (k.1 + 1, k.2)) := by
          rw [List.map_map]; rfl
        rw [this]
        refine List.Pairwise.map _ (fun a b hab h => hab ?_) i1
        have h1 := congrArg Prod.fst h
        have h2 := congrArg Prod.snd h
        simp only [Nat.add_right_cancel_iff] at h1
        exact Prod.ext h1 h2
      · intro a ha b hb hab
        obtain ⟨q, -, rfl⟩ := List.mem_map.1 ha
        obtain ⟨r, -, rfl⟩ := List.mem_map.1 hb
        have := congrArg Prod.fst hab
        simp [deeper] at this
      · intro q hq
        rcases List.mem_append.1 hq with hq | hq
        · obtain ⟨r, hr, rfl⟩ := List.mem_map.1 hq
          exact a3 r hr
        · obtain ⟨r, hr, rfl⟩ := List.mem_map.1 hq
          exact i2 r hr
  | h4 c ih => cases h with | multi _ a1 => rw [blocks]; exact ih a1

theorem mem_blocks_shared {sh : List (String × Cost)} {pc : Cost} {q : (Nat × String) × Cost} :
    q ∈ blocks (.shared sh pc) ↔ (q.1.1 = 0 ∧ (q.1.2, q.2) ∈ sh) ∨ ∃ r ∈ blocks pc, deeper r = q := by
  rw [blocks, List.mem_append, List.mem_map, List.mem_map]
  refine or_congr ⟨?_, ?_⟩ Iff.rfl
  · rintro ⟨r, hr, rfl⟩
    exact ⟨rfl, hr⟩
  · rintro ⟨h1, h2⟩
    exact ⟨_, h2, by obtain ⟨⟨a, b⟩, c⟩ := q; simp only at h1; rw [h1]⟩

theorem key_blocks_shared {sh : List (String × Cost)} {pc : Cost} {k : Nat × String} :
    k ∈ (blocks (.shared sh pc)).map (·.1) ↔ (k.1 = 0 ∧ k.2 ∈ sh.map (·.1)) ∨
      ∃ m ∈ (blocks pc).map (·.1), (m.1 + 1, m.2) = k := by
  constructor
  · intro h
    obtain ⟨q, hq, rfl⟩ := List.mem_map.1 h
    rcases mem_blocks_shared.1 hq with ⟨h1, h2⟩ | ⟨r, hr, rfl⟩
    · exact .inl ⟨h1, List.mem_map.2 ⟨_, h2, rfl⟩⟩
    · exact .inr ⟨r.1, List.mem_map.2 ⟨r, hr, rfl⟩, rfl⟩
  · rintro (⟨h1, h2⟩ | ⟨m, hm, rfl⟩)
    · obtain ⟨q, hq, hk⟩ := List.mem_map.1 h2
      refine List.mem_map.2 ⟨(k, q.2), mem_blocks_shared.2 (.inl ⟨h1, ?_⟩), rfl⟩
      show (k.2, q.2) ∈ sh
      rw [← hk]; exact hq
    · obtain ⟨r, hr, rfl⟩ := List.mem_map.1 hm
      exact List.mem_map.2 ⟨deeper r, mem_blocks_shared.2 (.inr ⟨r, hr, rfl⟩), rfl⟩

/-- The result of one addition. -/
structure Sum (a b c : Cost) : Prop where
  wf : WF c
  own : own c = ((own a).1 + (own b).1, (own a).2 + (own b).2)
  mem : ∀ q ∈ blocks c, q ∈ blocks a ∨ q ∈ blocks b
  all : ∀ k, k ∈ (blocks c).map (·.1) ↔ k ∈ (blocks a).map (·.1) ∨ k ∈ (blocks b).map (·.1)

theorem sum_addPlain {a : Cost} (b : Cost) (f : Int) (p : Option Rat) (hw : WF a)
    (hb : own b = (f, p.getD 0)) (hbb : blocks b = []) : Sum a b (addPlain a f p) := by
  refine ⟨wf_addPlain hw f p, ?_, ?_, ?_⟩
  · rw [own_addPlain, hb]
  · rw [blocks_addPlain]
    exact fun q hq => Or.inl hq
  · rw [blocks_addPlain, hbb]
    simp

theorem Sum.symm {a b c : Cost} (h : Sum a b c) : Sum b a c :=
  ⟨h.wf, by rw [h.own, Int.add_comm, Rat.add_comm], fun q hq => (h.mem q hq).symm,
    fun k => (h.all k).trans Or.comm⟩

theorem own_multi (c : Cost) : own (.multi c) = own c := by rw [own]

theorem Sum.multi {a b c : Cost} (h : Sum a b c) : Sum (.multi a) b c :=
  ⟨h.wf, by rw [h.own, own_multi], by rw [blocks]; exact h.mem, by rw [blocks]; exact h.all⟩

/-- Costs whose blocks agree can be added. -/
theorem add_ok (n : Nat) : ∀ (a b : Cost), sizeOf a + sizeOf b ≤ n → WF a → WF b →
    (∀ k v w, (k, v) ∈ blocks a → (k, w) ∈ blocks b → eq v w = true ∧ eq w v = true) →
    ∃ c, add a b = .ok c ∧ Sum a b c := by
  induction n with
  | zero => intro a b hs; cases a <;> simp at hs
  | succ n ih =>
    intro a b hs wa wb hag
    cases b with
    | const m =>
      refine ⟨_, by rw [add], sum_addPlain _ m none wa (by rw [own]; rfl) rfl⟩
    | var f p =>
      refine ⟨_, by rw [add], sum_addPlain _ f (some p) wa (by rw [own]; rfl) rfl⟩
    | shared sh' pc' =>
      cases a with
      | const m =>
        exact ⟨_, by rw [add] <;> simp, (sum_addPlain (.const m) m none wb (by rw [own]; rfl) rfl).symm⟩
      | var f p =>
        exact ⟨_, by rw [add] <;> simp, (sum_addPlain (.var f p) f (some p) wb (by rw [own]; rfl) rfl).symm⟩
      | multi c =>
        cases wa with
        | multi _ wc =>
        obtain ⟨d, hd, hsum⟩ := ih c (.shared sh' pc') (by simp at hs ⊢; omega) wc wb (by rw [blocks] at hag; exact hag)
        exact ⟨d, by rw [add] <;> first | exact hd | simp, hsum.multi⟩
      | shared sh pc =>
        cases wa with
        | shared _ _ a1 a2 a3 =>
        cases wb with
        | shared _ _ b1 b2 b3 =>
        obtain ⟨m, e1, e2, e3, e4⟩ := mergeSh_ok a2 (l := sh') (fun k v w h1 h2 =>
          (hag (0, k) w v (mem_blocks_shared.2 (.inl ⟨rfl, h2⟩)) (mem_blocks_shared.2 (.inl ⟨rfl, h1⟩))).2) b2
        obtain ⟨c, h1, h2⟩ := ih pc pc' (by simp at hs; omega) a1 b1 (by
          intro k v w hv hw
          exact hag (k.1 + 1, k.2) v w (mem_blocks_shared.2 (.inr ⟨_, hv, rfl⟩)) (mem_blocks_shared.2 (.inr ⟨_, hw, rfl⟩)))
        refine ⟨.shared m c, by rw [add, e1]; simp only [h1], .shared _ _ h2.wf e2 ?_, ?_, ?_, ?_⟩
        · intro q hq
          rcases e3 q hq with h | h
          · exact a3 q h
          · exact b3 q h
        · simp only [own]
          exact h2.own
        · intro q hq
          rcases mem_blocks_shared.1 hq with ⟨k1, k2⟩ | ⟨r, hr, rfl⟩
          · rcases e3 _ k2 with h | h
            · exact .inl (mem_blocks_shared.2 (.inl ⟨k1, h⟩))
            · exact .inr (mem_blocks_shared.2 (.inl ⟨k1, h⟩))
          · rcases h2.mem r hr with h | h
            · exact .inl (mem_blocks_shared.2 (.inr ⟨r, h, rfl⟩))
            · exact .inr (mem_blocks_shared.2 (.inr ⟨r, h, rfl⟩))
        · intro k
          rw [key_blocks_shared, key_blocks_shared, key_blocks_shared, e4]
          constructor
          · rintro (⟨k1, h | h⟩ | ⟨r, hr, rfl⟩)
            · exact .inl (.inl ⟨k1, h⟩)
            · exact .inr (.inl ⟨k1, h⟩)
            · rcases (h2.all r).1 hr with h | h
              · exact .inl (.inr ⟨r, h, rfl⟩)
              · exact .inr (.inr ⟨r, h, rfl⟩)
          · rintro ((⟨k1, h⟩ | ⟨r, h, rfl⟩) | (⟨k1, h⟩ | ⟨r, h, rfl⟩))
            · exact .inl ⟨k1, .inl h⟩
            · exact .inr ⟨r, (h2.all r).2 (.inl h), rfl⟩
            · exact .inl ⟨k1, .inr h⟩
            · exact .inr ⟨r, (h2.all r).2 (.inr h), rfl⟩
    | multi d =>
      cases a with
      | const m =>
        exact ⟨_, by rw [add] <;> simp, (sum_addPlain (.const m) m none wb (by rw [own]; rfl) rfl).symm⟩
      | var f p =>
        exact ⟨_, by rw [add] <;> simp, (sum_addPlain (.var f p) f (some p) wb (by rw [own]; rfl) rfl).symm⟩
      | multi c =>
        cases wa with
        | multi _ wc =>
        obtain ⟨e, he, hsum⟩ := ih c (.multi d) (by simp at hs ⊢; omega) wc wb (by
          intro k v w h1 h2
          exact hag k v w (by rw [blocks]; exact h1) h2)
        exact ⟨e, by rw [add] <;> first | exact he | simp, hsum.multi⟩
      | shared sh pc =>
        cases wb with
        | multi _ wd =>
        obtain ⟨e, he, hsum⟩ := ih d (.shared sh pc) (by simp at hs ⊢; omega) wd wa (by
          intro k v w h1 h2
          exact (hag k w v h2 (by rw [blocks]; exact h1)).symm)
        exact ⟨e, by rw [add] <;> first | exact he | simp, hsum.multi.symm⟩

/-- The result of adding a list of costs. -/
structure SumAll (l : List Cost) (c : Cost) : Prop where
  wf : WF c
  fixed : (own c).1 = (l.map (fun a => (own a).1)).sum
  per : (own c).2 = sumQ (l.map (fun a => (own a).2))
  mem : ∀ q ∈ blocks c, ∃ a ∈ l, q ∈ blocks a
  all : ∀ a ∈ l, ∀ q ∈ blocks a, q.1 ∈ (blocks c).map (·.1)

theorem sumE_cons (x : Except PyErr Int) (l) : sumE (x :: l) = addE x (sumE l) := by rw [sumE]

theorem sumQ_append (l l' : List Rat) : sumQ (l ++ l') = sumQ l + sumQ l' := by
  induction l with
  | nil => simp [sumQ, Rat.zero_add]
  | cons a l ih => simp [sumQ, ih, Rat.add_assoc]

theorem sumQ_perm {l l' : List Rat} (h : l.Perm l') : sumQ l = sumQ l' := by
  induction h with
  | nil => rfl
  | cons x _ ih => simp only [sumQ, ih]
  | swap x y l => simp only [sumQ]; rw [← Rat.add_assoc, ← Rat.add_assoc, Rat.add_comm x y]
  | trans _ _ ih1 ih2 => exact ih1.trans ih2

theorem sum_perm {l l' : List Int} (h : l.Perm l') : l.sum = l'.sum := by
  induction h with
  | nil => rfl
  | cons x _ ih => simp only [List.sum_cons, ih]
  | swap x y l => simp only [List.sum_cons]; omega
  | trans _ _ ih1 ih2 => exact ih1.trans ih2

theorem addAll_ok (a0 : Cost) (done rest : List Cost) (c : Cost) (hs : SumAll (a0 :: done) c)
    (hw : ∀ a ∈ rest, WF a) (hag : Agree (a0 :: (done ++ rest))) :
    ∃ d, addAll c rest = .ok d ∧ SumAll (a0 :: (done ++ rest)) d := by
  induction rest generalizing done c with
  | nil => exact ⟨c, rfl, by simpa using hs⟩
  | cons b rest ih =>
    obtain ⟨d, h1, h2⟩ := add_ok _ c b (Nat.le_refl _) hs.wf
      (hw b List.mem_cons_self) (by
        intro k v w hv hw'
        obtain ⟨a, ha, hq⟩ := hs.mem _ hv
        have m1 : a ∈ a0 :: (done ++ b :: rest) := by
          rcases List.mem_cons.1 ha with h | h
          · rw [h]; exact List.mem_cons_self
          · exact List.mem_cons_of_mem _ (List.mem_append_left _ h)
        have m2 : b ∈ a0 :: (done ++ b :: rest) :=
          List.mem_cons_of_mem _ (List.mem_append_right _ List.mem_cons_self)
        exact ⟨hag a m1 b m2 k v w hq hw', hag b m2 a m1 k w v hw' hq⟩)
    have happ : done ++ b :: rest = (done ++ [b]) ++ rest := by simp
    have hd : SumAll (a0 :: (done ++ [b])) d := by
      refine ⟨h2.wf, ?_, ?_, ?_, ?_⟩
      · rw [h2.own]
        simp only [hs.fixed]
        simp
        omega
      · rw [h2.own]
        simp only [hs.per]
        rw [← List.cons_append, List.map_append, sumQ_append]
        simp [sumQ, Rat.add_zero]
      · intro q hq
        rcases h2.mem q hq with h | h
        · obtain ⟨a, ha, haq⟩ := hs.mem q h
          refine ⟨a, ?_, haq⟩
          rw [← List.cons_append]
          exact List.mem_append_left _ ha
        · exact ⟨b, by simp, h⟩
      · intro a ha q hq
        rw [h2.all]
        rw [← List.cons_append] at ha
        rcases List.mem_append.1 ha with h | h
        · exact Or.inl (hs.all a h q hq)
        · rw [List.mem_singleton] at h
          subst h
          exact Or.inr (List.mem_map.2 ⟨q, hq, rfl⟩)
    obtain ⟨e, he1, he2⟩ := ih (done ++ [b]) d hd
      (fun a ha => hw a (List.mem_cons_of_mem _ ha)) (by rw [← happ]; exact hag)
    refine ⟨e, ?_, by rw [happ]; exact he2⟩
    rw [addAll, h1]
    exact he1

/-- The blocks of the costs by key, whichever of the equal ones are taken, have the same totals. -/
theorem blocks_total {l : List Cost} (hw : ∀ a ∈ l, WF a) (hag : Agree l) {bs bs' : List ((Nat × String) × Cost)}
    (h : OnePerKey l bs) (h' : OnePerKey l bs') (t : Option Nat) :
    (bs.map (fun q => total t q.2)).Perm (bs'.map (fun q => total t q.2)) := by
  have hkeys : ∀ {b b' : List ((Nat × String) × Cost)}, OnePerKey l b → OnePerKey l b' → b.map (·.1) ⊆ b'.map (·.1) := by
    intro b b' hb hb' k hk
    obtain ⟨q, hq, rfl⟩ := List.mem_map.1 hk
    obtain ⟨a, ha, hqa⟩ := hb.mem q hq
    exact hb'.all a ha q hqa
  have hperm : (bs.map (·.1)).Perm (bs'.map (·.1)) :=
    (List.perm_ext_iff_of_nodup h.nodup h'.nodup).2 (fun k => ⟨fun hk => hkeys h h' hk, fun hk => hkeys h' h hk⟩)
  have conv : ∀ (b : List ((Nat × String) × Cost)), OnePerKey l b →
      b.map (fun q => total t q.2) = (b.map (·.1)).map (fun k => match Dict.get? bs' k with
        | some c => total t c
        | none => .ok 0) := by
    intro b hb
    rw [List.map_map]
    apply List.map_congr_left
    intro q hq
    obtain ⟨q', hq', hk⟩ := List.mem_map.1 (hkeys hb h' (List.mem_map.2 ⟨q, hq, rfl⟩))
    have hget : Dict.get? bs' q.1 = some q'.2 := Dict.get?_of_mem h'.nodup (by rw [← hk]; exact hq')
    simp only [Function.comp_apply, hget]
    obtain ⟨a, ha, hqa⟩ := hb.mem q hq
    obtain ⟨a', ha', hqa'⟩ := h'.mem q' hq'
    exact eq_total _ _ _ (Nat.le_refl _) ((wf_blocks (hw a ha)).2 q hqa) ((wf_blocks (hw a' ha')).2 q' hqa')
      (hag a ha a' ha' q.1 q.2 q'.2 hqa (by rw [← hk]; exact hqa')) t
  rw [conv bs h, conv bs' h']
  exact hperm.map _

/-- C49: costs whose shared blocks agree can be added up in any order, and the total of the sum is the total of
their own costs added up plus that of the shared blocks, one for each key (on each
level, where costs per core have shared blocks themselves). -/
theorem C49_sum (a : Cost) (l : List Cost) (hw : ∀ c ∈ a :: l, WF c)
    (hag : Agree (a :: l)) :
    ∃ c, addAll a l = .ok c ∧ ∀ bs, OnePerKey (a :: l) bs → ∀ t,
      total t c = sumE (varTotal ((a :: l).map (fun a => (own a).1)).sum (sumQ ((a :: l).map (fun a => (own a).2))) t ::
        bs.map (fun q => total t q.2)) := by
  have h0 : SumAll [a] a := ⟨hw a List.mem_cons_self, by simp, by simp [sumQ, Rat.add_zero],
    fun q hq => ⟨a, by simp, hq⟩, by
      intro b hb q hq
      rw [List.mem_singleton] at hb
      subst hb
      exact List.mem_map.2 ⟨q, hq, rfl⟩⟩
  obtain ⟨c, hc, hs⟩ := addAll_ok a [] l a h0
    (fun b hb => hw b (List.mem_cons_of_mem _ hb)) hag
  refine ⟨c, hc, ?_⟩
  intro bs hbs t
  rw [total_blocks, hs.fixed, hs.per]
  exact sumE_perm (List.Perm.cons _ (blocks_total hw hag ⟨(wf_blocks hs.wf).1, hs.mem, hs.all⟩ hbs t))

/-- C49: the total of a sum does not depend on the order. -/
theorem C49_order (a a' : Cost) (l l' : List Cost) (hp : (a :: l).Perm (a' :: l'))
    (hw : ∀ c ∈ a :: l, WF c) (hag : Agree (a :: l)) :
    ∃ c c', addAll a l = .ok c ∧ addAll a' l' = .ok c' ∧ ∀ t, total t c = total t c' := by
  have hmem : ∀ c, c ∈ a' :: l' → c ∈ a :: l := fun c hc => hp.mem_iff.2 hc
  have hw' : ∀ c ∈ a' :: l', WF c := fun c hc => hw c (hmem c hc)
  have hag' : Agree (a' :: l') := fun x hx y hy => hag x (hmem x hx) y (hmem y hy)
  obtain ⟨c', h1', h2'⟩ := C49_sum a' l' hw' hag'
  have h0 : SumAll [a] a := ⟨hw a List.mem_cons_self, by simp, by simp [sumQ, Rat.add_zero],
    fun q hq => ⟨a, by simp, hq⟩, by
      intro b hb q hq
      rw [List.mem_singleton] at hb
      subst hb
      exact List.mem_map.2 ⟨q, hq, rfl⟩⟩
  obtain ⟨c, hc, hs⟩ := addAll_ok a [] l a h0
    (fun b hb => hw b (List.mem_cons_of_mem _ hb)) hag
  have hone : OnePerKey (a :: l) (blocks c) := ⟨(wf_blocks hs.wf).1, hs.mem, hs.all⟩
  have hone' : OnePerKey (a' :: l') (blocks c) := ⟨hone.nodup, fun q hq => by
      obtain ⟨b, hb, hq⟩ := hone.mem q hq
      exact ⟨b, hp.mem_iff.1 hb, hq⟩, fun b hb => hone.all b (hmem b hb)⟩
  refine ⟨c, c', hc, h1', fun t => ?_⟩
  rw [List.nil_append] at hs
  rw [h2' _ hone' t, total_blocks, hs.fixed, hs.per, sum_perm (hp.map (fun a => (own a).1)),
    sumQ_perm (hp.map (fun a => (own a).2))]

theorem varTotal_int (f : Int) (i : Int) (n : Nat) : varTotal f (i : Rat) (some n) = .ok (f + i * n) := by
  unfold varTotal
  have : ((f : Rat) + (i : Rat) * (n : Rat)) = ((f + i * n : Int) : Rat) := by
    push_cast
    rfl
  simp only [this, Rat.ceil_intCast]

/-- C49: where all costs per timestep are whole numbers, the own part of the total is the sum of the own parts, so
that the total of costs without shared blocks is the sum of the totals. -/
theorem C49_whole_numbers (a : Cost) (l : List Cost) (hp : ∀ c ∈ a :: l, Plain c) (hw : ∀ c ∈ a :: l, WF c)
    (hi : ∀ c ∈ a :: l, ∃ i : Int, (own c).2 = (i : Rat)) (n : Nat) :
    ∃ c, addAll a l = .ok c ∧ total (some n) c = sumE ((a :: l).map (total (some n))) := by
  have hb : ∀ c ∈ a :: l, blocks c = [] := fun c hc => plain_blocks (hp c hc)
  obtain ⟨c, h1, h2⟩ := C49_sum a l hw (by
    intro x hx y hy k v w hv
    rw [hb x hx] at hv
    cases hv)
  refine ⟨c, h1, ?_⟩
  rw [h2 [] ⟨by simp, by simp, by
    intro x hx q hq
    rw [hb x hx] at hq
    cases hq⟩ (some n)]
  have main : ∀ (l : List Cost), (∀ c ∈ l, Plain c) → (∀ c ∈ l, ∃ i : Int, (own c).2 = (i : Rat)) →
      (∃ i : Int, sumQ (l.map (fun a => (own a).2)) = (i : Rat)) ∧
      sumE [varTotal (l.map (fun a => (own a).1)).sum (sumQ (l.map (fun a => (own a).2))) (some n)] =
        sumE (l.map (total (some n))) := by
    intro l
    induction l with
    | nil => intro _ _; exact ⟨⟨0, rfl⟩, by simp [sumQ, sumE, varTotal_zero, addE]⟩
    | cons x l ih =>
      intro p1 p2
      obtain ⟨⟨i, hi⟩, h⟩ := ih (fun c hc => p1 c (List.mem_cons_of_mem _ hc)) (fun c hc => p2 c (List.mem_cons_of_mem _ hc))
      obtain ⟨j, hj⟩ := p2 x List.mem_cons_self
      have hs : sumQ ((x :: l).map (fun a => (own a).2)) = ((j + i : Int) : Rat) := by
        rw [List.map_cons, sumQ, hi, hj]
        push_cast
        rfl
      refine ⟨⟨_, hs⟩, ?_⟩
      rw [List.map_cons (f := total (some n)), sumE_cons (total (some n) x), ← h, total_plain (p1 x List.mem_cons_self), hj, hi, hs]
      simp only [varTotal_int, sumE, addE, List.map_cons, List.sum_cons]
      congr 1
      rw [Int.add_mul]
      omega
  simp only [List.map_nil]
  exact (main (a :: l) hp hi).2

/-- C49: a cost without shared blocks needs its fixed cost and that of each timestep, rounded up. If the number of
timesteps is not known, there is a total only if no timestep costs anything. -/
theorem C49_plain_total {c : Cost} (h : Plain c) :
    (∀ n, total (some n) c = .ok (((own c).1 : Rat) + (own c).2 * (n : Rat)).ceil) ∧
    ((own c).2 = 0 → total none c = .ok (own c).1) ∧
    ((own c).2 ≠ 0 → total none c = .error .configuration) := by
  refine ⟨fun n => total_plain h _, fun h0 => ?_, fun h0 => ?_⟩
  · rw [total_plain h, varTotal, if_pos h0]
  · rw [total_plain h, varTotal, if_neg h0]

/-- C49: a shared cost without a known number of timesteps has a total only if all its parts do. -/
theorem C49_unknown_runtime (c : Cost) :
    (∃ x, total none c = .ok x) ↔ (own c).2 = 0 ∧ ∀ q ∈ blocks c, ∃ x, total none q.2 = .ok x := by
  have hs : ∀ l : List (Except PyErr Int), (∃ x, sumE l = .ok x) ↔ ∀ y ∈ l, ∃ x, y = .ok x := by
    intro l
    induction l with
    | nil => exact ⟨fun _ y hy => (by cases hy), fun _ => ⟨0, rfl⟩⟩
    | cons y l ih =>
      rw [sumE_cons]
      constructor
      · rintro ⟨x, hx⟩ z hz
        cases hy : y with
        | error e => rw [hy] at hx; cases hx
        | ok a =>
          cases hl : sumE l with
          | error e => rw [hy, hl] at hx; cases hx
          | ok b =>
            rcases List.mem_cons.1 hz with rfl | hz
            · exact ⟨a, hy⟩
            · exact ih.1 ⟨b, hl⟩ z hz
      · intro h
        obtain ⟨a, ha⟩ := h y List.mem_cons_self
        obtain ⟨b, hb⟩ := ih.2 (fun z hz => h z (List.mem_cons_of_mem _ hz))
        exact ⟨a + b, by rw [ha, hb]; rfl⟩
  have hv : (∃ x, varTotal (own c).1 (own c).2 none = .ok x) ↔ (own c).2 = 0 := by
    unfold varTotal
    by_cases h0 : (own c).2 = 0
    · simp only [if_pos h0]; exact ⟨fun _ => h0, fun _ => ⟨_, rfl⟩⟩
    · simp only [if_neg h0]; exact ⟨fun ⟨_, hh⟩ => (by cases hh), fun hh => absurd hh h0⟩
  rw [total_blocks, hs]
  simp only [List.mem_cons, List.mem_map, forall_eq_or_imp, hv]
  constructor
  · rintro ⟨h1, h2⟩
    exact ⟨h1, fun q hq => h2 _ ⟨q, hq, rfl⟩⟩
  · rintro ⟨h1, h2⟩
    refine ⟨h1, ?_⟩
    rintro _ ⟨q, hq, rfl⟩
    exact h2 q hq

example : total none (.shared [("k", .const 5)] (.var 3 0)) = .ok 8 ∧
    total none (.shared [("k", .var 5 1)] (.var 3 0)) = .error .configuration ∧
    total (some 3) (.multi (.var 3 (1 / 2))) = .ok 5 := by
  refine ⟨by simp [total, totalSh, varTotal], by simp [total, totalSh, varTotal], ?_⟩
  rw [total, total]; decide +kernel

/-- C49 is false of fractions: the total of a sum may be less than the sum of the totals. -/
theorem C49_fractions : ∃ c, add (.var 0 (1 / 2)) (.var 0 (1 / 2)) = .ok c ∧ total (some 1) c = .ok 1 ∧
    total (some 1) (.var 0 (1 / 2)) = .ok 1 := by
  refine ⟨_, by rw [add], ?_, ?_⟩
  · rw [addPlain, total]
    decide +kernel
  · rw [total]
    decide +kernel

/-- C49 is false of a block given as a constant cost by one vertex and as an equal variable cost by another: they
can be added in one order only. -/
theorem C49_equality_one_way : (∃ c, add (.shared [("k", .const 5)] (.const 0)) (.shared [("k", .var 5 0)] (.const 0)) = .ok c) ∧
    add (.shared [("k", .var 5 0)] (.const 0)) (.shared [("k", .const 5)] (.const 0)) = .error .configuration := by
  constructor
  · refine ⟨.shared [("k", .const 5)] (.const 0), ?_⟩
    simp [add, mergeSh, Dict.get?, eq, eqPlain, addPlain]
  · simp [add, mergeSh, Dict.get?, eq, eqPlain]

/-- A key used in the shared part of a cost and again in its cost per core counts twice, on each level once, although
both stand for one block of a chip; in sums as well. -/
theorem C49_levels : ∃ c, add (.shared [("k", .const 5)] (.shared [("k", .const 5)] (.const 1)))
      (.shared [("k", .const 5)] (.const 2)) = .ok c ∧ total none c = .ok 13 := by
  refine ⟨.shared [("k", .const 5)] (.shared [("k", .const 5)] (.const 3)), ?_, ?_⟩
  · simp [add, mergeSh, Dict.get?, eq, eqPlain, addPlain]
  · simp [total, totalSh]

/-- Two vertices share a block; the cost per core of one has another shared block. -/
example : Agree [.shared [("a.weights", .const 100)] (.const 8),
      .shared [("a.weights", .const 100)] (.shared [("b", .var 7 1)] (.var 4 2))] ∧
    OnePerKey [.shared [("a.weights", .const 100)] (.const 8),
        .shared [("a.weights", .const 100)] (.shared [("b", .var 7 1)] (.var 4 2))]
      [((0, "a.weights"), .const 100), ((1, "b"), .var 7 1)] := by
  constructor
  · intro a ha b hb k v w hv hw
    simp only [List.mem_cons, List.not_mem_nil, or_false] at ha hb
    rcases ha with rfl | rfl <;> rcases hb with rfl | rfl <;> simp [blocks, deeper] at hv hw
    · rw [hv.2, hw.2]; simp [eq, eqPlain]
    · rcases hw with hw | hw
      · rw [hv.2, hw.2]; simp [eq, eqPlain]
      · exact absurd (hv.1.symm.trans hw.1) (by decide)
    · rcases hv with hv | hv
      · rw [hv.2, hw.2]; simp [eq, eqPlain]
      · exact absurd (hv.1.symm.trans hw.1) (by decide)
    · rcases hv with hv | hv <;> rcases hw with hw | hw
      · rw [hv.2, hw.2]; simp [eq, eqPlain]
      · exact absurd (hv.1.symm.trans hw.1) (by decide)
      · exact absurd (hv.1.symm.trans hw.1) (by decide)
      · rw [hv.2, hw.2]; simp [eq, eqPlain]
  · refine ⟨by decide, ?_, ?_⟩
    · intro q hq
      exact ⟨_, List.mem_cons_of_mem _ List.mem_cons_self, hq⟩
    · intro a ha q hq
      simp only [List.mem_cons, List.not_mem_nil, or_false] at ha
      rcases ha with rfl | rfl
      · simp [blocks, deeper] at hq; subst hq; decide
      · simp [blocks, deeper] at hq; rcases hq with rfl | rfl <;> decide

end Pacman.Sdram
