import Verif.Proofs.TagAllocator
/-
C26, C27, C28 and C29: tags and the tag allocator.
-/

namespace Pacman.TagAlloc

/-! ### C26 -/

/-- C26, uses: after any calls with failures caught, the requests that were accepted are pairwise compatible:
no tag of a board is both an IP tag and a reverse IP tag, no two reverse IP tags share a tag or a port of a
board, and IP tags are shared only with the same address and strip flag and agreeing ports. The tags listed for
the vertices are those of the accepted requests, in order; each tag stored is what the requests for it amount to. -/
theorem C26_history (os : List Op) :
    (accepted Tags.empty os).Pairwise Fits ∧
    (run Tags.empty os).ipBy = ipUses (accepted Tags.empty os) ∧
    (run Tags.empty os).revBy = revUses (accepted Tags.empty os) ∧
    (∀ k, (run Tags.empty os).ip.get? k = joined (ipReqs (accepted Tags.empty os) k)) ∧
    (∀ k, (run Tags.empty os).rev.get? k = (revReqs (accepted Tags.empty os) k).head?) := by
  have h := run_inv inv_empty os
  rw [List.nil_append] at h
  exact ⟨h.fits, h.ipBy, h.revBy, h.ip, h.rev⟩

/-- C26, exactness: after any calls, a further call is accepted if and only if it fits every request accepted
so far, and else raises the documented exception. -/
theorem C26_accepts_exactly (os : List Op) (o : Op) :
    ((∃ s, step (run Tags.empty os) o = .ok s) ↔ ∀ a ∈ accepted Tags.empty os, Fits a o) ∧
    (∀ e, step (run Tags.empty os) o = .error e → e = .invalidParameter) := by
  have h := run_inv inv_empty os
  rw [List.nil_append] at h
  have hs := step_inv h o
  constructor
  · constructor
    · rintro ⟨s, hok⟩
      exact (hs.1 s hok).1
    · intro hall
      cases hc : step (run Tags.empty os) o with
      | ok s => exact ⟨s, rfl⟩
      | error e => exact absurd hall (hs.2 e hc).2
  · intro e he
    exact (hs.2 e he).1

/-- C26, state: no tag of a board is stored both ways, every tag is stored under its own board and number, and
no two reverse IP tags of a board have the same port. -/
theorem C26_never_double_booked (os : List Op) :
    (∀ k, ¬ (((run Tags.empty os).ip.get? k).isSome = true ∧ ((run Tags.empty os).rev.get? k).isSome = true)) ∧
    (∀ k t, (run Tags.empty os).ip.get? k = some t → (t.board, t.tag) = k) ∧
    (∀ k t, (run Tags.empty os).rev.get? k = some t → (t.board, t.tag) = k) ∧
    (∀ k k' t t' p, (run Tags.empty os).rev.get? k = some t → (run Tags.empty os).rev.get? k' = some t' →
      t.board = t'.board → t.port = some p → t'.port = some p → k = k') := by
  have h := run_inv inv_empty os
  rw [List.nil_append] at h
  have hrev : ∀ k t, (run Tags.empty os).rev.get? k = some t →
      (t.board, t.tag) = k ∧ ∃ v, Op.rev t v ∈ accepted Tags.empty os := by
    intro k t hk
    rw [h.rev] at hk
    exact mem_revReqs.1 (List.mem_of_mem_head? hk)
  have hip : ∀ k t, (run Tags.empty os).ip.get? k = some t →
      (t.board, t.tag) = k ∧ ∃ t' v, (t'.board, t'.tag) = k ∧ Op.ip t' v ∈ accepted Tags.empty os := by
    intro k t hk
    rw [h.ip] at hk
    cases hl : ipReqs (accepted Tags.empty os) k with
    | nil => rw [hl] at hk; simp [joined] at hk
    | cons a l =>
      obtain ⟨h1, v, h2⟩ := mem_ipReqs.1 (by rw [hl]; exact List.mem_cons_self :
        a ∈ ipReqs (accepted Tags.empty os) k)
      rw [hl] at hk
      simp only [joined, Option.some.injEq] at hk
      subst hk
      exact ⟨h1, a, v, h1, h2⟩
  have hpair : ∀ a b, a ∈ accepted Tags.empty os → b ∈ accepted Tags.empty os → a ≠ b → Fits a b ∨ Fits b a := by
    intro a b ha hb hab
    obtain ⟨i, hi, hia⟩ := List.getElem_of_mem ha
    obtain ⟨j, hj, hjb⟩ := List.getElem_of_mem hb
    rcases Nat.lt_trichotomy i j with hij | hij | hij
    · have := List.pairwise_iff_getElem.1 h.fits i j hi hj hij
      rw [hia, hjb] at this
      exact .inl this
    · subst hij
      exact absurd (hia.symm.trans hjb) hab
    · have := List.pairwise_iff_getElem.1 h.fits j i hj hi hij
      rw [hia, hjb] at this
      exact .inr this
  refine ⟨?_, fun k t hk => (hip k t hk).1, fun k t hk => (hrev k t hk).1, ?_⟩
  · rintro k ⟨h1, h2⟩
    obtain ⟨t, ht⟩ := Option.isSome_iff_exists.1 h1
    obtain ⟨r, hr⟩ := Option.isSome_iff_exists.1 h2
    obtain ⟨_, t', v, hk, hm⟩ := hip k t ht
    obtain ⟨hk', w, hm'⟩ := hrev k r hr
    rcases hpair _ _ hm hm' (by simp) with hf | hf
    · exact hf (hk.trans hk'.symm)
    · exact hf (hk'.trans hk.symm)
  · intro k k' t t' p hk hk' hb hp hp'
    obtain ⟨e1, v, hm⟩ := hrev k t hk
    obtain ⟨e2, w, hm'⟩ := hrev k' t' hk'
    by_cases heq : Op.rev t v = Op.rev t' w
    · cases heq
      exact e1.symm.trans e2
    · rcases hpair _ _ hm hm' heq with hf | hf
      · exact absurd hp' (hf.2 hb p hp)
      · exact absurd hp (hf.2 hb.symm p hp')

/-- A history with a shared tag whose port comes late, a refused reverse tag and a refused port. -/
def exampleOps : List Op :=
  [.ip ⟨0, 1, 9, none, true⟩ 10, .ip ⟨0, 1, 9, some 50, true⟩ 11, .ip ⟨0, 1, 9, some 51, true⟩ 12,
   .rev ⟨0, 1, some 7⟩ 13, .rev ⟨0, 2, some 7⟩ 13, .rev ⟨0, 3, some 7⟩ 14, .rev ⟨1, 3, some 7⟩ 14]

example : accepted Tags.empty exampleOps =
      [.ip ⟨0, 1, 9, none, true⟩ 10, .ip ⟨0, 1, 9, some 50, true⟩ 11, .rev ⟨0, 2, some 7⟩ 13,
       .rev ⟨1, 3, some 7⟩ 14] ∧
    ipTagsOf (run Tags.empty exampleOps) 10 = [⟨0, 1, 9, some 50, true⟩] ∧
    revTagsOf (run Tags.empty exampleOps) 14 = [⟨1, 3, some 7⟩] := by decide +kernel

/-! ### C27 -/

theorem ipReqs_single {acc : List Op} (hn : (acc.map Op.key).Nodup) {t : IPTag} {v : Nat}
    (h : Op.ip t v ∈ acc) : ipReqs acc (t.board, t.tag) = [t] := by
  induction acc with
  | nil => simp at h
  | cons o acc ih =>
    rw [List.map_cons, List.nodup_cons] at hn
    have hc : ipReqs (o :: acc) (t.board, t.tag) = ipReqs [o] (t.board, t.tag) ++ ipReqs acc (t.board, t.tag) :=
      ipReqs_append [o] acc _
    rw [hc]
    rcases List.mem_cons.1 h with rfl | h'
    · rw [ipReqs_ip, if_pos rfl]
      have : ipReqs acc (t.board, t.tag) = [] := by
        refine List.eq_nil_iff_forall_not_mem.2 fun a ha => ?_
        obtain ⟨hk, w, hw⟩ := mem_ipReqs.1 ha
        exact hn.1 (List.mem_map.2 ⟨_, hw, hk⟩)
      rw [this]
      rfl
    · rw [ih hn.2 h']
      have hne : o.key ≠ (t.board, t.tag) := fun hk => hn.1 (List.mem_map.2 ⟨_, h', hk.symm⟩)
      cases o with
      | ip a w => rw [ipReqs_ip, if_neg (show ¬ (a.board, a.tag) = _ from hne)]; rfl
      | rev a w => rfl

theorem revReqs_single {acc : List Op} (hn : (acc.map Op.key).Nodup) {t : RevTag} {v : Nat}
    (h : Op.rev t v ∈ acc) : (revReqs acc (t.board, t.tag)).head? = some t := by
  cases hl : revReqs acc (t.board, t.tag) with
  | nil =>
    have : t ∈ revReqs acc (t.board, t.tag) := mem_revReqs.2 ⟨rfl, v, h⟩
    rw [hl] at this
    simp at this
  | cons a l =>
    obtain ⟨hk, w, hw⟩ := mem_revReqs.1 (by rw [hl]; exact List.mem_cons_self :
      a ∈ revReqs acc (t.board, t.tag))
    obtain ⟨i, hi, hia⟩ := List.getElem_of_mem hw
    obtain ⟨j, hj, hjb⟩ := List.getElem_of_mem h
    have hij : i = j := by
      refine (List.getElem_inj (h₀ := by simpa using hi) (h₁ := by simpa using hj) hn).1 ?_
      rw [List.getElem_map, List.getElem_map, hia, hjb]
      exact hk
    subst hij
    rw [hia] at hjb
    cases hjb
    rfl

theorem matched_granted {m : Machine} {t : Tags} {rs : List Req} {acc sub : List Op}
    (hi : ∀ k, t.ip.get? k = joined (ipReqs acc k)) (hr : ∀ k, t.rev.get? k = (revReqs acc k).head?)
    (hn : (acc.map Op.key).Nodup) (hsub : ∀ o ∈ sub, o ∈ acc) (h : Matched m rs sub) :
    (ipUses sub).length = (ipRequests rs).length ∧ (revUses sub).length = (revRequests rs).length ∧
    (∀ q ∈ (ipRequests rs).zip (ipUses sub), IpGranted m t q.1 q.2) ∧
    (∀ q ∈ (revRequests rs).zip (revUses sub), RevGranted m t q.1 q.2) := by
  induction rs generalizing sub with
  | nil =>
    cases sub with
    | nil => simp [ipUses, revUses, ipRequests, revRequests]
    | cons _ _ => exact h.elim
  | cons r rs ih =>
    cases sub with
    | nil => exact h.elim
    | cons o sub =>
      obtain ⟨hg, hm⟩ := h
      obtain ⟨l1, l2, g1, g2⟩ := ih (fun o ho => hsub o (List.mem_cons_of_mem _ ho)) hm
      have ho := hsub o List.mem_cons_self
      cases r with
      | ip v e q =>
        obtain ⟨c, hc, k, rfl, h1, h7, hw⟩ := hg
        refine ⟨by simpa [ipUses, ipRequests] using l1, by simpa [revUses, revRequests] using l2, ?_, ?_⟩
        · intro x hx
          have hz : (ipRequests (.ip v e q :: rs)).zip
              (ipUses (.ip ⟨m.addr c, k, q.ip, q.port, q.strip⟩ v :: sub)) =
              ((v, e, q), (v, (m.addr c, k))) :: (ipRequests rs).zip (ipUses sub) := rfl
          rw [hz] at hx
          rcases List.mem_cons.1 hx with rfl | hx
          · refine ⟨rfl, ⟨c, hc, rfl⟩, h1, h7, hw, ?_⟩
            have hs := ipReqs_single hn ho
            simp only at hs ⊢
            rw [hi, hs]
            simp only [joined]
            cases q.port <;> rfl
          · exact g1 x hx
        · intro x hx
          exact g2 x hx
      | rev v e q =>
        obtain ⟨k, p, rfl, h1, h7, hw, hp, hp'⟩ := hg
        refine ⟨by simpa [ipUses, ipRequests] using l1, by simpa [revUses, revRequests] using l2, ?_, ?_⟩
        · intro x hx
          exact g1 x hx
        · intro x hx
          have hz : (revRequests (.rev v e q :: rs)).zip
              (revUses (.rev ⟨m.addr e, k, some p⟩ v :: sub)) =
              ((v, e, q), (v, (m.addr e, k))) :: (revRequests rs).zip (revUses sub) := rfl
          rw [hz] at hx
          rcases List.mem_cons.1 hx with rfl | hx
          · refine ⟨rfl, rfl, h1, h7, hw, p, ?_, hp, hp'⟩
            have hs := revReqs_single hn ho
            simp only at hs ⊢
            rw [hr, hs]
          · exact g2 x hx

theorem uses_nodup {acc : List Op} (hn : (acc.map Op.key).Nodup) :
    ((ipUses acc).map (·.2) ++ (revUses acc).map (·.2)).Nodup := by
  have hsub : ∀ l : List Op, (∀ k, k ∈ (ipUses l).map (·.2) → k ∈ l.map Op.key) ∧
      (∀ k, k ∈ (revUses l).map (·.2) → k ∈ l.map Op.key) := by
    intro l
    induction l with
    | nil => simp [ipUses, revUses]
    | cons o l ih =>
      cases o with
      | ip t v =>
        constructor
        · intro k hk
          have hk : k ∈ (t.board, t.tag) :: (ipUses l).map (·.2) := hk
          rcases List.mem_cons.1 hk with rfl | hk
          · exact List.mem_cons_self
          · exact List.mem_cons_of_mem _ (ih.1 k hk)
        · intro k hk
          exact List.mem_cons_of_mem _ (ih.2 k hk)
      | rev t v =>
        constructor
        · intro k hk
          exact List.mem_cons_of_mem _ (ih.1 k hk)
        · intro k hk
          have hk : k ∈ (t.board, t.tag) :: (revUses l).map (·.2) := hk
          rcases List.mem_cons.1 hk with rfl | hk
          · exact List.mem_cons_self
          · exact List.mem_cons_of_mem _ (ih.2 k hk)
  induction acc with
  | nil => simp [ipUses, revUses]
  | cons o acc ih =>
    rw [List.map_cons, List.nodup_cons] at hn
    have hh := ih hn.2
    cases o with
    | ip t v =>
      have he : (ipUses (.ip t v :: acc)).map (·.2) ++ (revUses (.ip t v :: acc)).map (·.2) =
          (t.board, t.tag) :: ((ipUses acc).map (·.2) ++ (revUses acc).map (·.2)) := rfl
      rw [he, List.nodup_cons]
      refine ⟨?_, hh⟩
      intro hm
      rw [List.mem_append] at hm
      rcases hm with hm | hm
      · exact hn.1 ((hsub acc).1 _ hm)
      · exact hn.1 ((hsub acc).2 _ hm)
    | rev t v =>
      have he : (ipUses (.rev t v :: acc)).map (·.2) ++ (revUses (.rev t v :: acc)).map (·.2) =
          (ipUses acc).map (·.2) ++ (t.board, t.tag) :: (revUses acc).map (·.2) := rfl
      rw [he]
      refine (List.perm_middle.nodup_iff).2 ?_
      rw [List.nodup_cons]
      refine ⟨?_, hh⟩
      intro hm
      rw [List.mem_append] at hm
      rcases hm with hm | hm
      · exact hn.1 ((hsub acc).1 _ hm)
      · exact hn.1 ((hsub acc).2 _ hm)

/-- The additions of a successful allocation. -/
theorem allocate_inv {m : Machine} {ps : List Placed} (hs : Sound m ps) {t : Tags}
    (h : allocate m ps = .ok t) : ∃ s acc, s.tags = t ∧ AInv m s (requests ps) acc := by
  rw [allocate_eq] at h
  cases hf : foldE (stepReq m) init (requests ps) with
  | error e => rw [hf] at h; cases h
  | ok s =>
    rw [hf] at h
    cases h
    obtain ⟨acc, ha⟩ := fold_inv hs.distinct (ainv_init m) (requests_eth hs) hf
    exact ⟨s, acc, rfl, ha⟩

/-- C27: if the allocation succeeds, every request is granted by one use of a tag, in order: the tag is within
1 to 7 on a board of the machine, it is the tag requested if one was, and it has the properties requested. No
tag of a board is used twice. -/
theorem C27_granted {m : Machine} {ps : List Placed} (hs : Sound m ps) {t : Tags}
    (h : allocate m ps = .ok t) :
    t.ipBy.length = (ipRequests (requests ps)).length ∧
    t.revBy.length = (revRequests (requests ps)).length ∧
    (∀ q ∈ (ipRequests (requests ps)).zip t.ipBy, IpGranted m t q.1 q.2) ∧
    (∀ q ∈ (revRequests (requests ps)).zip t.revBy, RevGranted m t q.1 q.2) ∧
    (t.ipBy.map (·.2) ++ t.revBy.map (·.2)).Nodup := by
  obtain ⟨s, acc, rfl, ha⟩ := allocate_inv hs h
  have := matched_granted (t := s.tags) ha.inv.ip ha.inv.rev ha.keys (fun _ ho => ho) ha.matched
  rw [← ha.inv.ipBy, ← ha.inv.revBy] at this
  refine ⟨this.1, this.2.1, this.2.2.1, this.2.2.2, ?_⟩
  rw [ha.inv.ipBy, ha.inv.revBy]
  exact uses_nodup ha.keys

/-- The prefix of the requests that was processed, as an allocation (not code). -/
def allocateReqs (m : Machine) (rs : List Req) : Except PyErr Tags :=
  (foldE (stepReq m) init rs).map (·.tags)

/-- The allocator works through the requests in order. -/
theorem C27_in_order (m : Machine) (ps : List Placed) : allocate m ps = allocateReqs m (requests ps) :=
  allocate_eq m ps

/-- C27, failures: if the allocation fails there is a first request that could not be met, and either no board
has the tag requested (or any tag) free; or it is a reverse IP tag, and its own board does not have the tag
requested (or any tag) free, or a port of its board is already in use. -/
theorem C27_fails_only {m : Machine} {ps : List Placed} (hs : Sound m ps) {e : PyErr}
    (h : allocate m ps = .error e) :
    ∃ done r rest t, requests ps = done ++ r :: rest ∧ allocateReqs m done = .ok t ∧
      (e = .notFound ∧ (∀ c ∈ m.eths, Taken m t c r.tag) ∨
       e = .invalidParameter ∧ (∃ v b q, r = .rev v b q ∧
        (Taken m t b q.tag ∨ ∃ p, (m.addr b, p) ∈ t.ports ∧ (q.port = some p ∨ q.port = none)))) := by
  rw [allocate_eq] at h
  cases hf : foldE (stepReq m) init (requests ps) with
  | ok s => rw [hf] at h; cases h
  | error e' =>
    rw [hf] at h
    cases h
    obtain ⟨done, r, rest, s, h1, h2, h3⟩ := foldE_error hf
    have hre := requests_eth hs
    rw [h1] at hre
    obtain ⟨acc, ha⟩ := fold_inv hs.distinct (ainv_init m)
      (fun r hr => hre r (List.mem_append_left _ hr)) h2
    refine ⟨done, r, rest, s.tags, h1, by unfold allocateReqs; rw [h2]; rfl, ?_⟩
    rcases (stepReq_spec ha hs.distinct (hre r (by simp))).2 _ h3 with hh | ⟨h4, ⟨v, b, q, rfl⟩, h5⟩
    · exact .inl hh
    · refine .inr ⟨h4, v, b, q, rfl, ?_⟩
      rcases h5 with h5 | ⟨p, h5, h6⟩
      · exact .inl h5.1
      · refine .inr ⟨p, h5, ?_⟩
        rcases h6 with h6 | h6
        · exact .inl h6
        · exact .inr h6.1

/-- Two boards. -/
def twoBoards : Machine := ⟨[0, 1], fun c => 100 + c⟩

/-- A vertex on the first board with an automatic, a requested and a reverse tag, and one on the other board. -/
def examplePlaced : List Placed :=
  [⟨20, 0, [⟨9, some 50, true, none⟩, ⟨9, none, false, some 3⟩], [⟨none, none⟩]⟩,
   ⟨21, 1, [⟨8, some 60, true, some 7⟩], [⟨some 4000, some 2⟩]⟩]

example : Sound twoBoards examplePlaced ∧ allocate twoBoards examplePlaced =
    .ok ⟨[((100, 7), ⟨100, 7, 9, some 50, true⟩), ((100, 3), ⟨100, 3, 9, none, false⟩),
          ((101, 7), ⟨101, 7, 8, some 60, true⟩)],
         [((100, 6), ⟨100, 6, some 17999⟩), ((101, 2), ⟨101, 2, some 4000⟩)],
         [(20, (100, 7)), (20, (100, 3)), (21, (101, 7))], [(20, (100, 6)), (21, (101, 2))],
         [(101, 4000), (100, 17999)]⟩ := by
  refine ⟨⟨?_, ?_⟩, ?_⟩
  · intro a _ b _ h
    have h : 100 + a = 100 + b := h
    omega
  · decide
  · decide +kernel

/-- The same tag requested three times on two boards: the third request fails. -/
example : allocate twoBoards [⟨20, 0, [⟨9, none, true, some 3⟩, ⟨9, none, true, some 3⟩,
    ⟨9, none, true, some 3⟩], []⟩] = .error .notFound := by decide +kernel

/-! ### C28 -/

/-- C28 is violated: eight automatic reverse tags on a board with a free board beside it. The eighth tag is
found on the other board, but recorded on the first, where it is in use: the allocation fails although the
same eight resources as IP tags are allocated. -/
theorem C28_spill_fails :
    allocate twoBoards [⟨20, 0, [], List.replicate 8 ⟨none, none⟩⟩] = .error .invalidParameter ∧
    (allocate twoBoards [⟨20, 0, List.replicate 8 ⟨9, none, true, none⟩, []⟩]).isOk = true := by
  decide +kernel

/-- C28, always: whenever the tag of a reverse IP tag is found on a board other than that of the vertex, the
allocation fails. -/
theorem C28_spill_always_fails {m : Machine} {ps : List Placed} (hs : Sound m ps) {done rest : List Req}
    {v b : Nat} {q : RevRes} {s : State} (hr : requests ps = done ++ .rev v b q :: rest)
    (hd : foldE (stepReq m) init done = .ok s) {c tag : Nat} {d : Dict Nat (List Nat)}
    (hg : getChipAndTag m s.tagsAvail b q.tag = .ok (c, tag, d)) (hc : c ≠ b) :
    allocate m ps = .error .invalidParameter := by
  have hre := requests_eth hs
  rw [hr] at hre
  obtain ⟨acc, ha⟩ := fold_inv hs.distinct (ainv_init m)
    (fun r hr => hre r (List.mem_append_left _ hr)) hd
  have hb : b ∈ m.eths := hre (.rev v b q) (by simp)
  have hsp := stepReq_spec ha hs.distinct (r := .rev v b q) hb
  obtain ⟨hce, ht, hw, hoff⟩ := getChipAndTag_ok hb ha.nodup hg
  have hstep : stepReq m s (.rev v b q) = .error .invalidParameter := by
    cases hst : stepReq m s (.rev v b q) with
    | ok s' =>
      exfalso
      obtain ⟨o, c', tag', _, ht', h1, h2, p, h3, h4⟩ := hsp.1 s' hst
      subst h2
      have htake := ht'.mem
      have hoff' := hoff hc
      unfold stepReq allocRev at hst
      simp only [bind, Except.bind, pure, Except.pure, hg] at hst
      rw [h3] at hst
      simp only at hst
      cases hadd : addRev s.tags ⟨m.addr c', tag, some p⟩ v with
      | error er => rw [hadd] at hst; cases hst
      | ok t' =>
        have hfit := ((addRev_inv ha.inv ⟨m.addr c', tag, some p⟩ v).1 t' hadd).1
        have hrg := ha.range c hce tag ht.mem
        have hnot : tag ∉ avail chipTags s.tagsAvail c' := by
          refine hoff' tag ?_
          cases hq : q.tag with
          | none => exact .inl rfl
          | some w => rw [hw w hq]; exact .inr rfl
        obtain ⟨o', ho', hk'⟩ := ha.used c' hb tag hrg.1 hrg.2 hnot
        have := hfit o' ho'
        cases o' with
        | ip a w => exact this hk'
        | rev a w => exact this.1 hk'
    | error e =>
      rcases hsp.2 e hst with ⟨rfl, _⟩ | ⟨rfl, _⟩
      · exfalso
        unfold stepReq allocRev at hst
        simp only [bind, Except.bind, pure, Except.pure, hg] at hst
        cases hp : getPort s.portsAvail b q.port with
        | error er =>
          have h0 := getPort_error hp
          have := ha.many b hb
          rw [h0] at this
          simp at this
          omega
        | ok y =>
          obtain ⟨p, d'⟩ := y
          rw [hp] at hst
          simp only at hst
          cases hadd : addRev s.tags ⟨m.addr b, tag, some p⟩ v with
          | ok t' => rw [hadd] at hst; cases hst
          | error er =>
            rw [hadd] at hst
            cases hst
            have := ((addRev_inv ha.inv ⟨m.addr b, tag, some p⟩ v).2 _ hadd).1
            cases this
      · rfl
  rw [allocate_eq, hr, foldE_append, hd]
  change Except.map _ (foldE (stepReq m) s (.rev v b q :: rest)) = _
  rw [foldE, hstep]
  rfl

/-- C28, on success: if the allocation succeeds then every reverse IP tag is recorded on the board of its
vertex, and that is the board on which it was reserved. What is missing from C28: the allocation should also
succeed whenever a free tag is found, see `C28_spill_fails`. -/
theorem C28_success_partial {m : Machine} {ps : List Placed} (hs : Sound m ps) {t : Tags}
    (h : allocate m ps = .ok t) {done rest : List Req} {v b : Nat} {q : RevRes}
    (hr : requests ps = done ++ .rev v b q :: rest) :
    ∃ s d tag, foldE (stepReq m) init done = .ok s ∧
      getChipAndTag m s.tagsAvail b q.tag = .ok (b, tag, d) ∧ (v, (m.addr b, tag)) ∈ t.revBy := by
  have h0 := h
  rw [allocate_eq, hr, foldE_append] at h
  cases hd : foldE (stepReq m) init done with
  | error e => rw [hd] at h; cases h
  | ok s =>
    rw [hd] at h
    change Except.map _ (foldE (stepReq m) s (.rev v b q :: rest)) = _ at h
    rw [foldE] at h
    cases hst : stepReq m s (.rev v b q) with
    | error e => rw [hst] at h; cases h
    | ok s' =>
      rw [hst] at h
      cases hg : getChipAndTag m s.tagsAvail b q.tag with
      | error e =>
        unfold stepReq allocRev at hst
        simp only [bind, Except.bind, pure, Except.pure, hg] at hst
        cases hst
      | ok x =>
        obtain ⟨c, tag, d⟩ := x
        by_cases hc : c = b
        · subst hc
          refine ⟨s, d, tag, rfl, hg, ?_⟩
          have hre := requests_eth hs
          rw [hr] at hre
          obtain ⟨acc, ha⟩ := fold_inv hs.distinct (ainv_init m)
            (fun r hr => hre r (List.mem_append_left _ hr)) hd
          have hmem : (v, (m.addr c, tag)) ∈ s'.tags.revBy := by
            unfold stepReq allocRev at hst
            simp only [bind, Except.bind, pure, Except.pure, hg] at hst
            cases hp : getPort s.portsAvail c q.port with
            | error er => rw [hp] at hst; cases hst
            | ok y =>
              obtain ⟨p, d'⟩ := y
              rw [hp] at hst
              simp only at hst
              cases hadd : addRev s.tags ⟨m.addr c, tag, some p⟩ v with
              | error er => rw [hadd] at hst; cases hst
              | ok t' =>
                rw [hadd] at hst
                cases hst
                rw [((addRev_inv ha.inv ⟨m.addr c, tag, some p⟩ v).1 t' hadd).2.revBy]
                simp [revUses]
          have hmono : ∀ (l : List Req) (a a' : State), (∃ acc rs, AInv m a rs acc) →
              (∀ r ∈ l, r.eth ∈ m.eths) → foldE (stepReq m) a l = .ok a' →
              ∀ u ∈ a.tags.revBy, u ∈ a'.tags.revBy := by
            intro l
            induction l with
            | nil => intro a a' _ _ hf u hu; cases hf; exact hu
            | cons r l ih =>
              rintro a a' ⟨acc, rs, hi⟩ hl hf u hu
              rw [foldE] at hf
              cases hs1 : stepReq m a r with
              | error e => rw [hs1] at hf; cases hf
              | ok a1 =>
                rw [hs1] at hf
                obtain ⟨o, _, _, hi1, _⟩ := (stepReq_spec hi hs.distinct (hl r List.mem_cons_self)).1 a1 hs1
                refine ih a1 a' ⟨_, _, hi1⟩ (fun r hr => hl r (List.mem_cons_of_mem _ hr)) hf u ?_
                rw [hi1.inv.revBy]
                rw [hi.inv.revBy] at hu
                simp only [revUses, List.filterMap_append, List.mem_append]
                exact .inl hu
          obtain ⟨o, _, _, hi1, _⟩ := (stepReq_spec ha hs.distinct (r := .rev v c q)
            (hre (.rev v c q) (by simp))).1 s' hst
          simp only at h
          cases hrest : foldE (stepReq m) s' rest with
          | error e => rw [hrest] at h; cases h
          | ok s2 =>
            rw [hrest] at h
            cases h
            exact hmono rest s' s2 ⟨_, _, hi1⟩
              (fun r hr => hre r (by simp [hr])) hrest _ hmem
        · have := C28_spill_always_fails hs hr hd hg hc
          rw [this] at h0
          cases h0

example : ∃ done rest, requests examplePlaced = done ++ .rev 20 0 ⟨none, none⟩ :: rest :=
  ⟨[.ip 20 0 ⟨9, some 50, true, none⟩, .ip 20 0 ⟨9, none, false, some 3⟩],
   [.ip 21 1 ⟨8, some 60, true, some 7⟩, .rev 21 1 ⟨some 4000, some 2⟩], by decide +kernel⟩

/-- The hypotheses of `C28_spill_always_fails` can be met. -/
example : ∃ s d, foldE (stepReq twoBoards) init (List.replicate 7 (.rev 20 0 ⟨none, none⟩)) = .ok s ∧
    getChipAndTag twoBoards s.tagsAvail 0 none = .ok (1, 1, d) :=
  ⟨⟨[(0, [])], [(0, List.range' 17896 97)], _⟩, [(0, []), (1, [2, 3, 4, 5, 6, 7])],
    by rfl, by decide +kernel⟩

/-! ### C29 -/

/-- C29 is violated: a requested port is not taken out of the ports that are handed out automatically, so
requesting port 17999 makes the next automatic port fail; both orders. -/
theorem C29_ports_clash :
    allocate twoBoards [⟨20, 0, [], [⟨some 17999, none⟩, ⟨none, none⟩]⟩] = .error .invalidParameter ∧
    allocate twoBoards [⟨20, 0, [], [⟨none, none⟩, ⟨some 17999, none⟩]⟩] = .error .invalidParameter ∧
    (allocate twoBoards [⟨20, 0, [], [⟨some 17998, none⟩, ⟨none, none⟩]⟩]).isOk = true := by
  decide +kernel

/-- C29, on success: if the allocation succeeds, no two reverse IP tags of a board have the same port. -/
theorem C29_success_distinct {m : Machine} {ps : List Placed} (hs : Sound m ps) {t : Tags}
    (h : allocate m ps = .ok t) {k k' : BT} {a b : RevTag} (ha : t.rev.get? k = some a)
    (hb : t.rev.get? k' = some b) (hab : a.board = b.board) (hp : a.port = b.port) : k = k' := by
  obtain ⟨s, acc, rfl, hi⟩ := allocate_inv hs h
  rw [hi.inv.rev] at ha hb
  obtain ⟨e1, v, h1⟩ := mem_revReqs.1 (List.mem_of_mem_head? ha)
  obtain ⟨e2, w, h2⟩ := mem_revReqs.1 (List.mem_of_mem_head? hb)
  have hport : ∃ p, a.port = some p := by
    obtain ⟨r, _, hg⟩ := hi.matched.exists_of_mem h1
    cases r with
    | ip _ _ _ => obtain ⟨_, _, _, hh, _⟩ := hg; cases hh
    | rev _ _ _ => obtain ⟨_, p, hh, _⟩ := hg; cases hh; exact ⟨p, rfl⟩
  obtain ⟨p, hp'⟩ := hport
  obtain ⟨i, hi1, hia⟩ := List.getElem_of_mem h1
  obtain ⟨j, hj, hjb⟩ := List.getElem_of_mem h2
  rcases Nat.lt_trichotomy i j with hij | hij | hij
  · have := List.pairwise_iff_getElem.1 hi.inv.fits i j hi1 hj hij
    rw [hia, hjb] at this
    exact absurd (hp ▸ hp') (this.2 hab p hp')
  · subst hij
    rw [hia] at hjb
    cases hjb
    exact e1.symm.trans e2
  · have := List.pairwise_iff_getElem.1 hi.inv.fits j i hj hi1 hij
    rw [hia, hjb] at this
    exact absurd hp' (this.2 hab.symm p (hp ▸ hp'))

/-- The requested ports of a list of requests are outside the range of automatic ports, and no board has a
port requested twice. -/
def PortsApart (rs : List Req) : Prop :=
  (∀ x ∈ explicitPorts rs, x.2 < 17896 ∨ 18000 ≤ x.2) ∧ (explicitPorts rs).Nodup

theorem fold_ports {m : Machine} (hd : ∀ a ∈ m.eths, ∀ b ∈ m.eths, m.addr a = m.addr b → a = b)
    {s s' : State} {rs done : List Req} {acc : List Op} (h : AInv m s done acc)
    (hr : ∀ r ∈ rs, r.eth ∈ m.eths) (hx : ∀ x ∈ explicitPorts rs, x.2 < 17896 ∨ 18000 ≤ x.2)
    (hp : PInv m s) (hf : foldE (stepReq m) s rs = .ok s') : PInv m s' := by
  induction rs generalizing s done acc with
  | nil => cases hf; exact hp
  | cons r rs ih =>
    rw [foldE] at hf
    cases hs : stepReq m s r with
    | error e => rw [hs] at hf; cases hf
    | ok s1 =>
      rw [hs] at hf
      obtain ⟨acc', h1, h2⟩ := step_ports h hd (hr r List.mem_cons_self)
        (fun x hx' => hx x (by
          have : explicitPorts (r :: rs) = explicitPorts [r] ++ explicitPorts rs :=
            explicitPorts_append [r] rs
          rw [this]
          exact List.mem_append_left _ hx')) hp hs
      refine ih h1 (fun r hr' => hr r (List.mem_cons_of_mem _ hr')) (fun x hx' => hx x (by
          have : explicitPorts (r :: rs) = explicitPorts [r] ++ explicitPorts rs :=
            explicitPorts_append [r] rs
          rw [this]
          exact List.mem_append_right _ hx')) h2 hf

/-- C29 for requested ports outside the range of the automatic ones: then no port is ever the reason for a
failure. What is missing from C29: requested ports in the range, see `C29_ports_clash`. -/
theorem C29_outside_partial {m : Machine} {ps : List Placed} (hs : Sound m ps)
    (hp : PortsApart (requests ps)) {e : PyErr} (h : allocate m ps = .error e) :
    ∃ done r rest t, requests ps = done ++ r :: rest ∧ allocateReqs m done = .ok t ∧
      (e = .notFound ∧ (∀ c ∈ m.eths, Taken m t c r.tag) ∨
       e = .invalidParameter ∧ (∃ v b q, r = .rev v b q) ∧ Taken m t r.eth r.tag) := by
  rw [allocate_eq] at h
  cases hf : foldE (stepReq m) init (requests ps) with
  | ok s => rw [hf] at h; cases h
  | error e' =>
    rw [hf] at h
    cases h
    obtain ⟨done, r, rest, s, h1, h2, h3⟩ := foldE_error hf
    have hre := requests_eth hs
    rw [h1] at hre hp
    obtain ⟨acc, ha⟩ := fold_inv hs.distinct (ainv_init m)
      (fun r hr => hre r (List.mem_append_left _ hr)) h2
    have hpi := fold_ports hs.distinct (ainv_init m) (fun r hr => hre r (List.mem_append_left _ hr))
      (fun x hx => hp.1 x (by rw [explicitPorts_append]; exact List.mem_append_left _ hx)) (pinv_init m) h2
    refine ⟨done, r, rest, s.tags, h1, by unfold allocateReqs; rw [h2]; rfl, ?_⟩
    rcases (stepReq_spec ha hs.distinct (hre r (by simp))).2 _ h3 with hh | ⟨h4, h5, h6⟩
    · exact .inl hh
    · refine .inr ⟨h4, h5, ?_⟩
      rcases h6 with h6 | h6
      · exact h6.1
      · exact (no_clash ha hs.distinct (fun r hr => hre r (List.mem_append_left _ hr)) (hre r (by simp))
          hp.1 hp.2 hpi h6).elim

/-- C27, C28 and C29, success: if all tags are automatic, no board has more than seven requests, and the
requested ports are apart, the allocation succeeds. -/
theorem C27_succeeds {m : Machine} {ps : List Placed} (hs : Sound m ps) (hp : PortsApart (requests ps))
    (ht : ∀ r ∈ requests ps, r.tag = none)
    (hn : ∀ c ∈ m.eths, ((requests ps).filter (fun r => decide (r.eth = c))).length ≤ 7) :
    ∃ t, allocate m ps = .ok t := by
  obtain ⟨s, hs'⟩ := fold_succeeds hs.distinct (rs := requests ps) (done := []) (ainv_init m)
    (requests_eth hs) (by simp) (by simpa using hp.1) (by simpa using hp.2) (pinv_init m) ht
    (fun c hc => by
      have : avail chipTags init.tagsAvail c = [1, 2, 3, 4, 5, 6, 7] := rfl
      rw [this]
      exact hn c hc)
  exact ⟨s.tags, by rw [allocate_eq, hs']; rfl⟩

/-- Two full boards, with a requested port that is apart. -/
def fullPlaced : List Placed :=
  [⟨20, 0, [⟨9, some 50, true, none⟩, ⟨9, none, false, none⟩], [⟨none, none⟩, ⟨some 4000, none⟩]⟩,
   ⟨21, 1, List.replicate 4 ⟨8, some 60, true, none⟩, List.replicate 3 ⟨none, none⟩⟩,
   ⟨22, 0, [⟨9, some 50, true, none⟩], [⟨none, none⟩, ⟨some 4001, none⟩]⟩]

example : PortsApart (requests fullPlaced) ∧ (∀ r ∈ requests fullPlaced, r.tag = none) ∧
    (∀ c ∈ twoBoards.eths, ((requests fullPlaced).filter (fun r => decide (r.eth = c))).length ≤ 7) := by
  refine ⟨⟨?_, ?_⟩, ?_, ?_⟩ <;> decide +kernel

/-- A failing allocation with ports apart. -/
example : PortsApart (requests [⟨20, 0, [], List.replicate 8 ⟨none, none⟩⟩]) ∧
    allocate twoBoards [⟨20, 0, [], List.replicate 8 ⟨none, none⟩⟩] = .error .invalidParameter := by
  refine ⟨⟨?_, ?_⟩, ?_⟩ <;> decide +kernel

end Pacman.TagAlloc
