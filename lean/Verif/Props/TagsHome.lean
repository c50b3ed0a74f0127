import Verif.Props.TagsEnough
/-
C144, reverse IP tags: when each board has enough tags for its own vertices.
-/

namespace Pacman.TagAlloc

/-- The requests of the vertices of a board. -/
def ofBoard (rs : List Req) (c : Nat) : List Req := rs.filter (fun r => decide (r.eth = c))

/-- Each board has enough tags for the vertices on it: at most seven requests, no tag asked for twice, and none asked
for that boards do not have. -/
def EnoughAtHome (m : Machine) (rs : List Req) : Prop :=
  ∀ c ∈ m.eths, (ofBoard rs c).length ≤ 7 ∧
    ∀ w, asking (ofBoard rs c) w ≤ if 1 ≤ w ∧ w ≤ 7 then 1 else 0

/-- The additions are on the boards of the vertices. -/
def HomeM (m : Machine) : List Req → List Op → Prop
  | [], [] => True
  | r :: rs, o :: os => o.key.1 = m.addr r.eth ∧ HomeM m rs os
  | _, _ => False

theorem HomeM.snoc {m : Machine} {rs : List Req} {os : List Op} (h : HomeM m rs os) {r : Req} {o : Op}
    (hg : o.key.1 = m.addr r.eth) : HomeM m (rs ++ [r]) (os ++ [o]) := by
  induction rs generalizing os with
  | nil =>
    cases os with
    | nil => exact ⟨hg, trivial⟩
    | cons _ _ => exact h.elim
  | cons a rs ih =>
    cases os with
    | nil => exact h.elim
    | cons b os => exact ⟨h.1, ih h.2⟩

theorem both_of_mem {m : Machine} {rs : List Req} {os : List Op} (h : Matched m rs os) (h' : HomeM m rs os) {o : Op}
    (ho : o ∈ os) : ∃ r ∈ rs, Good m r o ∧ o.key.1 = m.addr r.eth := by
  induction rs generalizing os with
  | nil =>
    cases os with
    | nil => simp at ho
    | cons _ _ => exact h.elim
  | cons a rs ih =>
    cases os with
    | nil => exact h.elim
    | cons b os =>
      rcases List.mem_cons.1 ho with rfl | ho
      · exact ⟨a, List.mem_cons_self, h.1, h'.1⟩
      · obtain ⟨r, hr, hg⟩ := ih h.2 h'.2 ho
        exact ⟨r, List.mem_cons_of_mem _ hr, hg⟩

theorem home_count {m : Machine} (hd : ∀ a ∈ m.eths, ∀ b ∈ m.eths, m.addr a = m.addr b → a = b) {c : Nat}
    (hc : c ∈ m.eths) : ∀ {rs : List Req} {os : List Op}, HomeM m rs os → (∀ r ∈ rs, r.eth ∈ m.eths) →
    (os.filter (fun o => decide (o.key.1 = m.addr c))).length = (ofBoard rs c).length := by
  intro rs
  induction rs with
  | nil =>
    intro os h _
    cases os with
    | nil => rfl
    | cons _ _ => exact h.elim
  | cons r rs ih =>
    intro os h he
    cases os with
    | nil => exact h.elim
    | cons o os =>
      have i := ih h.2 (fun r hr => he r (List.mem_cons_of_mem _ hr))
      unfold ofBoard at i ⊢
      by_cases hr : r.eth = c
      · rw [List.filter_cons_of_pos (by rw [h.1, hr]; simp), List.filter_cons_of_pos (by simpa using hr),
          List.length_cons, List.length_cons, i]
      · have hne : ¬ o.key.1 = m.addr c := by
          rw [h.1]
          exact fun h' => hr (hd _ (he r List.mem_cons_self) c hc h')
        rw [List.filter_cons_of_neg (by simpa using hne), List.filter_cons_of_neg (by simpa using hr), i]

theorem seven_nodup (b : Nat) : ([1, 2, 3, 4, 5, 6, 7].map (fun w => (b, w))).Nodup := by
  refine List.Pairwise.map _ ?_ (by decide : [1, 2, 3, 4, 5, 6, 7].Pairwise (fun a b : Nat => a ≠ b))
  intro a b hab h
  exact hab (congrArg Prod.snd h)

/-- While all tags are on the boards of their vertices, there is one for the next request. -/
theorem room {m : Machine} (hd : ∀ a ∈ m.eths, ∀ b ∈ m.eths, m.addr a = m.addr b → a = b) {s : State}
    {done rest : List Req} {r : Req} {acc : List Op} (h : AInv m s done acc) (hh : HomeM m done acc)
    (he : ∀ x ∈ done ++ r :: rest, x.eth ∈ m.eths) (hen : EnoughAtHome m (done ++ r :: rest))
    (hord : (done ++ r :: rest).Pairwise (fun a b => a.eth = b.eth → a.tag = none → b.tag = none)) :
    ¬ Taken m s.tags r.eth r.tag := by
  intro ht
  have hr := he r (by simp)
  have hdone : ∀ x ∈ done, x.eth ∈ m.eths := fun x hx => he x (by simp [hx])
  obtain ⟨h7, hw⟩ := hen r.eth hr
  have hsplit : ofBoard (done ++ r :: rest) r.eth = ofBoard done r.eth ++ r :: ofBoard rest r.eth := by
    unfold ofBoard
    rw [List.filter_append, List.filter_cons_of_pos (by simp)]
  rw [hsplit] at h7 hw
  cases hrt : r.tag with
  | some w =>
    have hw := hw w
    unfold asking at hw
    rw [List.filter_append, List.length_append, List.filter_cons_of_pos (by simpa using hrt), List.length_cons] at hw
    split at hw
    · rename_i hrange
      obtain ⟨o, ho, hk⟩ := (inUse_iff h.inv _).1 (ht w hrange.1 hrange.2 (.inr hrt))
      obtain ⟨x, hx, hg, hx1⟩ := both_of_mem h.matched hh ho
      have hxe : x.eth = r.eth := by
        rw [hk] at hx1
        exact hd _ (hdone x hx) _ hr hx1.symm
      have hxt : x.tag = some w := by
        cases hxt : x.tag with
        | none =>
          have := (List.pairwise_append.1 hord).2.2 x hx r (by simp) hxe hxt
          rw [hrt] at this
          cases this
        | some w' =>
          have := (hg.key (hdone x hx)).2.2.2 w' hxt
          rw [hk] at this
          rw [← this]
      have : x ∈ (ofBoard done r.eth).filter (fun r => decide (r.tag = some w)) :=
        List.mem_filter.2 ⟨List.mem_filter.2 ⟨hx, by simpa using hxe⟩, by simpa using hxt⟩
      have := List.length_pos_of_mem this
      omega
    · omega
  | none =>
    have h8 := subset_length _ ((acc.filter (fun o => decide (o.key.1 = m.addr r.eth))).map Op.key)
      (seven_nodup (m.addr r.eth)) (by
        intro k hk
        obtain ⟨w, hw', rfl⟩ := List.mem_map.1 hk
        have hr7 : 1 ≤ w ∧ w ≤ 7 := by
          simp only [List.mem_cons, List.not_mem_nil, or_false] at hw'; omega
        obtain ⟨o, ho, hk⟩ := (inUse_iff h.inv _).1 (ht w hr7.1 hr7.2 (.inl hrt))
        exact List.mem_map.2 ⟨o, List.mem_filter.2 ⟨ho, by simp [hk]⟩, hk⟩)
    rw [List.length_map, List.length_map, home_count hd hr hh hdone] at h8
    rw [List.length_append, List.length_cons] at h7
    simp only [List.length_cons, List.length_nil] at h8
    omega

/-- As long as requests are met, they are met on the boards of the vertices. -/
theorem fold_home {m : Machine} (hd : ∀ a ∈ m.eths, ∀ b ∈ m.eths, m.addr a = m.addr b → a = b)
    {all : List Req} (he : ∀ x ∈ all, x.eth ∈ m.eths) (hen : EnoughAtHome m all)
    (hord : all.Pairwise (fun a b => a.eth = b.eth → a.tag = none → b.tag = none)) :
    ∀ (rs done rest : List Req) (s s' : State) (acc : List Op), all = done ++ (rs ++ rest) → AInv m s done acc →
    HomeM m done acc → foldE (stepReq m) s rs = .ok s' →
    ∃ acc', AInv m s' (done ++ rs) acc' ∧ HomeM m (done ++ rs) acc' := by
  intro rs
  induction rs with
  | nil =>
    intro done rest s s' acc _ h hh hf
    cases hf
    rw [List.append_nil]
    exact ⟨acc, h, hh⟩
  | cons r rs ih =>
    intro done rest s s' acc hall h hh hf
    rw [foldE] at hf
    cases hs : stepReq m s r with
    | error e => rw [hs] at hf; cases hf
    | ok s1 =>
      rw [hs] at hf
      rw [List.cons_append] at hall
      have hre : r.eth ∈ m.eths := he r (by rw [hall]; simp)
      obtain ⟨o, c, tag, h1, ht, hor, -⟩ := (stepReq_spec h hd hre).1 s1 hs
      have hc : c = r.eth := by
        rcases hor with hor | hor
        · exact absurd (h.taken hre hor) (room (rest := rs ++ rest) hd h hh (by rw [← hall]; exact he)
            (by rw [← hall]; exact hen) (by rw [← hall]; exact hord))
        · exact hor
      subst hc
      have hk : o.key = (m.addr r.eth, tag) := by
        obtain ⟨g1, g2⟩ := h.range _ hre tag ht.mem
        obtain ⟨o', ho', hk⟩ := h1.used _ hre tag g1 g2 (fun hm => ((ht.here tag).1 hm).2 rfl)
        rcases List.mem_append.1 ho' with ho' | ho'
        · exact absurd hk (h.free _ hre tag ht.mem o' ho')
        · rw [List.mem_singleton] at ho'
          rw [← ho']
          exact hk
      obtain ⟨acc', j1, j2⟩ := ih (done ++ [r]) rest s1 s' (acc ++ [o]) (by rw [hall]; simp) h1
        (hh.snoc (by rw [hk])) hf
      rw [List.append_assoc] at j1 j2
      exact ⟨acc', j1, j2⟩

theorem uses_home {m : Machine} {rs : List Req} {os : List Op} (h : Matched m rs os) (h' : HomeM m rs os) :
    (ipUses os).map (fun x => (x.1, x.2.1)) = (ipRequests rs).map (fun x => (x.1, m.addr x.2.1)) ∧
    (revUses os).map (fun x => (x.1, x.2.1)) = (revRequests rs).map (fun x => (x.1, m.addr x.2.1)) := by
  induction rs generalizing os with
  | nil =>
    cases os with
    | nil => exact ⟨rfl, rfl⟩
    | cons _ _ => exact h.elim
  | cons r rs ih =>
    cases os with
    | nil => exact h.elim
    | cons o os =>
      obtain ⟨i1, i2⟩ := ih h.2 h'.2
      have h0 := h'.1
      cases r with
      | ip v e q =>
        obtain ⟨c, hc, t, rfl, -⟩ := h.1
        have h0 : m.addr c = m.addr e := h0
        unfold ipUses ipRequests at *
        unfold revUses revRequests at *
        refine ⟨?_, ?_⟩
        · simp only [List.filterMap_cons, List.map_cons, h0, i1]
        · simp only [List.filterMap_cons, i2]
      | rev v e q =>
        obtain ⟨t, p, rfl, -⟩ := h.1
        unfold ipUses ipRequests at *
        unfold revUses revRequests at *
        refine ⟨?_, ?_⟩
        · simp only [List.filterMap_cons, i1]
        · simp only [List.filterMap_cons, List.map_cons, i2]

/-- **C144**, at home: if each board has enough tags for the vertices on it, those that ask for a tag come before
the others of their board, and ports are apart (`PortsApart`), the allocation succeeds, with IP tags and reverse IP
tags, and all tags are on the boards of their vertices. -/
theorem C144_home {m : Machine} {ps : List Placed} (hs : Sound m ps) (hp : PortsApart (requests ps))
    (hen : EnoughAtHome m (requests ps))
    (hord : (requests ps).Pairwise (fun a b => a.eth = b.eth → a.tag = none → b.tag = none)) :
    ∃ t, allocate m ps = .ok t ∧
      t.ipBy.map (fun x => (x.1, x.2.1)) = (ipRequests (requests ps)).map (fun x => (x.1, m.addr x.2.1)) ∧
      t.revBy.map (fun x => (x.1, x.2.1)) = (revRequests (requests ps)).map (fun x => (x.1, m.addr x.2.1)) := by
  have hre := requests_eth hs
  cases ha : allocate m ps with
  | ok t =>
    rw [allocate_eq] at ha
    cases hf : foldE (stepReq m) init (requests ps) with
    | error e => rw [hf] at ha; cases ha
    | ok s =>
      rw [hf] at ha
      cases ha
      obtain ⟨acc, h1, h2⟩ := fold_home hs.distinct hre hen hord (requests ps) [] [] init s [] (by simp)
        (ainv_init m) trivial hf
      rw [List.nil_append] at h1 h2
      refine ⟨s.tags, rfl, ?_⟩
      rw [h1.inv.ipBy, h1.inv.revBy]
      exact uses_home h1.matched h2
  | error e =>
    exfalso
    obtain ⟨done, r, rest, t, h1, h2, h3⟩ := C29_outside_partial hs hp ha
    have ht : Taken m t r.eth r.tag := by
      rcases h3 with ⟨-, h3⟩ | ⟨-, -, h3⟩
      · exact h3 _ (hre r (by rw [h1]; simp))
      · exact h3
    unfold allocateReqs at h2
    cases hf : foldE (stepReq m) init done with
    | error e => rw [hf] at h2; cases h2
    | ok s =>
      rw [hf] at h2
      cases h2
      rw [h1] at hre hen hord
      obtain ⟨acc, j1, j2⟩ := fold_home hs.distinct hre hen hord done [] (r :: rest) init s [] (by simp)
        (ainv_init m) trivial hf
      exact room hs.distinct j1 j2 hre hen hord ht

theorem needed_home {m : Machine} (hd : ∀ a ∈ m.eths, ∀ b ∈ m.eths, m.addr a = m.addr b → a = b)
    {rs : List Req} {acc : List Op} (hk : (acc.map Op.key).Nodup) (h : Matched m rs acc) (hh : HomeM m rs acc)
    (he : ∀ r ∈ rs, r.eth ∈ m.eths) : EnoughAtHome m rs := by
  intro c hc
  have hkey : ∀ o ∈ acc, 1 ≤ o.key.2 ∧ o.key.2 ≤ 7 := by
    intro o ho
    obtain ⟨r, hr, hg⟩ := h.exists_of_mem ho
    obtain ⟨-, h2, h3, -⟩ := hg.key (he r hr)
    exact ⟨h2, h3⟩
  refine ⟨?_, ?_⟩
  · rw [← home_count hd hc hh he]
    have hsub := subset_length ((acc.filter (fun o => decide (o.key.1 = m.addr c))).map Op.key)
      ([1, 2, 3, 4, 5, 6, 7].map (fun w => (m.addr c, w))) (hk.sublist (List.filter_sublist.map _)) (by
        intro k hk
        obtain ⟨o, ho, rfl⟩ := List.mem_map.1 hk
        obtain ⟨ho, h1⟩ := List.mem_filter.1 ho
        have h1 := of_decide_eq_true h1
        obtain ⟨h2, h3⟩ := hkey o ho
        refine List.mem_map.2 ⟨o.key.2, ?_, ?_⟩
        · simp only [List.mem_cons, List.not_mem_nil, or_false]; omega
        · rw [← h1])
    rw [List.length_map] at hsub
    exact hsub
  · intro w
    -- requests of the board for the tag are met by the one tag of the board
    have hcount : ∀ {rs : List Req} {os : List Op}, Matched m rs os → HomeM m rs os →
        (∀ r ∈ rs, r.eth ∈ m.eths) →
        asking (ofBoard rs c) w ≤ (os.filter (fun o => decide (o.key = (m.addr c, w)))).length := by
      intro rs
      induction rs with
      | nil => intro os _ _ _; exact Nat.zero_le _
      | cons r rs ih =>
        intro os h h' he
        cases os with
        | nil => exact h.elim
        | cons o os =>
          have i := ih h.2 h'.2 (fun r hr => he r (List.mem_cons_of_mem _ hr))
          unfold asking ofBoard at i ⊢
          by_cases hr : r.eth = c
          · rw [List.filter_cons_of_pos (by simpa using hr)]
            by_cases hw : r.tag = some w
            · have h3 : o.key = (m.addr c, w) := by
                rw [← hr, ← h'.1, ← (h.1.key (he r List.mem_cons_self)).2.2.2 w hw]
              rw [List.filter_cons_of_pos (by simpa using hw), List.filter_cons_of_pos (by simpa using h3)]
              simp only [List.length_cons]
              omega
            · rw [List.filter_cons_of_neg (by simpa using hw)]
              exact Nat.le_trans i (List.Sublist.filter _ (List.sublist_cons_self o os)).length_le
          · rw [List.filter_cons_of_neg (by simpa using hr)]
            exact Nat.le_trans i (List.Sublist.filter _ (List.sublist_cons_self o os)).length_le
    refine Nat.le_trans (hcount h hh he) ?_
    have hsub := subset_length ((acc.filter (fun o => decide (o.key = (m.addr c, w)))).map Op.key)
      (if 1 ≤ w ∧ w ≤ 7 then [(m.addr c, w)] else []) (hk.sublist (List.filter_sublist.map _)) (by
        intro k hk
        obtain ⟨o, ho, rfl⟩ := List.mem_map.1 hk
        obtain ⟨ho, h1⟩ := List.mem_filter.1 ho
        have h1 := of_decide_eq_true h1
        have h2 := hkey o ho
        rw [h1] at h2 ⊢
        rw [if_pos h2]
        exact List.mem_cons_self)
    rw [List.length_map] at hsub
    split at hsub
    · rename_i hw
      rw [if_pos hw]
      exact hsub
    · rename_i hw
      rw [if_neg hw]
      exact hsub

/-- **C144**, exactly, also with reverse IP tags: if there is a single board, or reverse IP tags only, then the
allocation succeeds exactly if each board has enough tags for the vertices on it, under the conditions of `C144_home`
on order and ports. -/
theorem C144_home_exact {m : Machine} {ps : List Placed} (hs : Sound m ps) (hp : PortsApart (requests ps))
    (hip : (∀ p ∈ ps, p.iptags = []) ∨ ∃ c, m.eths = [c])
    (hord : (requests ps).Pairwise (fun a b => a.eth = b.eth → a.tag = none → b.tag = none)) :
    (∃ t, allocate m ps = .ok t) ↔ EnoughAtHome m (requests ps) := by
  refine ⟨?_, fun h => (C144_home hs hp h hord).imp fun _ h => h.1⟩
  rintro ⟨t, h⟩
  obtain ⟨s, acc, rfl, ha⟩ := allocate_inv hs h
  have hre := requests_eth hs
  refine needed_home hs.distinct ha.keys ha.matched ?_ hre
  have hone : (∀ r ∈ requests ps, ∀ v e q, r ≠ .ip v e q) ∨ ∃ c, m.eths = [c] := by
    refine hip.imp_left fun hip r hr v e q he => ?_
    unfold requests at hr
    obtain ⟨p, hp, hr⟩ := List.mem_flatMap.1 hr
    rw [hip p hp, he] at hr
    simp at hr
  have hmatch := ha.matched
  revert hmatch
  generalize requests ps = rs at hre hone
  clear ha
  intro hmatch
  induction rs generalizing acc with
  | nil =>
    cases acc with
    | nil => exact trivial
    | cons _ _ => exact hmatch.elim
  | cons r rs ih =>
    cases acc with
    | nil => exact hmatch.elim
    | cons o acc =>
      refine ⟨?_, ih acc (fun r hr => hre r (List.mem_cons_of_mem _ hr))
        (hone.imp_left fun h r hr => h r (List.mem_cons_of_mem _ hr)) hmatch.2⟩
      cases r with
      | ip v e q =>
        rcases hone with hone | ⟨c, hone⟩
        · exact absurd rfl (hone _ List.mem_cons_self v e q)
        · obtain ⟨c', hc', t, rfl, -⟩ := hmatch.1
          have he := hre _ List.mem_cons_self
          rw [hone, List.mem_singleton] at he hc'
          change m.addr c' = m.addr _
          rw [hc', he]
      | rev v e q =>
        obtain ⟨t, p, rfl, -⟩ := hmatch.1
        rfl

/-- Only tags that are asked for need to be looked at. -/
theorem asking_asked {rs : List Req} {f : Nat → Nat} (h : ∀ w ∈ rs.filterMap Req.tag, asking rs w ≤ f w) (w : Nat) :
    asking rs w ≤ f w := by
  by_cases hw : w ∈ rs.filterMap Req.tag
  · exact h w hw
  · have : asking rs w = 0 := by
      unfold asking
      rw [List.length_eq_zero_iff, List.filter_eq_nil_iff]
      intro r hr hr'
      exact hw (List.mem_filterMap.2 ⟨r, hr, of_decide_eq_true hr'⟩)
    rw [this]
    exact Nat.zero_le _

/-- Both kinds of tags on both boards; tag 5 is asked for on each of them. -/
def homePlaced : List Placed :=
  [⟨20, 0, [⟨9, some 50, true, some 3⟩], [⟨some 12345, some 5⟩, ⟨none, none⟩]⟩,
   ⟨21, 1, [⟨8, none, true, some 5⟩], List.replicate 6 ⟨none, none⟩⟩]

example : Sound twoBoards homePlaced ∧
    (requests homePlaced).Pairwise (fun a b => a.eth = b.eth → a.tag = none → b.tag = none) ∧
    PortsApart (requests homePlaced) ∧ EnoughAtHome twoBoards (requests homePlaced) ∧ (ofBoard (requests homePlaced) 1).length = 7 ∧
    (allocate twoBoards homePlaced).isOk = true := by
  refine ⟨⟨?_, by decide⟩, by decide, by unfold PortsApart; decide, ?_, by decide, by decide +kernel⟩
  · intro a _ b _ h
    have h : 100 + a = 100 + b := h
    omega
  · intro c hc
    have hc : c ∈ [0, 1] := hc
    rcases List.mem_cons.1 hc with rfl | hc
    · exact ⟨by decide, asking_asked (by decide)⟩
    · rw [List.mem_singleton.1 hc]
      exact ⟨by decide, asking_asked (by decide)⟩

end Pacman.TagAlloc
