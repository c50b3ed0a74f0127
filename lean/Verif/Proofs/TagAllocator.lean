import Verif.Proofs.Tags
/-
Lemmas on the tag allocator.
-/

namespace Pacman.TagAlloc

theorem avail_set (dv : List Nat) (d : Dict Nat (List Nat)) (c c' : Nat) (l : List Nat) :
    avail dv (d.set c l) c' = if c = c' then l else avail dv d c' := by
  unfold avail
  rw [Dict.get?_set]
  split <;> rfl

/-! ### Choosing a tag -/

/-- The effect of reserving a tag. -/
structure Took (d d' : Dict Nat (List Nat)) (c tag : Nat) : Prop where
  mem : tag ∈ avail chipTags d c
  other : ∀ c', c' ≠ c → avail chipTags d' c' = avail chipTags d c'
  here : ∀ x, x ∈ avail chipTags d' c ↔ x ∈ avail chipTags d c ∧ x ≠ tag
  nodup : (avail chipTags d' c).Nodup
  length : (avail chipTags d' c).length + 1 = (avail chipTags d c).length

theorem took_erase {d : Dict Nat (List Nat)} {c tag : Nat} (hn : (avail chipTags d c).Nodup)
    (hm : tag ∈ avail chipTags d c) : Took d (d.set c ((avail chipTags d c).erase tag)) c tag := by
  refine ⟨hm, ?_, ?_, ?_, ?_⟩
  · intro c' h
    rw [avail_set, if_neg (Ne.symm h)]
  · intro x
    rw [avail_set, if_pos rfl, hn.mem_erase_iff]
    exact and_comm
  · rw [avail_set, if_pos rfl]
    exact hn.erase tag
  · rw [avail_set, if_pos rfl, List.length_erase_of_mem hm]
    have := List.length_pos_of_mem hm
    omega

theorem took_pop {d : Dict Nat (List Nat)} {c tag : Nat} {l : List Nat} (hn : (avail chipTags d c).Nodup)
    (hl : avail chipTags d c = l ++ [tag]) : Took d (d.set c l) c tag := by
  rw [hl, List.nodup_append] at hn
  have hnt : tag ∉ l := fun h => hn.2.2 tag h tag (by simp) rfl
  refine ⟨by rw [hl]; simp, ?_, ?_, ?_, ?_⟩
  · intro c' h
    rw [avail_set, if_neg (Ne.symm h)]
  · intro x
    rw [avail_set, if_pos rfl, hl, List.mem_append, List.mem_singleton]
    constructor
    · intro hx
      exact ⟨.inl hx, fun h => hnt (h ▸ hx)⟩
    · rintro ⟨h | h, h'⟩
      · exact h
      · exact absurd h h'
  · rw [avail_set, if_pos rfl]
    exact hn.1
  · rw [avail_set, if_pos rfl, hl]
    simp

theorem took_pop0 {d : Dict Nat (List Nat)} {c tag : Nat} {l : List Nat} (hn : (avail chipTags d c).Nodup)
    (hl : avail chipTags d c = tag :: l) : Took d (d.set c l) c tag := by
  rw [hl, List.nodup_cons] at hn
  refine ⟨by rw [hl]; simp, ?_, ?_, ?_, ?_⟩
  · intro c' h
    rw [avail_set, if_neg (Ne.symm h)]
  · intro x
    rw [avail_set, if_pos rfl, hl, List.mem_cons]
    constructor
    · intro hx
      exact ⟨.inr hx, fun h => hn.1 (h ▸ hx)⟩
    · rintro ⟨h | h, h'⟩
      · exact absurd h h'
      · exact h
  · rw [avail_set, if_pos rfl]
    exact hn.2
  · rw [avail_set, if_pos rfl, hl]
    simp

theorem findTagChip_ok {d : Dict Nat (List Nat)} {tag : Nat} {cs : List Nat} {c : Nat}
    {d' : Dict Nat (List Nat)} (hn : ∀ c ∈ cs, (avail chipTags d c).Nodup)
    (h : findTagChip d tag cs = .ok (c, d')) : c ∈ cs ∧ Took d d' c tag := by
  induction cs with
  | nil => simp [findTagChip] at h
  | cons a cs ih =>
    rw [findTagChip] at h
    by_cases ha : tag ∈ avail chipTags d a
    · rw [if_pos ha] at h
      cases h
      exact ⟨List.mem_cons_self, took_erase (hn _ List.mem_cons_self) ha⟩
    · rw [if_neg ha] at h
      obtain ⟨h1, h2⟩ := ih (fun c hc => hn c (List.mem_cons_of_mem _ hc)) h
      exact ⟨List.mem_cons_of_mem _ h1, h2⟩

theorem findTagChip_error {d : Dict Nat (List Nat)} {tag : Nat} {cs : List Nat} {e : PyErr}
    (h : findTagChip d tag cs = .error e) : e = .notFound ∧ ∀ c ∈ cs, tag ∉ avail chipTags d c := by
  induction cs with
  | nil => cases h; exact ⟨rfl, by simp⟩
  | cons a cs ih =>
    rw [findTagChip] at h
    by_cases ha : tag ∈ avail chipTags d a
    · rw [if_pos ha] at h
      cases h
    · rw [if_neg ha] at h
      obtain ⟨h1, h2⟩ := ih h
      refine ⟨h1, ?_⟩
      intro c hc
      rcases List.mem_cons.1 hc with rfl | hc
      · exact ha
      · exact h2 c hc

theorem findFreeTag_ok {d : Dict Nat (List Nat)} {tag : Nat} {cs : List Nat} {c : Nat}
    {d' : Dict Nat (List Nat)} (hn : ∀ c ∈ cs, (avail chipTags d c).Nodup)
    (h : findFreeTag d cs = .ok (c, tag, d')) : c ∈ cs ∧ Took d d' c tag := by
  induction cs with
  | nil => simp [findFreeTag] at h
  | cons a cs ih =>
    rw [findFreeTag] at h
    cases ha : avail chipTags d a with
    | nil =>
      rw [ha] at h
      obtain ⟨h1, h2⟩ := ih (fun c hc => hn c (List.mem_cons_of_mem _ hc)) h
      exact ⟨List.mem_cons_of_mem _ h1, h2⟩
    | cons t ts =>
      rw [ha] at h
      cases h
      exact ⟨List.mem_cons_self, took_pop0 (hn _ List.mem_cons_self) ha⟩

theorem findFreeTag_error {d : Dict Nat (List Nat)} {cs : List Nat} {e : PyErr}
    (h : findFreeTag d cs = .error e) : e = .notFound ∧ ∀ c ∈ cs, avail chipTags d c = [] := by
  induction cs with
  | nil => cases h; exact ⟨rfl, by simp⟩
  | cons a cs ih =>
    rw [findFreeTag] at h
    cases ha : avail chipTags d a with
    | nil =>
      rw [ha] at h
      obtain ⟨h1, h2⟩ := ih h
      refine ⟨h1, ?_⟩
      intro c hc
      rcases List.mem_cons.1 hc with rfl | hc
      · exact ha
      · exact h2 c hc
    | cons t ts =>
      rw [ha] at h
      cases h

theorem getLast?_some {l : List Nat} {t : Nat} (h : l.getLast? = some t) : l = l.dropLast ++ [t] := by
  obtain ⟨ys, rfl⟩ := List.getLast?_eq_some_iff.1 h
  simp

theorem getChipAndTag_ok {m : Machine} {d : Dict Nat (List Nat)} {eth : Nat} {want : Option Nat}
    {c tag : Nat} {d' : Dict Nat (List Nat)} (he : eth ∈ m.eths)
    (hn : ∀ c ∈ m.eths, (avail chipTags d c).Nodup)
    (h : getChipAndTag m d eth want = .ok (c, tag, d')) :
    c ∈ m.eths ∧ Took d d' c tag ∧ (∀ w, want = some w → tag = w) ∧
    (c ≠ eth → ∀ k, want = none ∨ want = some k → k ∉ avail chipTags d eth) := by
  cases want with
  | some w =>
    unfold getChipAndTag at h
    simp only at h
    by_cases hm : w ∈ avail chipTags d eth
    · rw [if_pos hm] at h
      cases h
      refine ⟨he, took_erase (hn _ he) hm, ?_, fun hc => absurd rfl hc⟩
      intro x hx
      cases hx
      rfl
    · rw [if_neg hm] at h
      cases hf : findTagChip d w m.eths with
      | error e => rw [hf] at h; cases h
      | ok p =>
        obtain ⟨c1, d1⟩ := p
        rw [hf] at h
        cases h
        obtain ⟨h1, h2⟩ := findTagChip_ok hn hf
        refine ⟨h1, h2, ?_, ?_⟩
        · intro x hx
          cases hx
          rfl
        · intro _ k hk
          rcases hk with hk | hk
          · cases hk
          · cases hk
            exact hm
  | none =>
    unfold getChipAndTag at h
    simp only at h
    cases hl : (avail chipTags d eth).getLast? with
    | some t =>
      rw [hl] at h
      cases h
      refine ⟨he, took_pop (hn _ he) (getLast?_some hl), (by intro w hw; cases hw), fun hc => absurd rfl hc⟩
    | none =>
      rw [hl] at h
      obtain ⟨h1, h2⟩ := findFreeTag_ok hn h
      refine ⟨h1, h2, (by intro w hw; cases hw), ?_⟩
      intro _ k _
      rw [List.getLast?_eq_none_iff.1 hl]
      simp

theorem getChipAndTag_error {m : Machine} {d : Dict Nat (List Nat)} {eth : Nat} {want : Option Nat}
    {e : PyErr} (h : getChipAndTag m d eth want = .error e) :
    e = .notFound ∧ ∀ c ∈ m.eths, ∀ k, want = none ∨ want = some k → k ∉ avail chipTags d c := by
  cases want with
  | some w =>
    unfold getChipAndTag at h
    simp only at h
    by_cases hm : w ∈ avail chipTags d eth
    · rw [if_pos hm] at h
      cases h
    · rw [if_neg hm] at h
      cases hf : findTagChip d w m.eths with
      | ok p => rw [hf] at h; cases h
      | error e' =>
        rw [hf] at h
        cases h
        obtain ⟨h1, h2⟩ := findTagChip_error hf
        refine ⟨h1, ?_⟩
        intro c hc k hk
        rcases hk with hk | hk
        · cases hk
        · cases hk
          exact h2 c hc
  | none =>
    unfold getChipAndTag at h
    simp only at h
    cases hl : (avail chipTags d eth).getLast? with
    | some t => rw [hl] at h; cases h
    | none =>
      rw [hl] at h
      obtain ⟨h1, h2⟩ := findFreeTag_error h
      refine ⟨h1, ?_⟩
      intro c hc k _
      rw [h2 c hc]
      simp

/-! ### Choosing a port -/

theorem getPort_ok {d : Dict Nat (List Nat)} {eth : Nat} {want : Option Nat} {p : Nat}
    {d' : Dict Nat (List Nat)} (h : getPort d eth want = .ok (p, d')) :
    (∃ w, want = some w ∧ p = w ∧ d' = d) ∨
    (want = none ∧ ∃ l, avail boardPorts d eth = l ++ [p] ∧ d' = d.set eth l) := by
  unfold getPort at h
  cases want with
  | some w => cases h; exact .inl ⟨_, rfl, rfl, rfl⟩
  | none =>
    simp only at h
    cases hl : (avail boardPorts d eth).getLast? with
    | some t =>
      rw [hl] at h
      cases h
      exact .inr ⟨rfl, _, getLast?_some hl, rfl⟩
    | none => rw [hl] at h; cases h

theorem getPort_error {d : Dict Nat (List Nat)} {eth : Nat} {want : Option Nat} {e : PyErr}
    (h : getPort d eth want = .error e) : avail boardPorts d eth = [] := by
  unfold getPort at h
  cases want with
  | some w => cases h
  | none =>
    simp only at h
    cases hl : (avail boardPorts d eth).getLast? with
    | some t => rw [hl] at h; cases h
    | none => exact List.getLast?_eq_none_iff.1 hl

/-! ### One list of requests -/

/-- One request. -/
def stepReq (m : Machine) (s : State) : Req → Except PyErr State
  | .ip v e r => allocIp m ⟨v, e, [], []⟩ s r
  | .rev v e r => allocRev m ⟨v, e, [], []⟩ s r

theorem foldE_append {α : Type} (f : State → α → Except PyErr State) (s : State) (a b : List α) :
    foldE f s (a ++ b) = (foldE f s a).bind (fun s' => foldE f s' b) := by
  induction a generalizing s with
  | nil => rfl
  | cons x a ih =>
    rw [List.cons_append, foldE, foldE]
    cases f s x with
    | error e => rfl
    | ok s' => exact ih s'

theorem foldE_map {α β : Type} (f : State → β → Except PyErr State) (g : α → β) (s : State) (l : List α) :
    foldE f s (l.map g) = foldE (fun s a => f s (g a)) s l := by
  induction l generalizing s with
  | nil => rfl
  | cons x l ih =>
    rw [List.map_cons, foldE, foldE]
    cases f s (g x) with
    | error e => rfl
    | ok s' => exact ih s'

theorem foldE_placed (m : Machine) (s : State) (ps : List Placed) :
    foldE (allocPlaced m) s ps = foldE (stepReq m) s (requests ps) := by
  induction ps generalizing s with
  | nil => rfl
  | cons p ps ih =>
    have hp : allocPlaced m s p = foldE (stepReq m) s
        (p.iptags.map (Req.ip p.vertex p.eth) ++ p.revtags.map (Req.rev p.vertex p.eth)) := by
      rw [foldE_append, foldE_map]
      unfold allocPlaced
      simp only [bind]
      congr 1
      funext s'
      rw [foldE_map]
      rfl
    have hr : requests (p :: ps) = (p.iptags.map (Req.ip p.vertex p.eth) ++
        p.revtags.map (Req.rev p.vertex p.eth)) ++ requests ps := by
      simp [requests]
    rw [foldE, hr, foldE_append, ← hp]
    cases allocPlaced m s p with
    | error e => rfl
    | ok s' => exact ih s'

/-- The state at the start. -/
def init : State := ⟨[], [], Tags.empty⟩

theorem allocate_eq (m : Machine) (ps : List Placed) :
    allocate m ps = (foldE (stepReq m) init (requests ps)).map (·.tags) := by
  unfold allocate init
  rw [foldE_placed]

/-! ### The invariant -/

/-- An addition to the store is what a request asks for. -/
def Good (m : Machine) : Req → Op → Prop
  | .ip v _ r, o => ∃ c ∈ m.eths, ∃ t, o = .ip ⟨m.addr c, t, r.ip, r.port, r.strip⟩ v ∧ 1 ≤ t ∧ t ≤ 7 ∧
      ∀ w, r.tag = some w → t = w
  | .rev v e r, o => ∃ t p, o = .rev ⟨m.addr e, t, some p⟩ v ∧ 1 ≤ t ∧ t ≤ 7 ∧
      (∀ w, r.tag = some w → t = w) ∧ (∀ w, r.port = some w → p = w) ∧
      (r.port = none → 17896 ≤ p ∧ p < 18000)

/-- The additions are what the requests ask for. -/
def Matched (m : Machine) : List Req → List Op → Prop
  | [], [] => True
  | r :: rs, o :: os => Good m r o ∧ Matched m rs os
  | _, _ => False

theorem Matched.snoc {m : Machine} {rs : List Req} {os : List Op} (h : Matched m rs os) {r : Req} {o : Op}
    (hg : Good m r o) : Matched m (rs ++ [r]) (os ++ [o]) := by
  induction rs generalizing os with
  | nil =>
    cases os with
    | nil => exact ⟨hg, trivial⟩
    | cons _ _ => exact h.elim
  | cons a rs ih =>
    cases os with
    | nil => exact h.elim
    | cons b os => exact ⟨h.1, ih h.2⟩

theorem Matched.exists_of_mem {m : Machine} {rs : List Req} {os : List Op} (h : Matched m rs os) {o : Op}
    (ho : o ∈ os) : ∃ r ∈ rs, Good m r o := by
  induction rs generalizing os with
  | nil =>
    cases os with
    | nil => simp at ho
    | cons _ _ => exact h.elim
  | cons a rs ih =>
    cases os with
    | nil => exact h.elim
    | cons b os =>
      rcases List.mem_cons.1 ho with rfl | ho
      · exact ⟨a, List.mem_cons_self, h.1⟩
      · obtain ⟨r, hr, hg⟩ := ih h.2 ho
        exact ⟨r, List.mem_cons_of_mem _ hr, hg⟩

/-- The state after the requests `rs`, which led to the additions `acc`. -/
structure AInv (m : Machine) (s : State) (rs : List Req) (acc : List Op) : Prop where
  inv : Inv s.tags acc
  nodup : ∀ c ∈ m.eths, (avail chipTags s.tagsAvail c).Nodup
  range : ∀ c ∈ m.eths, ∀ t ∈ avail chipTags s.tagsAvail c, 1 ≤ t ∧ t ≤ 7
  free : ∀ c ∈ m.eths, ∀ t ∈ avail chipTags s.tagsAvail c, ∀ o ∈ acc, o.key ≠ (m.addr c, t)
  used : ∀ c ∈ m.eths, ∀ t, 1 ≤ t → t ≤ 7 → t ∉ avail chipTags s.tagsAvail c →
    ∃ o ∈ acc, o.key = (m.addr c, t)
  keys : (acc.map Op.key).Nodup
  matched : Matched m rs acc
  pool : ∀ c ∈ m.eths, ∀ p ∈ avail boardPorts s.portsAvail c, 17896 ≤ p ∧ p < 18000
  many : ∀ c ∈ m.eths, 104 + (avail chipTags s.tagsAvail c).length ≤
    (avail boardPorts s.portsAvail c).length + 7

theorem ainv_init (m : Machine) : AInv m init [] [] := by
  have h1 : ∀ c, avail chipTags init.tagsAvail c = [1, 2, 3, 4, 5, 6, 7] := fun _ => rfl
  have h2 : ∀ c, avail boardPorts init.portsAvail c = List.range' 17896 104 := fun _ => rfl
  refine ⟨inv_empty, ?_, ?_, ?_, ?_, by simp, trivial, ?_, ?_⟩
  · intro c _
    rw [h1]
    decide
  · intro c _ t ht
    rw [h1] at ht
    simp at ht
    omega
  · intro c _ t _ o ho
    simp at ho
  · intro c _ t h h' hn
    rw [h1] at hn
    simp at hn
    omega
  · intro c _ p hp
    rw [h2, List.mem_range'_1] at hp
    omega
  · intro c _
    rw [h1, h2, List.length_range']
    simp

theorem inUse_iff {t : Tags} {acc : List Op} (h : Inv t acc) (k : BT) :
    InUse t k ↔ ∃ o ∈ acc, o.key = k := by
  unfold InUse
  constructor
  · intro hu
    rcases hu with hu | hu
    · refine Classical.byContradiction fun hno => ?_
      have := h.no_ip (k := k)
      rw [this.2 (fun t v ht hk => hno ⟨_, ht, hk⟩)] at hu
      cases hu
    · refine Classical.byContradiction fun hno => ?_
      have := h.no_rev (k := k)
      rw [this.2 (fun t v ht hk => hno ⟨_, ht, hk⟩)] at hu
      cases hu
  · rintro ⟨o, ho, hk⟩
    cases o with
    | ip t v =>
      left
      cases hs : (_ : Option IPTag).isSome
      · exact absurd hk (h.no_ip.1 hs t v ho)
      · rfl
    | rev t v =>
      right
      cases hs : (_ : Option RevTag).isSome
      · exact absurd hk (h.no_rev.1 hs t v ho)
      · rfl

theorem AInv.taken {m : Machine} {s : State} {rs : List Req} {acc : List Op} (h : AInv m s rs acc) {c : Nat}
    (hc : c ∈ m.eths) {want : Option Nat}
    (hn : ∀ k, want = none ∨ want = some k → k ∉ avail chipTags s.tagsAvail c) :
    Taken m s.tags c want := by
  intro k h1 h7 hk
  exact (inUse_iff h.inv _).2 (h.used c hc k h1 h7 (hn k hk))

/-- The invariant after a tag is taken from a board and recorded there. -/
theorem AInv.next {m : Machine} {s s' : State} {rs : List Req} {acc : List Op} (h : AInv m s rs acc)
    (hd : ∀ a ∈ m.eths, ∀ b ∈ m.eths, m.addr a = m.addr b → a = b) {c tag : Nat} (hc : c ∈ m.eths)
    {r : Req} {o : Op} (ht : Took s.tagsAvail s'.tagsAvail c tag) (hk : o.key = (m.addr c, tag))
    (hi : Inv s'.tags (acc ++ [o])) (hg : Good m r o)
    (hp : ∀ c' ∈ m.eths, ∀ p ∈ avail boardPorts s'.portsAvail c', p ∈ avail boardPorts s.portsAvail c')
    (hl : ∀ c' ∈ m.eths, (avail boardPorts s'.portsAvail c').length + (if c' = c then 1 else 0) ≥
      (avail boardPorts s.portsAvail c').length) : AInv m s' (rs ++ [r]) (acc ++ [o]) := by
  have hsub : ∀ c' ∈ m.eths, ∀ t ∈ avail chipTags s'.tagsAvail c', t ∈ avail chipTags s.tagsAvail c' ∧
      (c' = c → t ≠ tag) := by
    intro c' _ t h'
    by_cases hcc : c' = c
    · subst hcc
      have := (ht.here t).1 h'
      exact ⟨this.1, fun _ => this.2⟩
    · rw [ht.other c' hcc] at h'
      exact ⟨h', fun hh => absurd hh hcc⟩
  refine ⟨hi, ?_, ?_, ?_, ?_, ?_, h.matched.snoc hg, ?_, ?_⟩
  · intro c' hc'
    by_cases hcc : c' = c
    · subst hcc
      exact ht.nodup
    · rw [ht.other c' hcc]
      exact h.nodup c' hc'
  · intro c' hc' t h'
    exact h.range c' hc' t (hsub c' hc' t h').1
  · intro c' hc' t h' o' ho'
    rw [List.mem_append, List.mem_singleton] at ho'
    rcases ho' with ho' | rfl
    · exact h.free c' hc' t (hsub c' hc' t h').1 o' ho'
    · rw [hk]
      intro he
      simp only [Prod.mk.injEq] at he
      exact (hsub c' hc' t h').2 (hd c' hc' c hc he.1.symm) he.2.symm
  · intro c' hc' t h1 h7 hn
    by_cases hin : t ∈ avail chipTags s.tagsAvail c'
    · by_cases hcc : c' = c
      · subst hcc
        have : t = tag := by
          refine Classical.byContradiction fun hne => hn ((ht.here t).2 ⟨hin, hne⟩)
        subst this
        exact ⟨o, by simp, hk⟩
      · rw [ht.other c' hcc] at hn
        exact absurd hin hn
    · obtain ⟨o', ho', hk'⟩ := h.used c' hc' t h1 h7 hin
      exact ⟨o', List.mem_append_left _ ho', hk'⟩
  · rw [List.map_append, List.nodup_append]
    refine ⟨h.keys, by simp, ?_⟩
    intro a ha b hb
    rw [List.map_singleton, List.mem_singleton] at hb
    subst hb
    obtain ⟨o', ho', rfl⟩ := List.mem_map.1 ha
    rw [hk]
    exact h.free c hc tag ht.mem o' ho'
  · intro c' hc' p hp'
    exact h.pool c' hc' p (hp c' hc' p hp')
  · intro c' hc'
    have h1 := h.many c' hc'
    have h2 := hl c' hc'
    by_cases hcc : c' = c
    · subst hcc
      rw [if_pos rfl] at h2
      have := ht.length
      omega
    · rw [if_neg hcc] at h2
      rw [ht.other c' hcc]
      omega

/-- A port is in use on the board of a reverse tag. -/
def PortClash (m : Machine) (s : State) : Req → Prop
  | .ip _ _ _ => False
  | .rev _ e r => ∃ p, (m.addr e, p) ∈ s.tags.ports ∧
      (r.port = some p ∨ r.port = none ∧ p ∈ avail boardPorts s.portsAvail e)

/-- What one request does. -/
theorem stepReq_spec {m : Machine} {s : State} {rs : List Req} {acc : List Op} (h : AInv m s rs acc)
    (hd : ∀ a ∈ m.eths, ∀ b ∈ m.eths, m.addr a = m.addr b → a = b) {r : Req} (hr : r.eth ∈ m.eths) :
    (∀ s', stepReq m s r = .ok s' → ∃ o c tag, AInv m s' (rs ++ [r]) (acc ++ [o]) ∧
      Took s.tagsAvail s'.tagsAvail c tag ∧
      ((∀ k, r.tag = none ∨ r.tag = some k → k ∉ avail chipTags s.tagsAvail r.eth) ∨ c = r.eth) ∧
      match r with
      | .ip _ _ _ => s'.portsAvail = s.portsAvail
      | .rev v e q => c = e ∧ ∃ p, getPort s.portsAvail e q.port = .ok (p, s'.portsAvail) ∧
        o = .rev ⟨m.addr e, tag, some p⟩ v ∧ (m.addr e, p) ∉ s.tags.ports) ∧
    (∀ e, stepReq m s r = .error e →
      (e = .notFound ∧ ∀ c ∈ m.eths, Taken m s.tags c r.tag) ∨
      (e = .invalidParameter ∧ (∃ v b q, r = .rev v b q) ∧ (Taken m s.tags r.eth r.tag ∧
          (∀ k, r.tag = none ∨ r.tag = some k → k ∉ avail chipTags s.tagsAvail r.eth) ∨
        PortClash m s r))) := by
  cases r with
  | ip v e q =>
    change e ∈ m.eths at hr
    unfold stepReq allocIp
    simp only [bind, Except.bind, pure, Except.pure]
    cases hg : getChipAndTag m s.tagsAvail e q.tag with
    | error er =>
      obtain ⟨h1, h2⟩ := getChipAndTag_error hg
      refine ⟨fun _ hh => (by cases hh), ?_⟩
      intro e' he'
      cases he'
      exact .inl ⟨h1, fun c hc => h.taken hc (h2 c hc)⟩
    | ok x =>
      obtain ⟨c, tag, d⟩ := x
      obtain ⟨hc, ht, hw, hoff⟩ := getChipAndTag_ok hr h.nodup hg
      have hfits : ∀ a ∈ acc, Fits a (.ip ⟨m.addr c, tag, q.ip, q.port, q.strip⟩ v) := by
        intro a ha
        have := h.free c hc tag ht.mem a ha
        cases a with
        | ip a w => exact fun hk => absurd hk this
        | rev a w => exact this
      have hsp := addIp_inv h.inv ⟨m.addr c, tag, q.ip, q.port, q.strip⟩ v
      cases hadd : addIp s.tags ⟨m.addr c, tag, q.ip, q.port, q.strip⟩ v with
      | error er => exact absurd hfits (hsp.2 er hadd).2
      | ok t' =>
        simp only [hadd]
        refine ⟨?_, fun _ hh => (by cases hh)⟩
        intro s' hs'
        cases hs'
        refine ⟨.ip ⟨m.addr c, tag, q.ip, q.port, q.strip⟩ v, c, tag, ?_, ht, ?_, rfl⟩
        · refine h.next hd hc ht rfl (hsp.1 t' hadd).2 ?_ (fun c' _ p hp => hp) (fun c' _ => by simp)
          exact ⟨c, hc, tag, rfl, (h.range c hc tag ht.mem).1, (h.range c hc tag ht.mem).2, hw⟩
        · by_cases hce : c = e
          · exact .inr hce
          · exact .inl (hoff hce)
  | rev v e q =>
    change e ∈ m.eths at hr
    unfold stepReq allocRev
    simp only [bind, Except.bind, pure, Except.pure]
    cases hg : getChipAndTag m s.tagsAvail e q.tag with
    | error er =>
      obtain ⟨h1, h2⟩ := getChipAndTag_error hg
      refine ⟨fun _ hh => (by cases hh), ?_⟩
      intro e' he'
      cases he'
      exact .inl ⟨h1, fun c hc => h.taken hc (h2 c hc)⟩
    | ok x =>
      obtain ⟨c, tag, d⟩ := x
      obtain ⟨hc, ht, hw, hoff⟩ := getChipAndTag_ok hr h.nodup hg
      have htr := h.range c hc tag ht.mem
      cases hpt : getPort s.portsAvail e q.port with
      | error er =>
        exfalso
        have h0 := getPort_error hpt
        have := h.many e hr
        rw [h0] at this
        simp at this
        omega
      | ok y =>
        obtain ⟨p, d'⟩ := y
        simp only
        have hsp := addRev_inv h.inv ⟨m.addr e, tag, some p⟩ v
        by_cases hce : c = e
        · subst hce
          cases hadd : addRev s.tags ⟨m.addr c, tag, some p⟩ v with
          | ok t' =>
            refine ⟨?_, fun _ hh => (by cases hh)⟩
            intro s' hs'
            cases hs'
            have hfit := (hsp.1 t' hadd).1
            have hpool : ∀ c' ∈ m.eths, ∀ x ∈ avail boardPorts d' c', x ∈ avail boardPorts s.portsAvail c' := by
              intro c' _ x hx
              rcases getPort_ok hpt with ⟨w, _, _, rfl⟩ | ⟨_, l, hl, rfl⟩
              · exact hx
              · rw [avail_set] at hx
                by_cases hcc : c = c'
                · subst hcc
                  rw [if_pos rfl] at hx
                  rw [hl]
                  exact List.mem_append_left _ hx
                · rw [if_neg hcc] at hx
                  exact hx
            refine ⟨.rev ⟨m.addr c, tag, some p⟩ v, c, tag, ?_, ht, .inr rfl, rfl, p, rfl, rfl, ?_⟩
            · refine h.next hd hc ht rfl (hsp.1 t' hadd).2 ?_ hpool ?_
              · refine ⟨tag, p, rfl, htr.1, htr.2, hw, ?_, ?_⟩
                · intro w hw'
                  rcases getPort_ok hpt with ⟨w', h1, h2, _⟩ | ⟨h1, _⟩
                  · rw [hw'] at h1; cases h1; exact h2
                  · rw [hw'] at h1; cases h1
                · intro hnone
                  rcases getPort_ok hpt with ⟨w', h1, h2, _⟩ | ⟨h1, l, hl, _⟩
                  · rw [hnone] at h1; cases h1
                  · exact h.pool c hc p (by rw [hl]; simp)
              · intro c' _
                rcases getPort_ok hpt with ⟨w, _, _, rfl⟩ | ⟨_, l, hl, rfl⟩
                · simp
                · simp only [avail_set]
                  by_cases hcc : c = c'
                  · subst hcc
                    rw [if_pos rfl, if_pos rfl, hl]
                    simp
                  · rw [if_neg hcc, if_neg (Ne.symm hcc)]
                    simp
            · intro hm
              obtain ⟨t, w, hw', hb, hq⟩ := (h.inv.ports _ _).1 hm
              exact (hfit _ hw').2 hb p hq rfl
          | error er =>
            refine ⟨fun _ hh => (by cases hh), ?_⟩
            intro e' he'
            cases he'
            obtain ⟨h1, h2⟩ := hsp.2 er hadd
            refine .inr ⟨h1, ⟨v, c, q, rfl⟩, .inr ⟨p, ?_, ?_⟩⟩
            · refine Classical.byContradiction fun hno => h2 ?_
              intro a ha
              have hk := h.free c hc tag ht.mem a ha
              cases a with
              | ip a w => exact hk
              | rev a w =>
                refine ⟨hk, ?_⟩
                intro hb p' hp' hpp
                cases hpp
                exact hno ((h.inv.ports _ _).2 ⟨a, w, ha, hb, hp'⟩)
            · rcases getPort_ok hpt with ⟨w', h3, h4, _⟩ | ⟨h3, l, hl, _⟩
              · subst h4
                exact .inl h3
              · exact .inr ⟨h3, by rw [hl]; simp⟩
        · have hall := hoff hce
          have htak : Taken m s.tags e q.tag := h.taken hr hall
          have hin : InUse s.tags (m.addr e, tag) := by
            refine htak tag htr.1 htr.2 ?_
            cases hq : q.tag with
            | none => exact .inl rfl
            | some w => rw [hw w hq]; exact .inr rfl
          obtain ⟨o, ho, hko⟩ := (inUse_iff h.inv _).1 hin
          cases hadd : addRev s.tags ⟨m.addr e, tag, some p⟩ v with
          | ok t' =>
            exfalso
            have := (hsp.1 t' hadd).1 o ho
            cases o with
            | ip a w => exact this hko
            | rev a w => exact this.1 hko
          | error er =>
            refine ⟨fun _ hh => (by cases hh), ?_⟩
            intro e' he'
            cases he'
            exact .inr ⟨(hsp.2 er hadd).1, ⟨v, e, q, rfl⟩, .inl ⟨htak, hall⟩⟩

/-- The state after a list of requests. -/
theorem fold_inv {m : Machine} (hd : ∀ a ∈ m.eths, ∀ b ∈ m.eths, m.addr a = m.addr b → a = b)
    {s s' : State} {rs done : List Req} {acc : List Op} (h : AInv m s done acc)
    (hr : ∀ r ∈ rs, r.eth ∈ m.eths) (hf : foldE (stepReq m) s rs = .ok s') :
    ∃ acc', AInv m s' (done ++ rs) acc' := by
  induction rs generalizing s done acc with
  | nil =>
    cases hf
    exact ⟨acc, by simpa using h⟩
  | cons r rs ih =>
    rw [foldE] at hf
    cases hs : stepReq m s r with
    | error e => rw [hs] at hf; cases hf
    | ok s1 =>
      rw [hs] at hf
      obtain ⟨o, c, tag, h1, _⟩ := (stepReq_spec h hd (hr r List.mem_cons_self)).1 s1 hs
      obtain ⟨acc', h2⟩ := ih h1 (fun r hr' => hr r (List.mem_cons_of_mem _ hr')) hf
      exact ⟨acc', by simpa [List.append_assoc] using h2⟩

theorem foldE_error {α : Type} {f : State → α → Except PyErr State} {s : State} {l : List α} {e : PyErr}
    (h : foldE f s l = .error e) :
    ∃ done a rest s', l = done ++ a :: rest ∧ foldE f s done = .ok s' ∧ f s' a = .error e := by
  induction l generalizing s with
  | nil => cases h
  | cons a l ih =>
    rw [foldE] at h
    cases hs : f s a with
    | error e' =>
      rw [hs] at h
      cases h
      exact ⟨[], a, l, s, rfl, rfl, hs⟩
    | ok s1 =>
      rw [hs] at h
      obtain ⟨done, b, rest, s', h1, h2, h3⟩ := ih h
      refine ⟨a :: done, b, rest, s', by rw [h1]; rfl, ?_, h3⟩
      rw [foldE, hs]
      exact h2

theorem requests_eth {m : Machine} {ps : List Placed} (hs : Sound m ps) :
    ∀ r ∈ requests ps, r.eth ∈ m.eths := by
  intro r hr
  unfold requests at hr
  obtain ⟨p, hp, hr⟩ := List.mem_flatMap.1 hr
  rw [List.mem_append] at hr
  rcases hr with hr | hr
  · obtain ⟨q, _, rfl⟩ := List.mem_map.1 hr
    exact hs.onBoard p hp
  · obtain ⟨q, _, rfl⟩ := List.mem_map.1 hr
    exact hs.onBoard p hp

/-! ### Ports -/

theorem explicitPorts_append (a b : List Req) : explicitPorts (a ++ b) = explicitPorts a ++ explicitPorts b := by
  simp [explicitPorts, List.filterMap_append]

/-- No port that is still to be handed out is in use. -/
structure PInv (m : Machine) (s : State) : Prop where
  nodup : ∀ c ∈ m.eths, (avail boardPorts s.portsAvail c).Nodup
  free : ∀ c ∈ m.eths, ∀ p ∈ avail boardPorts s.portsAvail c, (m.addr c, p) ∉ s.tags.ports

theorem pinv_init (m : Machine) : PInv m init := by
  refine ⟨?_, ?_⟩
  · intro c _
    have : avail boardPorts init.portsAvail c = List.range' 17896 104 := rfl
    rw [this]
    exact List.nodup_range'
  · intro c _ p _
    simp [init, Tags.empty]

theorem step_ports {m : Machine} {s s' : State} {rs : List Req} {acc : List Op} (h : AInv m s rs acc)
    (hd : ∀ a ∈ m.eths, ∀ b ∈ m.eths, m.addr a = m.addr b → a = b) {r : Req} (hr : r.eth ∈ m.eths)
    (hx : ∀ x ∈ explicitPorts [r], x.2 < 17896 ∨ 18000 ≤ x.2) (hp : PInv m s)
    (hs : stepReq m s r = .ok s') : ∃ acc', AInv m s' (rs ++ [r]) acc' ∧ PInv m s' := by
  obtain ⟨o, c, tag, h1, ht, _, h3⟩ := (stepReq_spec h hd hr).1 s' hs
  refine ⟨_, h1, ?_⟩
  have hports : ∀ b p, (b, p) ∈ s'.tags.ports → (b, p) ∈ s.tags.ports ∨
      ∃ t v, o = .rev t v ∧ t.board = b ∧ t.port = some p := by
    intro b p hm
    obtain ⟨t, v, hv, hb⟩ := (h1.inv.ports b p).1 hm
    rw [List.mem_append, List.mem_singleton] at hv
    rcases hv with hv | hv
    · exact .inl ((h.inv.ports b p).2 ⟨t, v, hv, hb⟩)
    · exact .inr ⟨t, v, hv.symm, hb⟩
  cases r with
  | ip v e q =>
    simp only at h3
    have hg : ∃ t w, o = .ip t w := by
      have hlen : ∀ (a : List Req) (b : List Op), Matched m (a ++ [.ip v e q]) (b ++ [o]) →
          Good m (.ip v e q) o := by
        intro a
        induction a with
        | nil =>
          intro b hb
          cases b with
          | nil => exact hb.1
          | cons x b =>
            cases b <;> exact hb.2.elim
        | cons x a ih =>
          intro b hb
          cases b with
          | nil => cases a <;> exact hb.2.elim
          | cons y b => exact ih b hb.2
      obtain ⟨_, _, _, hh, _⟩ := hlen rs acc h1.matched
      exact ⟨_, _, hh⟩
    obtain ⟨t, w, rfl⟩ := hg
    refine ⟨by rw [h3]; exact hp.nodup, ?_⟩
    intro c' hc' p hp' hm
    rw [h3] at hp'
    rcases hports _ _ hm with hm | ⟨t, v, hh, _⟩
    · exact hp.free c' hc' p hp' hm
    · cases hh
  | rev v e q =>
    change e ∈ m.eths at hr
    obtain ⟨rfl, p, hg, rfl, hno⟩ := h3
    rcases getPort_ok hg with ⟨w, hq, rfl, hd'⟩ | ⟨hq, l, hl, hd'⟩
    · refine ⟨by rw [hd']; exact hp.nodup, ?_⟩
      intro c' hc' p' hp' hm
      rw [hd'] at hp'
      rcases hports _ _ hm with hm | ⟨t, v, hh, hb, hpp⟩
      · exact hp.free c' hc' p' hp' hm
      · cases hh
        cases hpp
        have h4 := h.pool c' hc' p hp'
        have h5 := hx (c, p) (by simp [explicitPorts, hq])
        simp only at h5
        omega
    · have hn := hp.nodup c hr
      rw [hl, List.nodup_append] at hn
      refine ⟨?_, ?_⟩
      · intro c' hc'
        rw [hd', avail_set]
        by_cases hcc : c = c'
        · rw [if_pos hcc]; exact hn.1
        · rw [if_neg hcc]; exact hp.nodup c' hc'
      · intro c' hc' p' hp' hm
        rw [hd', avail_set] at hp'
        have hold : p' ∈ avail boardPorts s.portsAvail c' := by
          by_cases hcc : c = c'
          · rw [if_pos hcc] at hp'
            subst hcc
            rw [hl]
            exact List.mem_append_left _ hp'
          · rw [if_neg hcc] at hp'
            exact hp'
        rcases hports _ _ hm with hm | ⟨t, v, hh, hb, hpp⟩
        · exact hp.free c' hc' p' hold hm
        · cases hh
          cases hpp
          have hcc : c = c' := hd c hr c' hc' hb
          rw [if_pos hcc] at hp'
          exact hn.2.2 p hp' p (by simp) rfl

theorem no_clash {m : Machine} {s : State} {done rest : List Req} {acc : List Op} (h : AInv m s done acc)
    (hd : ∀ a ∈ m.eths, ∀ b ∈ m.eths, m.addr a = m.addr b → a = b) (hdone : ∀ r ∈ done, r.eth ∈ m.eths)
    {r : Req} (hr : r.eth ∈ m.eths)
    (hx : ∀ x ∈ explicitPorts (done ++ r :: rest), x.2 < 17896 ∨ 18000 ≤ x.2)
    (hn : (explicitPorts (done ++ r :: rest)).Nodup) (hp : PInv m s) : ¬ PortClash m s r := by
  cases r with
  | ip v e q => exact fun hh => hh
  | rev v e q =>
    change e ∈ m.eths at hr
    rintro ⟨p, hm, hq | ⟨_, hq⟩⟩
    · obtain ⟨t, w, ht, hb, htp⟩ := (h.inv.ports _ _).1 hm
      obtain ⟨r', hr', hg⟩ := h.matched.exists_of_mem ht
      have hnew : explicitPorts (.rev v e q :: rest) = (e, p) :: explicitPorts rest := by
        simp [explicitPorts, hq]
      rw [explicitPorts_append, hnew] at hn hx
      cases r' with
      | ip _ _ _ => obtain ⟨_, _, _, hh, _⟩ := hg; cases hh
      | rev v' e' q' =>
        obtain ⟨k, p', hh, _, _, _, h5, h6⟩ := hg
        cases hh
        cases htp
        have hee : e' = e := hd e' (hdone _ hr') e hr hb
        subst hee
        cases hq' : q'.port with
        | none =>
          have h7 := h6 hq'
          have h8 := hx (e', p) (by simp)
          simp only at h8
          omega
        | some p'' =>
          have := h5 p'' hq'
          subst this
          rw [List.nodup_append] at hn
          refine hn.2.2 (e', p) ?_ (e', p) (by simp) rfl
          unfold explicitPorts
          exact List.mem_filterMap.2 ⟨_, hr', by simp [hq']⟩
    · exact hp.free e hr p hq hm

/-- Enough tags for automatic requests. -/
theorem fold_succeeds {m : Machine} (hd : ∀ a ∈ m.eths, ∀ b ∈ m.eths, m.addr a = m.addr b → a = b)
    {s : State} {rs done : List Req} {acc : List Op} (h : AInv m s done acc)
    (hr : ∀ r ∈ rs, r.eth ∈ m.eths) (hdone : ∀ r ∈ done, r.eth ∈ m.eths)
    (hx : ∀ x ∈ explicitPorts (done ++ rs), x.2 < 17896 ∨ 18000 ≤ x.2)
    (hn : (explicitPorts (done ++ rs)).Nodup) (hp : PInv m s) (ht : ∀ r ∈ rs, r.tag = none)
    (hlen : ∀ c ∈ m.eths, (rs.filter (fun r => decide (r.eth = c))).length ≤
      (avail chipTags s.tagsAvail c).length) : ∃ s', foldE (stepReq m) s rs = .ok s' := by
  induction rs generalizing s done acc with
  | nil => exact ⟨s, rfl⟩
  | cons r rs ih =>
    have hre := hr r List.mem_cons_self
    have htag := ht r List.mem_cons_self
    have hne : ∃ t, t ∈ avail chipTags s.tagsAvail r.eth := by
      have := hlen r.eth hre
      rw [List.filter_cons_of_pos (by simp)] at this
      cases ha : avail chipTags s.tagsAvail r.eth with
      | nil => rw [ha] at this; simp at this
      | cons t _ => exact ⟨t, List.mem_cons_self⟩
    obtain ⟨t, hta⟩ := hne
    have hsp := stepReq_spec h hd hre
    rw [foldE]
    cases hs : stepReq m s r with
    | error e =>
      exfalso
      rcases hsp.2 e hs with ⟨_, h2⟩ | ⟨_, _, h2⟩
      · have hrg := h.range _ hre t hta
        have hu := h2 r.eth hre t hrg.1 hrg.2 (.inl htag)
        obtain ⟨o, ho, hk⟩ := (inUse_iff h.inv _).1 hu
        exact h.free _ hre t hta o ho hk
      · rcases h2 with h2 | h2
        · exact h2.2 t (.inl htag) hta
        · exact no_clash h hd hdone hre hx hn hp h2
    | ok s1 =>
      simp only
      obtain ⟨acc', h1, h2⟩ := step_ports h hd hre (fun x hx' => hx x (by
          have : explicitPorts (done ++ r :: rs) = explicitPorts done ++ (explicitPorts [r] ++ explicitPorts rs) := by
            rw [← explicitPorts_append [r] rs, ← explicitPorts_append]; rfl
          rw [this]
          exact List.mem_append_right _ (List.mem_append_left _ hx'))) hp hs
      obtain ⟨o, c, tag, _, htk, hc, _⟩ := hsp.1 s1 hs
      have hce : c = r.eth := by
        rcases hc with hc | hc
        · exact absurd hta (hc t (.inl htag))
        · exact hc
      subst hce
      refine ih h1 (fun r hr' => hr r (List.mem_cons_of_mem _ hr')) ?_ ?_ ?_ h2
        (fun r hr' => ht r (List.mem_cons_of_mem _ hr')) ?_
      · intro x hx'
        rw [List.mem_append, List.mem_singleton] at hx'
        rcases hx' with hx' | rfl
        · exact hdone x hx'
        · exact hre
      · simpa [List.append_assoc] using hx
      · simpa [List.append_assoc] using hn
      · intro c hc'
        have h3 := hlen c hc'
        by_cases hcc : r.eth = c
        · subst hcc
          rw [List.filter_cons_of_pos (by simp), List.length_cons] at h3
          have := htk.length
          omega
        · rw [List.filter_cons_of_neg (by simpa using hcc)] at h3
          rw [htk.other c (Ne.symm hcc)]
          exact h3

end Pacman.TagAlloc
