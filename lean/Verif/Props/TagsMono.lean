import Verif.Props.TagsHome

/-!
# C151: leaving out requests for tags never makes the allocation of tags fail

What one request is given depends on what was given before, a tag that is asked for may be given to another
request first (C144_order_false), and ports come from a pool that requested ports can run into. Still a graph
with fewer requests never has an allocation fail that succeeded with more of them.

C152: nor has a machine with more boards.
-/

namespace Pacman.TagAlloc

/-! ### The tag that is chosen with more tags free -/

/-- All that is free on some boards by the first is free by the second. -/
def Within (bs : List Nat) (dv : List Nat) (d e : Dict Nat (List Nat)) : Prop := ∀ c ∈ bs, ∀ x ∈ avail dv d c, x ∈ avail dv e c

/-- What is free is in order. -/
def InOrder (dv : List Nat) (d : Dict Nat (List Nat)) : Prop := ∀ c, (avail dv d c).Pairwise (· < ·)

theorem last_max {l : List Nat} {t : Nat} (hl : (l ++ [t]).Pairwise (· < ·)) : ∀ x ∈ l ++ [t], x ≤ t := by
  intro x hx
  rcases List.mem_append.1 hx with hx | hx
  · exact Nat.le_of_lt ((List.pairwise_append.1 hl).2.2 x hx t (by simp))
  · rw [List.mem_singleton] at hx
    omega

theorem head_min {l : List Nat} {t : Nat} (hl : (t :: l).Pairwise (· < ·)) : ∀ x ∈ t :: l, t ≤ x := by
  intro x hx
  rcases List.mem_cons.1 hx with hx | hx
  · omega
  · exact Nat.le_of_lt ((List.pairwise_cons.1 hl).1 x hx)

theorem findTagChip_mem {d d1 : Dict Nat (List Nat)} {w c : Nat} :
    ∀ (cs : List Nat), findTagChip d w cs = .ok (c, d1) → c ∈ cs := by
  intro cs
  induction cs with
  | nil => intro h; cases h
  | cons a cs ih =>
    intro h
    rw [findTagChip] at h
    by_cases ha : w ∈ avail chipTags d a
    · rw [if_pos ha] at h
      cases h
      exact List.mem_cons_self
    · rw [if_neg ha] at h
      exact List.mem_cons_of_mem _ (ih h)

theorem findFreeTag_mem {d d1 : Dict Nat (List Nat)} {c t : Nat} :
    ∀ (cs : List Nat), findFreeTag d cs = .ok (c, t, d1) → c ∈ cs := by
  intro cs
  induction cs with
  | nil => intro h; cases h
  | cons a cs ih =>
    intro h
    rw [findFreeTag] at h
    cases ha : avail chipTags d a with
    | nil =>
      rw [ha] at h
      exact List.mem_cons_of_mem _ (ih h)
    | cons u us =>
      rw [ha] at h
      cases h
      exact List.mem_cons_self

/-- The boards of the second, in the same order, with others between; or the same boards. -/
def Boards (bs bs' : List Nat) : Prop := bs' = bs ∨ bs.Sublist bs' ∧ bs'.Nodup

theorem Boards.mem {bs bs' : List Nat} (h : Boards bs bs') : ∀ c ∈ bs, c ∈ bs' := by
  rcases h with rfl | h
  · exact fun _ h => h
  · exact fun _ hc => h.1.subset hc

/-- A board that is added, or one of both. -/
theorem Boards.cases {a : Nat} {bs bs' : List Nat} (h : Boards bs (a :: bs')) :
    Boards bs bs' ∧ a ∉ bs ∨ ∃ cs, bs = a :: cs ∧ Boards cs bs' ∧ (a ∉ bs' ∨ cs = bs') := by
  rcases h with h | ⟨h, hn⟩
  · exact .inr ⟨bs', h.symm, .inl rfl, .inr rfl⟩
  · rw [List.nodup_cons] at hn
    cases h with
    | cons _ h => exact .inl ⟨.inr ⟨h, hn.2⟩, fun hm => hn.1 (h.subset hm)⟩
    | cons_cons _ h => exact .inr ⟨_, rfl, .inr ⟨h, hn.2⟩, .inl hn.1⟩

theorem findTagChip_same {bs : List Nat} {d e d1 e1 : Dict Nat (List Nat)} {w c c2 : Nat}
    (hw : Within bs chipTags d e) :
    ∀ (cs' cs : List Nat), Boards cs cs' → (∀ a ∈ cs, a ∈ bs) → findTagChip d w cs = .ok (c, d1) →
    findTagChip e w cs' = .ok (c2, e1) → c2 ∈ cs → w ∈ avail chipTags d c2 → c2 = c := by
  intro cs'
  induction cs' with
  | nil => intro cs _ _ _ h2; cases h2
  | cons a cs' ih =>
    intro cs hb hbs h h2 hc hm
    rw [findTagChip] at h2
    rcases hb.cases with ⟨hb, hna⟩ | ⟨cs1, rfl, hb, hor⟩
    · by_cases hx : w ∈ avail chipTags e a
      · rw [if_pos hx] at h2
        cases h2
        exact absurd hc hna
      · rw [if_neg hx] at h2
        exact ih cs hb hbs h h2 hc hm
    · rw [findTagChip] at h
      by_cases ha : w ∈ avail chipTags d a
      · rw [if_pos ha] at h
        rw [if_pos (hw a (hbs a List.mem_cons_self) w ha)] at h2
        cases h
        cases h2
        rfl
      · rw [if_neg ha] at h
        by_cases hx : w ∈ avail chipTags e a
        · rw [if_pos hx] at h2
          cases h2
          exact absurd hm ha
        · rw [if_neg hx] at h2
          refine ih cs1 hb (fun b hb => hbs b (List.mem_cons_of_mem _ hb)) h h2 ?_ hm
          rcases hor with hno | rfl
          · rcases List.mem_cons.1 hc with rfl | hc
            · exact absurd (findTagChip_mem _ h2) hno
            · exact hc
          · exact findTagChip_mem _ h2

theorem findFreeTag_same {bs : List Nat} {d e d1 e1 : Dict Nat (List Nat)} {c c2 t t2 : Nat}
    (hw : Within bs chipTags d e) (hd : InOrder chipTags d) (he : InOrder chipTags e) :
    ∀ (cs' cs : List Nat), Boards cs cs' → (∀ a ∈ cs, a ∈ bs) → findFreeTag d cs = .ok (c, t, d1) →
    findFreeTag e cs' = .ok (c2, t2, e1) → c2 ∈ cs → t2 ∈ avail chipTags d c2 → c2 = c ∧ t2 = t := by
  intro cs'
  induction cs' with
  | nil => intro cs _ _ _ h2; cases h2
  | cons a cs' ih =>
    intro cs hb hbs h h2 hc hm
    rw [findFreeTag] at h2
    rcases hb.cases with ⟨hb, hna⟩ | ⟨cs1, rfl, hb, hor⟩
    · cases hx : avail chipTags e a with
      | nil =>
        rw [hx] at h2
        exact ih cs hb hbs h h2 hc hm
      | cons u us =>
        rw [hx] at h2
        cases h2
        exact absurd hc hna
    · rw [findFreeTag] at h
      cases ha : avail chipTags d a with
      | nil =>
        rw [ha] at h
        cases hx : avail chipTags e a with
        | nil =>
          rw [hx] at h2
          refine ih cs1 hb (fun b hb => hbs b (List.mem_cons_of_mem _ hb)) h h2 ?_ hm
          rcases hor with hno | rfl
          · rcases List.mem_cons.1 hc with rfl | hc
            · exact absurd (findFreeTag_mem _ h2) hno
            · exact hc
          · exact findFreeTag_mem _ h2
        | cons u us =>
          rw [hx] at h2
          cases h2
          rw [ha] at hm
          cases hm
      | cons v vs =>
        rw [ha] at h
        cases h
        have hve : t ∈ avail chipTags e c := hw c (hbs c List.mem_cons_self) t (by rw [ha]; simp)
        cases hx : avail chipTags e c with
        | nil => rw [hx] at hve; cases hve
        | cons u us =>
          rw [hx] at h2
          cases h2
          have g1 := he c
          have g2 := hd c
          rw [hx] at g1 hve
          rw [ha] at g2 hm
          have := head_min g1 t hve
          have := head_min g2 t2 hm
          exact ⟨rfl, by omega⟩

/-- With more free, the tag chosen is the one that is chosen with less free, or not free there. -/
theorem chosen_same {m m' : Machine} (hb : Boards m.eths m'.eths) {d e d1 e1 : Dict Nat (List Nat)} {eth : Nat}
    {want : Option Nat} {c c2 t t2 : Nat} (hr : eth ∈ m.eths) (hw : Within m.eths chipTags d e)
    (hd : InOrder chipTags d) (he : InOrder chipTags e)
    (h : getChipAndTag m d eth want = .ok (c, t, d1)) (h2 : getChipAndTag m' e eth want = .ok (c2, t2, e1))
    (hc : c2 ∈ m.eths) (hm : t2 ∈ avail chipTags d c2) : c2 = c ∧ t2 = t := by
  unfold getChipAndTag at h h2
  cases want with
  | some w =>
    simp only at h h2
    by_cases ha : w ∈ avail chipTags d eth
    · rw [if_pos ha] at h
      rw [if_pos (hw eth hr w ha)] at h2
      cases h
      cases h2
      exact ⟨rfl, rfl⟩
    · rw [if_neg ha] at h
      by_cases hx : w ∈ avail chipTags e eth
      · rw [if_pos hx] at h2
        cases h2
        exact absurd hm ha
      · rw [if_neg hx] at h2
        cases hf : findTagChip d w m.eths with
        | error er => rw [hf] at h; cases h
        | ok x =>
          cases hg : findTagChip e w m'.eths with
          | error er => rw [hg] at h2; cases h2
          | ok y =>
            rw [hf] at h
            rw [hg] at h2
            cases h
            cases h2
            exact ⟨findTagChip_same hw _ _ hb (fun _ h => h) hf hg hc hm, rfl⟩
  | none =>
    simp only at h h2
    cases ha : (avail chipTags d eth).getLast? with
    | some u =>
      rw [ha] at h
      cases h
      have hl := getLast?_some ha
      have hte : t ∈ avail chipTags e eth := hw eth hr t (by rw [hl]; simp)
      cases hx : (avail chipTags e eth).getLast? with
      | none =>
        rw [List.getLast?_eq_none_iff] at hx
        rw [hx] at hte
        cases hte
      | some u2 =>
        rw [hx] at h2
        cases h2
        have hl2 := getLast?_some hx
        have g1 := he eth
        have g2 := hd eth
        rw [hl2] at g1 hte
        rw [hl] at g2 hm
        have := last_max g1 t hte
        have := last_max g2 t2 hm
        exact ⟨rfl, by omega⟩
    | none =>
      rw [ha] at h
      cases hx : (avail chipTags e eth).getLast? with
      | none =>
        rw [hx] at h2
        exact findFreeTag_same hw hd he _ _ hb (fun _ h => h) h h2 hc hm
      | some u2 =>
        rw [hx] at h2
        cases h2
        rw [List.getLast?_eq_none_iff] at ha
        rw [ha] at hm
        cases hm

theorem set_sublist {dv : List Nat} {d : Dict Nat (List Nat)} {a : Nat} {l : List Nat}
    (h : l.Sublist (avail dv d a)) (c : Nat) : (avail dv (d.set a l) c).Sublist (avail dv d c) := by
  rw [avail_set]
  by_cases hc : a = c
  · rw [if_pos hc, ← hc]
    exact h
  · rw [if_neg hc]
    exact List.Sublist.refl _

theorem chosen_sublist {m : Machine} {d d1 : Dict Nat (List Nat)} {eth : Nat} {want : Option Nat} {c t : Nat}
    (h : getChipAndTag m d eth want = .ok (c, t, d1)) (b : Nat) :
    (avail chipTags d1 b).Sublist (avail chipTags d b) := by
  have hft : ∀ (cs : List Nat) w c d1, findTagChip d w cs = .ok (c, d1) →
      (avail chipTags d1 b).Sublist (avail chipTags d b) := by
    intro cs w c d1
    induction cs with
    | nil => intro h; cases h
    | cons a cs ih =>
      intro h
      rw [findTagChip] at h
      by_cases ha : w ∈ avail chipTags d a
      · rw [if_pos ha] at h
        cases h
        exact set_sublist List.erase_sublist b
      · rw [if_neg ha] at h
        exact ih h
  have hff : ∀ (cs : List Nat) c t d1, findFreeTag d cs = .ok (c, t, d1) →
      (avail chipTags d1 b).Sublist (avail chipTags d b) := by
    intro cs c t d1
    induction cs with
    | nil => intro h; cases h
    | cons a cs ih =>
      intro h
      rw [findFreeTag] at h
      cases ha : avail chipTags d a with
      | nil => rw [ha] at h; exact ih h
      | cons u us =>
        rw [ha] at h
        cases h
        exact set_sublist (by rw [ha]; exact List.sublist_cons_self _ _) b
  unfold getChipAndTag at h
  cases want with
  | some w =>
    simp only at h
    by_cases ha : w ∈ avail chipTags d eth
    · rw [if_pos ha] at h
      cases h
      exact set_sublist List.erase_sublist b
    · rw [if_neg ha] at h
      cases hf : findTagChip d w m.eths with
      | error er => rw [hf] at h; cases h
      | ok x =>
        rw [hf] at h
        cases h
        exact hft _ _ _ _ hf
  | none =>
    simp only at h
    cases ha : (avail chipTags d eth).getLast? with
    | some u =>
      rw [ha] at h
      cases h
      exact set_sublist (List.dropLast_sublist _) b
    | none =>
      rw [ha] at h
      exact hff _ _ _ _ h

/-! ### One request -/

/-- What one request does to the ports. -/
def PortStep (m : Machine) (s s1 : State) : Req → Prop
  | .ip _ _ _ => s1.portsAvail = s.portsAvail ∧ s1.tags.ports = s.tags.ports
  | .rev _ e q => ∃ p, getPort s.portsAvail e q.port = .ok (p, s1.portsAvail) ∧ (m.addr e, p) ∉ s.tags.ports ∧
      s1.tags.ports = (m.addr e, p) :: s.tags.ports

theorem addIp_ports {s s' : Tags} {t : IPTag} {v : Nat} (h : addIp s t v = .ok s') : s'.ports = s.ports := by
  unfold addIp at h
  simp only at h
  cases hg : s.ip.get? (t.board, t.tag) with
  | none =>
    rw [hg] at h
    simp only at h
    split at h
    · cases h
    · cases h; rfl
  | some old =>
    rw [hg] at h
    simp only at h
    split at h
    · cases h
    · split at h
      · cases h
      · cases h; rfl

theorem step_ok {m : Machine} {s s1 : State} {r : Req} (h : stepReq m s r = .ok s1) :
    (∃ c t, getChipAndTag m s.tagsAvail r.eth r.tag = .ok (c, t, s1.tagsAvail)) ∧ PortStep m s s1 r := by
  cases r with
  | ip v e q =>
    unfold stepReq allocIp at h
    simp only [bind, Except.bind, pure, Except.pure] at h
    cases hg : getChipAndTag m s.tagsAvail e q.tag with
    | error er => rw [hg] at h; cases h
    | ok x =>
      rw [hg] at h
      simp only at h
      cases ha : addIp s.tags ⟨m.addr x.1, x.2.1, q.ip, q.port, q.strip⟩ v with
      | error er => rw [ha] at h; cases h
      | ok t' =>
        rw [ha] at h
        cases h
        exact ⟨⟨x.1, x.2.1, hg⟩, rfl, addIp_ports ha⟩
  | rev v e q =>
    unfold stepReq allocRev at h
    simp only [bind, Except.bind, pure, Except.pure] at h
    cases hg : getChipAndTag m s.tagsAvail e q.tag with
    | error er => rw [hg] at h; cases h
    | ok x =>
      rw [hg] at h
      simp only at h
      cases hp : getPort s.portsAvail e q.port with
      | error er => rw [hp] at h; cases h
      | ok y =>
        rw [hp] at h
        simp only at h
        cases ha : addRev s.tags ⟨m.addr e, x.2.1, some y.1⟩ v with
        | error er => rw [ha] at h; cases h
        | ok t' =>
          rw [ha] at h
          cases h
          refine ⟨⟨x.1, x.2.1, hg⟩, y.1, hp, ?_⟩
          unfold addRev at ha
          simp only at ha
          split at ha
          · cases ha
          · split at ha
            · cases ha
            · rename_i hn
              cases ha
              exact ⟨hn, rfl⟩

/-- A machine with the boards of another one, and maybe more. -/
structure More (m m' : Machine) : Prop where
  boards : Boards m.eths m'.eths
  addr : m'.addr = m.addr
  distinct : ∀ a ∈ m'.eths, ∀ b ∈ m'.eths, m'.addr a = m'.addr b → a = b

theorem More.refl {m : Machine} (hd : ∀ a ∈ m.eths, ∀ b ∈ m.eths, m.addr a = m.addr b → a = b) : More m m :=
  ⟨.inl rfl, rfl, hd⟩

/-- The state with all requests beside the state with some of them. -/
structure Beside (m : Machine) (s s' : State) : Prop where
  tags : Within m.eths chipTags s.tagsAvail s'.tagsAvail
  tagsOrd : InOrder chipTags s.tagsAvail
  tagsOrd' : InOrder chipTags s'.tagsAvail
  pool : Within m.eths boardPorts s.portsAvail s'.portsAvail
  poolOrd : InOrder boardPorts s.portsAvail
  poolOrd' : InOrder boardPorts s'.portsAvail
  poolAll : ∀ c, ∀ p ∈ avail boardPorts s'.portsAvail c, p ∈ boardPorts
  used : ∀ c ∈ m.eths, ∀ p ∈ boardPorts, p ∉ avail boardPorts s.portsAvail c → (m.addr c, p) ∈ s.tags.ports
  ports : ∀ x ∈ s'.tags.ports, x ∈ s.tags.ports
  apart : ∀ c ∈ m.eths, ∀ p, (m.addr c, p) ∈ s'.tags.ports → p ∈ avail boardPorts s'.portsAvail c →
    p ∈ avail boardPorts s.portsAvail c

theorem beside_init (m : Machine) : Beside m init init := by
  have h1 : ∀ c, avail chipTags init.tagsAvail c = chipTags := fun _ => rfl
  have h2 : ∀ c, avail boardPorts init.portsAvail c = boardPorts := fun _ => rfl
  have h3 : boardPorts.Pairwise (· < ·) := List.pairwise_lt_range'
  refine ⟨fun _ _ _ h => h, fun c => ?_, fun c => ?_, fun _ _ _ h => h, fun c => ?_, fun c => ?_, ?_, ?_, fun _ h => h,
    fun _ _ _ _ h => h⟩
  · rw [h1]; decide
  · rw [h1]; decide
  · rw [h2]; exact h3
  · rw [h2]; exact h3
  · intro c p hp
    rw [h2] at hp
    exact hp
  · intro c _ p hp hn
    rw [h2] at hn
    exact absurd hp hn

theorem port_sublist {d d1 : Dict Nat (List Nat)} {e p : Nat} {w : Option Nat}
    (h : getPort d e w = .ok (p, d1)) (b : Nat) : (avail boardPorts d1 b).Sublist (avail boardPorts d b) := by
  rcases getPort_ok h with ⟨_, _, _, rfl⟩ | ⟨_, l, hl, rfl⟩
  · exact List.Sublist.refl _
  · exact set_sublist (by rw [hl]; exact List.sublist_append_left _ _) b

theorem portStep_sublist {m : Machine} {s s1 : State} {r : Req} (h : PortStep m s s1 r) (b : Nat) :
    (avail boardPorts s1.portsAvail b).Sublist (avail boardPorts s.portsAvail b) := by
  cases r with
  | ip v e q => rw [h.1]; exact List.Sublist.refl _
  | rev v e q =>
    obtain ⟨p, hp, -, -⟩ := h
    exact port_sublist hp b

/-- A request that is left out. -/
theorem Beside.skip {m : Machine} {s s' s1 : State} (h : Beside m s s') {r : Req}
    (hs : stepReq m s r = .ok s1) : Beside m s1 s' := by
  obtain ⟨⟨c, t, hg⟩, hp⟩ := step_ok hs
  have hsub := chosen_sublist hg
  have hpsub := portStep_sublist hp
  refine ⟨fun c hc x hx => h.tags c hc x ((hsub c).subset hx), fun c => (h.tagsOrd c).sublist (hsub c), h.tagsOrd',
    fun c hc x hx => h.pool c hc x ((hpsub c).subset hx), fun c => (h.poolOrd c).sublist (hpsub c), h.poolOrd', h.poolAll,
    ?_, ?_, ?_⟩
  · intro b hb p hpb hn
    cases r with
    | ip v e q =>
      rw [hp.1] at hn
      rw [hp.2]
      exact h.used b hb p hpb hn
    | rev v e q =>
      obtain ⟨p0, h1, h2, h3⟩ := hp
      rw [h3]
      by_cases hin : p ∈ avail boardPorts s.portsAvail b
      · rcases getPort_ok h1 with ⟨_, _, _, h4⟩ | ⟨_, l, hl, h4⟩
        · rw [h4] at hn
          exact absurd hin hn
        · rw [h4, avail_set] at hn
          by_cases he : e = b
          · subst he
            rw [if_pos rfl] at hn
            rw [hl] at hin
            rcases List.mem_append.1 hin with hin | hin
            · exact absurd hin hn
            · rw [List.mem_singleton] at hin
              rw [hin]
              exact List.mem_cons_self
          · rw [if_neg he] at hn
            exact absurd hin hn
      · exact List.mem_cons_of_mem _ (h.used b hb p hpb hin)
  · intro x hx
    cases r with
    | ip v e q => rw [hp.2]; exact h.ports x hx
    | rev v e q =>
      obtain ⟨p0, -, -, h3⟩ := hp
      rw [h3]
      exact List.mem_cons_of_mem _ (h.ports x hx)
  · intro b hb p hx ha
    have hin := h.apart b hb p hx ha
    cases r with
    | ip v e q => rw [hp.1]; exact hin
    | rev v e q =>
      obtain ⟨p0, h1, h2, h3⟩ := hp
      rcases getPort_ok h1 with ⟨_, _, _, h4⟩ | ⟨_, l, hl, h4⟩
      · rw [h4]; exact hin
      · rw [h4, avail_set]
        by_cases he : e = b
        · subst he
          rw [if_pos rfl]
          rw [hl] at hin
          rcases List.mem_append.1 hin with hin | hin
          · exact hin
          · rw [List.mem_singleton] at hin
            subst hin
            exact absurd (h.ports _ hx) h2
        · rw [if_neg he]
          exact hin

/-- The port that is taken with more of them free: the one taken with less free, or it is in use there. -/
theorem port_same {m : Machine} {s s' : State} (h : Beside m s s') {e p p2 : Nat} (he : e ∈ m.eths)
    {w : Option Nat} {d d' : Dict Nat (List Nat)} (h1 : getPort s.portsAvail e w = .ok (p, d))
    (h2 : getPort s'.portsAvail e w = .ok (p2, d')) :
    p2 = p ∨ w = none ∧ p2 ∉ avail boardPorts s.portsAvail e ∧ (m.addr e, p2) ∈ s.tags.ports := by
  rcases getPort_ok h1 with ⟨a, ha, hb, _⟩ | ⟨ha, l, hl, _⟩
  · rcases getPort_ok h2 with ⟨a2, ha2, hb2, _⟩ | ⟨ha2, l2, hl2, _⟩
    · rw [ha] at ha2
      cases ha2
      exact .inl (hb2.trans hb.symm)
    · rw [ha] at ha2
      cases ha2
  · rcases getPort_ok h2 with ⟨a2, ha2, hb2, _⟩ | ⟨ha2, l2, hl2, _⟩
    · rw [ha] at ha2
      cases ha2
    · by_cases hin : p2 ∈ avail boardPorts s.portsAvail e
      · left
        have g1 := h.poolOrd e
        have g2 := h.poolOrd' e
        have hq : p ∈ avail boardPorts s'.portsAvail e := h.pool e he p (by rw [hl]; simp)
        rw [hl] at g1 hin
        rw [hl2] at g2 hq
        have := last_max g1 p2 hin
        have := last_max g2 p hq
        omega
      · exact .inr ⟨ha, hin, h.used e he p2 (h.poolAll e p2 (by rw [hl2]; simp)) hin⟩

/-- A request that is kept. -/
theorem Beside.keep {m m' : Machine} (hm : More m m') {s s' s1 s1' : State} (h : Beside m s s')
    (hd : ∀ a ∈ m.eths, ∀ b ∈ m.eths, m.addr a = m.addr b → a = b)
    {done done' : List Req} {acc acc' : List Op} (ha : AInv m s done acc) (ha' : AInv m' s' done' acc')
    {r : Req} (hr : r.eth ∈ m.eths)
    (hs : stepReq m s r = .ok s1) (hs' : stepReq m' s' r = .ok s1') : Beside m s1 s1' := by
  have hsk := h.skip hs
  obtain ⟨⟨c, t, hg⟩, hp⟩ := step_ok hs
  obtain ⟨⟨c2, t2, hg2⟩, hp2⟩ := step_ok hs'
  have hsub := chosen_sublist hg2
  have hpsub := portStep_sublist hp2
  have hk := getChipAndTag_ok hr ha.nodup hg
  have hk2 := getChipAndTag_ok (hm.boards.mem _ hr) ha'.nodup hg2
  have hgone : c2 ∈ m.eths → t2 ∉ avail chipTags s1.tagsAvail c2 := by
    intro hc2 hin
    obtain ⟨rfl, rfl⟩ := chosen_same hm.boards hr h.tags h.tagsOrd h.tagsOrd' hg hg2 hc2 ((chosen_sublist hg c2).subset hin)
    exact ((hk.2.1.here t2).1 hin).2 rfl
  refine ⟨?_, hsk.tagsOrd, fun c => (h.tagsOrd' c).sublist (hsub c), ?_, hsk.poolOrd,
    fun c => (h.poolOrd' c).sublist (hpsub c), fun c p hpp => h.poolAll c p ((hpsub c).subset hpp), hsk.used, ?_, ?_⟩
  · intro b hb0 x hx
    have hin := hsk.tags b hb0 x hx
    by_cases hb : b = c2
    · subst hb
      exact (hk2.2.1.here x).2 ⟨hin, fun he => hgone hb0 (he ▸ hx)⟩
    · rw [hk2.2.1.other b hb]
      exact hin
  · intro b hb0 x hx
    have hin := hsk.pool b hb0 x hx
    cases r with
    | ip v e q => rw [hp2.1]; exact hin
    | rev v e q =>
      change e ∈ m.eths at hr
      obtain ⟨p, h1, h2, h3⟩ := hp
      obtain ⟨p2, j1, j2, j3⟩ := hp2
      rw [hm.addr] at j2 j3
      rcases getPort_ok j1 with ⟨_, _, _, h4⟩ | ⟨hnone, l2, hl2, h4⟩
      · rw [h4]; exact hin
      · rw [h4, avail_set]
        by_cases he : e = b
        · subst he
          rw [if_pos rfl]
          rw [hl2] at hin
          rcases List.mem_append.1 hin with hin | hin
          · exact hin
          · rw [List.mem_singleton] at hin
            subst hin
            exfalso
            rcases port_same h hr h1 j1 with heq | ⟨_, hno, _⟩
            · subst heq
              rcases getPort_ok h1 with ⟨_, hsome, _, _⟩ | ⟨_, l, hl, h5⟩
              · rw [hnone] at hsome; cases hsome
              · rw [h5, avail_set, if_pos rfl] at hx
                have := h.poolOrd e
                rw [hl] at this
                have := (List.pairwise_append.1 this).2.2 x hx x (by simp)
                omega
            · exact hno ((port_sublist h1 e).subset hx)
        · rw [if_neg he]
          exact hin
  · intro x hx
    cases r with
    | ip v e q =>
      rw [hp2.2] at hx
      exact hsk.ports x hx
    | rev v e q =>
      change e ∈ m.eths at hr
      obtain ⟨p, h1, h2, h3⟩ := hp
      obtain ⟨p2, j1, j2, j3⟩ := hp2
      rw [hm.addr] at j2 j3
      rw [j3] at hx
      rw [h3]
      rcases List.mem_cons.1 hx with rfl | hx
      · rcases port_same h hr h1 j1 with heq | ⟨_, _, hin⟩
        · rw [heq]; exact List.mem_cons_self
        · exact List.mem_cons_of_mem _ hin
      · exact List.mem_cons_of_mem _ (h.ports x hx)
  · intro b hb x hx hav
    cases r with
    | ip v e q =>
      rw [hp2.2] at hx
      rw [hp2.1] at hav
      exact hsk.apart b hb x hx hav
    | rev v e q =>
      change e ∈ m.eths at hr
      have hav0 := (hpsub b).subset hav
      obtain ⟨p, h1, h2, h3⟩ := hp
      obtain ⟨p2, j1, j2, j3⟩ := hp2
      rw [hm.addr] at j2 j3
      rw [j3] at hx
      rcases List.mem_cons.1 hx with heq | hx
      · obtain ⟨heb, hxp⟩ := Prod.mk.inj heq
        have hbe := hd b hb e hr heb
        subst hbe
        subst hxp
        rcases getPort_ok j1 with ⟨w, hw, hwp, h4⟩ | ⟨hnone, l2, hl2, h4⟩
        · rcases getPort_ok h1 with ⟨w2, hw2, hwp2, h5⟩ | ⟨hno, _, _, _⟩
          · rw [hw] at hw2
            cases hw2
            rw [h5]
            refine Classical.byContradiction fun hno => h2 ?_
            rw [hwp2, ← hwp]
            exact h.used b hb x (h.poolAll b x hav0) hno
          · rw [hw] at hno; cases hno
        · exfalso
          rw [h4, avail_set, if_pos rfl] at hav
          have := h.poolOrd' b
          rw [hl2] at this
          have := (List.pairwise_append.1 this).2.2 x hav x (by simp)
          omega
      · exact hsk.apart b hb x hx hav0

/-- A request that can be met with all requests before it can be met with some of them. -/
theorem Beside.step {m m' : Machine} (hm : More m m') {s s' s1 : State} (h : Beside m s s')
    (hd : ∀ a ∈ m.eths, ∀ b ∈ m.eths, m.addr a = m.addr b → a = b)
    {done done' : List Req} {acc acc' : List Op} (ha : AInv m s done acc) (ha' : AInv m' s' done' acc')
    {r : Req} (hr : r.eth ∈ m.eths) (hs : stepReq m s r = .ok s1) : ∃ s1', stepReq m' s' r = .ok s1' := by
  obtain ⟨⟨c, t, hg⟩, hp⟩ := step_ok hs
  have hk := getChipAndTag_ok hr ha.nodup hg
  have hwant : r.tag = none ∨ r.tag = some t := by
    cases hw : r.tag with
    | none => exact .inl rfl
    | some w => rw [hk.2.2.1 w hw]; exact .inr rfl
  have hfree := h.tags c hk.1 t hk.2.1.mem
  cases r with
  | ip v e q =>
    cases hs' : stepReq m' s' (.ip v e q) with
    | ok s1' => exact ⟨s1', rfl⟩
    | error er =>
      exfalso
      rcases (stepReq_spec ha' hm.distinct (hm.boards.mem _ hr)).2 er hs' with ⟨_, hall⟩ | ⟨_, ⟨_, _, _, h0⟩, _⟩
      · obtain ⟨g1, g2⟩ := ha'.range c (hm.boards.mem _ hk.1) t hfree
        obtain ⟨o, ho, hko⟩ := (inUse_iff ha'.inv _).1 (hall c (hm.boards.mem _ hk.1) t g1 g2 hwant)
        exact ha'.free c (hm.boards.mem _ hk.1) t hfree o ho hko
      · cases h0
  | rev v e q =>
    change e ∈ m.eths at hr
    have hce : c = e := by
      obtain ⟨o, c0, t0, _, ht0, _, hc0, _⟩ := (stepReq_spec (r := .rev v e q) ha hd hr).1 s1 hs
      refine Classical.byContradiction fun hne => ?_
      have g1 := hk.2.1.other e (Ne.symm hne)
      have g2 := ht0.length
      rw [hc0, g1] at g2
      omega
    subst hce
    obtain ⟨p, h1, h2, h3⟩ := hp
    cases hg2 : getChipAndTag m' s'.tagsAvail c q.tag with
    | error er => exact absurd hfree ((getChipAndTag_error hg2).2 c (hm.boards.mem _ hr) t hwant)
    | ok x =>
      obtain ⟨c2, t2, d2⟩ := x
      have hk2 := getChipAndTag_ok (hm.boards.mem _ hr) ha'.nodup hg2
      have hc2 : c2 = c := Classical.byContradiction fun hne => hk2.2.2.2 hne t hwant hfree
      subst hc2
      cases hq : getPort s'.portsAvail c2 q.port with
      | error er =>
        exfalso
        unfold getPort at hq h1
        cases hw : q.port with
        | some w => rw [hw] at hq; cases hq
        | none =>
          rw [hw] at hq h1
          simp only at hq h1
          cases hl : (avail boardPorts s'.portsAvail c2).getLast? with
          | some u => rw [hl] at hq; cases hq
          | none =>
            rw [List.getLast?_eq_none_iff] at hl
            cases hl' : (avail boardPorts s.portsAvail c2).getLast? with
            | none => rw [hl'] at h1; cases h1
            | some u =>
              have := h.pool c2 hr u (List.mem_of_getLast? hl')
              rw [hl] at this
              cases this
      | ok y =>
        obtain ⟨p2, d2'⟩ := y
        have hnp : (m'.addr c2, p2) ∉ s'.tags.ports := by
          intro hin
          rw [hm.addr] at hin
          rcases port_same h hr h1 hq with heq | ⟨hn, hno, _⟩
          · rw [heq] at hin
            exact h2 (h.ports _ hin)
          · rcases getPort_ok hq with ⟨_, hsome, _, _⟩ | ⟨_, l, hl, _⟩
            · rw [hn] at hsome; cases hsome
            · exact hno (h.apart c2 hr p2 hin (by rw [hl]; simp))
        have hnk : ¬ InUse s'.tags (m'.addr c2, t2) := by
          intro hin
          obtain ⟨o, ho, hko⟩ := (inUse_iff ha'.inv _).1 hin
          exact ha'.free c2 (hm.boards.mem _ hr) t2 hk2.2.1.mem o ho hko
        have hadd : ∃ t', addRev s'.tags ⟨m'.addr c2, t2, some p2⟩ v = .ok t' := by
          unfold addRev
          simp only
          unfold InUse at hnk
          rw [if_neg hnk, if_neg hnp]
          exact ⟨_, rfl⟩
        obtain ⟨t', hadd⟩ := hadd
        refine ⟨⟨d2, d2', t'⟩, ?_⟩
        unfold stepReq allocRev
        simp only [bind, Except.bind, pure, Except.pure, hg2, hq, hadd]

theorem fold_less {m m' : Machine} (hm : More m m') (hd : ∀ a ∈ m.eths, ∀ b ∈ m.eths, m.addr a = m.addr b → a = b)
    {rs rs' : List Req} (hsub : rs'.Sublist rs) : ∀ {s s' s1 : State} {done done' : List Req} {acc acc' : List Op},
    (∀ r ∈ rs, r.eth ∈ m.eths) → Beside m s s' → AInv m s done acc → AInv m' s' done' acc' →
    foldE (stepReq m) s rs = .ok s1 → ∃ s1', foldE (stepReq m') s' rs' = .ok s1' := by
  induction hsub with
  | slnil => intro s s' _ _ _ _ _ _ _ _ _ _; exact ⟨s', rfl⟩
  | cons r _ ih =>
    intro s s' s1 done done' acc acc' he hb ha ha' hf
    rw [foldE] at hf
    cases hs : stepReq m s r with
    | error e => rw [hs] at hf; cases hf
    | ok s2 =>
      rw [hs] at hf
      have hr := he r List.mem_cons_self
      obtain ⟨o, _, _, h1, _⟩ := (stepReq_spec ha hd hr).1 s2 hs
      exact ih (fun x hx => he x (List.mem_cons_of_mem _ hx)) (hb.skip hs) h1 ha' hf
  | cons_cons r _ ih =>
    intro s s' s1 done done' acc acc' he hb ha ha' hf
    rw [foldE] at hf
    cases hs : stepReq m s r with
    | error e => rw [hs] at hf; cases hf
    | ok s2 =>
      rw [hs] at hf
      have hr := he r List.mem_cons_self
      obtain ⟨s2', hs'⟩ := hb.step hm hd ha ha' hr hs
      obtain ⟨o, _, _, h1, _⟩ := (stepReq_spec ha hd hr).1 s2 hs
      obtain ⟨o', _, _, h1', _⟩ := (stepReq_spec ha' hm.distinct (hm.boards.mem _ hr)).1 s2' hs'
      rw [foldE, hs']
      exact ih (fun x hx => he x (List.mem_cons_of_mem _ hx)) (hb.keep hm hd ha ha' hr hs hs') h1 h1' hf

/-! ### The property -/

theorem more_or_less {m m' : Machine} (hm : More m m') {ps ps' : List Placed} (hs : Sound m ps)
    (hsub : (requests ps').Sublist (requests ps)) {t : Tags} (h : allocate m ps = .ok t) :
    ∃ t', allocate m' ps' = .ok t' := by
  rw [allocate_eq] at h
  cases hf : foldE (stepReq m) init (requests ps) with
  | error e => rw [hf] at h; cases h
  | ok s =>
    obtain ⟨s', hs'⟩ := fold_less hm hs.distinct hsub (requests_eth hs) (beside_init m) (ainv_init m) (ainv_init m') hf
    exact ⟨s'.tags, by rw [allocate_eq, hs']; rfl⟩

/-- **C151**: the requests of the second, in the same order, are some of those of the first. -/
theorem C151_requests {m : Machine} {ps ps' : List Placed} (hs : Sound m ps)
    (hsub : (requests ps').Sublist (requests ps)) {t : Tags} (h : allocate m ps = .ok t) :
    ∃ t', allocate m ps' = .ok t' :=
  more_or_less (More.refl hs.distinct) hs hsub h

/-- **C151** for vertices: some of them are left out. -/
theorem C151_vertices {m : Machine} {ps ps' : List Placed} (hs : Sound m ps) (hsub : ps'.Sublist ps) {t : Tags}
    (h : allocate m ps = .ok t) : ∃ t', allocate m ps' = .ok t' := by
  refine C151_requests hs ?_ h
  unfold requests
  clear hs h
  induction hsub with
  | slnil => exact List.Sublist.refl _
  | cons a _ ih =>
    rw [List.flatMap_cons]
    exact ih.trans (List.sublist_append_right _ _)
  | cons_cons a _ ih =>
    rw [List.flatMap_cons, List.flatMap_cons]
    exact (List.Sublist.refl _).append ih

theorem fold_grows {m : Machine} (hd : ∀ a ∈ m.eths, ∀ b ∈ m.eths, m.addr a = m.addr b → a = b) :
    ∀ (rs : List Req) {s s1 : State} {done : List Req} {acc : List Op}, (∀ r ∈ rs, r.eth ∈ m.eths) →
    AInv m s done acc → foldE (stepReq m) s rs = .ok s1 → ∃ more, AInv m s1 (done ++ rs) (acc ++ more) := by
  intro rs
  induction rs with
  | nil =>
    intro s s1 done acc _ ha hf
    cases hf
    exact ⟨[], by simpa using ha⟩
  | cons r rs ih =>
    intro s s1 done acc he ha hf
    rw [foldE] at hf
    cases hs : stepReq m s r with
    | error e => rw [hs] at hf; cases hf
    | ok s2 =>
      rw [hs] at hf
      obtain ⟨o, _, _, h1, _⟩ := (stepReq_spec ha hd (he r List.mem_cons_self)).1 s2 hs
      obtain ⟨more, h2⟩ := ih (fun x hx => he x (List.mem_cons_of_mem _ hx)) h1 hf
      refine ⟨o :: more, ?_⟩
      simpa using h2

/-- **C151** when those that are left out come last: the others keep the tags they had. -/
theorem C151_first {m : Machine} {ps qs : List Placed} (hs : Sound m (ps ++ qs)) {t : Tags}
    (h : allocate m (ps ++ qs) = .ok t) :
    ∃ t', allocate m ps = .ok t' ∧ t'.ipBy <+: t.ipBy ∧ t'.revBy <+: t.revBy := by
  have hre := requests_eth hs
  rw [allocate_eq] at h
  have hq : requests (ps ++ qs) = requests ps ++ requests qs := List.flatMap_append
  rw [hq, foldE_append] at h
  rw [hq] at hre
  cases hf : foldE (stepReq m) init (requests ps) with
  | error e => rw [hf] at h; cases h
  | ok s =>
    rw [hf] at h
    simp only [Except.bind] at h
    cases hg : foldE (stepReq m) s (requests qs) with
    | error e => rw [hg] at h; cases h
    | ok s1 =>
      rw [hg] at h
      cases h
      obtain ⟨acc, ha⟩ := fold_grows hs.distinct _ (fun r hr => hre r (List.mem_append_left _ hr)) (ainv_init m) hf
      obtain ⟨more, hb⟩ := fold_grows hs.distinct _ (fun r hr => hre r (List.mem_append_right _ hr)) ha hg
      refine ⟨s.tags, by rw [allocate_eq, hf]; rfl, ?_, ?_⟩
      · rw [ha.inv.ipBy, hb.inv.ipBy]
        exact ⟨ipUses more, by simp [ipUses]⟩
      · rw [ha.inv.revBy, hb.inv.revBy]
        exact ⟨revUses more, by simp [revUses]⟩

/-- Otherwise the others may be given other tags: the second vertex has tag 6, and tag 7 without the first. -/
theorem C151_same_false : ∃ (m : Machine) (p q : Placed) (t t' : Tags), Sound m [p, q] ∧
    allocate m [p, q] = .ok t ∧ allocate m [q] = .ok t' ∧
    t.ipBy = [(0, m.addr 0, 7), (1, m.addr 0, 6)] ∧ t'.ipBy = [(1, m.addr 0, 7)] :=
  ⟨⟨[0], fun _ => 0⟩, ⟨0, 0, [⟨1, none, true, none⟩], []⟩, ⟨1, 0, [⟨1, none, true, none⟩], []⟩, _, _,
    ⟨by decide, by decide⟩, rfl, rfl, rfl, rfl⟩

/-- A requested port of the pool, tags that spill to the other board, a tag that is requested late. -/
def crowded : List Placed :=
  [⟨20, 0, [⟨9, some 50, true, none⟩], [⟨some 17998, none⟩, ⟨none, none⟩]⟩,
   ⟨21, 0, List.replicate 6 ⟨8, some 60, true, none⟩, []⟩,
   ⟨22, 0, [⟨7, none, true, some 4⟩], []⟩]

/-- The case: vertex 21 is left out, or the vertex that the port is requested by. The tag that vertex 22
requests is then on its own board; with all of them it is on the other board. -/
example : Sound twoBoards crowded ∧ (allocate twoBoards crowded).toOption.map (·.ipBy.getLast?) = some (some (22, 101, 4)) ∧
    (allocate twoBoards (crowded.eraseIdx 1)).toOption.map (·.ipBy.getLast?) = some (some (22, 100, 4)) ∧
    (∃ t', allocate twoBoards (crowded.eraseIdx 1) = .ok t') ∧ (∃ t', allocate twoBoards (crowded.drop 1) = .ok t') ∧
    (∃ t', allocate twoBoards (crowded.take 2) = .ok t') := by
  have hs : Sound twoBoards crowded := by
    refine ⟨?_, by decide⟩
    intro a _ b _ h
    exact Nat.add_left_cancel h
  have hok : ∃ t, allocate twoBoards crowded = .ok t := by
    cases h : allocate twoBoards crowded with
    | ok t => exact ⟨t, rfl⟩
    | error e =>
      have : (allocate twoBoards crowded).isOk = true := by decide +kernel
      rw [h] at this
      cases this
  obtain ⟨t, ht⟩ := hok
  refine ⟨hs, by decide +kernel, by decide +kernel, C151_vertices hs (List.eraseIdx_sublist _ _) ht,
    C151_vertices hs (List.drop_sublist _ _) ht, ?_⟩
  obtain ⟨t', h, -⟩ := C151_first (ps := crowded.take 2) (qs := crowded.drop 2) hs ht
  exact ⟨t', h⟩

/-- **C152**: a machine with more boards, those of the first being in the same order. -/
theorem C152_boards {m m' : Machine} {ps : List Placed} (hs : Sound m ps) (hsub : m.eths.Sublist m'.eths)
    (hn : m'.eths.Nodup) (haddr : ∀ c, m'.addr c = m.addr c)
    (hd : ∀ a ∈ m'.eths, ∀ b ∈ m'.eths, m'.addr a = m'.addr b → a = b) {t : Tags} (h : allocate m ps = .ok t) :
    ∃ t', allocate m' ps = .ok t' :=
  more_or_less ⟨.inr ⟨hsub, hn⟩, funext haddr, hd⟩ hs (List.Sublist.refl _) h

/-- The order of the boards matters: the tags that spill over go to the first board with a tag left, and are
missing there. -/
theorem C152_order_false : ∃ (m m' : Machine) (ps : List Placed), Sound m ps ∧ Sound m' ps ∧
    m'.eths.Perm m.eths ∧ m'.addr = m.addr ∧ (∃ t, allocate m ps = .ok t) ∧
    allocate m' ps = .error .invalidParameter := by
  refine ⟨⟨[0, 2, 1], fun c => 100 + c⟩, ⟨[0, 1, 2], fun c => 100 + c⟩,
    [⟨20, 0, List.replicate 8 ⟨8, some 60, true, none⟩, []⟩, ⟨21, 1, [], [⟨some 12345, some 1⟩]⟩],
    ⟨fun a _ b _ h => Nat.add_left_cancel h, by decide⟩, ⟨fun a _ b _ h => Nat.add_left_cancel h, by decide⟩,
    by decide, rfl, ⟨_, rfl⟩, by decide +kernel⟩

/-- The case: a board comes between the two boards, and takes what spilled to the last one; vertex 22 is
now given its tag there. -/
def threeBoards : Machine := ⟨[0, 5, 1], fun c => 100 + c⟩

example : Sound twoBoards crowded ∧ twoBoards.eths.Sublist threeBoards.eths ∧ threeBoards.eths.Nodup ∧
    (allocate threeBoards crowded).toOption.map (·.ipBy.getLast?) = some (some (22, 105, 4)) ∧
    ∃ t', allocate threeBoards crowded = .ok t' := by
  have hs : Sound twoBoards crowded := ⟨fun a _ b _ h => Nat.add_left_cancel h, by decide⟩
  have hok : ∃ t, allocate twoBoards crowded = .ok t := by
    cases h : allocate twoBoards crowded with
    | ok t => exact ⟨t, rfl⟩
    | error e =>
      have : (allocate twoBoards crowded).isOk = true := by decide +kernel
      rw [h] at this
      cases this
  obtain ⟨t, ht⟩ := hok
  exact ⟨hs, by decide, by decide, by decide +kernel,
    C152_boards hs (by decide) (by decide) (fun _ => rfl) (fun a _ b _ h => Nat.add_left_cancel h) ht⟩

end Pacman.TagAlloc
