import Verif.Model.RoutingTables
import Verif.Proofs.Dict
/-
Helper lemmas on routing tables.
-/

namespace Pacman.Dict

variable {κ α : Type} [DecidableEq κ]

theorem set_new {d : Dict κ α} {k : κ} (h : Dict.get? d k = none) (v : α) :
    Dict.set d k v = d ++ [(k, v)] := by
  induction d with
  | nil => rfl
  | cons p d ih =>
    rw [get?_cons] at h
    rw [Dict.set]
    split at h
    · simp at h
    · rename_i hp
      rw [if_neg hp, ih h]; rfl

theorem set_twice (d : Dict κ α) (k : κ) (v w : α) :
    Dict.set (Dict.set d k v) k w = Dict.set d k w := by
  induction d with
  | nil => simp [Dict.set]
  | cons p d ih =>
    rw [Dict.set]
    split
    · rename_i h; rw [Dict.set, if_pos rfl, Dict.set, if_pos h]
    · rename_i h; rw [Dict.set, if_neg h, Dict.set, if_neg h, ih]

end Pacman.Dict

namespace Pacman.Tables

/-- What holds of every uncompressed table. -/
structure UInv (t : UTable) : Prop where
  nodup : (Dict.keys t.entries).Nodup
  own : ∀ p ∈ t.entries, p.1 = (p.2.key, p.2.mask)
  count : t.nDefaulted = t.entries.countP (fun p => p.2.defaultable)

theorem uinv_empty (x y : Nat) : UInv (UTable.empty x y) :=
  ⟨by simp [UTable.empty, Dict.keys], by simp [UTable.empty], by simp [UTable.empty]⟩

theorem uinv_add {same : Entry → Entry → Bool} {t t' : UTable} {e : Entry} (hI : UInv t)
    (h : t.add same e = .ok t') : UInv t' := by
  unfold UTable.add at h
  split at h
  · split at h
    · simp only [Except.ok.injEq] at h; subst h; exact hI
    · simp at h
  · rename_i hn
    simp only [Except.ok.injEq] at h
    subst h
    refine ⟨Dict.nodup_set hI.nodup _ _, ?_, ?_⟩
    · intro p hp
      simp only [Dict.set_new hn, List.mem_append, List.mem_singleton] at hp
      rcases hp with hp | rfl
      · exact hI.own p hp
      · rfl
    · simp only [Dict.set_new hn, List.countP_append, List.countP_singleton, hI.count]
      split <;> rfl

theorem keys_eq_of_uinv {t : UTable} (hI : UInv t) :
    Dict.keys t.entries = t.values.map (fun e => (e.key, e.mask)) := by
  unfold Dict.keys UTable.values
  rw [List.map_map]
  apply List.map_congr_left
  intro p hp
  exact hI.own p hp

theorem values_eq {t : UTable} (hI : UInv t) :
    t.entries = t.values.map (fun e => ((e.key, e.mask), e)) := by
  unfold UTable.values
  rw [List.map_map]
  conv => lhs; rw [← List.map_id t.entries]
  apply List.map_congr_left
  intro p hp
  have := hI.own p hp
  simp only [id, Function.comp]
  rw [← this]

theorem maxOf_spec (l : List Nat) : (∀ a ∈ l, a ≤ maxOf l) ∧ (l ≠ [] → maxOf l ∈ l) := by
  induction l with
  | nil => simp
  | cons a l ih =>
    refine ⟨?_, ?_⟩
    · intro b hb
      rw [List.mem_cons] at hb
      rw [maxOf]
      rcases hb with rfl | hb
      · exact Nat.le_max_left _ _
      · exact Nat.le_trans (ih.1 b hb) (Nat.le_max_right _ _)
    · intro _
      rw [maxOf]
      by_cases hl : l = []
      · subst hl
        have : Nat.max a (maxOf []) = a := Nat.max_eq_left (Nat.zero_le _)
        rw [this]; simp
      · rcases Nat.le_total a (maxOf l) with h | h
        · have : Nat.max a (maxOf l) = maxOf l := Nat.max_eq_right h
          rw [this]; exact List.mem_cons_of_mem _ (ih.2 hl)
        · have : Nat.max a (maxOf l) = a := Nat.max_eq_left h
          rw [this]; simp

theorem nodup_append_cons {α : Type} {l r : List α} {a : α} (h : (l ++ a :: r).Nodup) :
    a ∉ l := by
  rw [List.nodup_append] at h
  intro ha
  exact h.2.2 a ha a (by simp) rfl

theorem fromJsonEntries_ok (same : Entry → Entry → Bool) (x y : Nat) :
    ∀ (es : List Entry) (t : UTable), t.x = x → t.y = y →
      (∀ e ∈ es, e.key &&& e.mask = e.key) →
      ((Dict.keys t.entries) ++ es.map (fun e => (e.key, e.mask))).Nodup →
      fromJsonEntries same t (es.map (fun e => (e.key.toNat, e.mask.toNat, e.defaultable, e.route)))
        = .ok ⟨x, y, t.entries ++ es.map (fun e => ((e.key, e.mask), e)),
          t.nDefaulted + es.countP (fun e => e.defaultable)⟩ := by
  intro es
  induction es with
  | nil => intro t hx hy _ _; subst hx hy; simp [fromJsonEntries]
  | cons e es ih =>
    intro t hx hy hv hn
    rw [List.map_cons, fromJsonEntries]
    have hmk : mkEntry e.key.toNat e.mask.toNat e.defaultable e.route = .ok e := by
      unfold mkEntry
      simp only [BitVec.ofNat_toNat, BitVec.setWidth_eq]
      rw [if_pos (hv e (by simp))]
    rw [hmk]
    simp only
    have hg : Dict.get? t.entries (e.key, e.mask) = none := by
      rw [Dict.get?_eq_none]
      rw [List.map_cons] at hn
      exact nodup_append_cons hn
    have hadd : t.add same e = .ok ⟨x, y, t.entries ++ [((e.key, e.mask), e)],
        if e.defaultable then t.nDefaulted + 1 else t.nDefaulted⟩ := by
      unfold UTable.add
      rw [hg]
      simp only [Dict.set_new hg, hx, hy]
    rw [hadd]
    simp only
    rw [ih _ rfl rfl (fun e' he' => hv e' (by simp [he']))]
    · simp only [List.append_assoc, List.singleton_append, List.map_cons, List.countP_cons]
      congr 2
      split <;> omega
    · simp only [Dict.keys, List.map_append, List.map_cons, List.map_nil, List.append_assoc,
        List.singleton_append]
      exact hn

/-- What holds of every collection of uncompressed tables. -/
structure MInv (m : TablesMap) : Prop where
  nodup : (Dict.keys m).Nodup
  own : ∀ p ∈ m, p.1 = p.2.xy

theorem minv_nil : MInv [] := ⟨by simp [Dict.keys], by simp⟩

theorem addTable_ok {m m' : TablesMap} {t : Table} (h : addTable m t = .ok m') :
    m.get? t.xy = none ∧ m' = m ++ [(t.xy, t)] := by
  unfold addTable at h
  split at h
  · simp at h
  · rename_i hn
    simp only [Except.ok.injEq] at h
    exact ⟨hn, by rw [← h, Dict.set_new hn]⟩

theorem minv_add {m m' : TablesMap} {t : Table} (hI : MInv m) (h : addTable m t = .ok m') :
    MInv m' := by
  obtain ⟨hn, rfl⟩ := addTable_ok h
  refine ⟨?_, ?_⟩
  · have := Dict.nodup_set hI.nodup t.xy t
    rwa [Dict.set_new hn] at this
  · intro p hp
    rw [List.mem_append, List.mem_singleton] at hp
    rcases hp with hp | rfl
    · exact hI.own p hp
    · rfl

theorem fromJson_ok (same : Entry → Entry → Bool) :
    ∀ (ts m : TablesMap), MInv (m ++ ts) →
      (∀ p ∈ ts, ∃ u, p.2 = .u u ∧ UInv u ∧ ∀ e ∈ u.values, e.key &&& e.mask = e.key) →
      fromJson same m (toJson ts) = .ok (m ++ ts) := by
  intro ts
  induction ts with
  | nil => intro m _ _; simp [toJson, tablesOf, fromJson]
  | cons p ts ih =>
    intro m hI hts
    obtain ⟨u, hp, hu, hv⟩ := hts p (by simp)
    obtain ⟨k, t⟩ := p
    simp only at hp
    subst hp
    have hk : k = (u.x, u.y) := hI.own (k, .u u) (by simp)
    subst hk
    have hg : Dict.get? m (u.x, u.y) = none := by
      rw [Dict.get?_eq_none]
      have := hI.nodup
      simp only [Dict.keys, List.map_append, List.map_cons] at this
      exact nodup_append_cons this
    rw [show toJson (((u.x, u.y), Table.u u) :: ts) = ⟨u.x, u.y, u.values.map
      (fun e => (e.key.toNat, e.mask.toNat, e.defaultable, e.route))⟩ :: toJson ts from rfl, fromJson]
    have hadd : addTable m (.u (UTable.empty u.x u.y)) =
        .ok (m ++ [((u.x, u.y), .u (UTable.empty u.x u.y))]) := by
      unfold addTable
      simp only [Table.xy, UTable.empty]
      rw [hg]
      simp only [Dict.set_new hg]
    simp only
    rw [hadd]
    simp only
    rw [fromJsonEntries_ok same u.x u.y u.values (UTable.empty u.x u.y) rfl rfl hv
      (by
        simp only [UTable.empty, Dict.keys, List.map_nil, List.nil_append]
        have := hu.nodup
        rwa [keys_eq_of_uinv hu] at this)]
    simp only
    have hcnt : (UTable.empty u.x u.y).nDefaulted + u.values.countP (fun e => e.defaultable)
        = u.nDefaulted := by
      rw [hu.count]
      simp [UTable.empty, UTable.values, List.countP_map, Function.comp_def]
    have heq : (⟨u.x, u.y, (UTable.empty u.x u.y).entries ++
        u.values.map (fun e => ((e.key, e.mask), e)),
        (UTable.empty u.x u.y).nDefaulted + u.values.countP (fun e => e.defaultable)⟩ : UTable) = u := by
      rw [hcnt, ← values_eq hu]
      rfl
    rw [heq]
    have hset : Dict.set (m ++ [((u.x, u.y), Table.u (UTable.empty u.x u.y))]) (u.x, u.y) (.u u) =
        m ++ [((u.x, u.y), .u u)] := by
      rw [← Dict.set_new hg (Table.u (UTable.empty u.x u.y)), Dict.set_twice, Dict.set_new hg]
    rw [hset]
    have := ih (m ++ [((u.x, u.y), .u u)]) (by simpa using hI) (fun p hp => hts p (by simp [hp]))
    rw [this]
    simp

end Pacman.Tables
