import Verif.Model.Base
/-
Lemmas on the model of Python dictionaries.
-/

namespace Pacman.Dict

variable {κ α : Type} [DecidableEq κ]

theorem get?_nil (k : κ) : Dict.get? ([] : Dict κ α) k = none := rfl

theorem get?_cons (p : κ × α) (d : Dict κ α) (k : κ) :
    Dict.get? (p :: d) k = if p.1 = k then some p.2 else Dict.get? d k := by
  unfold Dict.get?
  by_cases h : p.1 = k
  · rw [List.find?_cons_of_pos (by simpa using h), if_pos h]; rfl
  · rw [List.find?_cons_of_neg (by simpa using h), if_neg h]

theorem get?_set (d : Dict κ α) (k k' : κ) (v : α) :
    Dict.get? (Dict.set d k v) k' = if k = k' then some v else Dict.get? d k' := by
  induction d with
  | nil => rw [Dict.set, get?_cons]
  | cons p d ih =>
    rw [Dict.set]
    split
    · rename_i h
      rw [get?_cons, get?_cons]
      simp only [h]
      split <;> rfl
    · rename_i h
      rw [get?_cons, get?_cons, ih]
      by_cases h1 : p.1 = k'
      · rw [if_pos h1, if_pos h1, if_neg (fun hh => h (by rw [h1, hh]))]
      · rw [if_neg h1, if_neg h1]

theorem get?_set_self (d : Dict κ α) (k : κ) (v : α) : Dict.get? (Dict.set d k v) k = some v := by
  rw [get?_set, if_pos rfl]

theorem get?_set_ne (d : Dict κ α) {k k' : κ} (v : α) (h : k ≠ k') :
    Dict.get? (Dict.set d k v) k' = Dict.get? d k' := by
  rw [get?_set, if_neg h]

theorem get?_erase (d : Dict κ α) (k k' : κ) :
    Dict.get? (Dict.erase d k) k' = if k = k' then none else Dict.get? d k' := by
  induction d with
  | nil => unfold Dict.erase; simp [get?_nil]
  | cons p d ih =>
    unfold Dict.erase at *
    rw [List.filter_cons]
    split
    · rename_i h
      have h : p.1 ≠ k := by simpa using h
      rw [get?_cons, get?_cons, ih]
      by_cases h1 : p.1 = k'
      · rw [if_pos h1, if_pos h1, if_neg (fun hh => h (by rw [h1, hh]))]
      · rw [if_neg h1, if_neg h1]
    · rename_i h
      have h : p.1 = k := by simpa using h
      rw [ih, get?_cons]
      by_cases h1 : k = k'
      · rw [if_pos h1, if_pos h1]
      · rw [if_neg h1, if_neg h1, if_neg (by rw [h]; exact h1)]

/-- The keys of a dictionary. -/
abbrev keys (d : Dict κ α) : List κ := d.map (·.1)

theorem get?_eq_none {d : Dict κ α} {k : κ} : Dict.get? d k = none ↔ k ∉ keys d := by
  induction d with
  | nil => simp [get?_nil, keys]
  | cons p d ih =>
    rw [get?_cons]
    simp only [keys, List.map_cons, List.mem_cons, not_or] at *
    by_cases h : p.1 = k
    · simp [h]
    · rw [if_neg h, ih]; simp [Ne.symm h, eq_comm, h]

theorem mem_of_get? {d : Dict κ α} {k : κ} {v : α} (h : Dict.get? d k = some v) : (k, v) ∈ d := by
  induction d with
  | nil => simp [get?_nil] at h
  | cons p d ih =>
    rw [get?_cons] at h
    by_cases h1 : p.1 = k
    · rw [if_pos h1] at h
      simp only [Option.some.injEq] at h
      subst h1 h
      simp
    · rw [if_neg h1] at h
      simp [ih h]

theorem get?_of_mem {d : Dict κ α} (hn : (keys d).Nodup) {k : κ} {v : α} (h : (k, v) ∈ d) :
    Dict.get? d k = some v := by
  induction d with
  | nil => simp at h
  | cons p d ih =>
    simp only [keys, List.map_cons, List.nodup_cons] at hn
    rw [get?_cons]
    rw [List.mem_cons] at h
    rcases h with rfl | h
    · simp
    · rw [if_neg, ih hn.2 h]
      intro hp
      apply hn.1
      rw [hp]
      exact List.mem_map.2 ⟨(k, v), h, rfl⟩

theorem keys_set (d : Dict κ α) (k : κ) (v : α) :
    keys (Dict.set d k v) = if k ∈ keys d then keys d else keys d ++ [k] := by
  induction d with
  | nil => simp [Dict.set, keys]
  | cons p d ih =>
    rw [Dict.set]
    by_cases h : p.1 = k
    · rw [if_pos h]; subst h; simp [keys]
    · rw [if_neg h]
      simp only [keys, List.map_cons] at *
      rw [ih]
      by_cases h1 : k ∈ List.map (·.1) d
      · rw [if_pos h1, if_pos (List.mem_cons_of_mem _ h1)]
      · rw [if_neg h1, if_neg]
        · rfl
        · simp only [List.mem_cons, not_or]; exact ⟨fun h2 => h h2.symm, h1⟩

theorem mem_keys_set (d : Dict κ α) (k k' : κ) (v : α) :
    k' ∈ keys (Dict.set d k v) ↔ k' ∈ keys d ∨ k' = k := by
  rw [keys_set]
  split
  · rename_i h
    constructor
    · exact .inl
    · rintro (h' | rfl)
      · exact h'
      · exact h
  · rw [List.mem_append, List.mem_singleton]

theorem nodup_set {d : Dict κ α} (h : (keys d).Nodup) (k : κ) (v : α) :
    (keys (Dict.set d k v)).Nodup := by
  rw [keys_set]
  split
  · exact h
  · rename_i hk
    rw [List.nodup_append]
    refine ⟨h, by simp, ?_⟩
    intro a ha b hb
    rw [List.mem_singleton] at hb
    subst hb
    intro hab
    subst hab
    exact hk ha

theorem set_absent {d : Dict κ α} {k : κ} {v : α}
    (h : Dict.get? d k = none) : Dict.set d k v = d ++ [(k, v)] := by
  induction d with
  | nil => rfl
  | cons p d ih =>
    rw [get?_cons] at h
    by_cases hp : p.1 = k
    · rw [if_pos hp] at h; cases h
    · rw [if_neg hp] at h
      rw [Dict.set, if_neg hp, ih h]
      rfl

end Pacman.Dict
