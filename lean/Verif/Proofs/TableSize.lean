import Verif.Proofs.Blocks
/-
How many entries the generators make.
-/

namespace Pacman.Gen

open Alloc (VId)
open ByPart (REntry)
open Tables (UTable)

theorem splitLoop_length {A : AppInfo} {es : List (REntry × MInfo)} : ∀ (fuel i toGo : Nat) (xs : List Entry),
    splitLoop A es fuel i toGo = .ok xs → xs.length ≤ toGo := by
  intro fuel
  induction fuel with
  | zero => intro i toGo xs h; cases h
  | succ fuel ih =>
    intro i toGo xs h
    simp only [splitLoop] at h
    split at h
    · cases h; exact Nat.zero_le _
    · rename_i hne
      simp only [bind, Except.bind, pure, Except.pure] at h
      split at h
      · cases h
      · split at h
        · cases h
        · rename_i rest hrest
          cases h
          have h1 := ih _ _ _ hrest
          have h2 : 0 < 2 ^ toGo.log2 := Nat.two_pow_pos _
          simp only [List.length_cons]
          omega

theorem nSequential_pos (i n : Nat) : 0 < nSequential i n := by
  obtain ⟨t, h⟩ := Pipe.nSequential_pow i n
  rw [h]; exact Nat.two_pow_pos t

theorem mergeLoop_length {A : AppInfo} {es : List (REntry × MInfo)} {last : Bool} : ∀ (fuel i : Nat) (xs : List Entry),
    mergeLoop A es last fuel i = .ok xs → xs.length ≤ es.length - i := by
  intro fuel
  induction fuel with
  | zero => intro i xs h; cases h
  | succ fuel ih =>
    intro i xs h
    simp only [mergeLoop] at h
    split at h
    · rename_i hlt
      simp only [bind, Except.bind, pure, Except.pure] at h
      split at h
      · cases h
      · rename_i v hv
        split at h
        · split at h
          · cases h
          · split at h
            · cases h
            · rename_i rest hrest
              cases h
              have h1 := ih _ _ hrest
              have h2 := nSequential_pos v.2.index es.length
              simp only [List.length_cons]
              omega
        · exact splitLoop_length _ _ _ _ h
    · cases h; exact Nat.zero_le _

theorem merged_length {A : AppInfo} {es : List (REntry × MInfo)} {xs : List Entry}
    (h : mergedKeysAndMasks A es = .ok xs) : xs.length ≤ es.length := by
  unfold mergedKeysAndMasks at h
  split at h
  · cases h; exact Nat.zero_le _
  · simp only [bind, Except.bind, pure, Except.pure] at h
    split at h
    · cases h
    · cases h; exact Nat.le_refl _
  · unfold mergeEntries at h
    split at h
    · cases h
    · have := mergeLoop_length _ _ _ h
      omega

theorem takeRun_length {w : World} {A : AppInfo} (items : List Item) : ∀ (v p : Nat) (i : MInfo) (e : REntry)
    (r : List (REntry × MInfo) × List Item), takeRun w A v p i e items = .ok r →
    r.1.length + r.2.length = items.length := by
  induction items with
  | nil => intro v p i e r h; simp only [takeRun] at h; cases h; rfl
  | cons it items ih =>
    obtain ⟨⟨next, nextPart⟩, nextEntry⟩ := it
    intro v p i e r h
    simp only [takeRun, bind, Except.bind, pure, Except.pure] at h
    split at h
    · cases h
    · split at h
      · split at h
        · cases h
        · split at h
          · cases h
          · rename_i r' hr'
            cases h
            have := ih _ _ _ _ _ hr'
            simp only [List.length_cons]
            omega
      · cases h
        simp

theorem mergedRound_length {w : World} {src : VId × Nat} {e : REntry} {items : List Item} {r : List Entry × List Item}
    (h : mergedRound w src e items = .ok r) : r.1.length + r.2.length ≤ items.length + 1 := by
  unfold mergedRound at h
  simp only [bind, Except.bind, pure, Except.pure] at h
  split at h
  · split at h
    · cases h
    · split at h
      · cases h
      · cases h; simp only [List.length_singleton]; omega
  · split at h
    · cases h
    · split at h
      · split at h
        · cases h
        · cases h; simp only [List.length_singleton]; omega
      · split at h
        · cases h
        · split at h
          · cases h
          · rename_i r' hr'
            split at h
            · cases h
            · rename_i xs hxs
              cases h
              have h1 := merged_length hxs
              have h2 := takeRun_length _ _ _ _ _ _ hr'
              simp only [List.length_cons] at h1 ⊢
              omega

theorem add_length {same : Entry → Entry → Bool} {t t' : UTable} {e : Entry} (h : t.add same e = .ok t') :
    t'.entries.length ≤ t.entries.length + 1 := by
  unfold UTable.add at h
  split at h
  · split at h
    · cases h; omega
    · cases h
  · rename_i hn
    cases h
    simp only [Dict.set_new hn, List.length_append, List.length_singleton]
    exact Nat.le_refl _

theorem addAll_length {same : Entry → Entry → Bool} (xs : List Entry) : ∀ {t t' : UTable},
    UTable.addAll same t xs = .ok t' → t'.entries.length ≤ t.entries.length + xs.length := by
  induction xs with
  | nil => intro t t' h; simp only [UTable.addAll] at h; cases h; exact Nat.le_refl _
  | cons e xs ih =>
    intro t t' h
    simp only [UTable.addAll] at h
    split at h
    · cases h
    · rename_i t1 h1
      have h2 := ih h
      have h3 := add_length h1
      simp only [List.length_cons]
      omega

theorem basicLoop_length {same : Entry → Entry → Bool} {w : World} (items : List Item) : ∀ (s : Sources) (t t' : UTable),
    basicLoop same w items s t = .ok t' → t'.entries.length ≤ t.entries.length + items.length := by
  induction items with
  | nil => intro s t t' h; simp only [basicLoop] at h; cases h; exact Nat.le_refl _
  | cons it items ih =>
    obtain ⟨src, e⟩ := it
    intro s t t' h
    simp only [basicLoop, bind, Except.bind] at h
    split at h
    · cases h
    · split at h
      · cases h
      · split at h
        · cases h
        · split at h
          · cases h
          · rename_i t1 h1
            have h2 := ih _ _ _ h
            have h3 := add_length h1
            simp only [List.length_cons]
            omega

theorem mergedLoop_length {same : Entry → Entry → Bool} {w : World} : ∀ (fuel : Nat) (items : List Item) (s : Sources)
    (t t' : UTable), mergedLoop same w fuel items s t = .ok t' → t'.entries.length ≤ t.entries.length + items.length := by
  intro fuel
  induction fuel with
  | zero => intro items s t t' h; cases items <;> cases h
  | succ fuel ih =>
    intro items s t t' h
    cases items with
    | nil => simp only [mergedLoop] at h; cases h; exact Nat.le_refl _
    | cons it items =>
      obtain ⟨src, e⟩ := it
      simp only [mergedLoop, bind, Except.bind] at h
      split at h
      · cases h
      · split at h
        · cases h
        · split at h
          · cases h
          · rename_i r hr
            split at h
            · cases h
            · rename_i t1 h1
              have h2 := ih _ _ _ _ h
              have h3 := addAll_length _ h1
              have h4 := mergedRound_length hr
              simp only [List.length_cons]
              omega

end Pacman.Gen

namespace Pacman.Pipe

open Tables (UTable TablesMap tablesOf addTable)
open Gen (Item)

theorem create_length {g : Generator} {same : Entry → Entry → Bool} {w : Gen.World} {x y : Nat} {items : List Item}
    {t : UTable} (h : g.create same w x y items = .ok t) : t.entries.length ≤ items.length := by
  cases g with
  | basic =>
    have := Gen.basicLoop_length _ _ _ _ h
    simpa [UTable.empty] using this
  | merged =>
    have := Gen.mergedLoop_length _ _ _ _ _ h
    simpa [UTable.empty] using this

theorem generateLoop_length {g : Generator} {same : Entry → Entry → Bool} {w : Gen.World} (S : ByPart.State) :
    ∀ (m m' : TablesMap), generateLoop g same w S m = .ok m' →
    ∀ t ∈ tablesOf m', t ∈ tablesOf m ∨ ∃ x ∈ S, t.numberOfEntries ≤ x.2.length := by
  induction S with
  | nil => intro m m' h t ht; simp only [generateLoop] at h; cases h; exact Or.inl ht
  | cons x S ih =>
    obtain ⟨c, items⟩ := x
    intro m m' h t ht
    simp only [generateLoop] at h
    split at h
    · cases h
    · rename_i u hu
      split at h
      · cases h
      · rename_i m1 h1
        rcases ih _ _ h t ht with h2 | ⟨x, hx, h2⟩
        · unfold addTable at h1
          split at h1
          · cases h1
          · cases h1
            obtain ⟨p, hp, rfl⟩ := List.mem_map.mp h2
            rcases Router.mem_set hp with hp | rfl
            · exact Or.inl (List.mem_map_of_mem hp)
            · exact Or.inr ⟨(c, items), List.mem_cons_self, create_length hu⟩
        · exact Or.inr ⟨x, List.mem_cons_of_mem _ hx, h2⟩

end Pacman.Pipe
