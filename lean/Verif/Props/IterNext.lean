import Verif.Spec.IterNext
import Verif.Props.Generators
/-
C129: the iterator with `peek` of the merged generator reads the items of its iterable.
-/

namespace Pacman.Iter

open Gen (World MInfo AppInfo Item Sources)
open ByPart (REntry)
open Tables (UTable)

variable {σ β : Type} {next : σ → Out β × σ}

/-- The object stands before the items `l`. -/
def Holds (next : σ → Out β × σ) (it : It σ β) : List β → Prop
  | [] => it.has = false ∧ it.nxt = none
  | x :: l => it.has = true ∧ it.nxt = some x ∧ Gives next it.src l

theorem Holds.hasNext {it : It σ β} : ∀ {l : List β}, Holds next it l → it.has = !l.isEmpty
  | [], h => h.1
  | _ :: _, h => h.1

theorem Holds.peek {it : It σ β} : ∀ {l : List β}, Holds next it l → it.nxt = l.head?
  | [], h => h.2
  | _ :: _, h => h.2.1

theorem init_holds {s : σ} {l : List β} (h : Gives next s l) : ∃ it, init next s = .ok it ∧ Holds next it l := by
  cases h with
  | stop h =>
    cases hn : next s with
    | mk o s' =>
      rw [hn] at h
      subst h
      exact ⟨⟨s', none, false⟩, by unfold init; rw [hn], rfl, rfl⟩
  | item hn h =>
    exact ⟨_, by unfold init; rw [hn], rfl, rfl, h⟩

theorem Holds.pop {it : It σ β} {x : β} {l : List β} (h : Holds next it (x :: l)) :
    ∃ it', Iter.pop next it = (it', .ok x) ∧ Holds next it' l ∧ it'.src = (next it.src).2 := by
  obtain ⟨h1, h2, h3⟩ := h
  cases h3 with
  | stop h3 =>
    cases hn : next it.src with
    | mk o s' =>
      rw [hn] at h3
      subst h3
      refine ⟨⟨s', none, false⟩, ?_, ⟨rfl, rfl⟩, rfl⟩
      unfold Iter.pop
      rw [if_neg (by rw [h1]; decide), h2]
      simp only [hn]
  | item hn h3 =>
    rename_i s' y l
    refine ⟨⟨s', some y, true⟩, ?_, ⟨rfl, rfl, h3⟩, by rw [hn]⟩
    unfold Iter.pop
    rw [if_neg (by rw [h1]; decide), h2]
    simp only [hn]

theorem Holds.end_ {it : It σ β} (h : Holds next it []) : Iter.pop next it = (it, .error .stopIteration) := by
  unfold Iter.pop
  rw [if_pos h.1]

/-- C129: over an iterable that gives the items `l`, none of which is `None`, all calls in any order return what one reads from
the list: `peek` the first item left or `None`, `has_next` if there is one, `pop` takes it or raises `StopIteration`.
Missing: iterables with `None` (`C129_none`) and those that raise (`C129_raise`, `C129_prefix_partial`). -/
theorem C129_calls_partial {s : σ} {l : List β} (h : Gives next s l) :
    ∃ it, init next s = .ok it ∧ ∀ cs, (run next it cs).2 = view l cs := by
  obtain ⟨it, h1, h2⟩ := init_holds h
  refine ⟨it, h1, fun cs => ?_⟩
  clear h h1
  induction cs generalizing it l with
  | nil => cases l <;> rfl
  | cons c cs ih =>
    cases c with
    | peek => unfold run view; rw [ih it h2, Iter.peek, h2.peek]
    | hasNext => unfold run view; rw [ih it h2, Iter.hasNext, h2.hasNext]
    | pop =>
      cases l with
      | nil => unfold run view; rw [h2.end_, ih it h2]
      | cons x l =>
        obtain ⟨it', h3, h4, -⟩ := h2.pop
        unfold run view
        rw [h3, ih it' h4]

/-- An iterator that counts up to `n` and stops; asked once more it starts again. -/
def countTo (n s : Nat) : Out Nat × Nat := if s < n then (.item (some s), s + 1) else (.stop, 0)

example : ∃ it, init (countTo 2) 0 = .ok it ∧ (run (countTo 2) it [.peek, .pop, .pop, .hasNext, .peek, .pop, .pop]).2 =
    [.peeked (some 0), .popped (.ok 0), .popped (.ok 1), .has false, .peeked none, .popped (.error .stopIteration),
      .popped (.error .stopIteration)] := by
  obtain ⟨it, h1, h2⟩ := C129_calls_partial (next := countTo 2) (s := 0) (l := [0, 1])
    (.item (s' := 1) rfl (.item (s' := 2) rfl (.stop rfl)))
  exact ⟨it, h1, h2 _⟩

theorem asked_succ (n : Nat) (s : σ) : asked next (n + 1) s = (next (asked next n s)).2 := by
  induction n generalizing s with
  | zero => rfl
  | succ n ih =>
    rw [asked, ih, asked]

/-- C129: the iterable is asked for one item more than have been taken, and never again once it has stopped. -/
theorem C129_ahead {s : σ} {l : List β} (h : Gives next s l) {it : It σ β} (hi : init next s = .ok it) (cs : List Call) :
    (run next it cs).1.src = asked next (min (pops cs) l.length + 1) s := by
  obtain ⟨it', h1, h2⟩ := init_holds h
  rw [hi] at h1
  injection h1 with h1
  subst h1
  have h0 : it.src = asked next 1 s := by
    unfold init at hi
    cases hn : next s with
    | mk o s' =>
      rw [hn] at hi
      cases o with
      | item x => injection hi with hi; rw [← hi]; show s' = (next s).2; rw [hn]
      | stop => injection hi with hi; rw [← hi]; show s' = (next s).2; rw [hn]
      | raise e => cases hi
  have hgen : ∀ (cs : List Call) (it : It σ β) (l : List β) (n : Nat), Holds next it l → it.src = asked next n s →
      (run next it cs).1.src = asked next (min (pops cs) l.length + n) s := by
    intro cs
    induction cs with
    | nil => intro it l n _ h; unfold run pops; rw [Nat.zero_min, Nat.zero_add]; exact h
    | cons c cs ih =>
      intro it l n hH hs
      cases c with
      | peek => exact ih it l n hH hs
      | hasNext => exact ih it l n hH hs
      | pop =>
        cases l with
        | nil =>
          have := ih it [] n hH hs
          unfold run
          rw [hH.end_]
          simp only [this, List.length_nil, Nat.min_zero]
        | cons x l =>
          obtain ⟨it', h3, h4, h5⟩ := hH.pop
          have := ih it' l (n + 1) h4 (by rw [h5, hs, asked_succ])
          unfold run pops
          rw [h3]
          simp only [this, List.length_cons]
          congr 1
          omega
  exact hgen cs it l 1 h2 h0

example {it : It Nat Nat} (h : init (countTo 2) 0 = .ok it) : (run (countTo 2) it [.peek, .pop, .hasNext]).1.src = 2 ∧
    (run (countTo 2) it [.pop, .pop, .pop, .pop]).1.src = 0 :=
  have hg : Gives (countTo 2) 0 [0, 1] := .item (s' := 1) rfl (.item (s' := 2) rfl (.stop rfl))
  ⟨C129_ahead hg h _, C129_ahead hg h _⟩

/-- C129: of an iterable that goes on for ever, or raises later, as long as fewer items are taken than it has given. -/
theorem C129_prefix_partial {s : σ} {l : List β} (h : Starts next s l) (hl : l ≠ []) :
    ∃ it, init next s = .ok it ∧ ∀ cs, pops cs < l.length → (run next it cs).2 = view l cs := by
  cases h with
  | here => exact absurd rfl hl
  | item hn h =>
    rename_i s' x l
    refine ⟨⟨s', some x, true⟩, by unfold init; rw [hn], ?_⟩
    intro cs
    clear hn hl
    induction cs generalizing s' x l with
    | nil => intro _; rfl
    | cons c cs ih =>
      intro hc
      cases c with
      | peek => unfold run view; rw [ih h hc]; rfl
      | hasNext => unfold run view; rw [ih h hc]; rfl
      | pop =>
        unfold pops at hc
        cases h with
        | here => simp at hc
        | item hn h =>
          rename_i s2 y l
          have : pop next ⟨s', some x, true⟩ = (⟨s2, some y, true⟩, .ok x) := by
            unfold pop
            simp only [hn]
            rfl
          unfold run view
          rw [this, ih h (by simp only [List.length_cons] at hc ⊢; omega)]

/-- All numbers. -/
def count (s : Nat) : Out Nat × Nat := (.item (some s), s + 1)

example : ∃ it, init count 5 = .ok it ∧ (run count it [.pop, .peek, .pop, .hasNext]).2 =
    [.popped (.ok 5), .peeked (some 6), .popped (.ok 6), .has true] := by
  obtain ⟨it, h1, h2⟩ := C129_prefix_partial (next := count) (s := 5) (l := [5, 6, 7])
    (.item (s' := 6) rfl (.item (s' := 7) rfl (.item (s' := 8) rfl .here))) (by decide)
  exact ⟨it, h1, h2 _ (by decide)⟩

/-- An item that is `None` is never passed: `has_next` stays true, `peek` returns `None`, and each `pop` raises an
`AssertionError`. -/
theorem C129_none {s s' : σ} (h : next s = (.item none, s')) :
    ∃ it, init next s = .ok it ∧ ∀ n, (run next it (List.replicate n .pop ++ [.hasNext, .peek])).2 =
      List.replicate n (.popped (.error .assertion)) ++ [.has true, .peeked none] := by
  refine ⟨⟨s', none, true⟩, by unfold init; rw [h], fun n => ?_⟩
  induction n with
  | zero => rfl
  | succ n ih =>
    rw [List.replicate_succ, List.replicate_succ, List.cons_append, List.cons_append, ← ih]
    rfl

/-- The iterator of a list that may hold `None`. -/
def listNext (l : List (Option Nat)) : Out Nat × List (Option Nat) :=
  match l with
  | [] => (.stop, [])
  | x :: l => (.item x, l)

example : ∃ it, init listNext [none, some 7] = .ok it ∧ (run listNext it [.pop, .pop, .hasNext, .peek]).2 =
    [.popped (.error .assertion), .popped (.error .assertion), .has true, .peeked none] := by
  obtain ⟨it, h1, h2⟩ := C129_none (next := listNext) (s := [none, some 7]) rfl
  exact ⟨it, h1, h2 2⟩

/-- If the iterable raises after an item, this item is not returned by the `pop` that raises, but by the next one that does
not. -/
theorem C129_raise {s s1 s2 : σ} {x : β} {e : PyErr} (h : next s = (.item (some x), s1)) (h1 : next s1 = (.raise e, s2))
    (h2 : (next s2).1 = .stop) :
    ∃ it, init next s = .ok it ∧ (run next it [.pop, .hasNext, .pop, .pop]).2 =
      [.popped (.error (.raised e)), .has true, .popped (.ok x), .popped (.error .stopIteration)] := by
  refine ⟨⟨s1, some x, true⟩, by unfold init; rw [h], ?_⟩
  have h3 : pop next ⟨s1, some x, true⟩ = (⟨s2, some x, true⟩, .error (.raised e)) := by
    unfold pop
    simp only [h1]
    rfl
  have h4 : ∃ s3, pop next ⟨s2, some x, true⟩ = (⟨s3, none, false⟩, .ok x) := by
    cases hn : next s2 with
    | mk o s3 =>
      rw [hn] at h2
      subst h2
      refine ⟨s3, ?_⟩
      unfold pop
      simp only [hn]
      rfl
  obtain ⟨s3, h4⟩ := h4
  unfold run
  rw [h3]
  unfold run
  unfold run
  rw [h4]
  rfl

/-- A generator that yields 7, raises, and so ends. -/
def breaks (s : Nat) : Out Nat × Nat :=
  if s = 0 then (.item (some 7), 1) else if s = 1 then (.raise .keyError, 2) else (.stop, s)

example : ∃ it, init breaks 0 = .ok it ∧ (run breaks it [.pop, .hasNext, .pop, .pop]).2 =
    [.popped (.error (.raised .keyError)), .has true, .popped (.ok 7), .popped (.error .stopIteration)] :=
  C129_raise rfl rfl rfl

/-! ### The merged generator reads the items one after the other -/

section
variable {next : σ → Out Item × σ}

theorem matchIt_eq {w : World} {v p : Nat} {info : MInfo} {e : REntry} {app : AppInfo} {it : It σ Item} {l : List Item}
    (h : Holds next it l) : matchIt w v p info e app it = up (Gen.matchNext w v p info e app l) := by
  unfold matchIt Gen.matchNext hasNext peek
  rw [h.hasNext, h.peek]
  cases l with
  | nil => rfl
  | cons y l =>
    obtain ⟨⟨nv, np⟩, ne⟩ := y
    simp only [List.isEmpty_cons, Bool.not_false, List.head?_cons]
    rw [if_neg (by decide)]
    by_cases hm : info.mask ≠ app.machineMask
    · rw [if_pos hm, if_pos hm]; rfl
    rw [if_neg hm, if_neg hm]
    cases nv with
    | app a => rfl
    | mach nv =>
      simp only
      by_cases hp : p ≠ np
      · rw [if_pos hp, if_pos hp]; rfl
      rw [if_neg hp, if_neg hp]
      by_cases hh : Gen.maskHasHoles info.mask = true
      · rw [if_pos hh, if_pos hh]; rfl
      rw [if_neg hh, if_neg hh]
      cases w.mach nv np with
      | error x => rfl
      | ok i =>
        simp only [bind, Except.bind]
        by_cases hi : i.index ≠ info.index + 1
        · rw [if_pos hi, if_pos hi]; rfl
        · rw [if_neg hi, if_neg hi]; rfl

/-- What a loop over the iterator has to do with one over a list. -/
def Follows (next : σ → Out Item × σ) {α : Type} (n : Nat) (r : Except Exc (α × It σ Item)) (q : Except PyErr (α × List Item)) : Prop :=
  match q with
  | .error x => r = .error (.raised x)
  | .ok (a, l) => ∃ it, r = .ok (a, it) ∧ Holds next it l ∧ l.length ≤ n

theorem takeIt_follows {w : World} {app : AppInfo} : ∀ (fuel : Nat) {v p : Nat} {info : MInfo} {e : REntry} {it : It σ Item}
    {l : List Item}, Holds next it l → l.length < fuel →
    Follows next l.length (takeIt next w app fuel v p info e it) (Gen.takeRun w app v p info e l) := by
  intro fuel
  induction fuel with
  | zero => intro v p info e it l _ h; exact absurd h (Nat.not_lt_zero _)
  | succ fuel ih =>
    intro v p info e it l h hf
    unfold takeIt
    rw [matchIt_eq h]
    cases l with
    | nil => exact ⟨it, rfl, h, Nat.le_refl _⟩
    | cons y l =>
      obtain ⟨⟨nv, np⟩, ne⟩ := y
      unfold Gen.takeRun
      cases hm : Gen.matchNext w v p info e app (((nv, np), ne) :: l) with
      | error x => exact rfl
      | ok b =>
        cases b with
        | false => cases nv <;> exact ⟨it, rfl, h, Nat.le_refl _⟩
        | true =>
          obtain ⟨it', h1, h2, -⟩ := h.pop
          simp only [up, h1]
          cases nv with
          | app a =>
            exfalso
            unfold Gen.matchNext at hm
            by_cases hk : info.mask ≠ app.machineMask
            · simp only [if_pos hk] at hm; cases hm
            · simp only [if_neg hk] at hm; cases hm
          | mach nv =>
            simp only [bind, Except.bind]
            cases hw : w.mach nv np with
            | error x => exact rfl
            | ok i =>
              simp only
              have := ih (v := nv) (p := np) (info := i) (e := ne) h2 (by simp only [List.length_cons] at hf; omega)
              unfold Follows at this
              cases ht : Gen.takeRun w app nv np i ne l with
              | error x =>
                rw [ht] at this
                simp only at this
                rw [this]
                exact rfl
              | ok q =>
                rw [ht] at this
                obtain ⟨it2, h3, h4, h5⟩ := this
                rw [h3]
                exact ⟨it2, rfl, h4, Nat.le_succ_of_le h5⟩

theorem roundIt_follows {w : World} {fuel : Nat} {src : Alloc.VId × Nat} {e : REntry} {it : It σ Item} {l : List Item}
    (h : Holds next it l) (hf : l.length < fuel) :
    Follows next l.length (roundIt next w fuel src e it) (Gen.mergedRound w src e l) := by
  unfold roundIt Gen.mergedRound
  cases src.1 with
  | app a =>
    simp only [bind, Except.bind]
    cases w.app a src.2 with
    | error x => exact rfl
    | ok i =>
      simp only
      cases Gen.mkEntry i.key i.mask e with
      | error x => exact rfl
      | ok y => exact ⟨it, rfl, h, Nat.le_refl _⟩
  | mach v =>
    simp only [bind, Except.bind]
    cases w.mach v src.2 with
    | error x => exact rfl
    | ok i =>
      simp only
      cases w.appOf v with
      | none =>
        simp only
        cases Gen.mkEntry i.key i.mask e with
        | error x => exact rfl
        | ok y => exact ⟨it, rfl, h, Nat.le_refl _⟩
      | some a =>
        simp only
        cases w.app a src.2 with
        | error x => exact rfl
        | ok app =>
          simp only
          have := takeIt_follows (w := w) (app := app) fuel (v := v) (p := src.2) (info := i) (e := e) h hf
          unfold Follows at this
          cases ht : Gen.takeRun w app v src.2 i e l with
          | error x =>
            rw [ht] at this
            simp only at this
            rw [this]
            exact rfl
          | ok q =>
            rw [ht] at this
            obtain ⟨it2, h3, h4, h5⟩ := this
            rw [h3]
            simp only
            cases Gen.mergedKeysAndMasks app ((e, i) :: q.1) with
            | error x => exact rfl
            | ok ys => exact ⟨it2, rfl, h4, h5⟩

theorem loopIt_eq {same : Entry → Entry → Bool} {w : World} : ∀ (fuel fuel' : Nat) {it : It σ Item} {l : List Item} {s : Sources}
    {t : UTable}, Holds next it l → l.length < fuel → l.length < fuel' →
    loopIt next same w fuel it s t = up (Gen.mergedLoop same w fuel' l s t) := by
  intro fuel
  induction fuel with
  | zero => intro _ it l s t _ h; exact absurd h (Nat.not_lt_zero _)
  | succ fuel ih =>
    intro fuel' it l s t h hf hf'
    cases fuel' with
    | zero => exact absurd hf' (Nat.not_lt_zero _)
    | succ fuel' =>
    unfold loopIt hasNext
    rw [h.hasNext]
    cases l with
    | nil => rfl
    | cons y l =>
      obtain ⟨src, e⟩ := y
      obtain ⟨it', h1, h2, -⟩ := h.pop
      simp only [List.isEmpty_cons, Bool.not_false]
      rw [if_neg (by decide), h1]
      unfold Gen.mergedLoop
      simp only [bind, Except.bind]
      cases w.keyMask src.1 src.2 with
      | error x => rfl
      | ok km =>
        simp only
        cases Gen.checkSource s km src with
        | error x => rfl
        | ok s' =>
          simp only
          simp only [List.length_cons] at hf hf'
          have := roundIt_follows (w := w) (fuel := fuel + 1) (src := src) (e := e) h2 (by omega)
          unfold Follows at this
          cases hr : Gen.mergedRound w src e l with
          | error x =>
            rw [hr] at this
            simp only at this
            rw [this]
            rfl
          | ok q =>
            rw [hr] at this
            obtain ⟨it2, h3, h4, h5⟩ := this
            rw [h3]
            simp only
            cases UTable.addAll same t q.1 with
            | error x => rfl
            | ok t' => exact ih fuel' h4 (by omega) (by omega)

end

theorem items_gives (l : List β) : Gives itemsNext l l := by
  induction l with
  | nil => exact .stop rfl
  | cons x l ih => exact .item rfl ih

/-- C129: the merged generator, which takes its items through this iterator, makes of them what a loop over the list makes
(`createMerged`, which C23, C24 and C111 are about): the same table, or it raises the same. It never takes an item that is not there. -/
theorem C129_merged (same : Entry → Entry → Bool) (w : World) (x y : Nat) (items : List Item) {fuel : Nat}
    (hf : items.length < fuel) :
    createMergedIt same w x y fuel items = up (Gen.createMerged same w x y items) := by
  obtain ⟨it, h1, h2⟩ := init_holds (items_gives items)
  unfold createMergedIt Gen.createMerged
  rw [h1]
  exact loopIt_eq fuel _ h2 hf (Nat.lt_succ_self _)

/-- Two of four sources are taken together; of two sources with the same key the second is refused. -/
example : ∃ t, createMergedIt (fun _ _ => false) (Gen.ofInfos Alloc.mixedInfos Gen.mixedApp) 1 2 5 Gen.mixedItems = .ok t ∧
    t.values = [⟨0x10, 0xFFFFFFF0, 6, false⟩, ⟨0x20, 0xFFFFFFE0, 6, true⟩, ⟨0x100, 0xFFFFFFF0, 6, false⟩,
        ⟨0x300, 0xFFFFFF00, 1, true⟩] := by
  have h : (Gen.createMerged (fun _ _ => false) (Gen.ofInfos Alloc.mixedInfos Gen.mixedApp) 1 2 Gen.mixedItems).map (·.values) =
      .ok [⟨0x10, 0xFFFFFFF0, 6, false⟩, ⟨0x20, 0xFFFFFFE0, 6, true⟩, ⟨0x100, 0xFFFFFFF0, 6, false⟩,
        ⟨0x300, 0xFFFFFF00, 1, true⟩] := by decide +kernel
  rw [C129_merged _ _ _ _ _ (by decide)]
  cases hc : Gen.createMerged (fun _ _ => false) (Gen.ofInfos Alloc.mixedInfos Gen.mixedApp) 1 2 Gen.mixedItems with
  | error e => rw [hc] at h; cases h
  | ok t => rw [hc] at h; exact ⟨t, rfl, Except.ok.inj h⟩

example : createMergedIt (fun _ _ => true) Gen.clashWorld 0 0 3 [((.app 1, 0), ⟨6, false⟩), ((.app 2, 0), ⟨6, false⟩)] =
    .error (.raised .keyError) := by
  have h : Gen.createMerged (fun _ _ => true) Gen.clashWorld 0 0 [((.app 1, 0), ⟨6, false⟩), ((.app 2, 0), ⟨6, false⟩)] =
      .error .keyError := by decide +kernel
  rw [C129_merged _ _ _ _ _ (by decide), h]
  rfl

end Pacman.Iter
