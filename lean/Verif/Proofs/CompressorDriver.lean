import Verif.Model.CompressorDriver
import Verif.Proofs.RoutingTables
/-
Helper lemmas on the compressor drivers.
-/

namespace Pacman.Driver

open Pacman.Tables

theorem foldl_add (es : List Entry) : ∀ t : CTable,
    es.foldl CTable.add t = ⟨t.x, t.y, t.entries ++ es, t.nDefaulted + es.countP (·.defaultable)⟩ := by
  induction es with
  | nil => intro t; simp
  | cons e es ih =>
    intro t
    rw [List.foldl_cons, ih]
    simp only [CTable.add, List.append_assoc, List.singleton_append, List.countP_cons]
    congr 1
    split <;> omega

theorem newTable_eq (xy : XY) (es : List Entry) :
    newTable xy es = .c ⟨xy.1, xy.2, es, es.countP (·.defaultable)⟩ := by
  unfold newTable
  rw [foldl_add]
  simp [CTable.empty]

theorem newTable_xy (xy : XY) (es : List Entry) : (newTable xy es).xy = xy := by
  rw [newTable_eq]; rfl

theorem newTable_n (xy : XY) (es : List Entry) : (newTable xy es).numberOfEntries = es.length := by
  rw [newTable_eq]; rfl

theorem newTable_entries (xy : XY) (es : List Entry) : (newTable xy es).entries = es := by
  rw [newTable_eq]; rfl

theorem numberOfEntries_eq (t : Table) : t.numberOfEntries = t.entries.length := by
  cases t <;> simp [Table.numberOfEntries, Table.entries, UTable.values]

/-- The table is left alone. -/
def Untouched (env : Env) (t : Table) : Prop :=
  env.asFar = false ∧ ∃ n, env.target t.xy = some n ∧ t.numberOfEntries ≤ n

/-- The possible outcomes of one round. -/
inductive One (env : Env) (compress : Table → Except PyErr (List Entry)) (t : Table) :
    Except PyErr (Table × List (XY × Nat)) → Prop where
  | nochip : env.target t.xy = none → One env compress t (.error .keyError)
  | same : Untouched env t → One env compress t (.ok (t, []))
  | fail (e : PyErr) : (∃ n, env.target t.xy = some n) → ¬ Untouched env t →
      compress t = .error e → One env compress t (.error e)
  | fits (es : List Entry) (n : Nat) : ¬ Untouched env t → compress t = .ok es →
      env.target t.xy = some n → es.length ≤ n → One env compress t (.ok (newTable t.xy es, []))
  | over (es : List Entry) (n : Nat) (p : XY × Nat) : ¬ Untouched env t → compress t = .ok es →
      env.target t.xy = some n → n < es.length → One env compress t (.ok (newTable t.xy es, [p]))

theorem compressOne_cases (env : Env) (compress : Table → Except PyErr (List Entry)) (t : Table) :
    One env compress t (compressOne env compress t) := by
  unfold compressOne Env.targetE
  cases ht : env.target t.xy with
  | none => exact .nochip ht
  | some n =>
    simp only [bind, Except.bind, pure, Except.pure]
    split
    · rename_i h
      simp only [Bool.and_eq_true, Bool.not_eq_true', decide_eq_true_eq] at h
      exact .same ⟨h.1, n, ht, h.2⟩
    · rename_i h
      have hu : ¬ Untouched env t := by
        rintro ⟨h1, n', h2, h3⟩
        rw [ht] at h2
        simp only [Option.some.injEq] at h2
        subst h2
        apply h
        simp [h1, h3]
      cases hc : compress t with
      | error e => exact .fail e ⟨n, ht⟩ hu hc
      | ok es =>
        simp only [newTable_n]
        split
        · rename_i hl
          exact .over es n _ hu hc ht hl
        · rename_i hl
          exact .fits es n hu hc ht (by omega)

/-- The result for one chip. -/
def Res (env : Env) (compress : Table → Except PyErr (List Entry)) (t nt : Table) : Prop :=
  nt.xy = t.xy ∧
  ((Untouched env t ∧ nt = t) ∨
   (¬ Untouched env t ∧ ∃ es, compress t = .ok es ∧ nt = newTable t.xy es))

/-- Some table is too big after compression. -/
def Over (env : Env) (compress : Table → Except PyErr (List Entry)) (t : Table) : Prop :=
  ¬ Untouched env t ∧ ∃ es n, compress t = .ok es ∧ env.target t.xy = some n ∧ n < es.length

/-- The possible reasons for a failure in the loop. -/
def Fails (env : Env) (compress : Table → Except PyErr (List Entry)) (ts : List Table) (e : PyErr) :
    Prop :=
  ∃ t ∈ ts, (e = .keyError ∧ env.target t.xy = none) ∨
    (¬ Untouched env t ∧ compress t = .error e)

theorem addTable_new {m : TablesMap} {t : Table} (h : t.xy ∉ Dict.keys m) :
    addTable m t = .ok (m ++ [(t.xy, t)]) := by
  have hg : m.get? t.xy = none := Dict.get?_eq_none.2 h
  unfold addTable
  rw [hg]
  simp only [Dict.set_new hg]

theorem loop_cases (env : Env) (compress : Table → Except PyErr (List Entry)) :
    ∀ (ts : List Table) (m : TablesMap) (ps : List (XY × Nat)),
      (Dict.keys m ++ ts.map (·.xy)).Nodup →
      (∃ m' ps', compressLoop env compress ts m ps = .ok (m ++ m', ps ++ ps') ∧
        Dict.keys m' = ts.map (·.xy) ∧
        (∀ t ∈ ts, ∃ nt, (t.xy, nt) ∈ m' ∧ Res env compress t nt) ∧
        (ps' = [] ↔ ∀ t ∈ ts, ¬ Over env compress t)) ∨
      (∃ e, compressLoop env compress ts m ps = .error e ∧ Fails env compress ts e) := by
  intro ts
  induction ts with
  | nil =>
    intro m ps _
    exact .inl ⟨[], [], by simp [compressLoop], rfl, by simp, by simp⟩
  | cons t ts ih =>
    intro m ps hn
    rw [compressLoop]
    have hnew : t.xy ∉ Dict.keys m := by
      rw [List.map_cons] at hn
      exact nodup_append_cons hn
    have go : ∀ nt p, Res env compress t nt → compressOne env compress t = .ok (nt, p) →
        (p = [] ↔ ¬ Over env compress t) →
        (∃ m' ps', compressLoop env compress (t :: ts) m ps = .ok (m ++ m', ps ++ ps') ∧
          Dict.keys m' = (t :: ts).map (·.xy) ∧
          (∀ t' ∈ t :: ts, ∃ nt, (t'.xy, nt) ∈ m' ∧ Res env compress t' nt) ∧
          (ps' = [] ↔ ∀ t' ∈ t :: ts, ¬ Over env compress t')) ∨
        (∃ e, compressLoop env compress (t :: ts) m ps = .error e ∧
          Fails env compress (t :: ts) e) := by
      intro nt p hres hone hp
      rw [compressLoop, hone]
      simp only [bind, Except.bind]
      rw [addTable_new (by rw [hres.1]; exact hnew)]
      simp only
      have hn' : (Dict.keys (m ++ [(nt.xy, nt)]) ++ ts.map (·.xy)).Nodup := by
        simp only [Dict.keys, List.map_append, List.map_cons, List.map_nil, List.append_assoc,
          List.singleton_append, hres.1] at hn ⊢
        exact hn
      rcases ih _ (ps ++ p) hn' with ⟨m', ps', h1, h2, h3, h4⟩ | ⟨e, h1, s, hs, h2⟩
      · left
        refine ⟨(nt.xy, nt) :: m', p ++ ps', ?_, ?_, ?_, ?_⟩
        · rw [h1]; simp
        · simp only [Dict.keys, List.map_cons] at h2 ⊢
          rw [h2, hres.1]
        · intro t' ht'
          rw [List.mem_cons] at ht'
          rcases ht' with rfl | ht'
          · exact ⟨nt, by rw [hres.1]; simp, hres⟩
          · obtain ⟨nt', h5, h6⟩ := h3 t' ht'
            exact ⟨nt', by simp [h5], h6⟩
        · rw [List.append_eq_nil_iff, hp, h4]
          simp
      · right
        exact ⟨e, h1, s, by simp [hs], h2⟩
    have hone := compressOne_cases env compress t
    generalize hr : compressOne env compress t = r at hone
    rw [compressLoop] at go
    rw [← hr]
    cases hone with
    | nochip h =>
      right
      refine ⟨.keyError, by rw [hr]; rfl, t, by simp, .inl ⟨rfl, h⟩⟩
    | same h =>
      exact go t [] ⟨rfl, .inl ⟨h, rfl⟩⟩ hr ⟨fun _ ho => ho.1 h, fun _ => rfl⟩
    | fail e _ h1 h2 =>
      right
      exact ⟨e, by rw [hr]; rfl, t, by simp, .inr ⟨h1, h2⟩⟩
    | fits es n h1 h2 h3 h4 =>
      refine go _ [] ⟨newTable_xy _ _, .inr ⟨h1, es, h2, rfl⟩⟩ hr ⟨fun _ ho => ?_, fun _ => rfl⟩
      obtain ⟨_, es', n', k1, k2, k3⟩ := ho
      rw [h2] at k1; rw [h3] at k2
      simp only [Except.ok.injEq, Option.some.injEq] at k1 k2
      subst k1 k2
      omega
    | over es n p h1 h2 h3 h4 =>
      refine go _ [p] ⟨newTable_xy _ _, .inr ⟨h1, es, h2, rfl⟩⟩ hr ⟨by simp, fun hno => ?_⟩
      exact absurd ⟨h1, es, n, h2, h3, h4⟩ hno

end Pacman.Driver
