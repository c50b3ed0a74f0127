import Verif.Proofs.SplitterDevice
import Verif.Props.Splitters
import Verif.Props.Device2D
/-
C92 and C93: devices and their machine vertices.
-/

namespace Pacman.Split

open Slices (Slice mkSlice rasterIds)
open Device (fpgaSlice getSlice)

theorem Match.filter {P : (Nat × Nat) → Nat → Prop} {js : List (Nat × Nat)} {ms : List Nat} (h : Match P js ms)
    {p : Nat × Nat → Bool} {q : Nat → Bool} (hpq : ∀ j m, P j m → p j = q m) :
    Match P (js.filter p) (ms.filter q) := by
  induction h with
  | nil => exact .nil
  | @cons j m js ms hj _ ih =>
    rw [List.filter_cons, List.filter_cons, hpq j m hj]
    split
    · exact .cons hj ih
    · exact ih

theorem match_mapM {E : Env} {W : World} {d : DevKind} {v : Nat} (a : Nat) (is : List Nat) : ∀ {ms : List Nat},
    Match (OfJob E W d v) (is.map (fun i => (i, a))) ms →
    is.mapM (d.slice (E.app v).nAtoms) = .ok (ms.map (fun m => (W.mv m).slice)) := by
  induction is with
  | nil => intro ms h; cases h; rfl
  | cons i is ih =>
    intro ms h
    cases h with
    | cons hj ht =>
      rw [List.mapM_cons, hj.1, ih ht]
      rfl

theorem match_dev {E : Env} {W : World} {d : DevKind} {v a : Nat} {is ms : List Nat}
    (h : Match (OfJob E W d v) (is.map (fun i => (i, a))) ms) : ∀ m ∈ ms, (W.mv m).dev = some (a, true) := by
  induction is generalizing ms with
  | nil => cases h; intro m hm; cases hm
  | cons i is ih =>
    cases h with
    | cons hj ht =>
      intro m hm
      rcases List.mem_cons.1 hm with hm | hm
      · rw [hm]; exact hj.2
      · exact ih ht m hm

theorem jobs_filter {links : List Nat} (hn : links.Nodup) {a : Nat} (ha : a ∈ links) (is : List Nat) :
    (is.flatMap (fun i => links.map (fun l => (i, l)))).filter (fun j => decide (j.2 = a)) =
      is.map (fun i => (i, a)) := by
  have one : ∀ i : Nat, (links.map (fun l => (i, l))).filter (fun j => decide (j.2 = a)) = [(i, a)] := by
    intro i
    induction links with
    | nil => cases ha
    | cons l ls ih =>
      rw [List.nodup_cons] at hn
      rw [List.map_cons, List.filter_cons]
      by_cases hl : l = a
      · rw [if_pos (by simpa using hl)]
        have : (ls.map (fun l => (i, l))).filter (fun j => decide (j.2 = a)) = [] := by
          rw [List.filter_eq_nil_iff]
          intro j hj
          obtain ⟨l', hl', rfl⟩ := List.mem_map.1 hj
          simp only [decide_eq_true_eq]
          intro h0
          rw [← h0] at hl
          exact hn.1 (hl ▸ hl')
        rw [this, hl]
      · rw [if_neg (by simpa using hl)]
        rcases List.mem_cons.1 ha with h0 | h0
        · exact absurd h0.symm hl
        · exact ih hn.2 h0
  induction is with
  | nil => rfl
  | cons i is ih => rw [List.flatMap_cons, List.filter_append, one, ih]; rfl

theorem jobs_length (links is : List Nat) :
    (is.flatMap (fun i => links.map (fun l => (i, l)))).length = is.length * links.length := by
  induction is with
  | nil => simp
  | cons i is ih => rw [List.flatMap_cons, List.length_append, ih, List.length_map, List.length_cons, Nat.succ_mul]; omega

/-- What a splitter of a device gives as machine vertices that send. -/
theorem outVerts_device {E : Env} {W : World} {s : Nat} (hk : E.kind s = .external) :
    outVerts E W s = if (W.spl s).inV = [] then .error .notExist else .ok (W.spl s).inV := by
  unfold outVerts
  rw [hk]

section
variable {E : Env} {mp : Nat → Option (List Nat)} {mv : Nat → MV} {next : Nat} {os : List Op} {W : World}

/-- C92, as far as it holds: an FPGA device with a `SplitterExternalDevice` has as many machine vertices that send on
each of its links as wanted, with the slices for the link in their order; without links there are none and an exception
is raised. Missing: states after a call that raised. -/
theorem C92_fpga_partial (hb : Built E mv next) (h : runOk E (World.new E mp mv next) os = some W) {v s : Nat}
    (hs : (W.app v).splitter = some s) (hk : E.kind s = .external) {k : Nat} {links : List Nat} {out : Option Nat}
    {two : Option Device.Dev} (hd : (E.app v).device = some (.fpga k links out two)) :
    (k = 0 ∨ links = [] → outVerts E W s = .error .notExist) ∧
    (k ≠ 0 → links ≠ [] → ∃ l, outVerts E W s = .ok l ∧ l.length = k * links.length ∧
      (links.Nodup → ∀ a ∈ links,
        (List.range k).mapM (match two with | none => fpgaSlice (E.app v).nAtoms k | some t => getSlice t) =
          .ok ((l.filter (fun m => decide ((W.mv m).dev = some (a, true)))).map (fun m => (W.mv m).slice)))) := by
  have hH := has_runOk os (sound_new (mp := mp) hb) (has_new E mp mv next) h s v hk
    ((linked_runOk os (linked_new E mp mv next) h v s).1 hs)
  obtain ⟨d, h1, h2, -⟩ := hH
  rw [hd] at h1
  injection h1 with h1
  subst h1
  change Match _ ((List.range k).flatMap (fun i => links.map (fun l => (i, l)))) _ at h2
  have hlen := h2.length
  rw [jobs_length, List.length_range] at hlen
  rw [outVerts_device hk]
  constructor
  · intro h0
    have : (W.spl s).inV = [] := by
      rw [← List.length_eq_zero_iff, hlen]
      rcases h0 with h0 | h0
      · rw [h0, Nat.zero_mul]
      · rw [h0]; rfl
    rw [if_pos this]
  · intro hk0 hl0
    have hne : (W.spl s).inV ≠ [] := by
      intro h0
      rw [h0, List.length_nil] at hlen
      rcases Nat.mul_eq_zero.1 hlen.symm with h0 | h0
      · exact hk0 h0
      · exact hl0 (List.length_eq_zero_iff.1 h0)
    rw [if_neg hne]
    refine ⟨_, rfl, hlen, ?_⟩
    intro hn a ha
    have hf := h2.filter (p := fun j => decide (j.2 = a)) (q := fun m => decide ((W.mv m).dev = some (a, true))) (by
      intro j m hj
      rw [hj.2]
      simp)
    rw [jobs_filter hn ha] at hf
    have := match_mapM a (List.range k) hf
    cases two <;> exact this

/-- C92, as far as it holds: if the number of machine vertices per link divides the number of atoms, each atom of the
device is in one machine vertex of each link. Missing: other numbers (see `C65_atoms_lost`), states after a call that
raised. -/
theorem C92_fpga_atoms_partial (hb : Built E mv next) (h : runOk E (World.new E mp mv next) os = some W) {v s : Nat}
    (hs : (W.app v).splitter = some s) (hk : E.kind s = .external) {k : Nat} {links : List Nat} {out : Option Nat}
    (hd : (E.app v).device = some (.fpga k links out none)) (hk0 : 0 < k) (hn : links.Nodup)
    (ha : 0 < (E.app v).nAtoms) (hdvd : k ∣ (E.app v).nAtoms) {a : Nat} (hal : a ∈ links) :
    ∃ l, outVerts E W s = .ok l ∧ (l.filter (fun m => decide ((W.mv m).dev = some (a, true)))).flatMap
      (fun m => rasterIds (W.mv m).slice) = List.range (E.app v).nAtoms := by
  obtain ⟨l, h1, -, h3⟩ := (C92_fpga_partial hb h hs hk hd).2 (by omega) (List.ne_nil_of_mem hal)
  have h4 := h3 hn a hal
  obtain ⟨ss, h5, h6, -⟩ := Device.C65_all_atoms_partial hk0 ha hdvd
  rw [h5] at h4
  injection h4 with h4
  refine ⟨l, h1, ?_⟩
  rw [← h6, h4, List.flatMap_map]

/-- C92, as far as it holds: a device on a SpiNNaker link that sends has as many machine vertices as wanted, all on its
link; one that does not has none, and an exception is raised. Missing: states after a call that raised. -/
theorem C92_link_partial (hb : Built E mv next) (h : runOk E (World.new E mp mv next) os = some W) {v s : Nat}
    (hs : (W.app v).splitter = some s) (hk : E.kind s = .external) {n id : Nat} {inc out : Bool}
    {two : Option Device.Dev} (hd : (E.app v).device = some (.link n id inc out two)) :
    (n = 0 ∨ inc = false → outVerts E W s = .error .notExist) ∧
    (n ≠ 0 → inc = true → ∃ l, outVerts E W s = .ok l ∧ l.length = n ∧
      (∀ m ∈ l, (W.mv m).dev = some (id, true)) ∧
      (List.range n).mapM (match two with | none => linkSlice (E.app v).nAtoms n | some t => getSlice t) =
          .ok (l.map (fun m => (W.mv m).slice))) := by
  have hH := has_runOk os (sound_new (mp := mp) hb) (has_new E mp mv next) h s v hk
    ((linked_runOk os (linked_new E mp mv next) h v s).1 hs)
  obtain ⟨d, h1, h2, -⟩ := hH
  rw [hd] at h1
  injection h1 with h1
  subst h1
  rw [outVerts_device hk]
  change Match _ (if inc = true then (List.range n).map (fun i => (i, id)) else []) _ at h2
  constructor
  · intro h0
    have : (W.spl s).inV = [] := by
      rcases h0 with h0 | h0
      · subst h0
        have hlen := h2.length
        rw [← List.length_eq_zero_iff, hlen]
        split <;> rfl
      · rw [h0] at h2
        rw [← List.length_eq_zero_iff]
        exact h2.length
    rw [if_pos this]
  · intro hn0 hi
    rw [if_pos hi] at h2
    have hlen := h2.length
    rw [List.length_map, List.length_range] at hlen
    have hne : (W.spl s).inV ≠ [] := by
      intro h0
      rw [h0, List.length_nil] at hlen
      exact hn0 hlen.symm
    rw [if_neg hne]
    refine ⟨_, rfl, hlen, match_dev h2, ?_⟩
    have := match_mapM id (List.range n) h2
    cases two <;> exact this

/-- C92, as far as it holds: a device with a link for packets to it has one machine vertex that receives, with all atoms,
on that link; one without has none, and an exception is raised. Missing: states after a call that raised. -/
theorem C92_receives_partial (hb : Built E mv next) (h : runOk E (World.new E mp mv next) os = some W) {v s : Nat}
    (hs : (W.app v).splitter = some s) (hk : E.kind s = .external) :
    (∀ k links out two, (E.app v).device = some (.fpga k links out two) →
      match out with
      | none => inVerts E W s = .error .notExist
      | some a => ∃ m, inVerts E W s = .ok [m] ∧ (W.mv m).dev = some (a, false) ∧
        rasterIds (W.mv m).slice = List.range (E.app v).nAtoms) ∧
    (∀ n id inc out two, (E.app v).device = some (.link n id inc out two) →
      if out then ∃ m, inVerts E W s = .ok [m] ∧ (W.mv m).dev = some (id, false) ∧
        rasterIds (W.mv m).slice = List.range (E.app v).nAtoms
      else inVerts E W s = .error .notExist) := by
  have hH := has_runOk os (sound_new (mp := mp) hb) (has_new E mp mv next) h s v hk
    ((linked_runOk os (linked_new E mp mv next) h v s).1 hs)
  obtain ⟨d, h1, -, h3⟩ := hH
  have hall : ∀ {sl : Slice}, mkSlice 0 (E.app v).nAtoms none = .ok sl → rasterIds sl = List.range (E.app v).nAtoms := by
    intro sl hsl
    unfold mkSlice at hsl
    split at hsl
    · cases hsl
    · injection hsl with hsl
      subst hsl
      simp [rasterIds, List.range_eq_range']
  unfold inVerts
  rw [hk]
  simp only
  constructor
  · intro k links out two hd
    rw [h1] at hd
    injection hd with hd
    subst hd
    simp only [DevKind.out] at h3
    cases out with
    | none => simp only at h3 ⊢; rw [h3]
    | some a =>
      simp only at h3 ⊢
      obtain ⟨m, h4, h5, h6⟩ := h3
      rw [h4]
      exact ⟨m, rfl, h6, hall h5⟩
  · intro n id inc out two hd
    rw [h1] at hd
    injection hd with hd
    subst hd
    cases out with
    | false =>
      simp only [DevKind.out] at h3
      rw [if_neg (by simp)]
      simp only [Bool.false_eq_true, if_false] at h3
      rw [h3]
    | true =>
      simp only [DevKind.out, if_true] at h3
      rw [if_pos rfl]
      obtain ⟨m, h4, h5, h6⟩ := h3
      rw [h4]
      exact ⟨m, rfl, h6, hall h5⟩

end

/-- C92 does not hold after a call that raised: a vertex that is no device keeps a `SplitterExternalDevice`, and the
partitioner then goes on without a machine vertex for it. -/
theorem C92_no_device :
    let r := step demo demoNew (.setSplitter 0 3)
    r.2 = .error .configuration ∧ (r.1.app 0).splitter = some 3 ∧ (r.1.spl 3).governed = some 0 ∧
    (partition demo r.1 17 100 [0]).2 = .ok 0 ∧ ((partition demo r.1 17 100 [0]).1.app 0).machines = [] := by
  decide +kernel

/-- C92: setting the governed vertex again makes new machine vertices; after the partitioner, those that send are then
not among those of the application vertex, and not in a group for the placer. -/
theorem C92_replaced :
    let W := run demo demoNew [.setSplitter 2 3, .partition [2], .setGoverned 3 2]
    (runOk demo demoNew [.setSplitter 2 3, .partition [2], .setGoverned 3 2]).isSome ∧
    (W.app 2).machines = [1, 2, 3] ∧ outVerts demo W 3 = .ok [4, 5] ∧ inVerts demo W 3 = .ok [6] := by decide +kernel

example :
    let W := run demo demoNew [.setSplitter 2 3]
    (runOk demo demoNew [.setSplitter 2 3]).isSome ∧ outVerts demo W 3 = .ok [1, 2] ∧
    [1, 2].map (fun m => (W.mv m).slice) = [⟨0, 2, none⟩, ⟨2, 2, none⟩] ∧ inVerts demo W 3 = .ok [3] ∧
    (W.mv 3).slice = ⟨0, 4, none⟩ := by decide +kernel

/-- An FPGA device with two links. -/
def demoFpga : Env where
  app := fun _ => ⟨[6], false, fun _ => 0, none, some (.fpga 3 [5, 9] none none)⟩
  kind := fun _ => .external

example :
    let W := run demoFpga (World.new demoFpga (fun _ => none) demoMv 0) [.setSplitter 0 0]
    (runOk demoFpga (World.new demoFpga (fun _ => none) demoMv 0) [.setSplitter 0 0]).isSome ∧
    outVerts demoFpga W 0 = .ok [0, 1, 2, 3, 4, 5] ∧ inVerts demoFpga W 0 = .error .notExist ∧
    [0, 1, 2, 3, 4, 5].map (fun m => ((W.mv m).slice, (W.mv m).dev)) =
      [(⟨0, 2, none⟩, some (5, true)), (⟨0, 2, none⟩, some (9, true)), (⟨2, 2, none⟩, some (5, true)),
       (⟨2, 2, none⟩, some (9, true)), (⟨4, 2, none⟩, some (5, true)), (⟨4, 2, none⟩, some (9, true))] := by
  decide +kernel

/-! ### C93 -/

theorem linkSlice_ok {n k : Nat} (hk : 0 < k) {i : Nat} (h : (n + k - 1) / k * i < n) :
    linkSlice n k i = .ok ⟨(n + k - 1) / k * i, min ((n + k - 1) / k * (i + 1)) n - (n + k - 1) / k * i, none⟩ := by
  unfold linkSlice mkSlice Device.ceilDiv
  rw [if_neg (by omega)]
  simp only
  have ha : 0 < (n + k - 1) / k := Nat.div_pos (by omega) hk
  have hs : (n + k - 1) / k * (i + 1) = (n + k - 1) / k * i + (n + k - 1) / k := Nat.mul_succ _ _
  rw [if_neg (by omega)]

/-- C93: the slices of a device on a SpiNNaker link exist if and only if the last one has atoms, and then each atom is in
one of them. -/
theorem C93_link_slices {n k : Nat} (hk : 0 < k) :
    ((n + k - 1) / k * (k - 1) < n → ∃ ss, (List.range k).mapM (linkSlice n k) = .ok ss ∧
      ss.flatMap rasterIds = List.range n ∧ Slices.Contiguous 0 ss) ∧
    (n ≤ (n + k - 1) / k * (k - 1) → linkSlice n k (k - 1) = .error .pacmanValueError ∧
      ∃ e, (List.range k).mapM (linkSlice n k) = .error e) := by
  constructor
  · intro h
    have gen : ∀ (c i : Nat), i + c = k → ∃ ss, (List.range' i c).mapM (linkSlice n k) = .ok ss ∧
        ss.flatMap rasterIds = List.range' (min ((n + k - 1) / k * i) n) (n - min ((n + k - 1) / k * i) n) ∧
        Slices.Contiguous (min ((n + k - 1) / k * i) n) ss := by
      intro c
      induction c with
      | zero =>
        intro i hi
        have hik : i = k := by omega
        have hmin : min ((n + k - 1) / k * i) n = n := by
          refine Nat.min_eq_right ?_
          rw [hik]
          have h1 := Nat.div_add_mod (n + k - 1) k
          have h2 := Nat.mod_lt (n + k - 1) hk
          rw [Nat.mul_comm] at h1
          omega
        rw [hmin]
        exact ⟨[], rfl, by simp, trivial⟩
      | succ c ih =>
        intro i hi
        obtain ⟨ss, h1, h2, h3⟩ := ih (i + 1) (by omega)
        have hi1 : (n + k - 1) / k * i < n :=
          Nat.lt_of_le_of_lt (Nat.mul_le_mul_left _ (by omega)) h
        have hs : (n + k - 1) / k * (i + 1) = (n + k - 1) / k * i + (n + k - 1) / k := Nat.mul_succ _ _
        have ha : 0 < (n + k - 1) / k := Nat.div_pos (by omega) hk
        have hmin : min ((n + k - 1) / k * i) n = (n + k - 1) / k * i := Nat.min_eq_left (Nat.le_of_lt hi1)
        rw [hmin]
        generalize hA : (n + k - 1) / k * i = A at *
        generalize hB : min ((n + k - 1) / k * (i + 1)) n = B at *
        have hAB : A < B := by omega
        have hBn : B ≤ n := by omega
        refine ⟨⟨A, B - A, none⟩ :: ss, ?_, ?_, ?_⟩
        · rw [List.range'_succ, List.mapM_cons, h1]
          have := linkSlice_ok (n := n) hk (i := i) (by rw [hA]; exact hi1)
          rw [hA, hB] at this
          rw [this]
          rfl
        · rw [List.flatMap_cons, h2]
          change List.range' A (B - A) ++ List.range' B (n - B) = List.range' A (n - A)
          have e1 : B = A + 1 * (B - A) := by omega
          have e2 : n - A = (B - A) + (n - B) := by omega
          rw [e2, ← List.range'_append (s := A) (m := B - A) (n := n - B) (step := 1), ← e1]
        · refine ⟨rfl, by show 0 < B - A; omega, by simp [rasterIds], ?_⟩
          have : A + (B - A) = B := by omega
          simp only
          rw [this]
          exact h3
    obtain ⟨ss, h1, h2, h3⟩ := gen k 0 (by omega)
    rw [Nat.mul_zero, Nat.zero_min, Nat.sub_zero] at h2
    rw [Nat.mul_zero, Nat.zero_min] at h3
    exact ⟨ss, by rw [List.range_eq_range']; exact h1, by rw [List.range_eq_range']; exact h2, h3⟩
  · intro h
    have hlast : linkSlice n k (k - 1) = .error .pacmanValueError := by
      unfold linkSlice mkSlice Device.ceilDiv
      rw [if_neg (by omega)]
      simp only
      rw [if_pos (by omega)]
    refine ⟨hlast, ?_⟩
    have gen : ∀ (is : List Nat), k - 1 ∈ is → ∃ e, is.mapM (linkSlice n k) = .error e := by
      intro is
      induction is with
      | nil => intro h0; cases h0
      | cons i is ih =>
        intro h0
        rw [List.mapM_cons]
        cases hi : linkSlice n k i with
        | error e => exact ⟨e, rfl⟩
        | ok sl =>
          rcases List.mem_cons.1 h0 with h0 | h0
          · rw [h0, hi] at hlast; cases hlast
          · obtain ⟨e, he⟩ := ih h0
            rw [he]
            exact ⟨e, rfl⟩
    exact gen _ (List.mem_range.2 (by omega))

/-- C93: if the number of machine vertices divides that of atoms there are slices, so the splitter can be set. -/
theorem C93_divides {n k : Nat} (hk : 0 < k) (hn : 0 < n) (hd : k ∣ n) :
    ∃ ss, (List.range k).mapM (linkSlice n k) = .ok ss ∧ ss.flatMap rasterIds = List.range n := by
  obtain ⟨q, rfl⟩ := hd
  have hq : 0 < q := Nat.pos_of_mul_pos_left hn |> fun h => by
    rcases Nat.eq_zero_or_pos q with h0 | h0
    · rw [h0, Nat.mul_zero] at hn; omega
    · exact h0
  have hc : (k * q + k - 1) / k = q := by
    have : k * q + k - 1 = (k - 1) + k * q := by omega
    rw [this, Nat.add_mul_div_left _ _ hk, Nat.div_eq_of_lt (by omega), Nat.zero_add]
  obtain ⟨ss, h1, h2, -⟩ := (C93_link_slices (n := k * q) hk).1 (by
    rw [hc, Nat.mul_comm]
    exact Nat.mul_lt_mul_of_pos_right (by omega) hq)
  exact ⟨ss, h1, h2⟩

/-- C93 does not hold for all numbers: five atoms cannot be in four machine vertices, and the splitter cannot be set,
though each could have an atom. The vertex keeps the splitter, with three of the machine vertices. -/
theorem C93_too_few :
    (let E : Env := ⟨fun _ => ⟨[5], false, fun _ => 0, none, some (.link 4 0 true false none)⟩, fun _ => .external⟩
     let r := step E (World.new E (fun _ => none) demoMv 0) (.setSplitter 0 0)
     r.2 = .error .pacmanValueError ∧ (r.1.app 0).splitter = some 0 ∧ outVerts E r.1 0 = .ok [0, 1, 2]) ∧
    (5 : Nat) ≤ (5 + 4 - 1) / 4 * (4 - 1) := by decide +kernel

example : (List.range 3).mapM (linkSlice 7 3) = .ok [⟨0, 3, none⟩, ⟨3, 3, none⟩, ⟨6, 1, none⟩] ∧
    (7 + 3 - 1) / 3 * (3 - 1) < 7 := by decide +kernel

end Pacman.Split
