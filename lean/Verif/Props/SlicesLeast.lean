import Verif.Props.Slices
import Verif.Props.Splitters
import Verif.Proofs.SplitterAnew

/-!
# C155: as few slices as there can be

A way of sharing out the atoms is a list of blocks of atoms which has every atom once; nothing is asked of the blocks but their size.
-/

namespace Pacman.Slices

/-- A way of sharing out `n` atoms in blocks of at most `m`. -/
structure Shares (n m : Nat) (bs : List (List Nat)) : Prop where
  once : bs.flatten.Perm (List.range n)
  size : ∀ b ∈ bs, b.length ≤ m

theorem Shares.count {n m : Nat} {bs : List (List Nat)} (h : Shares n m bs) : n ≤ bs.length * m := by
  have h1 : ∀ l : List (List Nat), (∀ b ∈ l, b.length ≤ m) → l.flatten.length ≤ l.length * m := by
    intro l
    induction l with
    | nil => intro _; simp
    | cons b l ih =>
      intro hl
      have h2 := ih (fun c hc => hl c (List.mem_cons_of_mem _ hc))
      have h3 := hl b List.mem_cons_self
      rw [List.flatten_cons, List.length_append, List.length_cons, Nat.succ_mul]
      omega
  have h2 := h1 bs h.size
  rw [h.once.length_eq, List.length_range] at h2
  exact h2

/-- C155: no other way of sharing out the atoms of a vertex with one dimension takes fewer machine vertices. -/
theorem C155_single (n m : Nat) (hn : 0 < n) (hm : 0 < m) {ss : List Slice} (h : singleSlices ⟨[n], some [m]⟩ = .ok ss) :
    Shares n m (ss.map rasterIds) ∧ ∀ bs, Shares n m bs → ss.length ≤ bs.length := by
  obtain ⟨ss', h1, h2, -, h4, h5, h6⟩ := C43_slices_tile n m hn hm
  rw [h] at h1
  cases h1
  refine ⟨⟨?_, ?_⟩, fun bs hb => ?_⟩
  · rw [← List.flatMap_def, h2]
  · intro b hb
    obtain ⟨s, hs, rfl⟩ := List.mem_map.1 hb
    obtain ⟨h7, h8⟩ := h4 s hs
    unfold rasterIds
    rw [h8]
    simpa using h7
  · have h7 := hb.count
    have h8 : (ss.length - 1) * m < bs.length * m := Nat.lt_of_lt_of_le h5 h7
    have h9 := Nat.lt_of_mul_lt_mul_right h8
    omega

theorem per_pos {v : Vertex} (hv : v.Valid) : 0 < prod v.per := by
  refine prod_pos fun c hc => ?_
  unfold Vertex.per at hc
  cases hm : v.maxPer with
  | none => rw [hm] at hc; exact hv.1 c hc
  | some m => rw [hm] at hc; exact (hv.2 m hm).2.1 c hc

/-- C155: nor of one with several. -/
theorem C155_multi {v : Vertex} (hl : v.shape.length ≠ 1) {ss : List Slice} (h : multiSlices v = .ok ss) :
    Shares v.nAtoms (prod v.per) (ss.map rasterIds) ∧ ∀ bs, Shares v.nAtoms (prod v.per) bs → ss.length ≤ bs.length := by
  have hv := C44_only_valid h
  obtain ⟨ss', h1, h2, -, h4, h5⟩ := C44_slices_tile hv hl
  rw [h] at h1
  cases h1
  refine ⟨⟨?_, ?_⟩, fun bs hb => ?_⟩
  · rw [← List.flatMap_def]
    exact h2
  · intro b hb
    obtain ⟨s, hs, rfl⟩ := List.mem_map.1 hb
    obtain ⟨h6, h7⟩ := h4 s hs
    refine Nat.le_trans (Nat.le_of_eq ?_) h6.1
    unfold rasterIds
    cases hd : s.dims with
    | none => exact List.length_range'
    | some ds =>
      obtain ⟨h8, h9⟩ := h7 ds hd
      simp only
      rw [mdIds_eq h9, List.length_map, List.length_range]
      exact h8.symm
  · have h7 := hb.count
    rw [← h5] at h7
    exact Nat.le_of_mul_le_mul_right h7 (per_pos hv)

/-- C155: allowing more atoms per core, or having fewer atoms, never takes more machine vertices. -/
theorem C155_more {n n' m m' : Nat} (hn : 0 < n) (hm : 0 < m) (hn' : n ≤ n') (hm' : m ≤ m') {ss ss' : List Slice}
    (h : singleSlices ⟨[n], some [m']⟩ = .ok ss) (h' : singleSlices ⟨[n'], some [m]⟩ = .ok ss') : ss.length ≤ ss'.length := by
  obtain ⟨t, h1, -, -, -, h5, -⟩ := C43_slices_tile n m' hn (by omega)
  obtain ⟨t', h1', -, -, -, -, h6'⟩ := C43_slices_tile n' m (by omega) hm
  rw [h] at h1
  cases h1
  rw [h'] at h1'
  cases h1'
  have h7 : ss'.length * m ≤ ss'.length * m' := Nat.mul_le_mul_left _ hm'
  have h8 : (ss.length - 1) * m' < ss'.length * m' := by omega
  have h9 := Nat.lt_of_mul_lt_mul_right h8
  omega

/-- C155: likewise of vertices of several dimensions, by the number of atoms on a core. -/
theorem C155_more_multi {v v' : Vertex} (hl : v.shape.length ≠ 1) (hl' : v'.shape.length ≠ 1) (ha : v.nAtoms ≤ v'.nAtoms)
    (hp : prod v'.per ≤ prod v.per) {ss ss' : List Slice} (h : multiSlices v = .ok ss) (h' : multiSlices v' = .ok ss') :
    ss.length ≤ ss'.length := by
  obtain ⟨t, h1, -, -, -, h5⟩ := C44_slices_tile (C44_only_valid h) hl
  obtain ⟨t', h1', -, -, -, h5'⟩ := C44_slices_tile (C44_only_valid h') hl'
  rw [h] at h1
  cases h1
  rw [h'] at h1'
  cases h1'
  have h7 : ss'.length * prod v'.per ≤ ss'.length * prod v.per := Nat.mul_le_mul_left _ hp
  have h8 : ss.length * prod v.per ≤ ss'.length * prod v.per := by omega
  exact Nat.le_of_mul_le_mul_right h8 (per_pos (C44_only_valid h))

/-- The case: ten atoms in blocks of at most four, and twenty four atoms in blocks of two by two. -/
example : (∃ ss, singleSlices ⟨[10], some [4]⟩ = .ok ss ∧ ss.length = 3 ∧ ∀ bs, Shares 10 4 bs → 3 ≤ bs.length) ∧
    (∃ ss, multiSlices ⟨[4, 6], some [2, 2]⟩ = .ok ss ∧ ss.length = 6 ∧ ∀ bs, Shares 24 4 bs → 6 ≤ bs.length) := by
  have h1 : (singleSlices ⟨[10], some [4]⟩).map List.length = .ok 3 := by decide +kernel
  have h2 : (multiSlices ⟨[4, 6], some [2, 2]⟩).map List.length = .ok 6 := by decide +kernel
  constructor
  · cases h : singleSlices ⟨[10], some [4]⟩ with
    | error e => rw [h] at h1; cases h1
    | ok ss =>
      rw [h] at h1
      have h3 : ss.length = 3 := Except.ok.inj h1
      refine ⟨ss, rfl, h3, ?_⟩
      rw [← h3]
      exact (C155_single 10 4 (by decide) (by decide) h).2
  · cases h : multiSlices ⟨[4, 6], some [2, 2]⟩ with
    | error e => rw [h] at h2; cases h2
    | ok ss =>
      rw [h] at h2
      have h3 : ss.length = 6 := Except.ok.inj h2
      refine ⟨ss, rfl, h3, ?_⟩
      rw [← h3]
      exact (C155_multi (by decide) h).2

/-- The cases: allowing five atoms per core takes two slices of ten; blocks of four by two take three. -/
example : (∃ ss ss', singleSlices ⟨[10], some [5]⟩ = .ok ss ∧ singleSlices ⟨[12], some [4]⟩ = .ok ss' ∧ ss.length ≤ ss'.length) ∧
    (∃ ss ss', multiSlices ⟨[4, 6], some [4, 2]⟩ = .ok ss ∧ multiSlices ⟨[4, 6], some [2, 2]⟩ = .ok ss' ∧
      ss.length ≤ ss'.length) := by
  obtain ⟨ss, h1, -⟩ := C43_slices_tile 10 5 (by decide) (by decide)
  obtain ⟨ss', h2, -⟩ := C43_slices_tile 12 4 (by decide) (by decide)
  refine ⟨⟨ss, ss', h1, h2, C155_more (by decide) (by decide) (by decide) (by decide) h1 h2⟩, ?_⟩
  have h3 : (multiSlices ⟨[4, 6], some [4, 2]⟩).isOk = true := by decide +kernel
  have h4 : (multiSlices ⟨[4, 6], some [2, 2]⟩).isOk = true := by decide +kernel
  cases h5 : multiSlices ⟨[4, 6], some [4, 2]⟩ with
  | error e => rw [h5] at h3; cases h3
  | ok ss =>
    cases h6 : multiSlices ⟨[4, 6], some [2, 2]⟩ with
    | error e => rw [h6] at h4; cases h4
    | ok ss' => exact ⟨ss, ss', rfl, rfl, C155_more_multi (by decide) (by decide) (by decide) (by decide) h5 h6⟩

end Pacman.Slices

namespace Pacman.Split

/-- C155: the partitioner makes no more machine vertices of an application vertex than any way of sharing out its atoms needs. -/
theorem C155_partitioned {E : Env} {mp : Nat → Option (List Nat)} {mv : Nat → MV} {next : Nat} (hb : Built E mv next)
    {os : List Op} {W W' : World} (h : run E (World.new E mp mv next) os = W) (hL : Linked W) {vs : List Nat}
    (hn : vs.Nodup) {cores sdram : Int} {n : Nat} (hp : partition E W cores sdram vs = (W', .ok n)) {v s : Nat} (hv : v ∈ vs)
    (hs : (W.app v).splitter = some s) (hk : E.kind s = .fixed) (hr : Anew E W v) {bs : List (List Nat)}
    (hbs : Slices.Shares (E.app v).nAtoms (Slices.prod ((W.app v).maxPer.getD (E.app v).shape)) bs) :
    (W'.app v).machines.length ≤ bs.length := by
  obtain ⟨-, h1, -⟩ := C90_count hb h hL hn hp hv hs hk hr
  have h2 := Nat.lt_of_mul_lt_mul_right (Nat.lt_of_lt_of_le h1 hbs.count)
  omega

/-- The case: ten atoms, at most four on a core. -/
example : ∃ W' n, partition demo (run demo demoNew [.setSplitter 0 0]) 17 100 [0] = (W', .ok n) ∧
    (W'.app 0).machines.length = 3 ∧ ∀ bs, Slices.Shares 10 4 bs → 3 ≤ bs.length := by
  have h0 : (partition demo (run demo demoNew [.setSplitter 0 0]) 17 100 [0]).2 = .ok 1 := by decide +kernel
  have h1 : ((partition demo (run demo demoNew [.setSplitter 0 0]) 17 100 [0]).1.app 0).machines.length = 3 := by decide +kernel
  have hr : runOk demo demoNew [.setSplitter 0 0] = some (run demo demoNew [.setSplitter 0 0]) := rfl
  have hL : Linked (run demo demoNew [.setSplitter 0 0]) := linked_runOk _ (linked_new _ _ _ _) hr
  refine ⟨_, 1, Prod.ext rfl h0, h1, fun bs hbs => ?_⟩
  rw [← h1]
  refine C155_partitioned (v := 0) (s := 0) demo_built (os := [.setSplitter 0 0]) rfl hL (by decide) (Prod.ext rfl h0) (by decide)
    (by decide +kernel)
    (by decide +kernel) ?_ hbs
  exact anew_set demo_built (l := [(0, 0)]) hr (fun h => absurd rfl h)

end Pacman.Split
