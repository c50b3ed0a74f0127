import Verif.Props.Mapping
import Verif.Props.PlacerRoom
import Verif.Props.SplitterChips
/-
C100: the machine vertices of a partitioned graph fit into the SDRAM of their chips (partial). C101: a machine with as
many chips as the partitioner counted has room for the graph (false; partial).
-/

namespace Pacman.Split

open Slices (Slice)
open Counter (Counter Packing)
open Plc (Store Placement)
open Placer (given AppV allVerts)

section
variable {E : Env} {mp : Nat → Option (List Nat)} {mv : Nat → MV} {next : Nat} {os : List Op} {W W' : World}
  {vs : List Nat} {cores sdram : Int} {n : Nat} {fuel : Nat}
  {M : Placer.Machine} {fixedApp : Nat → Bool} {sys : List Plc.Op} {s : Store}

/-! ### C100 -/

/-- The SDRAM that machine vertices ask for, of those placed on a chip. -/
def chipLoad (W : World) (l : List Placement) (c : Nat × Nat) : Int :=
  ((l.filter (fun a => decide ((a.x, a.y) = c))).map (fun a => (W.mv a.vertex).sdram)).sum

theorem chipLoad_eq (hpos : ∀ m, 0 ≤ (W.mv m).sdram) (M : Placer.Machine) (l : List Placement) (c : Nat × Nat) :
    chipLoad W l c = (Placer.load (machineFor M W) l c : Int) := by
  show _ = (((((Placer.at_ l c).map (fun a => (machineFor M W).need a.vertex)).sum : Nat)) : Int)
  unfold chipLoad Placer.at_
  induction l.filter (fun a => decide ((a.x, a.y) = c)) with
  | nil => rfl
  | cons a as ih =>
    simp only [List.map_cons, List.sum_cons, ih]
    have : ((machineFor M W).need a.vertex : Int) = (W.mv a.vertex).sdram := Int.toNat_of_nonneg (hpos _)
    rw [← this]
    simp

/-- C100, the part that holds: if nothing in the graph has a fixed location, then after partitioning and placement the
machine vertices on each chip need at most the SDRAM of the chip. Missing: fixed locations (`C100_fixed`). -/
theorem C100_fits_partial (hO : Placer.Order M) (hG : Placer.Grid M) (hf : M.chips.length < fuel)
    (hpos : ∀ m, 0 ≤ (W'.mv m).sdram) (hfree : ∀ v ∈ vs, fixedApp v = false)
    (hsys : ∀ c, chipLoad W' (Plc.placements (given sys)) c ≤ M.sdram c)
    (hpl : placeFor M W' fixedApp vs fuel (given sys) = .ok s) (c : Nat × Nat) :
    chipLoad W' (Plc.placements s) c ≤ M.sdram c := by
  unfold placeFor at hpl
  split at hpl
  · cases hpl
  · rename_i as has
    have h := Placer.C32_no_fixed_partial (M := machineFor M W') hO hG hf sys as (appsOf_covered has)
      (appsOf_free hfree has) (fun c => by
        have := hsys c
        rw [chipLoad_eq hpos M] at this
        exact Int.ofNat_le.1 this) hpl c
    rw [chipLoad_eq hpos M]
    exact Int.ofNat_le.2 h

end

/-- Vertex 0 needs 200 bytes and is fixed to the first chip, which has 100. -/
def bigE : Env where
  app := fun _ => ⟨[4], true, fun _ => 200, none, none⟩
  kind := fun _ => .fixed

def bigW : World := (partition bigE (run bigE (World.new bigE (fun _ => none) (fun _ => ⟨⟨0, 1, none⟩, 0, 0, 0, none⟩) 0)
  [.setSplitter 0 0]) 17 1000 [0]).1

/-- C100 is false for vertices with a fixed location: their SDRAM is not looked at. -/
theorem C100_fixed :
    (placeFor { devM with fixed := fun _ => some ((0, 0), none) } bigW (fun _ => true) [0] 5 (given [])).toOption.map
      (fun s => (Plc.placements s, chipLoad bigW (Plc.placements s) (0, 0), devM.sdram (0, 0))) =
    some ([⟨0, 0, 0, 1⟩], 200, 100) := by decide +kernel

/-- For the graph of C99. -/
example : (∀ m, 0 ≤ (devD.mv m).sdram) ∧ (∀ c, chipLoad devD (Plc.placements (given devSys)) c ≤ devM.sdram c) ∧
    placeFor devM devD (fun _ => false) [0, 1, 2] 5 (given devSys) = .ok devStore := by
  have hmv : ∀ m, (devD.mv m).sdram = 0 := by
    intro m
    match m with
    | 0 => decide +kernel
    | 1 => decide +kernel
    | 2 => decide +kernel
    | 3 => decide +kernel
    | m + 4 => rfl
  refine ⟨fun m => by rw [hmv m]; exact Int.le_refl _, ?_, dev_store⟩
  intro c
  have : chipLoad devD (Plc.placements (given devSys)) c = 0 := by
    unfold chipLoad
    induction (Plc.placements (given devSys)).filter (fun a => decide ((a.x, a.y) = c)) with
    | nil => rfl
    | cons a as ih => rw [List.map_cons, List.sum_cons, hmv, ih]; rfl
  rw [this]
  exact (by decide : (0 : Int) ≤ (100 : Nat))

/-! ### C101 -/

/-- Some chip has a core left, if there are fewer placements than cores. -/
theorem core_left {k : Nat} : ∀ (cs : List (Nat × Nat)) (l : List Placement), cs.Nodup →
    (∀ c ∈ cs, k ≤ (l.filter (fun a => decide ((a.x, a.y) = c))).length) → cs.length * k ≤ l.length := by
  intro cs
  induction cs with
  | nil => intro l _ _; simp
  | cons c cs ih =>
    intro l hn h
    rw [List.nodup_cons] at hn
    have h1 := h c (by simp)
    have h2 := ih (l.filter (fun a => !decide ((a.x, a.y) = c))) hn.2 (by
      intro d hd
      have hdc : d ≠ c := fun h0 => hn.1 (h0 ▸ hd)
      have := h d (List.mem_cons_of_mem _ hd)
      rw [List.filter_filter]
      refine Nat.le_trans this (Nat.le_of_eq ?_)
      congr 1
      refine List.filter_congr ?_
      intro a _
      by_cases h0 : (a.x, a.y) = d
      · simp [h0, hdc]
      · simp [h0])
    have h3 : l.length = (l.filter (fun a => decide ((a.x, a.y) = c))).length +
        (l.filter (fun a => !decide ((a.x, a.y) = c))).length := by
      have := List.length_eq_countP_add_countP (fun a : Placement => decide ((a.x, a.y) = c)) (l := l)
      rw [List.countP_eq_length_filter, List.countP_eq_length_filter] at this
      simpa using this
    rw [List.length_cons, Nat.add_mul]
    omega

/-- Vertices with one machine vertex each, all small, are placed one by one. -/
theorem small_placed {M : Placer.Machine} {fuel k : Nat} (hb : M.costs = Placer.Costs.bytes) (hO : Placer.Order M) (hG : Placer.Grid M)
    (hf : M.chips.length < fuel) (hlinks : ∀ c, M.has c = true → ∀ d ∈ M.links c, M.has d = true)
    (hcn : ∀ c, (M.cores c).Nodup) (hck : ∀ c, M.has c = true → (M.cores c).length = k) (hk : M.maxCores = (k : Int))
    (hk0 : 0 < k) (hms : ∀ c, M.has c = true → M.maxSdram ≤ (M.sdram c : Int)) :
    ∀ (as pre : List AppV), (∀ a ∈ pre ++ as, a.isFixed = false ∧ ∃ m sd, a.groups = [([m], sd)] ∧ M.virtual m = false ∧
      M.need m ≤ sd ∧ (sd * k : Int) ≤ M.maxSdram) → (allVerts (pre ++ as)).Nodup →
    (pre ++ as).length ≤ M.chips.length * k → (∃ s, Placer.place M fuel pre (given []) = .ok s) →
    ∃ s, Placer.place M fuel (pre ++ as) (given []) = .ok s := by
  intro as
  induction as with
  | nil => intro pre _ _ _ h; rw [List.append_nil]; exact h
  | cons a as ih =>
    intro pre ha hn hl hpre
    have hstep : ∃ s, Placer.place M fuel (pre ++ [a]) (given []) = .ok s := by
      obtain ⟨s', hs'⟩ := hpre
      obtain ⟨hfix, m, sd, hgr, hvirt, hneed, hsd⟩ := ha a (by simp)
      obtain ⟨hu1, hu2, ⟨new, hu3, hu4⟩, -⟩ := Placer.C31_unique hO hG hf [] pre hs'
      have hnew : Plc.placements s' = new := hu3
      have hvl : ∀ x : List AppV, (∀ b ∈ x, ∃ m sd, b.groups = [([m], sd)]) → (allVerts x).length = x.length := by
        intro x
        induction x with
        | nil => intro _; rfl
        | cons b x ihx =>
          intro h
          obtain ⟨m', sd', hb⟩ := h b (by simp)
          have : allVerts (b :: x) = m' :: allVerts x := by
            simp [allVerts, List.flatMap_cons, hb]
          rw [this, List.length_cons, List.length_cons, ihx (fun c hc => h c (List.mem_cons_of_mem _ hc))]
      have hlen : (Plc.placements s').length ≤ pre.length := by
        rw [← hvl pre (fun b hb => by
          obtain ⟨-, m', sd', h1, -⟩ := ha b (by simp [hb])
          exact ⟨m', sd', h1⟩), ← List.length_map (f := fun a : Placement => a.vertex)]
        refine List.Nodup.length_le_of_subset hu2 ?_
        intro u hu
        obtain ⟨b, hb, rfl⟩ := List.mem_map.1 hu
        rw [hnew] at hb
        exact (hu4 b hb).1
      have hex : ∃ c ∈ M.chips, ((Plc.placements s').filter (fun a => decide ((a.x, a.y) = c))).length < k := by
        refine Classical.byContradiction fun hcon => ?_
        have := core_left (k := k) M.chips (Plc.placements s') (Placer.chips_nodup M) (fun c hc => by
          refine Nat.le_of_not_lt fun hlt => hcon ⟨c, hc, hlt⟩)
        simp only [List.length_append, List.length_cons] at hl
        omega
      obtain ⟨c, hc, hlt⟩ := hex
      have hhas := (Placer.mem_chips.1 hc).2.2
      -- the share of each core
      have hshare : ∀ b ∈ Plc.placements s', (M.need b.vertex * k : Int) ≤ M.maxSdram := by
        intro b hb
        rw [hnew] at hb
        obtain ⟨a', ha', hm'⟩ := List.mem_flatMap.1 (hu4 b hb).1
        obtain ⟨-, m', sd', h1, -, h2, h3⟩ := ha a' (by simp [ha'])
        rw [h1] at hm'
        simp only [List.flatMap_cons, List.flatMap_nil, List.append_nil, List.mem_singleton] at hm'
        rw [hm']
        have : (M.need m' : Int) * k ≤ (sd' : Int) * k := Int.mul_le_mul_of_nonneg_right (Int.ofNat_le.2 h2) (Int.natCast_nonneg k)
        exact Int.le_trans this h3
      have hkpos : (0 : Int) < (k : Int) := by omega
      have hq : ∀ x : Int, x * k ≤ M.maxSdram → x ≤ Int.fdiv M.maxSdram M.maxCores := by
        intro x hx
        rw [hk, Int.fdiv_eq_ediv_of_nonneg _ (Int.le_of_lt hkpos)]
        exact (Int.le_ediv_iff_mul_le hkpos).2 hx
      have hq0 : Int.fdiv M.maxSdram M.maxCores * k ≤ M.maxSdram := by
        rw [hk, Int.fdiv_eq_ediv_of_nonneg _ (Int.le_of_lt hkpos)]
        exact Int.ediv_mul_le _ (Int.ne_of_gt hkpos)
      generalize hqq : Int.fdiv M.maxSdram M.maxCores = qq at hq hq0
      have hqsd : (sd : Int) ≤ qq := hq _ hsd
      have hload : (Placer.load M (Plc.placements s') c : Int) ≤
          ((Plc.placements s').filter (fun a => decide ((a.x, a.y) = c))).length * qq := by
        unfold Placer.load Placer.needs Placer.at_
        rw [hb]
        unfold Placer.Costs.bytes
        simp only
        have hmem : ∀ b ∈ (Plc.placements s').filter (fun a => decide ((a.x, a.y) = c)), (M.need b.vertex : Int) ≤ qq :=
          fun b hb => hq _ (hshare b (List.mem_filter.1 hb).1)
        revert hmem
        induction (Plc.placements s').filter (fun a => decide ((a.x, a.y) = c)) with
        | nil => intro _; simp
        | cons b bs ihb =>
          intro hmem
          have h1 := ihb (fun b' hb' => hmem b' (List.mem_cons_of_mem _ hb'))
          have h2 := hmem b (by simp)
          simp only [List.map_cons, List.sum_cons, List.length_cons, Int.natCast_add, Int.add_mul]
          omega
      have hqnn : 0 ≤ qq := Int.le_trans (Int.natCast_nonneg sd) hqsd
      have hload2 : (Placer.load M (Plc.placements s') c : Int) ≤ M.maxSdram - qq := by
        have h1 : ((((Plc.placements s').filter (fun a => decide ((a.x, a.y) = c))).length : Int) + 1) * qq ≤ k * qq :=
          Int.mul_le_mul_of_nonneg_right (by omega) hqnn
        rw [Int.add_mul, Int.one_mul] at h1
        rw [Int.mul_comm qq (k : Int)] at hq0
        omega
      have hmax := hms c hhas
      refine Placer.C81_room_partial hO hG hf [] ⟨hlinks, hcn, by intro b hb; cases hb⟩ pre hfix hgr (by simp) (by simp)
        ?_ ?_ ?_ hs' ?_ (c := c) ⟨hhas, ?_, ?_⟩ ?_
      · intro u hu
        rw [List.mem_singleton] at hu
        rw [hu]; exact hvirt
      · have h3 : M.costs.total [sd] = sd := by rw [hb]; simp [Placer.Costs.bytes]
        show (M.costs.total [sd] : Int) ≤ M.maxSdram
        have : (Placer.load M (Plc.placements s') c : Int) ≥ 0 := Int.natCast_nonneg _
        omega
      · show ((([m] : List Nat).length : Nat) : Int) ≤ M.maxCores
        rw [hk]; simp only [List.length_cons, List.length_nil]; omega
      · intro u hu
        rw [List.mem_singleton] at hu
        subst hu
        intro hmem
        obtain ⟨b, hb, hbv⟩ := List.mem_map.1 hmem
        rw [hnew] at hb
        have h1 := (hu4 b hb).1
        rw [hbv] at h1
        have h2 : allVerts (pre ++ a :: as) = allVerts pre ++ u :: allVerts as := by
          simp [allVerts, List.flatMap_append, List.flatMap_cons, hgr]
        rw [h2] at hn
        exact (List.nodup_append.1 hn).2.2 u h1 u (by simp) rfl
      · rw [hck c hhas]
        simp only [List.length_cons, List.length_nil]
        omega
      · have h3 : M.costs.total (Placer.needs M (Plc.placements s') c ++ [sd]) =
            Placer.load M (Plc.placements s') c + sd := by
          unfold Placer.load
          rw [hb]
          simp [Placer.Costs.bytes]
        show M.costs.total (Placer.needs M (Plc.placements s') c ++ [sd]) ≤ M.sdram c
        have : (Placer.load M (Plc.placements s') c : Int) + sd ≤ M.sdram c := by omega
        omega
      · rw [hqq]; exact hload2
    have := ih (pre ++ [a]) (by rw [List.append_assoc]; exact ha) (by rw [List.append_assoc]; exact hn)
      (by rw [List.append_assoc]; exact hl) hstep
    rw [List.append_assoc] at this
    exact this

theorem packing_length {cores sdram : Int} {l : List Int} {runs : List (List Int)} (h : Packing cores sdram l runs) :
    (l.length : Int) ≤ runs.length * cores := by
  rw [← h.all]
  have hc := h.cores
  clear h
  induction runs with
  | nil => simp
  | cons r rs ih =>
    have h1 := ih (fun x hx => hc x (List.mem_cons_of_mem _ hx))
    have h2 := hc r (by simp)
    rw [List.flatten_cons, List.length_append, List.length_cons, Int.natCast_add, Int.natCast_add, Int.add_mul]
    omega

/-- The groups that the splitters give, where each vertex has one machine vertex. -/
theorem appsOf_single {W : World} {fixedApp : Nat → Bool} (hL : Linked W) : ∀ {vs : List Nat},
    (∀ v ∈ vs, ∃ s, (W.app v).splitter = some s) → (∀ v ∈ vs, fixedApp v = false) →
    (∀ v ∈ vs, ∃ m, (W.app v).machines = [m]) →
    ∃ as, appsOf W fixedApp vs = .ok as ∧ as.length = vs.length ∧ ∀ a ∈ as, a.isFixed = false ∧
      ∃ v ∈ vs, ∃ m, (W.app v).machines = [m] ∧ a.groups = [([m], (W.mv m).sdram.toNat)] := by
  intro vs
  induction vs with
  | nil => intro _ _ _; exact ⟨[], rfl, rfl, by intro a ha; cases ha⟩
  | cons v vs ih =>
    intro h1 h2 h3
    obtain ⟨as, e1, e2, e3⟩ := ih (fun u hu => h1 u (List.mem_cons_of_mem _ hu))
      (fun u hu => h2 u (List.mem_cons_of_mem _ hu)) (fun u hu => h3 u (List.mem_cons_of_mem _ hu))
    obtain ⟨s, hs⟩ := h1 v (by simp)
    obtain ⟨m, hm⟩ := h3 v (by simp)
    have hg : groups W s = .ok [([m], (W.mv m).sdram)] := by
      unfold groups governedOf
      rw [(hL v s).1 hs]
      simp only [Except.map, hm, List.map_cons, List.map_nil]
    refine ⟨⟨[([m], (W.mv m).sdram.toNat)], fixedApp v⟩ :: as, ?_, by simp [e2], ?_⟩
    · unfold appsOf
      rw [hs]
      simp only [hg, e1, List.map_cons, List.map_nil]
    · intro a ha
      rcases List.mem_cons.1 ha with rfl | ha
      · exact ⟨h2 v (by simp), v, by simp, m, hm, rfl⟩
      · obtain ⟨k1, u, k2, k3⟩ := e3 a ha
        exact ⟨k1, u, List.mem_cons_of_mem _ k2, k3⟩

/-- All chips of the machine have the cores and the SDRAM that the partitioner reckons with, and nothing is placed yet. -/
structure Even (M : Placer.Machine) (k : Nat) (bytes : Int) : Prop where
  order : Placer.Order M
  grid : Placer.Grid M
  links : ∀ c, M.has c = true → ∀ d ∈ M.links c, M.has d = true
  distinct : ∀ c, (M.cores c).Nodup
  cores : ∀ c, M.has c = true → (M.cores c).length = k
  sdram : ∀ c, M.has c = true → bytes ≤ (M.sdram c : Int)
  maxCores : M.maxCores = (k : Int)
  maxSdram : M.maxSdram = bytes

/-- C101 in full: the graph is placed on every such machine with as many chips as the partitioner counted, if each
machine vertex fits on a chip. -/
def C101_full : Prop :=
  ∀ (E : Env) (mp : Nat → Option (List Nat)) (mv : Nat → MV) (next : Nat) (os : List Op) (W W' : World) (vs : List Nat)
    (k : Nat) (sdram : Int) (n fuel : Nat) (M : Placer.Machine) (fixedApp : Nat → Bool),
    Built E mv next → run E (World.new E mp mv next) os = W → Linked W → vs.Nodup →
    partition E W k sdram vs = (W', .ok n) → (∀ v ∈ vs, Anew E W v) →
    (∀ v s, (W.app v).splitter = some s → v ∈ vs) → 0 < k → Even M k sdram → M.chips.length < fuel →
    (∀ v ∈ vs, fixedApp v = false) →
    (∀ v ∈ vs, ∀ m ∈ (W'.app v).machines, (W'.mv m).dev = none ∧ 0 ≤ (W'.mv m).sdram ∧ (W'.mv m).sdram ≤ sdram) →
    n ≤ M.chips.length → ∃ s, placeFor M W' fixedApp vs fuel (given []) = .ok s

/-- C101, the part that holds: if each vertex has one machine vertex, which needs at most the share of a core of the SDRAM
of a chip, then the graph is placed on every machine with as many chips as the partitioner counted. Missing: vertices that
need more than this share (`C101_false`), vertices with more machine vertices (`C101_apart`), devices and fixed locations. -/
theorem C101_room_partial {E : Env} {mp : Nat → Option (List Nat)} {mv : Nat → MV} {next : Nat} {os : List Op}
    {W W' : World} {vs : List Nat} {k : Nat} {sdram : Int} {n fuel : Nat} {M : Placer.Machine} {fixedApp : Nat → Bool}
    (hb : Built E mv next) (h : run E (World.new E mp mv next) os = W) (hL : Linked W) (hn : vs.Nodup)
    (hp : partition E W k sdram vs = (W', .ok n)) (hu : ∀ v ∈ vs, Anew E W v)
    (hall : ∀ v s, (W.app v).splitter = some s → v ∈ vs) (hk : 0 < k) (hE : Even M k sdram) (hf : M.chips.length < fuel)
    (hfree : ∀ v ∈ vs, fixedApp v = false)
    (hone : ∀ v ∈ vs, ∃ m, (W'.app v).machines = [m] ∧ (W'.mv m).dev = none ∧ 0 ≤ (W'.mv m).sdram ∧
      (W'.mv m).sdram * k ≤ sdram)
    (hchips : n ≤ M.chips.length) : ∃ s, placeFor M W' fixedApp vs fuel (given []) = .ok s := by
  have hW0 : Sound E W := by rw [← h]; exact sound_run os (sound_new hb)
  have hd := done_after hW0 hL hn hp hu hall
  have hL' := linked_after hL hp
  obtain ⟨as, e1, e2, e3⟩ := appsOf_single (fixedApp := fixedApp) hL' hd.some_ hfree
    (fun v hv => by obtain ⟨m, h1, -⟩ := hone v hv; exact ⟨m, h1⟩)
  have hkk : (1 : Int) ≤ (k : Int) := by omega
  obtain ⟨runs, hr1, hr2, -⟩ := C94_chips_partial hb h hL hn hp hu (by omega) (by
    intro v hv m hm
    obtain ⟨m', h1, -, h2, h3⟩ := hone v hv
    rw [h1, List.mem_singleton] at hm
    subst hm
    have : (W'.mv m).sdram * 1 ≤ (W'.mv m).sdram * k := Int.mul_le_mul_of_nonneg_left hkk h2
    omega)
  have hlen := packing_length hr1
  have hl1 : (vs.flatMap (fun v => (W'.app v).machines.map (fun m => (W'.mv m).sdram))).length = vs.length := by
    clear hr1 hlen e1 e2 e3 hp hu hall hd hn hfree
    induction vs with
    | nil => rfl
    | cons v vs ih =>
      obtain ⟨m, h1, -⟩ := hone v (by simp)
      rw [List.flatMap_cons, List.length_append, ih (fun u hu => hone u (List.mem_cons_of_mem _ hu)), h1]
      simp only [List.map_cons, List.map_nil, List.length_cons, List.length_nil]
      omega
  rw [hl1, ← hr2] at hlen
  have hlen' : vs.length ≤ M.chips.length * k := by
    have h1 : vs.length ≤ n * k := by exact_mod_cast hlen
    exact Nat.le_trans h1 (Nat.mul_le_mul_right k hchips)
  unfold placeFor
  rw [e1]
  have hn' : (allVerts as).Nodup := by
    rw [appsOf_verts hL' e1]
    clear e1 e2 e3 hr1 hp hu hall hlen hlen' hl1 hfree
    have hs := hd.sound
    clear hd
    induction vs with
    | nil => exact List.nodup_nil
    | cons v vs ih =>
      rw [List.nodup_cons] at hn
      rw [List.flatMap_cons]
      refine List.nodup_append.2 ⟨hs.nodup v, ih hn.2 (fun u hu => hone u (List.mem_cons_of_mem _ hu)), ?_⟩
      intro a ha b hb hab
      obtain ⟨u, hu, hb⟩ := List.mem_flatMap.1 hb
      have h1 := hs.owner v a ha
      rw [hab, hs.owner u b hb] at h1
      exact hn.1 (h1 ▸ hu)
  have := small_placed (M := machineFor M W') (fuel := fuel) (k := k) rfl hE.order hE.grid hf hE.links hE.distinct hE.cores
    hE.maxCores hk (fun c hc => by show M.maxSdram ≤ _; rw [hE.maxSdram]; exact hE.sdram c hc) as [] (by
      intro a ha
      obtain ⟨h1, v, hv, m, h2, h3⟩ := e3 a ha
      obtain ⟨m', h4, h5, h6, h7⟩ := hone v hv
      rw [h2] at h4
      injection h4 with h4
      subst h4
      refine ⟨h1, m, _, h3, ?_, Nat.le_refl _, ?_⟩
      · show (W'.mv m).dev.isSome = false
        rw [h5]; rfl
      · show ((W'.mv m).sdram.toNat * k : Int) ≤ M.maxSdram
        rw [Int.toNat_of_nonneg h6, hE.maxSdram]
        exact h7) hn' (by show as.length ≤ M.chips.length * k; rw [e2]; exact hlen')
    ⟨given [], by
      have h0 : ¬ (machineFor M W').maxCores = 0 := by
        show ¬ M.maxCores = 0
        rw [hE.maxCores]; omega
      unfold Placer.place Placer.initial
      rw [if_neg h0]
      rfl⟩
  exact this

/-! ### Where C101 fails, and where its hypotheses hold -/

/-- Vertices 0 and 1 have one machine vertex each, of 80 and 10 bytes; vertex 2 has two of them, and vertex 3 one, which
need nothing. -/
def roomE : Env where
  app := fun v => ⟨[2], true, fun _ => if v = 0 then 80 else if v = 1 then 10 else 0, none, none⟩
  kind := fun _ => .fixed

def roomMv : Nat → MV := fun _ => ⟨⟨0, 1, none⟩, 0, 0, 0, none⟩

def roomNew : World := World.new roomE (fun v => if v = 2 then some [1] else some [2]) roomMv 0

def roomW (vs : List Nat) : World := run roomE roomNew (vs.map (fun v => .setSplitter v v))

/-- The world after `partition`. -/
def roomD (vs : List Nat) (k : Nat) : World := (partition roomE (resetGraph roomE (roomW vs) vs) k 100 vs).1

theorem room_built : Built roomE roomMv 0 := by
  refine ⟨?_, ?_, ?_⟩ <;> intro v m h <;> cases h

/-- Chips in a line or a corner; each has `k` cores and 100 bytes. -/
def roomM (cs : List (Nat × Nat)) (k : Nat) : Placer.Machine where
  width := 2
  height := 2
  has := fun c => decide (c ∈ cs)
  cores := fun _ => List.range k
  sdram := fun _ => 100
  board := fun _ => (0, 0)
  links := fun c => if c = (0, 0) then cs.filter (fun d => d != (0, 0)) else [(0, 0)].filter (fun d => d ∈ cs)
  maxSdram := 100
  maxCores := k
  virtual := fun _ => false
  need := fun _ => 0
  fixed := fun _ => none
  iter := id

theorem room_usual (W : World) (v : Nat) : Usual roomE W v :=
  fun _ _ => ⟨(by intro h; cases h), fun h => absurd rfl h⟩

theorem room_even (cs : List (Nat × Nat)) (k : Nat) (hcs : ∀ c ∈ cs, c.1 < 2 ∧ c.2 < 2) : Even (roomM cs k) k 100 where
  order := fun l => List.Perm.refl l
  grid := fun c hc => hcs c (of_decide_eq_true hc)
  links := by
    intro c _ d hd
    refine decide_eq_true ?_
    by_cases h : c = (0, 0)
    · simp only [roomM, h, if_true] at hd
      exact (List.mem_filter.1 hd).1
    · simp only [roomM, if_neg h] at hd
      exact of_decide_eq_true (List.mem_filter.1 hd).2
  distinct := fun _ => List.nodup_range
  cores := fun _ _ => List.length_range
  sdram := fun _ _ => Int.le_refl _
  maxCores := rfl
  maxSdram := rfl

theorem room_all01 (v s : Nat) (h : ((roomW [0, 1]).app v).splitter = some s) : v ∈ [0, 1] := by
  match v with
  | 0 => decide
  | 1 => decide
  | v + 2 =>
    have : ((roomW [0, 1]).app (v + 2)).splitter = none := rfl
    rw [this] at h
    cases h

theorem room_all32 (v s : Nat) (h : ((roomW [3, 2]).app v).splitter = some s) : v ∈ [3, 2] := by
  match v with
  | 2 => decide
  | 3 => decide
  | 0 => have : ((roomW [3, 2]).app 0).splitter = none := rfl
         rw [this] at h; cases h
  | 1 => have : ((roomW [3, 2]).app 1).splitter = none := rfl
         rw [this] at h; cases h
  | v + 4 =>
    have : ((roomW [3, 2]).app (v + 4)).splitter = none := rfl
    rw [this] at h
    cases h

theorem room_all31 (v s : Nat) (h : ((roomW [3, 1]).app v).splitter = some s) : v ∈ [3, 1] := by
  match v with
  | 1 => decide
  | 3 => decide
  | 0 => have : ((roomW [3, 1]).app 0).splitter = none := rfl
         rw [this] at h; cases h
  | 2 => have : ((roomW [3, 1]).app 2).splitter = none := rfl
         rw [this] at h; cases h
  | v + 4 =>
    have : ((roomW [3, 1]).app (v + 4)).splitter = none := rfl
    rw [this] at h
    cases h

theorem room_linked {vs : List Nat} (h : runOk roomE roomNew (vs.map (fun v => .setSplitter v v)) = some (roomW vs)) :
    Linked (roomW vs) := linked_runOk _ (linked_new _ _ _ _) h

theorem room_done {vs : List Nat} {k n : Nat} (h : (partition roomE (resetGraph roomE (roomW vs) vs) k 100 vs).2 = .ok n) :
    partition roomE (resetGraph roomE (roomW vs) vs) k 100 vs = (roomD vs k, .ok n) := by
  rw [← h]
  rfl

/-- Splitters are set, and the graph is reset. -/
def roomOps (vs : List Nat) : List Op := vs.map (fun v => .setSplitter v v) ++ vs.map .reset

theorem room_run (vs : List Nat) : run roomE (World.new roomE (fun v => if v = 2 then some [1] else some [2]) roomMv 0)
    (roomOps vs) = resetGraph roomE (roomW vs) vs := run_resetGraph rfl vs

theorem room_linkedR {vs : List Nat} (h : runOk roomE roomNew (vs.map (fun v => .setSplitter v v)) = some (roomW vs)) :
    Linked (resetGraph roomE (roomW vs) vs) := (keeps_resetGraph _ _ _).linked (room_linked h)

theorem room_anew (vs : List Nat) : ∀ v ∈ vs, Anew roomE (resetGraph roomE (roomW vs) vs) v :=
  fun v hv => anew_reset hv (room_usual _ v)

theorem room_allR {vs : List Nat} (h : ∀ v s, ((roomW vs).app v).splitter = some s → v ∈ vs) (v s : Nat)
    (h1 : ((resetGraph roomE (roomW vs) vs).app v).splitter = some s) : v ∈ vs :=
  h v s (((keeps_resetGraph _ _ _).1 v).symm.trans h1)

/-- C101 is false: two vertices that need 80 and 10 bytes are counted to fit on one chip of 100 bytes, and there they would
fit, but the placer takes a chip with 80 bytes in use to be full. -/
theorem C101_false : ¬ C101_full := by
  intro h
  obtain ⟨s, hs⟩ := h roomE _ roomMv 0 (roomOps [0, 1])
    (resetGraph roomE (roomW [0, 1]) [0, 1]) (roomD [0, 1] 4) [0, 1] 4 100 1
    5 (roomM [(0, 0)] 4) (fun _ => false) room_built (room_run _) (room_linkedR rfl) (by decide) (room_done (by decide +kernel))
    (room_anew _) (room_allR room_all01) (by decide) (room_even _ _ (by decide)) (by decide +kernel) (fun _ _ => rfl)
    (by decide +kernel) (by decide +kernel)
  have : placeFor (roomM [(0, 0)] 4) (roomD [0, 1] 4) (fun _ => false) [0, 1] 5 (given []) = .error .place := by
    decide +kernel
  rw [this] at hs
  cases hs

/-- C101 also fails where no SDRAM is needed: on three linked chips with one core each, vertex 3 takes the chip in the corner,
and the two machine vertices of vertex 2 are not put on the others, which have no link to each other. In the other order
both are placed. -/
theorem C101_apart :
    let M := roomM [(0, 0), (1, 0), (0, 1)] 1
    (partition roomE (resetGraph roomE (roomW [3, 2]) [3, 2]) 1 100 [3, 2]).2 = .ok 3 ∧ M.chips.length = 3 ∧
    (∀ v ∈ [3, 2], ∀ m ∈ ((roomD [3, 2] 1).app v).machines, ((roomD [3, 2] 1).mv m).sdram = 0) ∧
    placeFor M (roomD [3, 2] 1) (fun _ => false) [3, 2] 5 (given []) = .error .place ∧
    (placeFor M (roomD [2, 3] 1) (fun _ => false) [2, 3] 5 (given [])).toOption.map Plc.placements =
      some [⟨0, 0, 0, 0⟩, ⟨1, 1, 0, 0⟩, ⟨2, 0, 1, 0⟩] := by decide +kernel

/-- The hypotheses of `C101_room_partial` hold for vertices 3 and 1 on one chip with four cores. -/
example : ∃ s, placeFor (roomM [(0, 0)] 4) (roomD [3, 1] 4) (fun _ => false) [3, 1] 5 (given []) = .ok s :=
  C101_room_partial (n := 1) (k := 4) (sdram := 100) (os := roomOps [3, 1])
    (W := resetGraph roomE (roomW [3, 1]) [3, 1])
    room_built (room_run _) (room_linkedR rfl) (by decide) (room_done (by decide +kernel)) (room_anew _) (room_allR room_all31)
    (by decide) (room_even _ _ (by decide)) (by decide +kernel) (fun _ _ => rfl) (by
      intro v hv
      simp only [List.mem_cons, List.not_mem_nil, or_false] at hv
      rcases hv with rfl | rfl
      · exact ⟨0, by decide +kernel, by decide +kernel, by decide +kernel, by decide +kernel⟩
      · exact ⟨1, by decide +kernel, by decide +kernel, by decide +kernel, by decide +kernel⟩) (by decide +kernel)

end Pacman.Split
