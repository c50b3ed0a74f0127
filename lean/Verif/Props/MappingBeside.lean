import Verif.Props.PlacerBeside
import Verif.Props.PlacerFixed
import Verif.Props.MappingGraph
/-
C101 and C111 beside monitors and vertices with fixed locations.
-/

namespace Pacman.Split

open RPath (Intact ShortVector spin5 spin5_intact spin5_board hexVector_short)
open Router (Ctx AppPart Net NoReturns Merges)
open Pipe (Keys Generator HasKey Leads sceneOf Positive allocateFor generate)
open Gen (ofInfos)
open Plc (Store)
open Placer (given AppV allVerts)

/-- What the splitters answer. -/
theorem appsOf_eq {W : World} {fixedApp : Nat → Bool} (hL : Linked W) : ∀ {vs : List Nat},
    (∀ v ∈ vs, ∃ s, (W.app v).splitter = some s) →
    appsOf W fixedApp vs = .ok (vs.map (fun v => ⟨(W.app v).machines.map (fun m => ([m], (W.mv m).sdram.toNat)), fixedApp v⟩)) := by
  intro vs
  induction vs with
  | nil => intro _; rfl
  | cons v vs ih =>
    intro h1
    have e1 := ih (fun u hu => h1 u (List.mem_cons_of_mem _ hu))
    obtain ⟨s, hs⟩ := h1 v (by simp)
    have hg : groups W s = .ok ((W.app v).machines.map (fun m => ([m], (W.mv m).sdram))) := by
      unfold groups governedOf
      rw [(hL v s).1 hs]
      simp only [Except.map]
    unfold appsOf
    rw [hs]
    simp only [hg, e1, List.map_map]
    rfl

theorem flatMap_single {α : Type} : ∀ ms : List α, ms.flatMap (fun m => [m]) = ms := by
  intro ms
  induction ms with
  | nil => rfl
  | cons m ms ih => rw [List.flatMap_cons, ih]; rfl

section
variable {E : Env} {mp : Nat → Option (List Nat)} {mv : Nat → MV} {next : Nat} {os : List Op} {W W' : World}
  {vs : List Nat} {k b : Nat} {cores sdram : Int} {n fuel : Nat} {C : Ctx} {parts : List AppPart} {K : Keys} {sys : List Plc.Op}
  {M : Placer.Machine} {links : Nat → RPath.XY × Nat} {fixedApp : Nat → Bool} {fl : Bool} {s1 : Store}

/-- C101 beside monitors, devices and vertices with fixed locations. If the vertices with fixed locations are placed beside the
monitors, what is then there leaves cores and SDRAM for machine vertices of at most `b` bytes, and the other vertices find their cores
however those before lie, then the graph is placed. Missing: as for `C131_beside_partial`. -/
theorem C101_beside_partial (hb : Built E mv next) (h : run E (World.new E mp mv next) os = W) (hL : Linked W)
    (hn : vs.Nodup) (hp : partition E W cores sdram vs = (W', .ok n)) (hu : ∀ v ∈ vs, Anew E W v)
    (hall : ∀ v s, (W.app v).splitter = some s → v ∈ vs) (hO : Placer.Order M) (hG : Placer.Grid M)
    (hf : M.chips.length < fuel) (hS : Placer.Sane M (Plc.placements (given sys))) (hmc : 1 ≤ M.maxCores)
    (hms : (b : Int) ≤ M.maxSdram)
    (hfix : ∀ v ∈ vs, fixedApp v = true → ∀ m ∈ (W'.app v).machines, (W'.mv m).dev = none)
    (hfree : ∀ v ∈ vs, fixedApp v = false → (∀ m ∈ (W'.app v).machines, (W'.mv m).dev ≠ none) ∨
      ∀ m ∈ (W'.app v).machines, (W'.mv m).dev = none ∧ (W'.mv m).sdram ≤ b)
    (hsys : ∀ a ∈ Plc.placements (given sys), ∀ v ∈ vs, a.vertex ∉ (W'.app v).machines)
    (h1 : placeFor M W' fixedApp (vs.filter fixedApp) fuel (given sys) = .ok s1)
    (hLv : Placer.Leaves (machineFor M W') k b (Plc.placements s1))
    (hroom : Placer.AllFind M k (Placer.taken M k (Plc.placements s1)) ((vs.filter (fun v => !fixedApp v)).map
      (fun v => ((W'.app v).machines.filter (fun m => decide ((W'.mv m).dev = none))).length))) :
    ∃ s, placeFor M W' fixedApp vs fuel (given sys) = .ok s := by
  have hW0 : Sound E W := by rw [← h]; exact sound_run os (sound_new hb)
  have hd := done_after hW0 hL hn hp hu hall
  have hL' := linked_after hL hp
  have e1 := appsOf_eq (fixedApp := fixedApp) hL' hd.some_
  have e2 := appsOf_eq (fixedApp := fixedApp) hL' (vs := vs.filter fixedApp) (fun v hv => hd.some_ v (List.mem_filter.1 hv).1)
  have hverts := appsOf_verts hL' e1
  unfold placeFor at h1 ⊢
  rw [e2] at h1
  rw [e1]
  have hn' : (allVerts (vs.map (fun v => (⟨(W'.app v).machines.map (fun m => ([m], (W'.mv m).sdram.toNat)), fixedApp v⟩ : AppV)))).Nodup := by
    rw [hverts]
    have hs := hd.sound
    clear e1 e2 hp hu hall hfree hd hfix hroom hverts h1 hsys
    induction vs with
    | nil => exact List.nodup_nil
    | cons v vs ih =>
      rw [List.nodup_cons] at hn
      rw [List.flatMap_cons]
      refine List.nodup_append.2 ⟨hs.nodup v, ih hn.2, ?_⟩
      intro a ha b hb hab
      obtain ⟨u, hu, hb⟩ := List.mem_flatMap.1 hb
      have h1 := hs.owner v a ha
      rw [hab, hs.owner u b hb] at h1
      exact hn.1 (h1 ▸ hu)
  have hnew : ∀ v ∈ vs, ∀ m ∈ (W'.app v).machines, m ∉ (Plc.placements (given sys)).map (·.vertex) := by
    intro v hv m hm hmem
    obtain ⟨a, ha, rfl⟩ := List.mem_map.1 hmem
    exact hsys a ha v hv hm
  refine Placer.C131_beside_partial (M := machineFor M W') (k := k) (b := b) rfl hO hG hf sys ⟨hS.links, hS.cores, hS.offered⟩ _ hn'
    hmc hms ?_ ?_ (s1 := s1) ?_ hLv ?_
  · intro a ha haf u hu
    obtain ⟨v, hv, rfl⟩ := List.mem_map.1 ha
    simp only [List.flatMap_map] at hu
    rw [flatMap_single] at hu
    show (W'.mv u).dev.isSome = false
    rw [hfix v hv haf u hu]; rfl
  · intro a ha haf
    obtain ⟨v, hv, rfl⟩ := List.mem_map.1 ha
    refine (hfree v hv haf).imp (fun h0 g hg => ?_) (fun h0 g hg => ?_)
    · obtain ⟨m, hm, rfl⟩ := List.mem_map.1 hg
      exact ⟨m, rfl, Option.isSome_iff_ne_none.2 (h0 m hm)⟩
    · obtain ⟨m, hm, rfl⟩ := List.mem_map.1 hg
      refine ⟨m, rfl, ?_, Nat.le_refl _, ?_, hnew v hv m hm⟩
      · show (W'.mv m).dev.isSome = false
        rw [(h0 m hm).1]; rfl
      · show (W'.mv m).sdram.toNat ≤ b
        have := (h0 m hm).2
        omega
  · rw [List.filter_map]
    exact h1
  · rw [List.filter_map, List.map_map]
    have h2 : (vs.filter (fun v => !fixedApp v)).map (fun v => ((W'.app v).machines.filter (fun m => decide ((W'.mv m).dev = none))).length) =
        (vs.filter (fun v => !fixedApp v)).map (Placer.onCores (machineFor M W') ∘
          fun v => ⟨(W'.app v).machines.map (fun m => ([m], (W'.mv m).sdram.toNat)), fixedApp v⟩) := by
      refine List.map_congr_left fun v _ => ?_
      simp only [Function.comp]
      unfold Placer.onCores
      simp only [List.flatMap_map]
      rw [flatMap_single]
      congr 1
      refine List.filter_congr fun m _ => ?_
      show _ = !(W'.mv m).dev.isSome
      cases (W'.mv m).dev <;> rfl
    rw [h2] at hroom
    exact Placer.AllFind.other (M := M) (M' := machineFor M W') rfl rfl rfl rfl hroom

/-- The machine vertices of a vertex with a fixed location are where they are fixed. -/
theorem fixed_sits {s : Store} (hd : Done E W' vs) (hL : Linked W') (hO : Placer.Order M) (hG : Placer.Grid M)
    (hf : M.chips.length < fuel) (hpl : placeFor M W' fixedApp vs fuel (given sys) = .ok s) {v : Nat} (hv : v ∈ vs)
    (hvf : fixedApp v = true) {c : Placer.XY} (hdev : ∀ m ∈ (W'.app v).machines, (W'.mv m).dev = none)
    (hc : ∀ m ∈ (W'.app v).machines, ∃ q, M.fixed m = some (c, q)) :
    ∀ m ∈ (W'.app v).machines, ∃ q k, Sits W' (Plc.placements s) links m ((c.1 : Int), (c.2 : Int)) q k := by
  intro m hm
  have e1 := appsOf_eq (fixedApp := fixedApp) hL hd.some_
  unfold placeFor at hpl
  rw [e1] at hpl
  obtain ⟨q, hq⟩ := hc m hm
  obtain ⟨a, ha, hav, hac, -⟩ := Placer.C82_honoured_partial (M := machineFor M W') hO hG hf sys _ hpl
    (List.mem_map.2 ⟨v, hv, rfl⟩) hvf (List.mem_map.2 ⟨m, hm, rfl⟩) (u := m) (by simp) (by
      show (W'.mv m).dev.isSome = false
      rw [hdev m hm]; rfl) hq (by
      intro w hw d r hwd
      rw [List.mem_singleton] at hw
      subst hw
      have h0 : M.fixed w = some (d, r) := hwd
      rw [hq] at h0
      injection h0 with h0
      injection h0 with h0
      exact h0.symm)
  refine ⟨some a.p, none, ?_⟩
  rw [← hac]
  exact .core (hdev m hm) ha hav

/-- C111 beside monitors, once the graph is placed, where no vertex is a device, and the machine vertices of a vertex with a fixed
location are fixed to one chip. No packet gets to a monitor. -/
theorem deliver_beside {s : Store} (hb : Built E mv next) (h : run E (World.new E mp mv next) os = W) (hL : Linked W)
    (hn : vs.Nodup) (hp : partition E W cores sdram vs = (W', .ok n)) (hu : ∀ v ∈ vs, Anew E W v)
    (hall : ∀ v s, (W.app v).splitter = some s → v ∈ vs) (hS : Site M C W' links) (hf : M.chips.length < fuel)
    (hon : ∀ a ∈ Plc.placements (given sys), M.has (a.x, a.y) = true)
    (hsys : ∀ a ∈ Plc.placements (given sys), ∀ v ∈ vs, a.vertex ∉ (W'.app v).machines)
    (hfix : ∀ v ∈ vs, fixedApp v = true → ∃ c, ∀ m ∈ (W'.app v).machines, ∃ q, M.fixed m = some (c, q))
    (hsome : ∀ v ∈ vs, ∃ m, m ∈ (W'.app v).machines)
    (hdev : ∀ v ∈ vs, ∀ m ∈ (W'.app v).machines, (W'.mv m).dev = none)
    (hkind : ∀ v ∈ vs, ∀ t, (W'.app v).splitter = some t → E.kind t ≠ .external)
    (hpl : placeFor M W' fixedApp vs fuel (given sys) = .ok s) (hA : SameLinks M C.T) (hT : Passable C)
    (hm : Merges C) (hpos : Positive C.T)
    (hdis : (parts.map (fun p => (p.pre, p.ident))).Nodup) (hne : ∀ p ∈ parts, p.edges ≠ [])
    (hin : ∀ p ∈ parts, p.pre ∈ vs ∧ ∀ d ∈ p.edges, d ∈ vs) (hK : KeysFit E W' parts K)
    (hcl : KeysClear fl E W' parts K) :
    ∃ k, ∀ fuel', k ≤ fuel' → ∃ S infos, routePlaced E W' C s links parts vs fuel' = .ok S ∧
      allocateFor fl (netOf E W' (located C W' s links) parts vs) K = .ok infos ∧
      ∀ (g : Generator) (same : Entry → Entry → Bool), ∃ tm,
        generate g same (ofInfos infos (netOf E W' (located C W' s links) parts vs).base.appOf) S = .ok tm ∧
        ∀ p ∈ parts, ∀ m ∈ (W'.app p.pre).machines, (∃ k, HasKey infos m p.ident k) ∧ ∀ k, HasKey infos m p.ident k →
          (∀ p' ∈ parts, ∀ m' ∈ (W'.app p'.pre).machines, HasKey infos m' p'.ident k → m' = m ∧ p'.ident = p.ident) ∧
          ∃ b ∈ Plc.placements s, b.vertex = m ∧
            (∀ a ∈ Plc.placements s, Valid.Reaches (sceneOf C.T tm) k ((b.x : Int), (b.y : Int)) ((a.x : Int), (a.y : Int)) a.p ↔
              ∃ d ∈ p.edges, a.vertex ∈ (W'.app d).machines) ∧
            (∀ c' q', Valid.Reaches (sceneOf C.T tm) k ((b.x : Int), (b.y : Int)) c' q' →
              ∃ a ∈ Plc.placements s, c' = ((a.x : Int), (a.y : Int)) ∧ q' = a.p ∧ a ∉ Plc.placements (given sys)) := by
  have hW0 : Sound E W := by rw [← h]; exact sound_run os (sound_new hb)
  have hd := done_after hW0 hL hn hp hu hall
  have hL' := linked_after hL hp
  have hset : ∀ v ∈ vs, Settled E W' (Plc.placements s) links fixedApp v := by
    intro v hv
    cases hvf : fixedApp v with
    | false => exact .inl ⟨hvf, hkind v hv, hdev v hv⟩
    | true =>
      obtain ⟨c, hc⟩ := hfix v hv hvf
      exact .inr ⟨_, fixed_sits hd hL' hS.cores hS.grid hf hpl hv hvf (hdev v hv) hc⟩
  have hboth : ∀ v ∈ vs, ∀ m, (Sender E W' v m ↔ m ∈ (W'.app v).machines) ∧ (Receiver E W' v m ↔ m ∈ (W'.app v).machines) := by
    intro v hv m
    obtain ⟨t, ht⟩ := hd.some_ v hv
    rcases hd.shares v t ht with ⟨h1, h2⟩ | ⟨h1, -⟩
    · exact ⟨⟨fun h => sender_known hd h, fun h => ⟨t, _, ht, h1, h⟩⟩,
        ⟨fun h => receiver_known hd h, fun h => ⟨t, _, ht, h2, h⟩⟩⟩
    · exact absurd h1 (hkind v hv t ht)
  obtain ⟨k, hk⟩ := C111_placed_partial (links := links) (fixedApp := fixedApp) (sys := sys) hb h hL hn hp hu hall hS hf
    hon hsys hpl hA hT hm hpos hdis hne
    (fun p hp => by
      obtain ⟨m, hm⟩ := hsome _ (hin p hp).1
      exact ⟨m, (hboth _ (hin p hp).1 m).1.2 hm⟩)
    (fun p hp d hdd => by
      obtain ⟨m, hm⟩ := hsome _ ((hin p hp).2 d hdd)
      exact ⟨m, (hboth _ ((hin p hp).2 d hdd) m).2.2 hm⟩)
    (fun p hp => hset _ (hin p hp).1) (fun p hp d hdd => Or.inl (hset _ ((hin p hp).2 d hdd))) hK hcl
  refine ⟨k, fun fuel' hf' => ?_⟩
  obtain ⟨S, infos, h1, h2, h3⟩ := hk fuel' hf'
  refine ⟨S, infos, h1, h2, fun g same => ?_⟩
  obtain ⟨tm, h4, h5⟩ := h3 g same
  refine ⟨tm, h4, fun p hpp m hmm => ?_⟩
  obtain ⟨h6, h7⟩ := h5 p hpp m ((hboth _ (hin p hpp).1 m).1.2 hmm)
  refine ⟨h6, fun key hkey => ?_⟩
  obtain ⟨h8, c, q, l, h9, h10, h11, -⟩ := h7 key hkey
  refine ⟨fun p' hpp' m' hm' hk' => h8 p' hpp' m' ((hboth _ (hin p' hpp').1 m').1.2 hm') hk', ?_⟩
  cases h9 with
  | link h0 => rw [hdev _ (hin p hpp).1 m hmm] at h0; cases h0
  | core h0 hb' hbv =>
    rename_i b
    refine ⟨b, hb', hbv, fun a ha => ?_, fun c' q' hr => ?_⟩
    · rw [h10 a ha]
      constructor
      · rintro ⟨-, d, e1, e2⟩
        exact ⟨d, e1, (hboth d ((hin p hpp).2 d e1) _).2.1 e2⟩
      · rintro ⟨d, e1, e2⟩
        exact ⟨hdev d ((hin p hpp).2 d e1) _ e2, d, e1, (hboth d ((hin p hpp).2 d e1) _).2.2 e2⟩
    · obtain ⟨a, ha, rfl, rfl⟩ := h11 c' q' hr
      refine ⟨a, ha, rfl, rfl, fun hasys => ?_⟩
      obtain ⟨-, d, e1, e2⟩ := (h10 a ha).1 hr
      exact hsys a hasys d ((hin p hpp).2 d e1) ((hboth d ((hin p hpp).2 d e1) _).2.1 e2)

/-- C111 beside monitors and vertices with fixed locations, on machines with cores enough as in `C101_beside_partial`. -/
theorem C111_beside_partial (hb : Built E mv next) (h : run E (World.new E mp mv next) os = W) (hL : Linked W)
    (hn : vs.Nodup) (hp : partition E W cores sdram vs = (W', .ok n)) (hu : ∀ v ∈ vs, Anew E W v)
    (hall : ∀ v s, (W.app v).splitter = some s → v ∈ vs) (hS : Site M C W' links) (hf : M.chips.length < fuel)
    (hsane : Placer.Sane M (Plc.placements (given sys))) (hmc : 1 ≤ M.maxCores) (hms : (b : Int) ≤ M.maxSdram)
    (hon : ∀ a ∈ Plc.placements (given sys), M.has (a.x, a.y) = true)
    (hsys : ∀ a ∈ Plc.placements (given sys), ∀ v ∈ vs, a.vertex ∉ (W'.app v).machines)
    (hfix : ∀ v ∈ vs, fixedApp v = true → ∃ c, ∀ m ∈ (W'.app v).machines, ∃ q, M.fixed m = some (c, q))
    (hsome : ∀ v ∈ vs, ∃ m, m ∈ (W'.app v).machines)
    (hdev : ∀ v ∈ vs, ∀ m ∈ (W'.app v).machines, (W'.mv m).dev = none)
    (hsmall : ∀ v ∈ vs, fixedApp v = false → ∀ m ∈ (W'.app v).machines, (W'.mv m).sdram ≤ b)
    (h1 : placeFor M W' fixedApp (vs.filter fixedApp) fuel (given sys) = .ok s1)
    (hLv : Placer.Leaves (machineFor M W') k b (Plc.placements s1))
    (hroom : Placer.AllFind M k (Placer.taken M k (Plc.placements s1))
      ((vs.filter (fun v => !fixedApp v)).map (fun v => (W'.app v).machines.length)))
    (hkind : ∀ v ∈ vs, ∀ t, (W'.app v).splitter = some t → E.kind t ≠ .external)
    (hA : SameLinks M C.T) (hT : Passable C) (hm : Merges C) (hpos : Positive C.T)
    (hdis : (parts.map (fun p => (p.pre, p.ident))).Nodup) (hne : ∀ p ∈ parts, p.edges ≠ [])
    (hin : ∀ p ∈ parts, p.pre ∈ vs ∧ ∀ d ∈ p.edges, d ∈ vs) (hK : KeysFit E W' parts K)
    (hcl : KeysClear fl E W' parts K) :
    ∃ s, placeFor M W' fixedApp vs fuel (given sys) = .ok s ∧
    ∃ k, ∀ fuel', k ≤ fuel' → ∃ S infos, routePlaced E W' C s links parts vs fuel' = .ok S ∧
      allocateFor fl (netOf E W' (located C W' s links) parts vs) K = .ok infos ∧
      ∀ (g : Generator) (same : Entry → Entry → Bool), ∃ tm,
        generate g same (ofInfos infos (netOf E W' (located C W' s links) parts vs).base.appOf) S = .ok tm ∧
        ∀ p ∈ parts, ∀ m ∈ (W'.app p.pre).machines, (∃ k, HasKey infos m p.ident k) ∧ ∀ k, HasKey infos m p.ident k →
          (∀ p' ∈ parts, ∀ m' ∈ (W'.app p'.pre).machines, HasKey infos m' p'.ident k → m' = m ∧ p'.ident = p.ident) ∧
          ∃ b ∈ Plc.placements s, b.vertex = m ∧
            (∀ a ∈ Plc.placements s, Valid.Reaches (sceneOf C.T tm) k ((b.x : Int), (b.y : Int)) ((a.x : Int), (a.y : Int)) a.p ↔
              ∃ d ∈ p.edges, a.vertex ∈ (W'.app d).machines) ∧
            (∀ c' q', Valid.Reaches (sceneOf C.T tm) k ((b.x : Int), (b.y : Int)) c' q' →
              ∃ a ∈ Plc.placements s, c' = ((a.x : Int), (a.y : Int)) ∧ q' = a.p ∧ a ∉ Plc.placements (given sys)) := by
  obtain ⟨s, hpl⟩ := C101_beside_partial (fixedApp := fixedApp) hb h hL hn hp hu hall hS.cores hS.grid hf hsane hmc hms
    (fun v hv _ => hdev v hv) (fun v hv hvf => .inr fun m hm => ⟨hdev v hv m hm, hsmall v hv hvf m hm⟩) hsys h1 hLv (by
      rw [List.map_congr_left (g := fun v => (W'.app v).machines.length)]
      · exact hroom
      · intro v hv
        rw [List.filter_eq_self.2]
        exact fun m hm => decide_eq_true (hdev v (List.mem_filter.1 hv).1 m hm))
  exact ⟨s, hpl, deliver_beside hb h hL hn hp hu hall hS hf hon hsys hfix hsome hdev hkind hpl hA hT hm hpos hdis hne hin hK hcl⟩

end

/-! ### A monitor on each of four chips, and vertex 3 on the chip at (2, 0) -/

def besideM : Placer.Machine :=
  { devM with cores := fun _ => [1, 2, 3], fixed := fun m => if m = 0 then some ((2, 0), some 3) else none }

def besideSys : List Plc.Op := [.add ⟨100, 0, 0, 1⟩, .add ⟨101, 1, 0, 1⟩, .add ⟨102, 2, 0, 1⟩, .add ⟨103, 0, 1, 1⟩]

def besideFixed : Nat → Bool := fun v => decide (v = 3)

def besideOne : Store :=
  (placeFor besideM (roomD [3, 2] 2) besideFixed [3] 5 (given besideSys)).toOption.getD Plc.Store.empty

theorem beside_one : placeFor besideM (roomD [3, 2] 2) besideFixed [3] 5 (given besideSys) = .ok besideOne ∧
    Plc.placements besideOne = Plc.placements (given besideSys) ++ [⟨0, 2, 0, 3⟩] := by decide +kernel

theorem beside_each {P : Placer.XY → Prop} (h : ∀ c ∈ [(0, 0), (1, 0), (2, 0), (0, 1)], P c) :
    ∀ c, besideM.has c = true → P c := fun c hc => h c (of_decide_eq_true hc)

theorem beside_dev (m : Nat) : ((roomD [3, 2] 2).mv m).dev = none := by
  match m with
  | 0 => decide +kernel
  | 1 => decide +kernel
  | 2 => decide +kernel
  | m + 3 => rfl

theorem beside_site : Site besideM devBase (roomD [3, 2] 2) devLinks :=
  { dev_site with links := by intro m i b h; rw [beside_dev] at h; cases h }

theorem beside_sane : Placer.Sane besideM (Plc.placements (given besideSys)) where
  links := line_even.links
  cores := fun _ => (by decide : [1, 2, 3].Nodup)
  offered := by decide +kernel

theorem beside_machines : ((roomD [3, 2] 2).app 3).machines = [0] ∧ ((roomD [3, 2] 2).app 2).machines = [1, 2] := by decide +kernel

theorem beside_leaves : Placer.Leaves (machineFor besideM (roomD [3, 2] 2)) 2 20 (Plc.placements besideOne) := by
  rw [beside_one.2]
  have h0 : Plc.placements (given besideSys) = [⟨100, 0, 0, 1⟩, ⟨101, 1, 0, 1⟩, ⟨102, 2, 0, 1⟩, ⟨103, 0, 1, 1⟩] := by decide +kernel
  rw [h0]
  exact ⟨beside_each (by decide +kernel), fun c hc => beside_each (P := fun c => ((Placer.load (machineFor besideM (roomD [3, 2] 2)) _ c +
    (Placer.freeOn (machineFor besideM (roomD [3, 2] 2)) _ c - 1) * 20 : Nat) : Int) ≤ _) (by decide +kernel) c hc.1,
    fun c hc => beside_each (P := fun c => Placer.load (machineFor besideM (roomD [3, 2] 2)) _ c +
      Placer.freeOn (machineFor besideM (roomD [3, 2] 2)) _ c * 20 ≤ _) (by decide +kernel) c hc.1⟩

theorem beside_room : Placer.AllFind besideM 2 (Placer.taken besideM 2 (Plc.placements besideOne))
    (([3, 2].filter (fun v => !besideFixed v)).map (fun v => ((roomD [3, 2] 2).app v).machines.length)) := by
  have h1 : ([3, 2].filter (fun v => !besideFixed v)).map (fun v => ((roomD [3, 2] 2).app v).machines.length) = [2] := by
    decide +kernel
  have h2 : Placer.taken besideM 2 (Plc.placements besideOne) = 1 := by decide +kernel
  rw [h1, h2]
  exact ⟨Placer.finds_chip (by decide) (by decide +kernel), trivial⟩

theorem beside_fit : KeysFit roomE (roomD [3, 2] 2) splitP Pipe.lineK := by
  refine KeysFit.of_free (fun _ _ => rfl) (fun _ _ => rfl) (by intro x hx; cases hx) ?_ ?_
  · intro x _ t ms _ _ h
    cases ms with
    | nil => exact Nat.zero_le _
    | cons m ms => have := h m List.mem_cons_self; cases this
  · refine ⟨5, 1, by decide, by decide, ?_⟩
    intro x hx t ms h1 h2
    refine ⟨1, 4, by decide, ?_, fun m _ => (by decide : (10 : Nat) ≤ 2 ^ 4)⟩
    have hx' : x = (3, 0) ∨ x = (2, 5) := by
      simpa [splitP, Pipe.lineK] using hx
    rcases hx' with rfl | rfl
    · have h3 : ((roomD [3, 2] 2).app 3).splitter = some 3 := by decide +kernel
      rw [h3] at h1
      cases h1
      have h4 : outVerts roomE (roomD [3, 2] 2) 3 = .ok [0] := by decide +kernel
      rw [h4] at h2
      cases h2
      decide
    · have h3 : ((roomD [3, 2] 2).app 2).splitter = some 2 := by decide +kernel
      rw [h3] at h1
      cases h1
      have h4 : outVerts roomE (roomD [3, 2] 2) 2 = .ok [1, 2] := by decide +kernel
      rw [h4] at h2
      cases h2
      decide

example : ∃ s, placeFor besideM (roomD [3, 2] 2) besideFixed [3, 2] 5 (given besideSys) = .ok s :=
  C101_beside_partial (n := 2) (b := 20) (k := 2) (cores := (2 : Nat)) (sdram := 100) (os := roomOps [3, 2])
    (W := resetGraph roomE (roomW [3, 2]) [3, 2])
    room_built (room_run _) (room_linkedR rfl) (by decide) (room_done (by decide +kernel)) (room_anew _) (room_allR room_all32)
    beside_site.cores beside_site.grid (by decide +kernel) beside_sane (by decide) (by decide)
    (fun _ _ _ m _ => beside_dev m) (fun v hv _ => .inr fun m hm => ⟨beside_dev m, by revert v m; decide +kernel⟩)
    (by decide +kernel) beside_one.1 beside_leaves beside_room

example : ∃ s, placeFor besideM (roomD [3, 2] 2) besideFixed [3, 2] 5 (given besideSys) = .ok s ∧
    ∃ k, ∀ fuel', k ≤ fuel' → ∃ S infos, routePlaced roomE (roomD [3, 2] 2) devBase s devLinks splitP [3, 2] fuel' = .ok S ∧
      ∀ (g : Generator) (same : Entry → Entry → Bool), ∃ tm, generate g same
        (ofInfos infos (netOf roomE (roomD [3, 2] 2) (located devBase (roomD [3, 2] 2) s devLinks) splitP [3, 2]).base.appOf) S = .ok tm ∧
        ∀ k, HasKey infos 1 5 k → ∃ b ∈ Plc.placements s, b.vertex = 1 ∧
          (∀ a ∈ Plc.placements s, (Valid.Reaches (sceneOf devBase.T tm) k ((b.x : Int), (b.y : Int))
            ((a.x : Int), (a.y : Int)) a.p ↔ ∃ d ∈ [3, 2], a.vertex ∈ ((roomD [3, 2] 2).app d).machines)) := by
  obtain ⟨s, h3, k, hk⟩ := C111_beside_partial (fl := false) (n := 2) (b := 20) (k := 2) (cores := (2 : Nat)) (sdram := 100)
    (os := roomOps [3, 2]) (W := resetGraph roomE (roomW [3, 2]) [3, 2])
    room_built (room_run _) (room_linkedR rfl) (by decide) (room_done (by decide +kernel)) (room_anew _) (room_allR room_all32)
    beside_site (by decide +kernel) beside_sane (by decide) (by decide) (by decide +kernel) (by decide +kernel)
    (by
      intro v hv hvf
      have hv' : v = 3 := of_decide_eq_true hvf
      subst hv'
      refine ⟨(2, 0), fun m hm => ⟨some 3, ?_⟩⟩
      rw [beside_machines.1, List.mem_singleton] at hm
      subst hm
      rfl)
    (by
      intro v hv
      simp only [List.mem_cons, List.not_mem_nil, or_false] at hv
      rcases hv with rfl | rfl
      · rw [beside_machines.1]; exact ⟨0, by simp⟩
      · rw [beside_machines.2]; exact ⟨1, by simp⟩)
    (fun _ _ m _ => beside_dev m) (fun v hv _ m hm => by revert v m; decide +kernel) beside_one.1 beside_leaves beside_room
    (by intro v _ t _ h; cases h) line_same line_passable (fun a b => ⟨_, rfl⟩) (by intro c hc; revert c; decide)
    (parts := splitP) (by decide) (by decide) (by decide) beside_fit (.inr (.inl (fun _ _ => rfl)))
  refine ⟨s, h3, k, fun fuel' hf => ?_⟩
  obtain ⟨S, infos, h4, -, h5⟩ := hk fuel' hf
  refine ⟨S, infos, h4, fun g same => ?_⟩
  obtain ⟨tm, h6, h7⟩ := h5 g same
  refine ⟨tm, h6, fun key hkey => ?_⟩
  obtain ⟨-, b, h8, h9, h10, -⟩ := (h7 ⟨2, 5, [3, 2]⟩ (by decide) 1 (by decide +kernel)).2 key hkey
  exact ⟨b, h8, h9, h10⟩

end Pacman.Split
