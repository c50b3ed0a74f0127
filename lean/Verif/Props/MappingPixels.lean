import Verif.Props.MappingDevices
import Verif.Spec.MappingPixels
import Verif.Proofs.PixelKeys
/-
C130: packets for the pixels of 2D devices that hand out the keys of their sub-rectangles.
-/

namespace Pacman.Pipe

open Alloc (VId Infos)
open Router (Net NetContract)

/-- A machine vertex with fixed keys has just these. -/
theorem hasKey_fixed {N : Net} {K : Keys} {infos : Infos} {fl : Bool} (hN : NetContract N) (hK : KeyContract N K)
    (h : allocateFor fl N K = .ok infos) {a ident : Nat} (hu : Used N K a ident) {ms : List Nat}
    (ho : N.outgoing ident a = some ms) {akm km : Word × Word} (hf : K.fixed a ident = some akm) {m : Nat} (hm : m ∈ ms)
    (hkm : K.machFixed m ident = some km) (k : Word) (hk : k &&& km.2 = km.1) : HasKey infos m ident k := by
  unfold allocateFor at h
  split at h
  · cases h
  · rename_i ps hps
    obtain ⟨q, hq, rfl, rfl⟩ := (vertexParts_ok hps).2.2 a ident hu
    have hseen := ((vertexParts_ok hps).2.1 q hq).1
    obtain ⟨ms', h1, h2⟩ := hseen.out
    rw [ho] at h1
    injection h1 with h1
    subst h1
    have hv : K.vertex q.ident m ∈ q.outgoing := by rw [h2]; exact List.mem_map.2 ⟨m, hm, rfl⟩
    obtain ⟨-, -, c3⟩ := Alloc.C20_fixed_honoured_partial (parts_wf hN hK hps) (parts_idle hK hps) (parts_counted hK hps) h hq
      (hseen.fixed.trans hf)
    obtain ⟨⟨j, hj, hof⟩, d2, -, -⟩ := c3 _ hv
    have hkm' := d2 j hj hof
    rw [show (K.vertex q.ident m).fixed = K.machFixed m q.ident from rfl, hkm] at hkm'
    cases j with
    | app => simp [Alloc.Info.of] at hof
    | mach a1 a2 a3 a4 a5 =>
      simp only [Alloc.Info.of, Prod.mk.injEq, VId.mach.injEq] at hof
      simp only [Alloc.Info.km, Prod.mk.injEq, Option.getD_some] at hkm'
      obtain ⟨rfl, hof⟩ := hof
      have hof : a2 = m := hof
      subst hof
      refine ⟨_, _, _, hj, ?_⟩
      rw [hkm'.1, hkm'.2, ← BitVec.toNat_and, hk]

end Pacman.Pipe

namespace Pacman.Split

open Device (Dev appWords toWords getKeyMask keyShift nSub verify InLine getSlice pixelKey indexOf)
open Router (Ctx AppPart Merges)
open Pipe (Keys Generator HasKey Leads sceneOf Positive allocateFor generate)
open Gen (ofInfos)
open Plc (Store)
open Placer (given)
open Alloc (Infos)

/-- One by one, for rounds that are numbered. -/
theorem Match.at {P : (Nat × Nat) → Nat → Prop} {js : List (Nat × Nat)} {ms : List Nat} (h : Match P js ms) :
    ∀ (i : Nat) m, ms[i]? = some m → ∃ j, js[i]? = some j ∧ P j m := by
  induction h with
  | nil => intro i m h; simp at h
  | cons h _ ih =>
    intro i m hi
    cases i with
    | zero => simp only [List.getElem?_cons_zero, Option.some.injEq] at hi ⊢; subst hi; exact ⟨_, rfl, h⟩
    | succ i => simp only [List.getElem?_cons_succ] at hi ⊢; exact ih i m hi

theorem mapM_at {α β : Type} (f : α → Except PyErr β) : ∀ (l : List α) {ss : List β}, l.mapM f = .ok ss →
    ∀ (i : Nat) x, l[i]? = some x → ∀ y, f x = .ok y → ss[i]? = some y := by
  intro l
  induction l with
  | nil => intro ss _ i x hx; simp at hx
  | cons z l ih =>
    intro ss h i x hx y hy
    rw [List.mapM_cons] at h
    cases hz : f z with
    | error e => rw [hz] at h; cases h
    | ok z' =>
      rw [hz] at h
      cases hl : l.mapM f with
      | error e => rw [hl] at h; cases h
      | ok ss' =>
        rw [hl] at h
        cases h
        cases i with
        | zero =>
          simp only [List.getElem?_cons_zero, Option.some.injEq] at hx ⊢
          subst hx
          rw [hz] at hy
          cases hy
          rfl
        | succ i =>
          simp only [List.getElem?_cons_succ] at hx ⊢
          exact ih hl i x hx y hy

/-- The rounds for a grid. -/
theorem grid_jobs {x : DevKind} {d : Dev} (h : x.grid d) :
    (∀ n i, x.slice n i = getSlice d i) ∧ x.senders = nSub d ∧ ∀ (i : Nat) j, x.jobs[i]? = some j → j.1 = i ∧ i < nSub d := by
  cases x with
  | fpga k links out two =>
    obtain ⟨rfl, rfl, hl⟩ := h
    obtain ⟨l, rfl⟩ := List.length_eq_one_iff.1 hl
    refine ⟨fun _ _ => rfl, by simp [DevKind.senders], fun i j hj => ?_⟩
    simp only [DevKind.jobs, List.map_cons, List.map_nil] at hj
    rw [← List.map_eq_flatMap, List.getElem?_map] at hj
    by_cases hi : i < nSub d
    · rw [List.getElem?_range hi] at hj
      cases hj
      exact ⟨rfl, hi⟩
    · rw [List.getElem?_eq_none (by rw [List.length_range]; omega)] at hj
      cases hj
  | link n id inc out two =>
    obtain ⟨rfl, rfl, rfl⟩ := h
    refine ⟨fun _ _ => rfl, by simp [DevKind.senders], fun i j hj => ?_⟩
    simp only [DevKind.jobs, if_true] at hj
    rw [List.getElem?_map] at hj
    by_cases hi : i < nSub d
    · rw [List.getElem?_range hi] at hj
      cases hj
      exact ⟨rfl, hi⟩
    · rw [List.getElem?_eq_none (by rw [List.length_range]; omega)] at hj
      cases hj

section
variable {E : Env} {mp : Nat → Option (List Nat)} {mv : Nat → MV} {next : Nat} {os : List Op} {W W' : World}
  {vs : List Nat} {k a i j c n : Nat} {sdram : Int} {fuel : Nat} {C : Ctx} {parts : List AppPart} {K : Keys}
  {D : Nat → Nat → Option (Dev × Nat)}
  {M : Placer.Machine} {links : Nat → RPath.XY × Nat} {fixedApp : Nat → Bool} {fl : Bool}

/-- Machine vertices are numbered as they were made. -/
theorem indexed_after (hb : Built E mv next) (h : runOk E (World.new E mp mv next) os = some W) (hn : vs.Nodup) (hi : Indexed W)
    (hv : ∀ v ∈ vs, Plain E W k a sdram v ∨ Lone E W k sdram v ∨ External E W v)
    (hp : partition E (resetGraph E W vs) k sdram vs = (W', .ok n)) : Indexed W' := by
  have hL := linked_runOk os (linked_new E mp mv next) h
  have hW0 : Sound E W := by rw [← runOk_run os h]; exact sound_run os (sound_new hb)
  have hi0 : Indexed (resetGraph E W vs) := by
    unfold resetGraph
    clear hn hv hp hL hW0 h
    induction vs generalizing W with
    | nil => exact hi
    | cons v vs ih => exact ih (indexed_reset hi v)
  have := indexed_partitionLoop vs (resetGraph E W vs) (Counter.Counter.new k sdram) (sound_resetGraph hW0 vs)
    ((keeps_resetGraph E W vs).linked hL) hi0 hn (by
      intro v hvv s hs hk
      rw [(keeps_resetGraph E W vs).1 v] at hs
      rcases hv v hvv with hx | hx | hx
      · obtain ⟨t, h1, h2⟩ := hx.splitter
        rw [h1] at hs
        injection hs with hs
        subst hs
        rw [h2] at hk
        cases hk
      · obtain ⟨t, h1, h2⟩ := hx.splitter
        rw [h1] at hs
        injection hs with hs
        subst hs
        rw [h2] at hk
        cases hk
      · rw [resetGraph_app, if_pos ⟨hvv, hx.many⟩])
  rw [← partition_world, hp] at this
  exact this

/-- The machine vertices that send for a grid: one for each sub-rectangle in their order. -/
theorem grid_after (hb : Built E mv next) (h : runOk E (World.new E mp mv next) os = some W)
    (hn : vs.Nodup) (hall : ∀ v s, (W.app v).splitter = some s → v ∈ vs)
    (hv : ∀ v ∈ vs, Plain E W k a sdram v ∨ Lone E W k sdram v ∨ External E W v) (hS : Site M C W links) (hix : Indexed W)
    (hp : partition E (resetGraph E W vs) k sdram vs = (W', .ok n)) {v : Nat} (hvv : v ∈ vs) {d : Dev} {base : Nat}
    (hG : Grid E W v d base) {ident : Nat} {ms : List Nat} (hms : Sends E W' (v, ident) ms) :
    sendersFor E W v = nSub d ∧ ∀ (i : Nat) m, ms[i]? = some m → i < nSub d ∧ (W'.mv m).app = v ∧
      getSlice d i = .ok (W'.mv m).slice ∧ (W'.mv m).index = i := by
  have hrun := runOk_run os h
  have hL := linked_runOk os (linked_new E mp mv next) h
  have hW0 : Sound E W := by rw [← hrun]; exact sound_run os (sound_new hb)
  have hL0 := (keeps_resetGraph E W vs).linked hL
  obtain ⟨hu, -, hafter⟩ := mixed_after hb h hn hall hv hS hp
  have hd := done_after (sound_resetGraph hW0 vs) hL0 hn hp hu (all_reset hall)
  obtain ⟨t, x, h1, h2, h3, h4, -, h6, -⟩ := ((hafter v hvv).1 hG.external).device
  obtain ⟨x', h7, h8⟩ := hG.kind
  rw [h3] at h7
  injection h7 with h7
  subst h7
  obtain ⟨e1, e2, e3⟩ := grid_jobs h8
  have hH : Has E W' t := by
    have h3 := mono_partition E (resetGraph E W vs) k sdram vs
    have h4 := ext_partition E (resetGraph E W vs) k sdram vs
    rw [hp] at h3 h4
    exact Mono.has (sound_resetGraph hW0 vs) h3 h4
      (has_resetGraph vs hW0 (has_runOk os (sound_new hb) (has_new E mp mv next) h)) t
  have hgov := (linked_after hL0 hp v t).1 h1
  obtain ⟨x', f1, f2, -⟩ := hH v h2 hgov
  rw [h3] at f1
  injection f1 with f1
  subst f1
  obtain ⟨t', g1, g2⟩ := hms
  rw [h1] at g1
  injection g1 with g1
  subst g1
  rw [outVerts_device h2] at g2
  split at g2
  · cases g2
  · injection g2 with g2
    subst g2
    refine ⟨h4.trans e2, fun i m him => ?_⟩
    obtain ⟨jj, q1, q2, -⟩ := f2.at i m him
    obtain ⟨q3, q4⟩ := e3 i jj q1
    rw [e1, q3] at q2
    have hmem : m ∈ (W'.spl t).inV := List.mem_of_getElem? him
    refine ⟨q4, (hd.sound.dev t m (List.mem_append_left _ hmem)).2.1 v hgov, q2, ?_⟩
    refine indexed_after hb h hn hix hv hp v i m ?_
    rw [h6, List.getElem?_append_left (by
      obtain ⟨hlt, -⟩ := List.getElem?_eq_some_iff.1 him
      exact hlt)]
    exact him

/-- The key of a machine vertex of a grid. -/
theorem grid_key {d : Dev} {base : Nat} (hG : Grid E W a d base) {m ident i : Nat} (hD : D (W'.mv m).app ident = some (d, base))
    (hi : i < nSub d) (hs : getSlice d i = .ok (W'.mv m).slice) :
    ∃ km, getKeyMask d base i = .ok km ∧ (withPixels K D W').machFixed m ident = some (toWords km) ∧
      (W'.mv m).slice.lo = i * (d.sw * d.sh) := by
  obtain ⟨km, hkm⟩ := (Device.C48_exists hG.ok hi).2 ⟨hG.bits, hG.base⟩
  obtain ⟨-, -, -, -, h5, h6⟩ := Device.geom hG.ok
  rw [Device.getSlice_eq hG.ok] at hs
  injection hs with hs
  have hlo : (W'.mv m).slice.lo = i * (d.sw * d.sh) := by rw [← hs]
  refine ⟨km, hkm, ?_, hlo⟩
  unfold withPixels
  simp only [hD, hlo]
  rw [Nat.mul_div_cancel _ (Nat.mul_pos h5 h6), hkm]

/-- The keys fit, also those of 2D devices. -/
theorem pixels_fit (hb : Built E mv next) (h : runOk E (World.new E mp mv next) os = some W)
    (hn : vs.Nodup) (hall : ∀ v s, (W.app v).splitter = some s → v ∈ vs)
    (hv : ∀ v ∈ vs, Plain E W k a sdram v ∨ Lone E W k sdram v ∨ External E W v) (hS : Site M C W links) (hix : Indexed W)
    (hpv : ∀ x ∈ pairs parts K, x.1 ∈ vs)
    (hK : ModestPixels fl (sendersFor E W) vs parts K D i j c) (hbits : i + j + c ≤ 32)
    (hgrid : ∀ x ∈ pairs parts K, ∀ y, D x.1 x.2 = some y → Grid E W x.1 y.1 y.2)
    (hcnt : ∀ x ∈ pairs parts K, 0 < sendersFor E W x.1 ∧ (D x.1 x.2 = none → sendersFor E W x.1 ≤ 2 ^ i))
    (hp : partition E (resetGraph E W vs) k sdram vs = (W', .ok n))
    (hsends : ∀ x ∈ pairs parts K, ∃ ms, Sends E W' x ms ∧ ms.length = sendersFor E W x.1) :
    KeysFit E W' parts (withPixels K D W') ∧ KeysClear fl E W' parts (withPixels K D W') := by
  have houts := sends_length hsends
  have hsend : ∀ x ∈ pairs parts K, ∃ ms, Sends E W' x ms := fun x hx => (hsends x hx).imp fun _ h => h.1
  have hsome : ∀ x ∈ pairs parts K, ∀ ms, Sends E W' x ms → ms ≠ [] := by
    intro x hx ms hms h0
    have h1 := houts x hx ms hms
    have h2 := (hcnt x hx).1
    rw [h0] at h1
    exact absurd h1.symm (Nat.ne_of_gt h2)
  have hown : ∀ x ∈ pairs parts K, ∀ ms, Sends E W' x ms → ∀ m ∈ ms, (W'.mv m).app = x.1 := by
    rintro x hx ms ⟨t, ht, ho⟩ m hm
    have hL := linked_runOk os (linked_new E mp mv next) h
    have hW0 : Sound E W := by rw [← runOk_run os h]; exact sound_run os (sound_new hb)
    have hL0 := (keeps_resetGraph E W vs).linked hL
    obtain ⟨hu, -, -⟩ := mixed_after hb h hn hall hv hS hp
    have hd := done_after (sound_resetGraph hW0 vs) hL0 hn hp hu (all_reset hall)
    exact hd.sound.owner _ m (sender_known hd ⟨t, ms, ht, ho, hm⟩)
  have hfreeM : ∀ x ∈ pairs parts K, D x.1 x.2 = none → ∀ ms, Sends E W' x ms → ∀ m ∈ ms,
      (withPixels K D W').machFixed m x.2 = none := by
    intro x hx hD ms hms m hm
    unfold withPixels
    simp only [hown x hx ms hms m hm, hD]
  have hFD : ∀ x : Nat × Nat, fixedFor K D x.1 x.2 = none → D x.1 x.2 = none := by
    intro x h0
    unfold fixedFor at h0
    split at h0
    · cases h0
    · assumption
  refine ⟨⟨?_, ?_, ?_, ?_, ?_, ?_, hK.apart, ?_⟩, ?_⟩
  · intro b ident km h0
    change fixedFor K D b ident = some km at h0
    unfold fixedFor at h0
    split at h0
    · cases h0
      exact Device.appWords_valid _ _
    · exact hK.valid _ _ _ h0
  · intro m ident km h0
    unfold withPixels at h0
    simp only at h0
    split at h0
    · split at h0
      · rename_i hkm
        cases h0
        exact Device.toWords_valid hkm
      · cases h0
    · cases h0
  · exact fun x hx => hsend x (List.mem_append_right _ hx)
  · exact fun x hx h0 ms hms m hm => hfreeM x hx (hFD x h0) ms hms m hm
  · intro x hx _ ms _ h0
    cases ms with
    | nil => exact Nat.zero_le _
    | cons m ms =>
      have h1 : K.nKeys m x.2 = 0 := h0 m List.mem_cons_self
      have h2 := hK.some_ m x.2
      omega
  · intro x hx akm h0 ms hms
    refine ⟨hsome x hx ms hms, ?_⟩
    change fixedFor K D x.1 x.2 = some akm at h0
    cases hD : D x.1 x.2 with
    | none =>
      refine ⟨.inl ?_, fun m hm km h1 => (by rw [hfreeM x hx hD ms hms m hm] at h1; cases h1)⟩
      rw [houts x hx ms hms, hK.one x hx hD]
      · exact Nat.le_refl _
      · unfold fixedFor at h0
        rw [hD] at h0
        rw [show K.fixed x.1 x.2 = some akm from h0]
        exact Option.some_ne_none _
    | some y =>
      obtain ⟨d, base⟩ := y
      have hG : Grid E W x.1 d base := hgrid x hx _ hD
      have hakm : akm = appWords d base := by
        unfold fixedFor at h0
        rw [hD] at h0
        exact (Option.some.inj h0).symm
      subst hakm
      obtain ⟨hc, hat⟩ := grid_after hb h hn hall hv hS hix hp (hpv x hx) hG (ident := x.2) hms
      have hkey : ∀ (i : Nat) m, ms[i]? = some m → i < nSub d ∧ (W'.mv m).index = i ∧ ∃ km, getKeyMask d base i = .ok km ∧
          (withPixels K D W').machFixed m x.2 = some (toWords km) ∧ (W'.mv m).slice.lo = i * (d.sw * d.sh) := by
        intro i m him
        obtain ⟨e1, e2, e3, e4⟩ := hat i m him
        exact ⟨e1, e4, grid_key hG (by rw [e2]; exact hD) e1 e3⟩
      refine ⟨.inr ?_, ?_⟩
      · rcases hG.line with hl | hl
        · refine .inl ⟨?_, ?_⟩
          · intro m hm
            obtain ⟨i, him⟩ := List.getElem?_of_mem hm
            obtain ⟨-, -, km, e1, e2, -⟩ := hkey i m him
            have hlt : d.sh < d.h := by
              rcases hG.high with h1 | h1
              · exact h1
              · have := (Device.verify_iff d).1 hG.ok
                omega
            exact ⟨_, e2, Device.mask_hole hG.ok hl hlt e1⟩
          · intro m hm m' hm' hne k1 k2 g1 g2 w hw
            obtain ⟨i, him⟩ := List.getElem?_of_mem hm
            obtain ⟨i', him'⟩ := List.getElem?_of_mem hm'
            obtain ⟨q1, -, km, e1, e2, -⟩ := hkey i m him
            obtain ⟨q1', -, km', e1', e2', -⟩ := hkey i' m' him'
            rw [e2] at g1
            rw [e2'] at g2
            cases g1
            cases g2
            rw [Device.toWords_iff hG.ok e1, Device.toWords_iff hG.ok e1'] at hw
            refine Device.C48_disjoint hG.ok q1 q1' e1 e1' ?_ _ hw
            intro h9
            injection h9 with _ h9
            subst h9
            rw [him] at him'
            exact hne (Option.some.inj him')
        · refine .inr ⟨appWords d base, Device.xBits d - Device.subXBits d, Device.subXBits d + Device.yBits d, h0, ?_⟩
          have hsum : Device.xBits d - Device.subXBits d + (Device.subXBits d + Device.yBits d) = keyShift d := by
            have h1 := (Device.geom hG.ok).1
            have h2 : keyShift d = Device.yBits d + Device.xBits d := rfl
            omega
          refine ⟨?_, ?_, ?_, ?_, ?_⟩
          · rw [hsum]; exact hG.bits
          · rw [hsum]; exact Device.appWords_mask base hG.bits
          · rw [List.pairwise_iff_getElem]
            intro i1 i2 l1 l2 hlt
            obtain ⟨-, -, -, -, -, e1⟩ := hkey i1 _ (List.getElem?_eq_getElem l1)
            obtain ⟨-, -, -, -, -, e2⟩ := hkey i2 _ (List.getElem?_eq_getElem l2)
            show (W'.mv _).slice.lo ≤ (W'.mv _).slice.lo
            rw [e1, e2]
            exact Nat.mul_le_mul_right _ (Nat.le_of_lt hlt)
          · rw [houts x hx ms hms, hc]
            exact Device.nSub_le hG.ok
          · intro i m him
            obtain ⟨e1, e2, km, e3, e4, -⟩ := hkey i m him
            exact ⟨e2, _, e4, Device.line_words hG.ok hl e1 e3⟩
      · intro m hm km h1
        obtain ⟨i, him⟩ := List.getElem?_of_mem hm
        obtain ⟨e1, -, km', e3, e4, -⟩ := hkey i m him
        rw [e4] at h1
        cases h1
        exact Device.toWords_inside hG.ok e1 e3
  · obtain ⟨L, h1, h2⟩ := hK.room
    refine ⟨i + j, L, by omega, Nat.le_trans h1 (Nat.pow_le_pow_right (by decide) (by omega)), h2, ?_⟩
    intro x hx h0 ms hms
    refine ⟨i, j, Nat.le_refl _, ?_, fun m _ => hK.most m x.2⟩
    rw [houts x hx ms hms]
    exact (hcnt x hx).2 (hFD x h0)
  · rcases hK.clear with h0 | h0 | ⟨x, hx, hf, h0⟩
    · exact .inl h0
    · exact .inr (.inl h0)
    · obtain ⟨ms, hms⟩ := hsend x hx
      refine .inr (.inr ⟨x, hx, hf, ms, hms, fun y hy hfy ms' hms' => ⟨fun e he m' hm' => ?_, fun e he => ?_⟩⟩)
      · obtain ⟨m, hm⟩ := List.exists_mem_of_ne_nil ms (hsome x hx ms hms)
        exact Nat.le_trans ((h0 y hy hfy).2 m m') (he m hm)
      · rw [houts y hy ms' hms']
        rw [houts x hx ms hms] at he
        exact Nat.le_trans (h0 y hy hfy).1 he

/-- C111 with 2D devices from the graph alone: as `C111_devices_partial`, where some devices hand out the keys of their sub-rectangles for
their machine vertices. Missing: as there, but for these keys. -/
theorem C111_pixels_partial (hb : Built E mv next) (h : runOk E (World.new E mp mv next) os = some W)
    (hn : vs.Nodup) (hall : ∀ v s, (W.app v).splitter = some s → v ∈ vs)
    (hv : ∀ v ∈ vs, Plain E W k a sdram v ∨ Lone E W k sdram v ∨ External E W v) (hS : Site M C W links) (hix : Indexed W)
    (hk : 0 < k) (hE : Even M k sdram) (hf : M.chips.length < fuel) (hfree : ∀ v ∈ vs, fixedApp v = false)
    (hroom : Placer.AllFind M k 0 (vs.map (coresOn E W))) (hA : SameLinks M C.T) (hT : Passable C)
    (hm : Merges C) (hpos : Positive C.T)
    (hdis : (parts.map (fun p => (p.pre, p.ident))).Nodup) (hne : ∀ p ∈ parts, p.edges ≠ [])
    (hin : ∀ p ∈ parts, p.pre ∈ vs ∧ ∀ d ∈ p.edges, d ∈ vs)
    (hnear : ∀ p ∈ parts, External E W p.pre → OneChip E links p.pre)
    (htakes : ∀ p ∈ parts, ∀ d ∈ p.edges, External E W d → ∃ x, (E.app d).device = some x ∧ x.receives = true)
    (hK : ModestPixels fl (sendersFor E W) vs parts K D i j c) (hbits : i + j + c ≤ 32)
    (hgrid : ∀ x ∈ pairs parts K, ∀ y, D x.1 x.2 = some y → Grid E W x.1 y.1 y.2)
    (hmany : ∀ x ∈ pairs parts K, 0 < sendersFor E W x.1 ∧ (D x.1 x.2 = none → sendersFor E W x.1 ≤ 2 ^ i)) :
    ∃ W' n, partition E (resetGraph E W vs) k sdram vs = (W', .ok n) ∧
    (∀ x ∈ pairs parts K, ∃ ms, Sends E W' x ms ∧ ms.length = sendersFor E W x.1) ∧
    ∃ s, placeFor M W' fixedApp vs fuel (given []) = .ok s ∧
    ∃ k, ∀ fuel', k ≤ fuel' → ∃ S infos, routePlaced E W' C s links parts vs fuel' = .ok S ∧
      allocateFor fl (netOf E W' (located C W' s links) parts vs) (withPixels K D W') = .ok infos ∧
      ∀ (g : Generator) (same : Entry → Entry → Bool), ∃ tm,
        generate g same (ofInfos infos (netOf E W' (located C W' s links) parts vs).base.appOf) S = .ok tm ∧
        ∀ p ∈ parts, ∀ m, Sender E W' p.pre m → (∃ k, HasKey infos m p.ident k) ∧ ∀ k, HasKey infos m p.ident k →
          (∀ p' ∈ parts, ∀ m', Sender E W' p'.pre m' → HasKey infos m' p'.ident k → m' = m ∧ p'.ident = p.ident) ∧
          ∃ c q l, Sits W' (Plc.placements s) links m c q l ∧
            (∀ a ∈ Plc.placements s, Valid.Reaches (sceneOf C.T tm) k c ((a.x : Int), (a.y : Int)) a.p ↔
              (W'.mv a.vertex).dev = none ∧ ∃ d ∈ p.edges, Receiver E W' d a.vertex) ∧
            (∀ c' q', Valid.Reaches (sceneOf C.T tm) k c c' q' →
              ∃ a ∈ Plc.placements s, c' = ((a.x : Int), (a.y : Int)) ∧ q' = a.p) ∧
            (∀ d ∈ p.edges, ∀ t, Receiver E W' d t → ∀ c' q' l', Sits W' (Plc.placements s) links t c' q' (some l') →
              Leads (sceneOf C.T tm) k c c' l') := by
  have hpv : ∀ x ∈ pairs parts K, x.1 ∈ vs := pairs_in (fun p hp => (hin p hp).1) hK.asked
  obtain ⟨W', n, hp, -, hs, hrest⟩ := mapped_devices (fl := fl) (fixedApp := fixedApp) (links := links)
    (K := withPixels K D (partition E (resetGraph E W vs) k sdram vs).1)
    hb h hn hall hv hS hk hE hf hfree hroom hA hT hm hpos hdis hne hin hnear htakes hpv
    (fun x hx => (hmany x hx).1) (fun W' n hp hsends => by
      rw [show (partition E (resetGraph E W vs) k sdram vs).1 = W' by rw [hp]]
      exact pixels_fit hb h hn hall hv hS hix hpv hK hbits hgrid hmany hp hsends)
  rw [show (partition E (resetGraph E W vs) k sdram vs).1 = W' by rw [hp]] at hrest
  exact ⟨W', n, hp, hs, hrest⟩

/-- C130: the pixels of 2D devices. A graph is mapped as in `C111_pixels_partial`. Each pixel of a 2D device that hands out keys is of just
one machine vertex of the device, which is the only one in the graph that has the key that the device sends for the pixel, and packets with
that key get to exactly the cores of the vertices that receive from the device, and to the links of the devices that do.
Missing: what `C111_devices_partial` leaves out; sub-rectangles that span the device (`C48_spanned`); sub-rectangles one pixel high whose
rows do not go on from one another (`C130_false`); devices on several links (`C130_two_links`). -/
theorem C130_pixels_partial (hb : Built E mv next) (h : runOk E (World.new E mp mv next) os = some W)
    (hn : vs.Nodup) (hall : ∀ v s, (W.app v).splitter = some s → v ∈ vs)
    (hv : ∀ v ∈ vs, Plain E W k a sdram v ∨ Lone E W k sdram v ∨ External E W v) (hS : Site M C W links) (hix : Indexed W)
    (hk : 0 < k) (hE : Even M k sdram) (hf : M.chips.length < fuel) (hfree : ∀ v ∈ vs, fixedApp v = false)
    (hroom : Placer.AllFind M k 0 (vs.map (coresOn E W))) (hA : SameLinks M C.T) (hT : Passable C)
    (hm : Merges C) (hpos : Positive C.T)
    (hdis : (parts.map (fun p => (p.pre, p.ident))).Nodup) (hne : ∀ p ∈ parts, p.edges ≠ [])
    (hin : ∀ p ∈ parts, p.pre ∈ vs ∧ ∀ d ∈ p.edges, d ∈ vs)
    (hnear : ∀ p ∈ parts, External E W p.pre → OneChip E links p.pre)
    (htakes : ∀ p ∈ parts, ∀ d ∈ p.edges, External E W d → ∃ x, (E.app d).device = some x ∧ x.receives = true)
    (hK : ModestPixels fl (sendersFor E W) vs parts K D i j c) (hbits : i + j + c ≤ 32)
    (hgrid : ∀ x ∈ pairs parts K, ∀ y, D x.1 x.2 = some y → Grid E W x.1 y.1 y.2)
    (hmany : ∀ x ∈ pairs parts K, 0 < sendersFor E W x.1 ∧ (D x.1 x.2 = none → sendersFor E W x.1 ≤ 2 ^ i)) :
    ∃ W' n, partition E (resetGraph E W vs) k sdram vs = (W', .ok n) ∧
    ∃ s, placeFor M W' fixedApp vs fuel (given []) = .ok s ∧
    ∃ k, ∀ fuel', k ≤ fuel' → ∃ S infos, routePlaced E W' C s links parts vs fuel' = .ok S ∧
      allocateFor fl (netOf E W' (located C W' s links) parts vs) (withPixels K D W') = .ok infos ∧
      ∀ (g : Generator) (same : Entry → Entry → Bool), ∃ tm,
        generate g same (ofInfos infos (netOf E W' (located C W' s links) parts vs).base.appOf) S = .ok tm ∧
        ∀ p ∈ parts, ∀ d base, D p.pre p.ident = some (d, base) → ∀ x y, x < d.w → y < d.h →
          ∃ m, Sender E W' p.pre m ∧
            (∀ m', Sender E W' p.pre m' → (y * d.w + x ∈ Slices.rasterIds (W'.mv m').slice ↔ m' = m)) ∧
            HasKey infos m p.ident (BitVec.ofNat 32 (pixelKey d base x y)) ∧
            (∀ p' ∈ parts, ∀ m', Sender E W' p'.pre m' → HasKey infos m' p'.ident (BitVec.ofNat 32 (pixelKey d base x y)) →
              m' = m ∧ p'.ident = p.ident) ∧
            ∃ c q l, Sits W' (Plc.placements s) links m c q l ∧
              (∀ a ∈ Plc.placements s, Valid.Reaches (sceneOf C.T tm) (BitVec.ofNat 32 (pixelKey d base x y)) c
                  ((a.x : Int), (a.y : Int)) a.p ↔ (W'.mv a.vertex).dev = none ∧ ∃ d ∈ p.edges, Receiver E W' d a.vertex) ∧
              (∀ c' q', Valid.Reaches (sceneOf C.T tm) (BitVec.ofNat 32 (pixelKey d base x y)) c c' q' →
                ∃ a ∈ Plc.placements s, c' = ((a.x : Int), (a.y : Int)) ∧ q' = a.p) ∧
              (∀ d' ∈ p.edges, ∀ t, Receiver E W' d' t → ∀ c' q' l', Sits W' (Plc.placements s) links t c' q' (some l') →
                Leads (sceneOf C.T tm) (BitVec.ofNat 32 (pixelKey d base x y)) c c' l') := by
  have hpv : ∀ x ∈ pairs parts K, x.1 ∈ vs := pairs_in (fun p hp => (hin p hp).1) hK.asked
  have hpart : ∀ p ∈ parts, (p.pre, p.ident) ∈ pairs parts K :=
    fun p hp => List.mem_append_left _ (List.mem_map.2 ⟨p, hp, rfl⟩)
  obtain ⟨W', n, hp, hsends, s, hpl, k0, hk0⟩ := C111_pixels_partial (fl := fl) (fixedApp := fixedApp) (links := links)
    hb h hn hall hv hS hix hk hE hf hfree hroom hA hT hm hpos hdis hne hin hnear htakes hK hbits hgrid hmany
  refine ⟨W', n, hp, s, hpl, k0, fun fuel' hf' => ?_⟩
  obtain ⟨S, infos, h1, h2, h3⟩ := hk0 fuel' hf'
  refine ⟨S, infos, h1, h2, fun g same => ?_⟩
  obtain ⟨tm, h4, h5⟩ := h3 g same
  refine ⟨tm, h4, fun p hpp d base hD x y hx hy => ?_⟩
  have hrun := runOk_run os h
  have hL := linked_runOk os (linked_new E mp mv next) h
  have hW0 : Sound E W := by rw [← hrun]; exact sound_run os (sound_new hb)
  have hL0 := (keeps_resetGraph E W vs).linked hL
  obtain ⟨hu, hsite, -⟩ := mixed_after hb h hn hall hv hS hp
  have hd := done_after (sound_resetGraph hW0 vs) hL0 hn hp hu (all_reset hall)
  have hfit := (pixels_fit hb h hn hall hv hS hix hpv hK hbits hgrid hmany hp hsends).1
  have hP := put_after (vs := vs) hsite (linked_after hL0 hp) hf hpl
  have hG := ground_after (vs := vs) hsite hP (by intro a ha; cases ha)
  have hN := net_contract (parts := parts) (C := located C W' s links) hG hd hdis
  have hKC := net_keys (C := located C W' s links) hd (net_terms (C := located C W' s links) (vs := vs) hfit)
  have hgr : Grid E W p.pre d base := hgrid _ (hpart p hpp) _ hD
  obtain ⟨ms, hms, hlen⟩ := hsends _ (hpart p hpp)
  obtain ⟨hcount, hat⟩ := grid_after hb h hn hall hv hS hix hp (hin p hpp).1 hgr hms
  obtain ⟨t, ht, ho⟩ := hms
  have hi := Device.C48_index hgr.ok hx hy
  have hilt : indexOf d x y < ms.length := by rw [hlen, hcount]; exact hi
  have him := List.getElem?_eq_getElem hilt
  have hmem : ms[indexOf d x y] ∈ ms := List.getElem_mem hilt
  obtain ⟨-, e2, e3, e6⟩ := hat _ _ him
  obtain ⟨km, e4, e5, -⟩ := grid_key (K := K) hgr (ident := p.ident) (by rw [e2]; exact hD) hi e3
  have hsender : Sender E W' p.pre ms[indexOf d x y] := ⟨t, ms, ht, ho, hmem⟩
  have hplt : pixelKey d base x y < 2 ^ 32 := by
    have h6 := (Device.pixel_fields (base := base) hx hy).1
    have h7 := hgr.base
    have h8 := hgr.bits
    have h9 : keyShift d = Device.xBits d + Device.yBits d := Nat.add_comm _ _
    rw [← h6, h9, Nat.div_lt_iff_lt_mul (Nat.two_pow_pos _), ← Nat.pow_add,
      show 32 - (Device.xBits d + Device.yBits d) + (Device.xBits d + Device.yBits d) = 32 by omega] at h7
    exact h7
  have hkey : HasKey infos ms[indexOf d x y] p.ident (BitVec.ofNat 32 (pixelKey d base x y)) := by
    refine Pipe.hasKey_fixed hN hKC h2 (a := p.pre) (ms := ms) ?_ (net_outgoing.2 ⟨t, ht, ho⟩)
      (akm := appWords d base) ?_ hmem e5 _ ?_
    · exact .inl (.inl ⟨p, hpp, rfl, rfl⟩)
    · show fixedFor K D p.pre p.ident = _
      unfold fixedFor
      rw [hD]
    · rw [Device.toWords_iff hgr.ok e4, BitVec.toNat_ofNat, Nat.mod_eq_of_lt hplt]
      exact (Device.C48_pixels_partial hgr.ok hgr.wide hgr.high hi hgr.base hx hy e4).2 ⟨rfl, rfl⟩
  obtain ⟨-, h6⟩ := h5 p hpp _ hsender
  obtain ⟨h7, h8⟩ := h6 _ hkey
  refine ⟨_, hsender, ?_, hkey, h7, h8⟩
  rintro m' ⟨t', ms', q1, q2, q3⟩
  rw [ht] at q1
  injection q1 with q1
  subst q1
  rw [ho] at q2
  injection q2 with q2
  subst q2
  obtain ⟨i', hi'⟩ := List.getElem?_of_mem q3
  obtain ⟨q4, -, q5, q6⟩ := hat _ _ hi'
  obtain ⟨ss, r1, -, r3⟩ := Device.C64_pixels hgr.ok
  have r4 : ss[i']? = some (W'.mv m').slice := mapM_at _ _ r1 _ _ (List.getElem?_range q4) _ q5
  rw [(r3 _ _ r4).2.2]
  have hw : (y * d.w + x) % d.w = x ∧ (y * d.w + x) / d.w = y := by
    rw [Nat.mul_comm, Nat.mul_add_mod, Nat.mul_add_div (by omega), Nat.mod_eq_of_lt hx, Nat.div_eq_of_lt hx]
    exact ⟨rfl, rfl⟩
  rw [hw.1, hw.2]
  constructor
  · rintro ⟨-, r5⟩
    subst r5
    rw [him] at hi'
    exact (Option.some.inj hi').symm
  · intro r5
    subst r5
    refine ⟨?_, ?_⟩
    · have := Nat.mul_le_mul_right d.w (Nat.succ_le_of_lt hy)
      rw [Nat.succ_mul] at this
      rw [Nat.mul_comm d.w]
      omega
    · exact e6.symm.trans q6

end

/-! ### A device of 4 x 4 pixels in four sub-rectangles on a link of a board with 48 chips, that sends to two vertices, one of them split,
which sends back. More keys are asked for the device -/

def pixD : Dev := ⟨4, 4, 2, 2⟩

def pixE : Env where
  app := fun v =>
    match v with
    | 3 => ⟨[4, 4], false, fun _ => 0, none, some (.fpga 4 [7] (some 8) (some pixD))⟩
    | 1 => ⟨[1], false, fun _ => 0, some 0, none⟩
    | _ => ⟨[4], true, fun _ => 20, none, none⟩
  kind := fun s => if s = 3 then .external else if s = 1 then .oneApp else .fixed

def pixW : World := run pixE (World.new pixE mixMp mixMv 1) mixOs

/-- The device has keys from `0x100`. -/
def pixOf (a ident : Nat) : Option (Dev × Nat) := if (a, ident) = (3, 0) then some (pixD, 16) else none

def pixK : Keys := { moreK with fixed := fun _ _ => none }

theorem pix_built : Built pixE mixMv 1 := by
  have : ∀ v m, (pixE.app v).single = some m → m = 0 ∧ v = 1 := by
    intro v m h
    match v with
    | 1 => injection h with h; exact ⟨h.symm, rfl⟩
    | 0 => cases h
    | 2 => cases h
    | 3 => cases h
    | v + 4 => cases h
  refine ⟨?_, ?_, ?_⟩ <;> intro v m h <;> obtain ⟨rfl, rfl⟩ := this v m h
  · decide
  · rfl
  · rfl

theorem pix_ok : runOk pixE (World.new pixE mixMp mixMv 1) mixOs = some pixW := rfl

theorem pix_all (v s : Nat) (h : (pixW.app v).splitter = some s) : v ∈ [3, 1, 2] := by
  match v with
  | 1 => decide
  | 2 => decide
  | 3 => decide
  | 0 => have : (pixW.app 0).splitter = none := rfl
         rw [this] at h; cases h
  | v + 4 =>
    have : (pixW.app (v + 4)).splitter = none := rfl
    rw [this] at h
    cases h

theorem pix_external : External pixE pixW 3 := ⟨⟨3, by decide +kernel, rfl⟩, rfl⟩

theorem pix_vertices : ∀ v ∈ [3, 1, 2], Plain pixE pixW 2 2 100 v ∨ Lone pixE pixW 2 100 v ∨ External pixE pixW v := by
  intro v hv
  simp only [List.mem_cons, List.not_mem_nil, or_false] at hv
  rcases hv with rfl | rfl | rfl
  · exact .inr (.inr pix_external)
  · exact .inr (.inl ⟨⟨1, by decide +kernel, rfl⟩, 0, rfl, by decide +kernel, by decide +kernel, by decide +kernel⟩)
  · exact .inl ⟨⟨2, by decide +kernel, rfl⟩, rfl, ⟨by decide, by
      intro m hm
      have : m = [2] := by
        have h0 : (pixW.app 2).maxPer = some [2] := by decide +kernel
        rw [h0] at hm
        exact (Option.some.inj hm).symm
      subst this
      exact ⟨rfl, by decide, fun h => absurd rfl h⟩⟩, by decide +kernel,
      fun sl _ => ⟨(by decide : (0 : Int) ≤ 20), (by decide : (20 : Int) * 2 ≤ 100)⟩⟩

theorem pix_site : Site fullM fullC pixW devLinks :=
  { full_site with links := by intro m i b _; unfold devLinks; split <;> decide +kernel }

theorem pix_some {a ident : Nat} {km : Word × Word} (h : fixedFor pixK pixOf a ident = some km) :
    (a, ident) = (3, 0) ∧ km = (0x100, 0xFFFFFFF0) := by
  unfold fixedFor pixOf at h
  by_cases h0 : (a, ident) = (3, 0)
  · rw [if_pos h0] at h
    injection h with h
    subst h
    exact ⟨h0, by decide⟩
  · rw [if_neg h0] at h
    cases h

theorem pix_modest {fl : Bool} : ModestPixels fl (sendersFor pixE pixW) [3, 1, 2] mixP pixK pixOf 2 4 3 where
  valid := by
    intro a ident km h
    cases h
  asked := by decide
  some_ := fun _ _ => (by decide : 1 ≤ 10)
  most := fun _ _ => (by decide : 10 ≤ 2 ^ 4)
  one := fun _ _ _ h => absurd rfl h
  apart := by
    intro x _ y _ hne a b h1 h2
    exact absurd ((pix_some h1).1.trans (pix_some h2).1.symm) hne
  room := by
    refine ⟨[4], by decide, ?_⟩
    intro x _ km h k hk
    rw [(pix_some h).2] at hk
    have h4 := (Alloc.covers_maskOf (y := 16) (a := 4) (by decide) k).1 (by
      have := congrArg BitVec.toNat hk
      rw [BitVec.toNat_and] at this
      exact this)
    have h5 : k.toNat / 2 ^ 6 = 4 := by omega
    exact List.mem_singleton.2 h5
  clear := .inr (.inr ⟨(3, 7), by decide, by decide, fun y hy _ => ⟨by revert y; decide +kernel, fun _ _ => Nat.le_refl _⟩⟩)

theorem pix_room : Placer.AllFind fullM 2 0 ([3, 1, 2].map (coresOn pixE pixW)) := by
  have : [3, 1, 2].map (coresOn pixE pixW) = [0, 1, 2] := by decide +kernel
  rw [this]
  exact ⟨Placer.finds_chip (by decide) (by decide +kernel), Placer.finds_chip (by decide) (by decide +kernel),
    Placer.finds_chip (by decide) (by decide +kernel), trivial⟩

theorem pix_cores {v s : Nat} (h1 : (pixW.app v).splitter = some s) (h2 : pixE.kind s ≠ .external) : ¬ External pixE pixW v := by
  intro hx
  obtain ⟨t, h3, h4⟩ := hx.splitter
  rw [h1] at h3
  injection h3 with h3
  subst h3
  exact h2 h4

theorem pix_near : ∀ p ∈ mixP, External pixE pixW p.pre → OneChip pixE devLinks p.pre := by
  intro p hp hx
  simp only [mixP, List.mem_cons, List.not_mem_nil, or_false] at hp
  rcases hp with rfl | rfl | rfl
  · exact ⟨_, rfl, (0, 0), by decide⟩
  · exact absurd hx (pix_cores (s := 2) (by decide +kernel) (by decide))
  · exact absurd hx (pix_cores (s := 1) (by decide +kernel) (by decide))

theorem pix_takes : ∀ p ∈ mixP, ∀ d ∈ p.edges, External pixE pixW d → ∃ x, (pixE.app d).device = some x ∧ x.receives = true := by
  intro p hp d hd hx
  have hd' : d = 1 ∨ d = 2 ∨ d = 3 :=
    (by decide : ∀ p ∈ mixP, ∀ d ∈ p.edges, d = 1 ∨ d = 2 ∨ d = 3) p hp d hd
  rcases hd' with rfl | rfl | rfl
  · exact absurd hx (pix_cores (s := 1) (by decide +kernel) (by decide))
  · exact absurd hx (pix_cores (s := 2) (by decide +kernel) (by decide))
  · exact ⟨_, rfl, rfl⟩

theorem pix_grid : Grid pixE pixW 3 pixD 16 :=
  ⟨pix_external, ⟨_, rfl, rfl, by decide, rfl⟩, by decide, by decide, by decide, by decide, by decide, by decide⟩

theorem pix_indexed : Indexed pixW :=
  C91_index_partial pix_built pix_ok ⟨fun _ h => (by cases h), fun _ h => (by cases h), fun _ h => (by cases h), trivial⟩

/-- Packets of the pixel in column 3 and row 1 of the device get to a core of vertex 2, and those of each pixel have keys from `0x100`. -/
example : ∃ W' n, partition pixE (resetGraph pixE pixW [3, 1, 2]) (2 : Nat) 100 [3, 1, 2] = (W', .ok n) ∧
    ∃ s, placeFor fullM W' (fun _ => false) [3, 1, 2] 50 (given []) = .ok s ∧
    ∃ k, ∀ fuel', k ≤ fuel' → ∃ S infos, routePlaced pixE W' fullC s devLinks mixP [3, 1, 2] fuel' = .ok S ∧
      allocateFor false (netOf pixE W' (located fullC W' s devLinks) mixP [3, 1, 2]) (withPixels pixK pixOf W') = .ok infos ∧
      ∀ (g : Generator) (same : Entry → Entry → Bool), ∃ tm, generate g same
        (ofInfos infos (netOf pixE W' (located fullC W' s devLinks) mixP [3, 1, 2]).base.appOf) S = .ok tm ∧
        ∃ m, Sender pixE W' 3 m ∧ 7 ∈ Slices.rasterIds (W'.mv m).slice ∧ HasKey infos m 0 0x107 ∧
          ∃ c q l, Sits W' (Plc.placements s) devLinks m c q l ∧
          ∀ a ∈ Plc.placements s, Valid.Reaches (sceneOf fullC.T tm) 0x107 c ((a.x : Int), (a.y : Int)) a.p ↔
            (W'.mv a.vertex).dev = none ∧ ∃ d ∈ [1, 2], Receiver pixE W' d a.vertex := by
  obtain ⟨W', n, h1, s, h3, k, hk⟩ := C130_pixels_partial (fl := false) (k := 2) (a := 2) (i := 2) (j := 4) (c := 3) (sdram := 100)
    (fuel := 50) (parts := mixP) (links := devLinks) (fixedApp := fun _ => false) (C := fullC) (K := pixK) (D := pixOf) (M := fullM)
    (vs := [3, 1, 2])
    pix_built pix_ok (by decide) pix_all pix_vertices pix_site pix_indexed (by decide)
    full_even (by decide +kernel) (fun _ _ => rfl) pix_room full_links full_passable (fun a b => ⟨_, rfl⟩) full_positive (by decide)
    (by decide) (by decide) pix_near pix_takes pix_modest (by decide) (by
      intro x _ y hy
      unfold pixOf at hy
      split at hy
      · rename_i h0
        cases hy
        rw [(Prod.mk.inj h0).1]
        exact pix_grid
      · cases hy) (by decide +kernel)
  refine ⟨W', n, h1, s, h3, k, fun fuel' hf => ?_⟩
  obtain ⟨S, infos, h4, h4', h5⟩ := hk fuel' hf
  refine ⟨S, infos, h4, h4', fun g same => ?_⟩
  obtain ⟨tm, h6, h7⟩ := h5 g same
  obtain ⟨m, e1, e2, e3, -, cc, q, l, e4, e5, -⟩ := h7 ⟨3, 0, [1, 2]⟩ (by decide) pixD 16 rfl 3 1 (by decide) (by decide)
  exact ⟨tm, h6, m, e1, (e2 m e1).2 rfl, e3, cc, q, l, e4, e5⟩

/-! ### Where it is false -/

/-- The keys that are asked for a device whose machine vertices are 10, 11, ... -/
def gridParts (d : Dev) (base : Nat) : List Alloc.Part :=
  [⟨1, 0, (List.range (nSub d)).map (fun i => ⟨10 + i, 1, i * (d.sw * d.sh),
    match getKeyMask d base i with | .ok km => some (toWords km) | .error _ => none, i⟩), some (appWords d base), nSub d⟩]

/-- **C130 is false of sub-rectangles one pixel high with rows that do not go on from one another.** A device of 5 x 3 pixels, each a
sub-rectangle, has keys from `0x200`. All packets go the same way. The merged table has one entry for all 15 machine vertices, as if their keys
were one after another: the row at the bottom, from key `0x210`, has no route. The other generator has one. -/
theorem C130_false : verify ⟨5, 3, 1, 1⟩ = .ok () ∧ pixelKey ⟨5, 3, 1, 1⟩ 16 0 2 = 0x210 ∧
    ∃ infos, Alloc.allocate true (gridParts ⟨5, 3, 1, 1⟩ 16) = .ok infos ∧
      (Gen.createMerged (fun _ _ => false) (ofInfos infos (fun _ => some 1)) 0 0
        ((List.range 15).map (fun i => ((.mach (10 + i), 0), ⟨6, false⟩)))).map (fun t => routeOf t.values 0x210) = .ok none ∧
      (Gen.createBasic (fun _ _ => false) (ofInfos infos (fun _ => some 1)) 0 0
        ((List.range 15).map (fun i => ((.mach (10 + i), 0), ⟨6, false⟩)))).map (fun t => routeOf t.values 0x210) = .ok (some 6) := by
  refine ⟨by decide, by decide, _, rfl, by decide +kernel, by decide +kernel⟩

/-- As `pixE`, where the device sends on two links. -/
def portE : Env := { pixE with
  app := fun v => if v = 3 then ⟨[4, 4], false, fun _ => 0, none, some (.fpga 4 [7, 9] (some 8) (some pixD))⟩ else pixE.app v }

def portW : World := run portE (World.new portE mixMp mixMv 1) mixOs

/-- **C130 is false of devices on several links.** There is a machine vertex for each link and sub-rectangle, and those of a sub-rectangle have
the same slice and keys: packets of a pixel are of two machine vertices. -/
theorem C130_two_links : ∃ W' n, partition portE (resetGraph portE portW [3, 1, 2]) (2 : Nat) 100 [3, 1, 2] = (W', .ok n) ∧
    Sender portE W' 3 1 ∧ Sender portE W' 3 2 ∧ (W'.mv 1).slice = (W'.mv 2).slice ∧
      (withPixels pixK pixOf W').machFixed 1 0 = some (0x100, 0xFFFFFFFA) ∧
      (withPixels pixK pixOf W').machFixed 2 0 = some (0x100, 0xFFFFFFFA) := by
  refine ⟨(partition portE (resetGraph portE portW [3, 1, 2]) (2 : Nat) 100 [3, 1, 2]).1, 6, ?_, ?_⟩
  · have h : (partition portE (resetGraph portE portW [3, 1, 2]) (2 : Nat) 100 [3, 1, 2]).2 = .ok 6 := by decide +kernel
    rw [← h]
  · exact ⟨⟨3, _, by decide +kernel, rfl, by decide +kernel⟩, ⟨3, _, by decide +kernel, rfl, by decide +kernel⟩,
      by decide +kernel, by decide +kernel, by decide +kernel⟩

/-- If packets of two such machine vertices come through a chip, no table is made for it: the same key twice. -/
theorem C130_two_links_raise :
    Gen.createBasic (fun _ _ => false) (ofInfos [.mach 0 1 0x100 0xFFFFFFFA 0, .mach 0 2 0x100 0xFFFFFFFA 1,
        .app 0 3 0x100 0xFFFFFFF0 0xFFFFFFFA 0 1] (fun _ => some 3)) 0 0
      [((.mach 1, 0), ⟨6, false⟩), ((.mach 2, 0), ⟨6, false⟩)] = .error .keyError := by
  decide +kernel

end Pacman.Split
