import Verif.Props.MappingPixels
import Verif.Props.MappingDevicesTables
/-
C118, C119 and C130 for compressed tables of graphs with 2D devices that hand out the keys of their sub-rectangles.
-/

namespace Pacman.Split

open Slices (Slice mkSlice)
open Router (Ctx AppPart Merges KeepsFlag heading)
open Pipe (Keys Generator HasKey sceneOf Positive allocateFor generate FixedBlocks Compressed Delivers Lands checked
  sureKeys)
open Gen (ofInfos)
open Plc (Store)
open Placer (given)

open Device (Dev pixelKey)

section
variable {E : Env} {mp : Nat → Option (List Nat)} {mv : Nat → MV} {next : Nat} {os : List Op} {W W' : World}
  {vs : List Nat} {k a i j c n : Nat} {sdram : Int} {fuel : Nat} {C : Ctx} {parts : List AppPart} {K : Keys}
  {D : Nat → Nat → Option (Dev × Nat)} {M : Placer.Machine} {links : Nat → RPath.XY × Nat} {fixedApp : Nat → Bool} {fl : Bool} {s : Store}

/-- C118 from the graph alone, with 2D devices that hand out the keys of their sub-rectangles.
Missing: as in `C118_mapped_partial` and `C111_pixels_partial`. -/
theorem C118_pixels_partial (hb : Built E mv next) (h : runOk E (World.new E mp mv next) os = some W)
    (hn : vs.Nodup) (hall : ∀ v s, (W.app v).splitter = some s → v ∈ vs)
    (hv : ∀ v ∈ vs, Plain E W k a sdram v ∨ Lone E W k sdram v ∨ External E W v) (hS : Site M C W links) (hix : Indexed W) (hk : 0 < k)
    (hE : Even M k sdram) (hf : M.chips.length < fuel) (hfree : ∀ v ∈ vs, fixedApp v = false)
    (hroom : Placer.AllFind M k 0 (vs.map (coresOn E W))) (hA : SameLinks M C.T) (hT : Passable C)
    (hm : Merges C) (hflag : KeepsFlag C) (hpos : Positive C.T)
    (hdis : (parts.map (fun p => (p.pre, p.ident))).Nodup) (hne : ∀ p ∈ parts, p.edges ≠ [])
    (hin : ∀ p ∈ parts, p.pre ∈ vs ∧ ∀ d ∈ p.edges, d ∈ vs)
    (hnear : ∀ p ∈ parts, External E W p.pre → OneChip E links p.pre)
    (htakes : ∀ p ∈ parts, ∀ d ∈ p.edges, External E W d → ∃ x, (E.app d).device = some x ∧ x.receives = true)
    (hK : ModestPixels fl (sendersFor E W) vs parts K D i j c) (hbits : i + j + c ≤ 32)
    (hgrid : ∀ x ∈ pairs parts K, ∀ y, D x.1 x.2 = some y → Grid E W x.1 y.1 y.2)
    (hmany : ∀ x ∈ pairs parts K, 0 < sendersFor E W x.1 ∧ (D x.1 x.2 = none → sendersFor E W x.1 ≤ 2 ^ i)) :
    ∃ W' n, partition E (resetGraph E W vs) k sdram vs = (W', .ok n) ∧
    ∃ s, placeFor M W' fixedApp vs fuel (given []) = .ok s ∧
    ∃ k, ∀ fuel', k ≤ fuel' → ∃ S infos, routePlaced E W' C s links parts vs fuel' = .ok S ∧
      allocateFor fl (netOf E W' (located C W' s links) parts vs) (withPixels K D W') = .ok infos ∧
      ∀ (g : Generator) (same : Entry → Entry → Bool), ∃ tm,
        generate g same (ofInfos infos (netOf E W' (located C W' s links) parts vs).base.appOf) S = .ok tm ∧
        ∀ env tm', Compressed env g (FixedBlocks (withPixels K D W')) tm tm' →
        ∀ p ∈ parts, ∀ m, Sender E W' p.pre m → (∃ k, HasKey infos m p.ident k) ∧ ∀ k, HasKey infos m p.ident k →
          ∃ c q l, Sits W' (Plc.placements s) links m c q l ∧
            Delivers (sceneOf C.T tm') C.T.chips.length k c (heading (c, q, l)) (Plc.placements s)
              (fun v => (W'.mv v).dev = none ∧ ∃ d ∈ p.edges, Receiver E W' d v) ∧
            (∀ d ∈ p.edges, ∀ t, Receiver E W' d t → ∀ c' q' l', Sits W' (Plc.placements s) links t c' q' (some l') →
              ∃ w, Lands (sceneOf C.T tm') k c (heading (c, q, l)) w c' l') := by
  have hpv : ∀ x ∈ pairs parts K, x.1 ∈ vs := pairs_in (fun p hp => (hin p hp).1) hK.asked
  obtain ⟨W', n, hp, hrest⟩ := compressed_devices (fl := fl) (fixedApp := fixedApp) (links := links)
    (K := withPixels K D (partition E (resetGraph E W vs) k sdram vs).1)
    hb h hn hall hv hS hk hE hf hfree hroom hA hT hm hflag hpos hdis hne hin hnear htakes hpv
    (fun x hx => (hmany x hx).1) (fun W' n hp hsends => by
      rw [show (partition E (resetGraph E W vs) k sdram vs).1 = W' by rw [hp]]
      exact pixels_fit hb h hn hall hv hS hix hpv hK hbits hgrid hmany hp hsends)
  rw [show (partition E (resetGraph E W vs) k sdram vs).1 = W' by rw [hp]] at hrest
  exact ⟨W', n, hp, hrest⟩

/-- C119 from the graph alone, with 2D devices that hand out the keys of their sub-rectangles.
Missing: as in `C118_pixels_partial`. -/
theorem C119_pixels_partial (hb : Built E mv next) (h : runOk E (World.new E mp mv next) os = some W)
    (hn : vs.Nodup) (hall : ∀ v s, (W.app v).splitter = some s → v ∈ vs)
    (hv : ∀ v ∈ vs, Plain E W k a sdram v ∨ Lone E W k sdram v ∨ External E W v) (hS : Site M C W links) (hix : Indexed W) (hk : 0 < k)
    (hE : Even M k sdram) (hf : M.chips.length < fuel) (hfree : ∀ v ∈ vs, fixedApp v = false)
    (hroom : Placer.AllFind M k 0 (vs.map (coresOn E W))) (hA : SameLinks M C.T) (hT : Passable C)
    (hm : Merges C) (hflag : KeepsFlag C) (hpos : Positive C.T)
    (hdis : (parts.map (fun p => (p.pre, p.ident))).Nodup) (hne : ∀ p ∈ parts, p.edges ≠ [])
    (hin : ∀ p ∈ parts, p.pre ∈ vs ∧ ∀ d ∈ p.edges, d ∈ vs)
    (hnear : ∀ p ∈ parts, External E W p.pre → OneChip E links p.pre)
    (htakes : ∀ p ∈ parts, ∀ d ∈ p.edges, External E W d → ∃ x, (E.app d).device = some x ∧ x.receives = true)
    (hK : ModestPixels fl (sendersFor E W) vs parts K D i j c) (hbits : i + j + c ≤ 32)
    (hgrid : ∀ x ∈ pairs parts K, ∀ y, D x.1 x.2 = some y → Grid E W x.1 y.1 y.2)
    (hmany : ∀ x ∈ pairs parts K, 0 < sendersFor E W x.1 ∧ (D x.1 x.2 = none → sendersFor E W x.1 ≤ 2 ^ i))
    {env : Driver.Env}
    (henv : ∀ d ∈ C.T.chips, ∃ n, env.target (Pipe.place d) = some n ∧ (parts.map (fun p => sendersFor E W p.pre)).sum ≤ n) :
    ∃ W' n, partition E (resetGraph E W vs) k sdram vs = (W', .ok n) ∧
    ∃ s, placeFor M W' fixedApp vs fuel (given []) = .ok s ∧
    ∃ k, ∀ fuel', k ≤ fuel' → ∃ S infos, routePlaced E W' C s links parts vs fuel' = .ok S ∧
      allocateFor fl (netOf E W' (located C W' s links) parts vs) (withPixels K D W') = .ok infos ∧
      ∀ (g : Generator) (same : Entry → Entry → Bool), ∃ tm,
        generate g same (ofInfos infos (netOf E W' (located C W' s links) parts vs).base.appOf) S = .ok tm ∧
        Driver.Fit env tm ∧ Pipe.AllReturn env (FixedBlocks (withPixels K D W')) tm ∧ ∀ tm', Compressed env g (FixedBlocks (withPixels K D W')) tm tm' →
        ∀ p ∈ parts, ∀ m, Sender E W' p.pre m → (∃ k, HasKey infos m p.ident k) ∧ ∀ k, HasKey infos m p.ident k →
          ∃ c q l, Sits W' (Plc.placements s) links m c q l ∧
            Delivers (sceneOf C.T tm') C.T.chips.length k c (heading (c, q, l)) (Plc.placements s)
              (fun v => (W'.mv v).dev = none ∧ ∃ d ∈ p.edges, Receiver E W' d v) ∧
            (∀ d ∈ p.edges, ∀ t, Receiver E W' d t → ∀ c' q' l', Sits W' (Plc.placements s) links t c' q' (some l') →
              ∃ w, Lands (sceneOf C.T tm') k c (heading (c, q, l)) w c' l') := by
  have hpv : ∀ x ∈ pairs parts K, x.1 ∈ vs := pairs_in (fun p hp => (hin p hp).1) hK.asked
  obtain ⟨W', n, hp, hrest⟩ := fitting_devices (fl := fl) (fixedApp := fixedApp) (links := links)
    (K := withPixels K D (partition E (resetGraph E W vs) k sdram vs).1)
    hb h hn hall hv hS hk hE hf hfree hroom hA hT hm hflag hpos hdis hne hin hnear htakes hpv
    (fun x hx => (hmany x hx).1) (fun W' n hp hsends => by
      rw [show (partition E (resetGraph E W vs) k sdram vs).1 = W' by rw [hp]]
      exact pixels_fit hb h hn hall hv hS hix hpv hK hbits hgrid hmany hp hsends) henv
  rw [show (partition E (resetGraph E W vs) k sdram vs).1 = W' by rw [hp]] at hrest
  exact ⟨W', n, hp, hrest⟩

/-- C130 with compressed tables, whichever compressor was used: packets with the key of a pixel get to exactly the cores of the vertices that
receive from the device, within as many steps as the machine has chips, and to the links of the devices that do.
Missing: as in `C130_pixels_partial` and `C118_mapped_partial`. -/
theorem C130_compressed_partial (hb : Built E mv next) (h : runOk E (World.new E mp mv next) os = some W)
    (hn : vs.Nodup) (hall : ∀ v s, (W.app v).splitter = some s → v ∈ vs)
    (hv : ∀ v ∈ vs, Plain E W k a sdram v ∨ Lone E W k sdram v ∨ External E W v) (hS : Site M C W links) (hix : Indexed W)
    (hk : 0 < k) (hE : Even M k sdram) (hf : M.chips.length < fuel) (hfree : ∀ v ∈ vs, fixedApp v = false)
    (hroom : Placer.AllFind M k 0 (vs.map (coresOn E W))) (hA : SameLinks M C.T) (hT : Passable C)
    (hm : Merges C) (hflag : KeepsFlag C) (hpos : Positive C.T)
    (hdis : (parts.map (fun p => (p.pre, p.ident))).Nodup) (hne : ∀ p ∈ parts, p.edges ≠ [])
    (hin : ∀ p ∈ parts, p.pre ∈ vs ∧ ∀ d ∈ p.edges, d ∈ vs)
    (hnear : ∀ p ∈ parts, External E W p.pre → OneChip E links p.pre)
    (htakes : ∀ p ∈ parts, ∀ d ∈ p.edges, External E W d → ∃ x, (E.app d).device = some x ∧ x.receives = true)
    (hK : ModestPixels fl (sendersFor E W) vs parts K D i j c) (hbits : i + j + c ≤ 32)
    (hgrid : ∀ x ∈ pairs parts K, ∀ y, D x.1 x.2 = some y → Grid E W x.1 y.1 y.2)
    (hmany : ∀ x ∈ pairs parts K, 0 < sendersFor E W x.1 ∧ (D x.1 x.2 = none → sendersFor E W x.1 ≤ 2 ^ i)) :
    ∃ W' n, partition E (resetGraph E W vs) k sdram vs = (W', .ok n) ∧
    ∃ s, placeFor M W' fixedApp vs fuel (given []) = .ok s ∧
    ∃ k, ∀ fuel', k ≤ fuel' → ∃ S infos, routePlaced E W' C s links parts vs fuel' = .ok S ∧
      allocateFor fl (netOf E W' (located C W' s links) parts vs) (withPixels K D W') = .ok infos ∧
      ∀ (g : Generator) (same : Entry → Entry → Bool), ∃ tm,
        generate g same (ofInfos infos (netOf E W' (located C W' s links) parts vs).base.appOf) S = .ok tm ∧
        ∀ env tm', Compressed env g (FixedBlocks (withPixels K D W')) tm tm' →
        ∀ p ∈ parts, ∀ d base, D p.pre p.ident = some (d, base) → ∀ x y, x < d.w → y < d.h →
          ∃ m, Sender E W' p.pre m ∧
            (∀ m', Sender E W' p.pre m' → (y * d.w + x ∈ Slices.rasterIds (W'.mv m').slice ↔ m' = m)) ∧
            (∀ p' ∈ parts, ∀ m', Sender E W' p'.pre m' → (HasKey infos m' p'.ident (BitVec.ofNat 32 (pixelKey d base x y)) ↔
              m' = m ∧ p'.ident = p.ident)) ∧
            ∃ c q l, Sits W' (Plc.placements s) links m c q l ∧
              Delivers (sceneOf C.T tm') C.T.chips.length (BitVec.ofNat 32 (pixelKey d base x y)) c (heading (c, q, l)) (Plc.placements s)
                (fun v => (W'.mv v).dev = none ∧ ∃ d ∈ p.edges, Receiver E W' d v) ∧
              (∀ d' ∈ p.edges, ∀ t, Receiver E W' d' t → ∀ c' q' l', Sits W' (Plc.placements s) links t c' q' (some l') →
                ∃ w, Lands (sceneOf C.T tm') (BitVec.ofNat 32 (pixelKey d base x y)) c (heading (c, q, l)) w c' l') := by
  obtain ⟨W', n, hp, s, hpl, k0, hk0⟩ := C130_pixels_partial (fl := fl) (fixedApp := fixedApp) (links := links)
    hb h hn hall hv hS hix hk hE hf hfree hroom hA hT hm hpos hdis hne hin hnear htakes hK hbits hgrid hmany
  obtain ⟨W1, n1, hp1, s1, hpl1, k1, hk1⟩ := C118_pixels_partial (fl := fl) (fixedApp := fixedApp) (links := links)
    hb h hn hall hv hS hix hk hE hf hfree hroom hA hT hm hflag hpos hdis hne hin hnear htakes hK hbits hgrid hmany
  rw [hp] at hp1
  obtain ⟨rfl, hn1⟩ := Prod.mk.inj hp1
  rw [hpl] at hpl1
  injection hpl1 with hs1
  subst hs1
  refine ⟨W', n, hp, s, hpl, max k0 k1, fun fuel' hf' => ?_⟩
  obtain ⟨S, infos, h1, h2, h3⟩ := hk0 fuel' (Nat.le_trans (Nat.le_max_left _ _) hf')
  obtain ⟨S', infos', h1', h2', h3'⟩ := hk1 fuel' (Nat.le_trans (Nat.le_max_right _ _) hf')
  rw [h1] at h1'
  injection h1' with hS1
  subst hS1
  rw [h2] at h2'
  injection h2' with hi1
  subst hi1
  refine ⟨S, infos, h1, h2, fun g same => ?_⟩
  obtain ⟨tm, h4, h5⟩ := h3 g same
  obtain ⟨tm1, h4', h5'⟩ := h3' g same
  rw [h4] at h4'
  injection h4' with ht1
  subst ht1
  refine ⟨tm, h4, fun env tm' hc p hpp d base hD x y hx hy => ?_⟩
  obtain ⟨m, e1, e2, e3, e4, -⟩ := h5 p hpp d base hD x y hx hy
  exact ⟨m, e1, e2, fun p' hp' m' hm' => ⟨e4 p' hp' m' hm', fun ⟨h6, h7⟩ => by rw [h6, h7]; exact e3⟩,
    (h5' env tm' hc p hpp m e1).2 _ e3⟩

end

theorem pix_grids : ∀ x ∈ pairs mixP pixK, ∀ y, pixOf x.1 x.2 = some y → Grid pixE pixW x.1 y.1 y.2 := by
  intro x _ y hy
  unfold pixOf at hy
  split at hy
  · rename_i h0
    cases hy
    rw [(Prod.mk.inj h0).1]
    exact pix_grid
  · cases hy

/-- Tables for the device of 4 x 4 pixels fit into routers with seven entries, and can be compressed; packets of the pixel in column 3 and row 1
then get to the cores of both vertices. -/
example : ∃ W' n, partition pixE (resetGraph pixE pixW [3, 1, 2]) (2 : Nat) 100 [3, 1, 2] = (W', .ok n) ∧
    ∃ s, placeFor fullM W' (fun _ => false) [3, 1, 2] 50 (given []) = .ok s ∧
    ∃ k, ∀ fuel', k ≤ fuel' → ∃ S infos, routePlaced pixE W' fullC s devLinks mixP [3, 1, 2] fuel' = .ok S ∧
      ∃ tm tm', generate .basic (fun a b => decide (a = b))
        (ofInfos infos (netOf pixE W' (located fullC W' s devLinks) mixP [3, 1, 2]).base.appOf) S = .ok tm ∧
        Driver.ocCompressor ⟨fun _ => some 7, true⟩ tm = .ok tm' ∧
        ∃ m, Sender pixE W' 3 m ∧ 7 ∈ Slices.rasterIds (W'.mv m).slice ∧ ∃ c q l, Sits W' (Plc.placements s) devLinks m c q l ∧
          Delivers (sceneOf fullC.T tm') fullC.T.chips.length 0x107 c (heading (c, q, l)) (Plc.placements s)
            (fun v => (W'.mv v).dev = none ∧ ∃ d ∈ [1, 2], Receiver pixE W' d v) := by
  obtain ⟨W', n, h1, s, h3, k, hk⟩ := C119_pixels_partial (fl := false) (k := 2) (a := 2) (i := 2) (j := 4) (c := 3) (sdram := 100)
    (fuel := 50) (parts := mixP) (links := devLinks) (fixedApp := fun _ => false) (C := fullC) (K := pixK) (D := pixOf) (M := fullM)
    (vs := [3, 1, 2]) (env := ⟨fun _ => some 7, true⟩)
    pix_built pix_ok (by decide) pix_all pix_vertices pix_site pix_indexed (by decide)
    full_even (by decide +kernel) (fun _ _ => rfl) pix_room full_links full_passable (fun a b => ⟨_, rfl⟩) fullC_flag full_positive
    (by decide) (by decide) (by decide) pix_near pix_takes pix_modest (by decide) pix_grids (by decide +kernel)
    (fun _ _ => ⟨7, rfl, by decide +kernel⟩)
  obtain ⟨W1, n1, h1', s1, h3', k1, hk1⟩ := C130_compressed_partial (fl := false) (k := 2) (a := 2) (i := 2) (j := 4) (c := 3) (sdram := 100)
    (fuel := 50) (parts := mixP) (links := devLinks) (fixedApp := fun _ => false) (C := fullC) (K := pixK) (D := pixOf) (M := fullM)
    (vs := [3, 1, 2])
    pix_built pix_ok (by decide) pix_all pix_vertices pix_site pix_indexed (by decide)
    full_even (by decide +kernel) (fun _ _ => rfl) pix_room full_links full_passable (fun a b => ⟨_, rfl⟩) fullC_flag full_positive
    (by decide) (by decide) (by decide) pix_near pix_takes pix_modest (by decide) pix_grids (by decide +kernel)
  rw [h1] at h1'
  obtain ⟨rfl, -⟩ := Prod.mk.inj h1'
  rw [h3] at h3'
  injection h3' with hs
  subst hs
  refine ⟨W', n, h1, s, h3, max k k1, fun fuel' hf => ?_⟩
  obtain ⟨S, infos, h4, h4i, h5⟩ := hk fuel' (Nat.le_trans (Nat.le_max_left _ _) hf)
  obtain ⟨S1, infos1, h4', h4i', h5'⟩ := hk1 fuel' (Nat.le_trans (Nat.le_max_right _ _) hf)
  rw [h4] at h4'
  injection h4' with hS
  subst hS
  rw [h4i] at h4i'
  injection h4i' with hi
  subst hi
  obtain ⟨tm, h6, -, h7, -⟩ := h5 .basic (fun a b => decide (a = b))
  obtain ⟨tm1, h6', h8⟩ := h5' .basic (fun a b => decide (a = b))
  rw [h6] at h6'
  injection h6' with ht
  subst ht
  obtain ⟨tm', h9, -⟩ := h7.covering
  obtain ⟨m, e1, e2, -, cc, q, l, e4, e5, -⟩ := h8 _ tm' (.covering rfl h9) ⟨3, 0, [1, 2]⟩ (by decide) pixD 16 rfl 3 1 (by decide) (by decide)
  exact ⟨S, infos, h4, tm, tm', h6, h9, m, e1, (e2 m e1).2 rfl, cc, q, l, e4, e5⟩

end Pacman.Split
