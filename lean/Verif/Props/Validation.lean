import Verif.Proofs.ValidationGraph
/-
C41, C42: what the route checker guarantees.
-/

namespace Pacman.Valid

open Alloc (VId)
open RPath (XY)
open Router (Leaves NetSends)

/-! ### Concrete cases -/

/-- Three chips in a line; link 0 leads on, link 3 back. -/
def lineLink (c : XY) (l : Nat) : Option XY :=
  if c = (0, 0) ∧ l = 0 then some (1, 0)
  else if c = (1, 0) ∧ l = 0 then some (2, 0)
  else if c = (1, 0) ∧ l = 3 then some (0, 0)
  else if c = (2, 0) ∧ l = 3 then some (1, 0)
  else none

/-- Keys 0-3 go from (0, 0) over (1, 0), with core 2 of it, to core 1 of (2, 0); keys 8-15 back. -/
def lineV : Scene :=
  ⟨lineLink, [((0, 0), [⟨0#32, 0xFFFFFFFC#32, 1, false⟩, ⟨8#32, 0xFFFFFFF8#32, 64, false⟩]),
    ((1, 0), [⟨8#32, 0xFFFFFFF8#32, 8, false⟩, ⟨0#32, 0xFFFFFFFC#32, 257, false⟩]),
    ((2, 0), [⟨0#32, 0xFFFFFFFC#32, 128, false⟩, ⟨8#32, 0xFFFFFFF8#32, 8, false⟩])]⟩

/-- The same, without a table on (1, 0). -/
def gapV : Scene :=
  ⟨lineLink, [((0, 0), [⟨0#32, 0xFFFFFFFC#32, 1, false⟩]), ((2, 0), [⟨0#32, 0xFFFFFFFC#32, 128, false⟩])]⟩

/-- An entry for even keys. -/
def evenV : Scene := ⟨lineLink, [((0, 0), [⟨0#32, 0xFFFFFFFD#32, 128, false⟩])]⟩

theorem within_of_tables {V : Scene} {k : Word} {src : XY}
    (h : ∀ c l d, V.link c l = some d → (V.tables.get? d).isSome = true) : Within V k src := by
  intro l w c hw
  cases hw with
  | hop _ _ _ _ h4 => exact h _ _ _ h4
  | straight _ _ h4 => exact h _ _ _ h4

theorem lineLink_within (c : XY) (l : Nat) (d : XY) (h : lineLink c l = some d) :
    (lineV.tables.get? d).isSome = true := by
  unfold lineLink at h
  split at h
  · cases h; decide
  · split at h
    · cases h; decide
    · split at h
      · cases h; decide
      · split at h
        · cases h; decide
        · cases h

theorem alike_of_blocks {V : Scene} {k k' : Word} (h : ∀ p ∈ V.tables, ∀ e ∈ p.2, e.mask ∈ rangeMasks) :
    Alike V k k' := by
  intro c e he hm
  unfold Scene.entries at he
  cases ht : V.tables.get? c with
  | none => rw [ht] at he; cases he
  | some t =>
    rw [ht] at he
    exact absurd (rangeMask_iff.mp (h _ (Dict.mem_of_get? ht) e he)) hm

/-! ### C41: accepted routes deliver -/

/-- C41, the claim: if the checker accepts the routes of a source, each of its `n` keys gets from the
source to exactly the expected cores, and to no chip by two ways. -/
def C41_full : Prop :=
  ∀ (V : Scene) (fuel : Nat) (src : XY) (dests : List (XY × Nat)) (key : Word) (n : Nat),
    search V fuel src dests key n = .ok () → key.toNat + n ≤ 2 ^ 32 → ∀ i, i < n →
    (∀ c p, Reaches V (key + BitVec.ofNat 32 i) src c p ↔ (c, p) ∈ dests) ∧
    (∀ w w' c, Way V (key + BitVec.ofNat 32 i) src w c → Way V (key + BitVec.ofNat 32 i) src w' c → w = w')

/-- The claim is false: where a chip has no table the checker stops, but the packet goes straight on, here
to a core that should not get it. -/
theorem C41_false_default : ¬ C41_full := by
  intro h
  have h1 := (h gapV 4 (0, 0) [] 0#32 4 (by decide +kernel) (by decide) 0 (by omega)).1 (2, 0) 1
  have : Reaches gapV (0#32 + BitVec.ofNat 32 0) (0, 0) (2, 0) 1 := by
    refine ⟨[0, 0], ⟨0#32, 0xFFFFFFFC#32, 128, false⟩, ?_, by decide +kernel, by decide⟩
    refine .straight (c := (1, 0)) ?_ (by decide +kernel) (by decide +kernel)
    exact .hop (e := ⟨0#32, 0xFFFFFFFC#32, 1, false⟩) .start (by decide +kernel) (by omega) (by decide)
      (by decide +kernel)
  exact absurd (h1.mp this) (by simp)

/-- The claim is false: on the chip of the source it is not checked that all keys hit the entry. -/
theorem C41_false_masks : ¬ C41_full := by
  intro h
  have h1 := (h evenV 4 (0, 0) [((0, 0), 1)] 0#32 2 (by decide +kernel) (by decide) 1 (by omega)).1 (0, 0) 1
  obtain ⟨w, e, _, h2, _⟩ := h1.mpr (by simp)
  rw [show lookup (evenV.entries (0, 0)) (0#32 + BitVec.ofNat 32 1) = none by decide +kernel] at h2
  cases h2

/-- C41, with what is missing: links take the packets only to chips with a table, and entries whose keys
are not a block treat the key like the first key of the source (true for the first key itself). Then
accepted routes deliver to exactly the expected cores. -/
theorem C41_sound_partial {V : Scene} {fuel : Nat} {src : XY} {dests : List (XY × Nat)} {key : Word}
    {n : Nat} (h : search V fuel src dests key n = .ok ()) (hn : key.toNat + n ≤ 2 ^ 32) {i : Nat}
    (hi : i < n) (hw : Within V (key + BitVec.ofNat 32 i) src)
    (ha : Alike V key (key + BitVec.ofNat 32 i)) (c : XY) (p : Nat) :
    Reaches V (key + BitVec.ofNat 32 i) src c p ↔ (c, p) ∈ dests := by
  obtain ⟨st, h1, h2, h3, h4⟩ := search_ok.mp h
  rw [← h4]
  rcases start_ok h1 with ⟨h5, rfl⟩ | ⟨e, _, h5⟩
  · refine ⟨?_, fun h => by cases h⟩
    have hall : ∀ w c, Way V (key + BitVec.ofNat 32 i) src w c → w = [] ∧ c = src := by
      intro w c hwy
      induction hwy with
      | start => exact ⟨rfl, rfl⟩
      | hop _ h6 _ _ _ ih =>
        rw [ih.2] at h6
        unfold Scene.entries at h6
        rw [h5] at h6
        cases h6
      | straight _ _ _ ih => cases ih.1
    rintro ⟨w, e, h6, h7, _⟩
    rw [(hall w c h6).2] at h7
    unfold Scene.entries at h7
    rw [h5] at h7
    cases h7
  · rw [h5.reached]
    constructor
    · rintro ⟨w, e, h6, h7, h8⟩
      have hs := steps_of_way hn hi ha h5 hw h6
      obtain ⟨e', hf⟩ := h5.found hs
      have := hf.lookup hn hi ha
      rw [h7] at this
      cases this
      exact ⟨w, e, hs, hf, mem_procsOf.mpr h8⟩
    · rintro ⟨w, e, h6, h7, h8⟩
      exact ⟨w, e, way_of_steps hn hi ha h6, h7.lookup hn hi ha, mem_procsOf.mp h8⟩

/-- C41, likewise: no chip is got to by two ways; in particular the packets do not go round in circles. -/
theorem C41_once_partial {V : Scene} {fuel : Nat} {src : XY} {dests : List (XY × Nat)} {key : Word}
    {n : Nat} (h : search V fuel src dests key n = .ok ()) (hn : key.toNat + n ≤ 2 ^ 32) {i : Nat}
    (hi : i < n) (hw : Within V (key + BitVec.ofNat 32 i) src)
    (ha : Alike V key (key + BitVec.ofNat 32 i)) {w w' : List Nat} {c : XY}
    (h1 : Way V (key + BitVec.ofNat 32 i) src w c) (h2 : Way V (key + BitVec.ofNat 32 i) src w' c) :
    w = w' := by
  obtain ⟨st, h3, _⟩ := search_ok.mp h
  rcases start_ok h3 with ⟨h5, rfl⟩ | ⟨e, _, h5⟩
  · have hall : ∀ w c, Way V (key + BitVec.ofNat 32 i) src w c → w = [] ∧ c = src := by
      intro w c hwy
      induction hwy with
      | start => exact ⟨rfl, rfl⟩
      | hop _ h6 _ _ _ ih =>
        rw [ih.2] at h6
        unfold Scene.entries at h6
        rw [h5] at h6
        cases h6
      | straight _ _ _ ih => cases ih.1
    rw [(hall w c h1).1, (hall w' c h2).1]
  · exact h5.once (steps_of_way hn hi ha h5 hw h1) (steps_of_way hn hi ha h5 hw h2)

/-- C41, likewise: if the source has a table, no packet is dropped for want of an entry, nor sent straight on. -/
theorem C41_met_partial {V : Scene} {fuel : Nat} {src : XY} {dests : List (XY × Nat)} {key : Word}
    {n : Nat} (h : search V fuel src dests key n = .ok ()) (hn : key.toNat + n ≤ 2 ^ 32) {i : Nat}
    (hi : i < n) (hw : Within V (key + BitVec.ofNat 32 i) src)
    (ha : Alike V key (key + BitVec.ofNat 32 i)) (hs : (V.tables.get? src).isSome = true)
    {w : List Nat} {c : XY} (h1 : Way V (key + BitVec.ofNat 32 i) src w c) :
    ∃ e, lookup (V.entries c) (key + BitVec.ofNat 32 i) = some e := by
  obtain ⟨st, h3, _⟩ := search_ok.mp h
  rcases start_ok h3 with ⟨h5, rfl⟩ | ⟨e, _, h5⟩
  · rw [h5] at hs; cases hs
  · obtain ⟨e, he⟩ := h5.found (steps_of_way hn hi ha h5 hw h1)
    exact ⟨e, he.lookup hn hi ha⟩

/-- Keys 0-3 of the line. -/
example (i : Nat) (hi : i < 4) (c : XY) (p : Nat) :
    Reaches lineV (0#32 + BitVec.ofNat 32 i) (0, 0) c p ↔ (c, p) ∈ [((1, 0), 2), ((2, 0), 1)] :=
  C41_sound_partial (fuel := 4) (by decide +kernel) (by decide) hi (within_of_tables lineLink_within)
    (alike_of_blocks (by decide +kernel)) c p

example {w w' : List Nat} {c : XY} (h : Way lineV (0#32 + BitVec.ofNat 32 3) (0, 0) w c)
    (h' : Way lineV (0#32 + BitVec.ofNat 32 3) (0, 0) w' c) : w = w' :=
  C41_once_partial (fuel := 4) (dests := [((1, 0), 2), ((2, 0), 1)]) (n := 4) (by decide +kernel) (by decide)
    (by omega) (within_of_tables lineLink_within) (alike_of_blocks (by decide +kernel)) h h'

example {w : List Nat} {c : XY} (h : Way lineV (8#32 + BitVec.ofNat 32 3) (2, 0) w c) :
    ∃ e, lookup (lineV.entries c) (8#32 + BitVec.ofNat 32 3) = some e :=
  C41_met_partial (fuel := 4) (dests := [((0, 0), 0)]) (n := 8) (by decide +kernel) (by decide)
    (by omega) (within_of_tables lineLink_within) (alike_of_blocks (by decide +kernel)) (by decide) h

/-- C41: the check ends, whatever the tables; it raises a routing or a configuration exception. -/
theorem C41_ends {V : Scene} {fuel : Nat} (hf : V.tables.length < fuel) {src : XY}
    {dests : List (XY × Nat)} {key : Word} {n : Nat} {err : PyErr}
    (h : search V fuel src dests key n = .error err) : err = .routing ∨ err = .configuration :=
  search_ends hf h

/-- Two chips that send a packet to each other for ever. -/
def circleV : Scene :=
  ⟨lineLink, [((0, 0), [⟨0#32, 0xFFFFFFFC#32, 1, false⟩]), ((1, 0), [⟨0#32, 0xFFFFFFFC#32, 8, false⟩])]⟩

example : search circleV 3 (0, 0) [] 0#32 4 = .error .routing := by decide +kernel

/-- C41: good routes are accepted. Every chip that the packets get to has an entry for them, no chip is got to
by two ways, the cores got to are the expected ones; and each entry on the way is for all of the keys or
for none of them. For entries whose keys are a block, the key after the last one has to be free too (C42). -/
theorem C41_accepts {V : Scene} {fuel : Nat} (hf : V.tables.length < fuel) {src : XY}
    {dests : List (XY × Nat)} {key : Word} {n : Nat} (hn : key.toNat + n ≤ 2 ^ 32)
    (hvalid : ∀ c, AllValid (V.entries c))
    (hmet : ∀ w c, Way V key src w c → ∃ e, lookup (V.entries c) key = some e)
    (honce : ∀ w w' c, Way V key src w c → Way V key src w' c → w = w')
    (hclear : ∀ w c, Way V key src w c → Clear V key n c)
    (halike : ∀ i, i < n → Alike V key (key + BitVec.ofNat 32 i))
    (hd : dests.Nodup) (hr : ∀ c p, (c, p) ∈ dests ↔ Reaches V key src c p) :
    search V fuel src dests key n = .ok () := by
  have hfound : ∀ w c, Way V key src w c → ∃ e, Found V key n c e := by
    intro w c h
    obtain ⟨e, he⟩ := hmet w c h
    cases ht : V.tables.get? c with
    | none => unfold Scene.entries at he; rw [ht] at he; cases he
    | some t =>
      refine ⟨e, t, ht, locate_ok.mpr ⟨fun x hx => ?_, ?_⟩⟩
      · rw [← entries_of ht] at hx
        exact fine_of_clear (hvalid c x hx) hn (hclear w c h x hx)
      · rw [← entries_of ht]; exact he
  obtain ⟨st, h1, h2⟩ := start_accepts ⟨hfound, honce⟩ hf
  refine search_ok.mpr ⟨st, h1, ?_, hd, ?_⟩
  · rw [h2.failed]
    intro l w c e hs he
    unfold badKeys
    refine List.eq_nil_iff_forall_not_mem.mpr (fun k hk => ?_)
    obtain ⟨hk1, hk2⟩ := List.mem_filter.mp hk
    obtain ⟨i, hi, rfl⟩ := List.mem_map.mp hk1
    have hl := he.lookup hn (List.mem_range.mp hi) (halike i (List.mem_range.mp hi))
    have hm : e.Matches (key + BitVec.ofNat 32 i) := by
      have := List.find?_some hl
      simpa using this
    exact absurd (matches_comm.mpr hm) (by simpa using hk2)
  · rintro ⟨c, p⟩
    rw [h2.reached, hr]
    constructor
    · rintro ⟨w, e, h3, h4, h5⟩
      refine ⟨w, e, ?_, lookup_found h4, mem_procsOf.mp h5⟩
      clear h4 h5
      induction h3 with
      | start => exact .start
      | hop _ hh ih =>
        obtain ⟨⟨e, h6, h7⟩, h8, _⟩ := hh
        obtain ⟨h9, h10⟩ := mem_linksOf.mp h7
        exact .hop ih (lookup_found h6) h9 h10 h8
    · rintro ⟨w, e, h3, h4, h5⟩
      have hs : Steps V key n src w c := by
        clear h4 h5
        induction h3 with
        | start => exact .start
        | @hop w c d e l h0 h6 h7 h8 h9 ih =>
          obtain ⟨e', he'⟩ := hfound _ _ h0
          have := lookup_found he'
          rw [h6] at this
          cases this
          obtain ⟨e'', t, ht, _⟩ := hfound _ _ (.hop h0 h6 h7 h8 h9)
          exact .hop ih ⟨⟨e, he', mem_linksOf.mpr ⟨h7, h8⟩⟩, h9, by rw [ht]; rfl⟩
        | @straight w c d l h0 h6 _ _ =>
          obtain ⟨e', he'⟩ := hmet _ _ h0
          rw [h6] at he'
          cases he'
      obtain ⟨e', he'⟩ := hfound _ _ h3
      have := lookup_found he'
      rw [h4] at this
      cases this
      exact ⟨w, e, hs, he', mem_procsOf.mpr h5⟩

theorem line_blocks {k k' : Word} : Alike lineV k k' := alike_of_blocks (by decide +kernel)

/-- The routes of keys 0-3 of the line are accepted. -/
example : search lineV 4 (0, 0) [((1, 0), 2), ((2, 0), 1)] 0#32 4 = .ok () := by
  have h : search lineV 4 (0, 0) [((1, 0), 2), ((2, 0), 1)] 0#32 4 = .ok () := by decide +kernel
  have hmem : ∀ {c : XY} {e : Entry}, e ∈ lineV.entries c → e.key = 0#32 ∧ e.mask = 0xFFFFFFFC#32 ∨
      e.key = 8#32 ∧ e.mask = 0xFFFFFFF8#32 := by
    intro c e he
    unfold Scene.entries at he
    cases ht : lineV.tables.get? c with
    | none => rw [ht] at he; cases he
    | some t =>
      rw [ht] at he
      exact (show ∀ p ∈ lineV.tables, ∀ e ∈ p.2, e.key = 0#32 ∧ e.mask = 0xFFFFFFFC#32 ∨
        e.key = 8#32 ∧ e.mask = 0xFFFFFFF8#32 by decide) _ (Dict.mem_of_get? ht) e he
  refine C41_accepts (by decide) (by decide) ?_ ?_ ?_ ?_ (fun _ _ => line_blocks) (by decide) ?_
  · intro c e he
    unfold Entry.Valid
    rcases hmem he with ⟨h1, h2⟩ | ⟨h1, h2⟩
    · rw [h1, h2]; decide
    · rw [h1, h2]; decide
  · intro w c hw
    exact C41_met_partial (i := 0) h (by decide) (by omega) (within_of_tables lineLink_within) line_blocks
      (by decide) hw
  · intro w w' c hw hw'
    exact C41_once_partial (i := 0) h (by decide) (by omega) (within_of_tables lineLink_within) line_blocks
      hw hw'
  · intro w c _ e he _
    rcases hmem he with ⟨h1, h2⟩ | ⟨h1, h2⟩
    · refine Or.inl ⟨?_, fun i hi => ?_⟩
      · unfold Entry.Matches; rw [h1, h2]; decide
      · unfold Entry.Matches; rw [h1, h2]
        exact (show ∀ i : Fin 4, (0#32 + BitVec.ofNat 32 i.val) &&& 0xFFFFFFFC#32 = 0#32 by decide) ⟨i, hi⟩
    · refine Or.inr (fun k _ hk hm => ?_)
      have hb : Range.IsBlock e 8 3 := ⟨by rw [h1]; rfl, by rw [h2]; decide, by omega, by decide⟩
      have := (hb.matches k).mp hm
      have h0 : (0#32 : Word).toNat = 0 := rfl
      omega
  · intro c p
    exact (C41_sound_partial (i := 0) h (by decide) (by omega) (within_of_tables lineLink_within) line_blocks
      c p).symm

/-! ### C41 for the whole graph -/

/-- C41: if `validate_routes` accepts, every sending vertex that is not virtual is placed and has a key, and
the vertices that should get its packets are placed. -/
theorem C41_known {W : World} {fuel : Nat} (h : validate W fuel = .ok ())
    (hd : (W.net.parts.map (fun p => (p.pre, p.ident))).Nodup) {a ident m : Nat}
    (hl : Leaves W.net a ident) (hm : NetSends W.net a ident m) (hv : W.virtual m = false) :
    (∃ at_, W.place m = some at_) ∧ (∃ key, W.info m ident = some key) ∧
    (∀ t, Wants W a ident m t → ∃ x, W.place t = some x) := by
  obtain ⟨h1, at_, key, _, h2, h3, _⟩ := validate_ok h hd hl hm hv
  exact ⟨⟨at_, h2⟩, ⟨key, h3⟩, fun t ht => Option.isSome_iff_exists.mp (h1 t ht)⟩

/-- C41: if `validate_routes` accepts, every packet of every sending vertex that is not virtual gets to
exactly the cores of the vertices that should get it; with what is missing, see `C41_sound_partial`. -/
theorem C41_graph_partial {W : World} {fuel : Nat} (h : validate W fuel = .ok ())
    (hd : (W.net.parts.map (fun p => (p.pre, p.ident))).Nodup) {a ident m : Nat}
    (hl : Leaves W.net a ident) (hm : NetSends W.net a ident m) (hv : W.virtual m = false)
    {at_ : XY × Nat} {key : Word} (hp : W.place m = some at_) (hk : W.info m ident = some key)
    (hn : key.toNat + W.atoms m ≤ 2 ^ 32) {i : Nat} (hi : i < W.atoms m)
    (hw : Within W.scene (key + BitVec.ofNat 32 i) at_.1)
    (ha : Alike W.scene key (key + BitVec.ofNat 32 i)) (c : XY) (p : Nat) :
    Reaches W.scene (key + BitVec.ofNat 32 i) at_.1 c p ↔
      ∃ t, Wants W a ident m t ∧ W.place t = some (c, p) := by
  obtain ⟨_, at_', key', dests, h2, h3, h4, h5⟩ := validate_ok h hd hl hm hv
  rw [hp] at h2
  rw [hk] at h3
  cases h2
  cases h3
  rw [C41_sound_partial h4 hn hi hw ha, h5]

/-- C41: the whole check ends. -/
theorem C41_graph_ends {W : World} {fuel : Nat} (hf : W.scene.tables.length < fuel) :
    validate W fuel ≠ .error .outOfFuel :=
  validate_ends hf

/-- Application vertex 0 sends keys 0-3 with machine vertex 10 to vertices 11 and 12 of application
vertex 1; within it machine vertex 13 sends keys 8-15 to 10. -/
def lineW : World where
  net := {
    base := { T := ⟨[], fun _ _ => false, fun c _ => c⟩, vector := fun _ _ => (0, 0, 0), appOf := fun _ => none,
              machines := fun _ => [], merge := fun a _ => .ok a, outgoing := fun _ => none,
              locate := fun _ => ((0, 0), none, none), iter := id }
    parts := [⟨0, 7, [1]⟩]
    verts := [0, 1]
    internals := fun a => if a = 0 then some [(9, 13, [10])] else some []
    outgoing := fun ident a => if a = 0 ∧ ident = 7 then some [10] else some []
    incoming := fun d a _ => if d = 1 ∧ a = 0 then [(11, [.mach 10]), (12, [.app 0])] else [] }
  scene := lineV
  place := fun m => if m = 10 then some ((0, 0), 0) else if m = 11 then some ((2, 0), 1)
    else if m = 12 then some ((1, 0), 2) else if m = 13 then some ((2, 0), 5) else none
  virtual := fun _ => false
  info := fun m ident => if m = 10 ∧ ident = 7 then some 0#32 else if m = 13 ∧ ident = 9 then some 8#32 else none
  atoms := fun m => if m = 13 then 8 else 4

theorem lineW_valid : validate lineW 4 = .ok () := by decide +kernel

example : validate lineW 4 ≠ .error .outOfFuel := C41_graph_ends (by decide)

example : (∃ at_, lineW.place 10 = some at_) ∧ (∃ key, lineW.info 10 7 = some key) ∧
    (∀ t, Wants lineW 0 7 10 t → ∃ x, lineW.place t = some x) :=
  C41_known lineW_valid (by decide) (Or.inl ⟨⟨0, 7, [1]⟩, by simp [lineW], rfl, rfl⟩)
    (Or.inl ⟨[10], rfl, by simp⟩) rfl

/-- The keys of the internal partition. -/
example (i : Nat) (hi : i < 8) (c : XY) (p : Nat) :
    Reaches lineV (8#32 + BitVec.ofNat 32 i) (2, 0) c p ↔
      ∃ t, Wants lineW 0 9 13 t ∧ lineW.place t = some (c, p) :=
  C41_graph_partial lineW_valid (by decide)
    (Or.inr ⟨by simp [lineW], _, rfl, (9, 13, [10]), by simp, rfl⟩)
    (Or.inr ⟨_, rfl, (9, 13, [10]), by simp, rfl, rfl⟩) rfl (at_ := ((2, 0), 5)) (by simp [lineW]) rfl (by decide) hi
    (within_of_tables lineLink_within) (alike_of_blocks (by decide +kernel)) c p

/-! ### C42: neighbouring key blocks -/

/-- C42, the claim: entries for none of the keys of the source make no difference. -/
def C42_full : Prop :=
  ∀ (V V' : Scene) (fuel : Nat) (src : XY) (dests : List (XY × Nat)) (key : Word) (n : Nat)
    (keep : Entry → Bool), key.toNat + n ≤ 2 ^ 32 → V'.link = V.link →
    (∀ c, V'.tables.get? c = (V.tables.get? c).map (fun t => t.filter keep)) →
    (∀ c, AllValid (V.entries c)) →
    (∀ e, keep e = false → ∀ k : Word, key.toNat ≤ k.toNat → k.toNat < key.toNat + n → ¬ e.Matches k) →
    search V fuel src dests key n = search V' fuel src dests key n

/-- One entry for keys 0-3, and one for keys 4-7. -/
def besideV : Scene :=
  ⟨lineLink, [((0, 0), [⟨0#32, 0xFFFFFFFC#32, 128, false⟩, ⟨4#32, 0xFFFFFFFC#32, 256, false⟩])]⟩

/-- C42: an entry for the block of keys that begins right after the keys of the source is always found
fault with, whatever the table. -/
theorem C42_beside {t : List Entry} {key : Word} {n : Nat} {x : Entry} (hx : x ∈ t) (hv : x.Valid)
    (hm : BlockMask x.mask) (hk : x.key.toNat = key.toNat + n) (hn : 0 < n) (e : Entry) :
    locate t key n ≠ .ok e := by
  intro h
  have hf := (locate_ok.mp h).1 x hx
  have hr := rangeMask_iff.mpr hm
  obtain ⟨p, hp, hmp⟩ := mem_rangeMasks.mp hr
  have hb := Range.isBlock_of_valid hv hp hmp
  have hl := lastKey_block hb
  have hpos : 0 < 2 ^ p := Nat.two_pow_pos p
  unfold Fine at hf
  rw [if_neg (by rw [hb.matches]; omega)] at hf
  exact hf hr (by omega)

example : locate [⟨0#32, 0xFFFFFFFC#32, 128, false⟩, ⟨4#32, 0xFFFFFFFC#32, 256, false⟩] 0#32 4 ≠
    .ok ⟨0#32, 0xFFFFFFFC#32, 128, false⟩ :=
  C42_beside (x := ⟨4#32, 0xFFFFFFFC#32, 256, false⟩) (by simp) (by decide)
    (rangeMask_iff.mp (by decide +kernel)) (by decide) (by omega) _

/-- The claim is false: the checker takes the key after the last one for a key of the source. -/
theorem C42_false : ¬ C42_full := by
  intro h
  have := h besideV ⟨lineLink, [((0, 0), [⟨0#32, 0xFFFFFFFC#32, 128, false⟩])]⟩ 2 (0, 0) [((0, 0), 1)] 0#32 4
    (fun e => decide (e.key = 0#32 ∨ e.mask ≠ 0xFFFFFFFC#32 ∨ e.key ≠ 4#32)) (by decide) rfl ?_ ?_ ?_
  · exact absurd this (by decide +kernel)
  · intro c
    by_cases hc : c = (0, 0)
    · subst hc; decide +kernel
    · have h1 : ((0, 0) : XY) ≠ c := fun h => hc h.symm
      simp [besideV, Dict.get?, h1]
  · intro c e he
    unfold Scene.entries at he
    cases ht : besideV.tables.get? c with
    | none => rw [ht] at he; cases he
    | some t =>
      rw [ht] at he
      exact (show ∀ p ∈ besideV.tables, ∀ e ∈ p.2, e.Valid by decide) _ (Dict.mem_of_get? ht) e he
  · intro e he k _ hk hmm
    simp only [decide_eq_false_iff_not, not_or, Decidable.not_not] at he
    obtain ⟨_, h2, h3⟩ := he
    have hb : Range.IsBlock e 4 2 := ⟨by rw [h3]; rfl, by rw [h2]; decide, by omega, by decide⟩
    have := (hb.matches k).mp hmm
    have h0 : (0#32 : Word).toNat = 0 := rfl
    omega

/-- C42, with what is missing: entries that are for none of the keys of the source and not for the key after
the last one make no difference. -/
theorem C42_partial {V V' : Scene} {fuel : Nat} {src : XY} {dests : List (XY × Nat)} {key : Word} {n : Nat}
    {keep : Entry → Bool} (hn : key.toNat + n ≤ 2 ^ 32) (hlink : V'.link = V.link)
    (ht : ∀ c, V'.tables.get? c = (V.tables.get? c).map (fun t => t.filter keep))
    (hv : ∀ c, AllValid (V.entries c))
    (hk : ∀ e, keep e = false → ∀ k : Word, key.toNat ≤ k.toNat → k.toNat ≤ key.toNat + n → ¬ e.Matches k) :
    search V fuel src dests key n = search V' fuel src dests key n := by
  refine search_congr hlink (fun c => ?_)
  rw [ht c]
  cases h : V.tables.get? c with
  | none => exact Or.inl ⟨rfl, rfl⟩
  | some t =>
    refine Or.inr ⟨t, t.filter keep, rfl, rfl, (locate_filter ?_).symm⟩
    intro e he hke
    have hve := hv c e (by rw [entries_of h]; exact he)
    refine ⟨hk e hke key (by omega) (by omega), ?_⟩
    exact fine_of_clear hve hn (fun _ => Or.inr (hk e hke))

example : search lineV 4 (0, 0) [((1, 0), 2), ((2, 0), 1)] 0#32 4 =
    search ⟨lineLink, [((0, 0), [⟨0#32, 0xFFFFFFFC#32, 1, false⟩]),
    ((1, 0), [⟨0#32, 0xFFFFFFFC#32, 257, false⟩]), ((2, 0), [⟨0#32, 0xFFFFFFFC#32, 128, false⟩])]⟩
    4 (0, 0) [((1, 0), 2), ((2, 0), 1)] 0#32 4 := by
  refine C42_partial (keep := fun e => decide (e.key ≠ 8#32 ∨ e.mask ≠ 0xFFFFFFF8#32)) (by decide) rfl ?_ ?_ ?_
  · intro c
    by_cases hc : c ∈ [((0, 0) : XY), (1, 0), (2, 0)]
    · simp only [List.mem_cons, List.not_mem_nil, or_false] at hc
      rcases hc with rfl | rfl | rfl <;> decide +kernel
    · simp only [List.mem_cons, List.not_mem_nil, or_false, not_or] at hc
      obtain ⟨h1, h2, h3⟩ := hc
      simp [lineV, Dict.get?, Ne.symm h1, Ne.symm h2, Ne.symm h3]
  · intro c e he
    unfold Scene.entries at he
    cases ht : lineV.tables.get? c with
    | none => rw [ht] at he; cases he
    | some t =>
      rw [ht] at he
      exact (show ∀ p ∈ lineV.tables, ∀ e ∈ p.2, e.Valid by decide) _ (Dict.mem_of_get? ht) e he
  · intro e he k _ hk hmm
    simp only [decide_eq_false_iff_not, not_or, Decidable.not_not] at he
    have hb : Range.IsBlock e 8 3 := ⟨by rw [he.1]; rfl, by rw [he.2]; decide, by omega, by decide⟩
    have := (hb.matches k).mp hmm
    have h0 : (0#32 : Word).toNat = 0 := rfl
    omega

end Pacman.Valid
