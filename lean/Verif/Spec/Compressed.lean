import Verif.Spec.Trips
import Verif.Props.RangeCompressor
import Verif.Model.Placements
/-
Words used to state what the compressed tables of a graph do.
-/

namespace Pacman.Pipe

open RPath (XY)
open Tables (TablesMap)
open Range (Contiguous)

/-- The masks of fixed keys are ones followed by zeros. -/
structure FixedBlocks (K : Keys) : Prop where
  app : ∀ a ident km, K.fixed a ident = some km → Contiguous km.2
  mach : ∀ m ident km, K.machFixed m ident = some km → Contiguous km.2

/-- Whatever sends packets asks for at least two keys, and no fixed key stands for itself alone. -/
structure Spread (N : Router.Net) (K : Keys) : Prop where
  asks : ∀ a ident ms m, N.outgoing ident a = some ms → m ∈ ms → K.fixed a ident = none → 2 ≤ K.nKeys m ident
  app : ∀ a ident km, K.fixed a ident = some km → km.2 ≠ 0xFFFFFFFF#32
  mach : ∀ m ident km, K.machFixed m ident = some km → km.2 ≠ 0xFFFFFFFF#32

/-- `tm'` is what one of the compressors returns for the tables `tm`, which generator `g` made, or for what the range
compressor returns for them; ordered covering is for the tables of the basic generator only, the range compressor only
where `blocks` holds, and before the pair compressor only for tables with no entry for a single even key. -/
inductive Compressed (env : Driver.Env) (g : Generator) (blocks : Prop) (tm tm' : TablesMap) : Prop
  | pair {ordered overflow verify cSort : Bool} :
      Driver.pairCompressor env ordered overflow verify cSort tm = .ok tm' → Compressed env g blocks tm tm'
  | range {overflow : Bool} : blocks → Driver.rangeCompressor env overflow tm = .ok tm' → Compressed env g blocks tm tm'
  | covering : g = .basic → Driver.ocCompressor env tm = .ok tm' → Compressed env g blocks tm tm'
  | rangePair {before : Driver.Env} {over : Bool} {tm1 : TablesMap} {ordered overflow verify cSort : Bool} : blocks →
      (∀ t ∈ Tables.tablesOf tm, Range.OddSingles t.entries) → Driver.rangeCompressor before over tm = .ok tm1 →
      Driver.pairCompressor env ordered overflow verify cSort tm1 = .ok tm' → Compressed env g blocks tm tm'
  | rangeCovering {before : Driver.Env} {over : Bool} {tm1 : TablesMap} : blocks → g = .basic →
      Driver.rangeCompressor before over tm = .ok tm1 → Driver.ocCompressor env tm1 = .ok tm' → Compressed env g blocks tm tm'

/-- A packet with key `k` that sets out from `src` in direction `h` gets to chip `c` by the links `w`, the last one
first, and is sent on from there over link, or to core, `b`. -/
def Lands (V : Valid.Scene) (k : Word) (src : XY) (h : Option Nat) (w : List Nat) (c : XY) (b : Nat) : Prop :=
  Trip V k src h w c ∧ Out V k c (w.head?.or h) b

/-- The packets with key `k` that set out from `src` in direction `h` are sent to the same links and cores on `V'` as on
`V`, where they follow entries; and on `V'` they get to each chip by one way, with fewer hops than `V'` has chips. -/
structure AsBefore (V V' : Valid.Scene) (chips : Nat) (k : Word) (src : XY) (h : Option Nat) : Prop where
  leads : ∀ c b, (∃ w, Lands V' k src h w c b) ↔ Leads V k src c b
  once : ∀ w w' c, Trip V' k src h w c → Trip V' k src h w' c → w = w'
  ends : ∀ w c, Trip V' k src h w c → w.length < chips

/-- The packets with key `k` that set out from `src` in direction `h` get to the core of a placed vertex if and only if
the vertex is one of `good`, and to no other core; they get to each chip by one way, with fewer hops than there are
chips. -/
structure Delivers (V : Valid.Scene) (chips : Nat) (k : Word) (src : XY) (h : Option Nat) (ps : List Plc.Placement)
    (good : Nat → Prop) : Prop where
  cores : ∀ a ∈ ps, (∃ w, Lands V k src h w ((a.x : Int), (a.y : Int)) (6 + a.p)) ↔ good a.vertex
  only : ∀ c q, (∃ w, Lands V k src h w c (6 + q)) → ∃ a ∈ ps, c = ((a.x : Int), (a.y : Int)) ∧ q = a.p
  once : ∀ w w' c, Trip V k src h w c → Trip V k src h w' c → w = w'
  ends : ∀ w c, Trip V k src h w c → w.length < chips

end Pacman.Pipe
