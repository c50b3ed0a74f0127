import Verif.Model.Base
/-
Model of `utilities/json_utils.py`. Reading and writing JSON text is not modelled: the functions work on
dictionaries, and text only passes through the standard library.
-/

namespace Pacman.Json

/-- A value in a JSON object. Python is not typed: the fields of the resources may hold any value. -/
inductive JVal where
  | null
  | bool (b : Bool)
  | int (n : Int)
  | str (s : String)
  deriving DecidableEq, Repr

/-- A JSON object. -/
abbrev JObj := Dict String JVal

/-- `json_dict[key]`. -/
def item (d : JObj) (k : String) : Except PyErr JVal :=
  match d.get? k with
  | some v => .ok v
  | none => .error .keyError

/-- `json_dict.get(key)`: `None` where the key is missing. -/
def getOr (d : JObj) (k : String) : JVal := (d.get? k).getD .null

/-- `json_dict[key] = value` if the value is not `None`, json_utils.py:77-78 and others. -/
def setSome (d : JObj) (k : String) (v : JVal) : JObj := if v = .null then d else d.set k v

/-- `IPtagResource`, iptag_resource.py:23-62. -/
structure IPRes where
  ip : JVal
  port : JVal
  strip : JVal
  tag : JVal
  traffic : JVal
  deriving DecidableEq, Repr

/-- `iptag_resource_to_json`, json_utils.py:67-85. No statement in it can raise. -/
def ipToJson (r : IPRes) : JObj :=
  let d : JObj := []
  let d := d.set "ip_address" r.ip
  let d := setSome d "port" r.port
  let d := d.set "strip_sdp" r.strip
  let d := setSome d "tag" r.tag
  d.set "traffic_identifier" r.traffic

/-- `iptag_resource_from_json`, json_utils.py:88-98. -/
def ipFromJson (d : JObj) : Except PyErr IPRes := do
  let ip ← item d "ip_address"
  let strip ← item d "strip_sdp"
  let traffic ← item d "traffic_identifier"
  pure ⟨ip, getOr d "port", strip, getOr d "tag", traffic⟩

/-- `iptag_resources_to_json`, json_utils.py:101-111. -/
def ipsToJson (l : List IPRes) : List JObj := l.map ipToJson

/-- `iptag_resources_from_json`, json_utils.py:114-125. -/
def ipsFromJson (l : List JObj) : Except PyErr (List IPRes) := l.mapM ipFromJson

/-- `ReverseIPtagResource`, reverse_iptag_resource.py:24-50. -/
structure RevRes where
  port : JVal
  sdpPort : JVal
  tag : JVal
  deriving DecidableEq, Repr

/-- `reverse_iptag_to_json`, json_utils.py:128-144. No statement in it can raise. -/
def revToJson (r : RevRes) : JObj :=
  let d : JObj := []
  let d := setSome d "port" r.port
  let d := d.set "sdp_port" r.sdpPort
  setSome d "tag" r.tag

/-- `reverse_iptag_from_json`, json_utils.py:147-157. -/
def revFromJson (d : JObj) : Except PyErr RevRes := do
  let sdp ← item d "sdp_port"
  pure ⟨getOr d "port", sdp, getOr d "tag"⟩

/-- `reverse_iptags_to_json`, json_utils.py:160-171. -/
def revsToJson (l : List RevRes) : List JObj := l.map revToJson

/-- `reverse_iptags_from_json`, json_utils.py:174-185. -/
def revsFromJson (l : List JObj) : Except PyErr (List RevRes) := l.mapM revFromJson

/-- A machine vertex: object identity and label (`None` is possible only by `set_label(None)`). -/
structure Vertex where
  id : Nat
  label : JVal
  deriving DecidableEq, Repr

/-- `Placement`, placement.py:21-49. -/
structure Placement where
  vertex : Vertex
  x : Int
  y : Int
  p : Int
  deriving DecidableEq, Repr

/-- `Placement.__eq__`, placement.py:114-118; vertices have no `__eq__`, so they are compared by identity. -/
def Placement.eq (a b : Placement) : Bool :=
  decide (a.x = b.x) && decide (a.y = b.y) && decide (a.p = b.p) && decide (a.vertex.id = b.vertex.id)

/-- `placement_to_json`, json_utils.py:188-203. No statement in it can raise. -/
def plToJson (a : Placement) : JObj :=
  let d : JObj := []
  let d := d.set "vertex_label" a.vertex.label
  let d := d.set "x" (.int a.x)
  let d := d.set "y" (.int a.y)
  d.set "p" (.int a.p)

/-- `int(value)`. Simplified: for a string it would parse a number or raise a `ValueError`; strings are never
written by `placement_to_json`. -/
def pyInt : JVal → Except PyErr Int
  | .int n => .ok n
  | .bool b => .ok (if b then 1 else 0)
  | .null => .error .typeError
  | .str _ => .error .valueError

/-- `SimpleMachineVertex(None, label)`, with the identity of the new object: `None` is replaced by the name of
the class, machine_vertex.py:57-59. -/
def newVertex (fresh : Nat) (label : JVal) : Vertex :=
  ⟨fresh, if label = .null then .str "<class 'pacman.model.graphs.machine.simple_machine_vertex.SimpleMachineVertex'>" else label⟩

/-- `placement_from_json`, json_utils.py:216-227. `fresh` is the identity of the vertex that it makes. -/
def plFromJson (fresh : Nat) (d : JObj) : Except PyErr Placement := do
  let label ← item d "vertex_label"
  let x ← item d "x"
  let x ← pyInt x
  let y ← item d "y"
  let y ← pyInt y
  let p ← item d "p"
  let p ← pyInt p
  pure ⟨newVertex fresh label, x, y, p⟩

end Pacman.Json
