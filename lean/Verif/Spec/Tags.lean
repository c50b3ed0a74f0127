import Verif.Model.Tags
/-
Specification for the tags: what requests may share, and what a list of accepted requests amounts to.
-/

namespace Pacman.TagAlloc

/-- Two ports agree: one is not given, or both are the same. -/
def PortsAgree (a b : Option Nat) : Prop := ∀ p q, a = some p → b = some q → p = q

/-- An earlier and a later request can both be met: IP tags may share a tag of a board if they have the same
address and strip flag and agreeing ports; a reverse tag shares neither its tag nor its port. -/
def Fits : Op → Op → Prop
  | .ip a _, .ip b _ => (a.board, a.tag) = (b.board, b.tag) → a.ip = b.ip ∧ a.strip = b.strip ∧
      PortsAgree a.port b.port
  | .ip a _, .rev b _ => (a.board, a.tag) ≠ (b.board, b.tag)
  | .rev a _, .ip b _ => (a.board, a.tag) ≠ (b.board, b.tag)
  | .rev a _, .rev b _ => (a.board, a.tag) ≠ (b.board, b.tag) ∧
      (a.board = b.board → ∀ p, a.port = some p → b.port ≠ some p)

/-- The requests of a history that are accepted (calls that did not raise), in order. -/
def accepted : Tags → List Op → List Op
  | _, [] => []
  | s, o :: os =>
    match step s o with
    | .ok s' => o :: accepted s' os
    | .error _ => accepted s os

/-- The IP tags requested for a board and tag. -/
def ipReqs (acc : List Op) (k : BT) : List IPTag :=
  acc.filterMap (fun o => match o with
    | .ip t _ => if (t.board, t.tag) = k then some t else none
    | .rev _ _ => none)

/-- The reverse IP tags requested for a board and tag. -/
def revReqs (acc : List Op) (k : BT) : List RevTag :=
  acc.filterMap (fun o => match o with
    | .ip _ _ => none
    | .rev t _ => if (t.board, t.tag) = k then some t else none)

/-- What the requests for one IP tag amount to: the first of them, with the first port given. -/
def joined : List IPTag → Option IPTag
  | [] => none
  | t :: ts => some { t with port := (t :: ts).findSome? (·.port) }

/-- The vertices and tags of the IP tag requests. -/
def ipUses (acc : List Op) : List (Nat × BT) :=
  acc.filterMap (fun o => match o with
    | .ip t v => some (v, (t.board, t.tag))
    | .rev _ _ => none)

/-- The vertices and tags of the reverse IP tag requests. -/
def revUses (acc : List Op) : List (Nat × BT) :=
  acc.filterMap (fun o => match o with
    | .ip _ _ => none
    | .rev t v => some (v, (t.board, t.tag)))

/-! ### The allocator -/

/-- One request of a placed vertex. -/
inductive Req where
  | ip (v eth : Nat) (r : IPRes)
  | rev (v eth : Nat) (r : RevRes)
  deriving DecidableEq, Repr

/-- The Ethernet chip of the board of the request. -/
def Req.eth : Req → Nat
  | .ip _ e _ => e
  | .rev _ e _ => e

/-- The tag requested. -/
def Req.tag : Req → Option Nat
  | .ip _ _ r => r.tag
  | .rev _ _ r => r.tag

/-- The requests of the placed vertices in order. -/
def requests (ps : List Placed) : List Req :=
  ps.flatMap (fun p => p.iptags.map (Req.ip p.vertex p.eth) ++ p.revtags.map (Req.rev p.vertex p.eth))

/-- The IP tag requests. -/
def ipRequests (rs : List Req) : List (Nat × Nat × IPRes) :=
  rs.filterMap (fun r => match r with
    | .ip v e r => some (v, e, r)
    | .rev _ _ _ => none)

/-- The reverse IP tag requests. -/
def revRequests (rs : List Req) : List (Nat × Nat × RevRes) :=
  rs.filterMap (fun r => match r with
    | .ip _ _ _ => none
    | .rev v e r => some (v, e, r))

/-- The machine is sound: every board has its own address, and the placed vertices are on its boards. -/
structure Sound (m : Machine) (ps : List Placed) : Prop where
  distinct : ∀ a ∈ m.eths, ∀ b ∈ m.eths, m.addr a = m.addr b → a = b
  onBoard : ∀ p ∈ ps, p.eth ∈ m.eths

/-- An IP tag request is granted by a use of a tag: the vertex is right, the tag is one of those of a board of
the machine, it is the one requested if any, and the tag has the properties requested. -/
def IpGranted (m : Machine) (t : Tags) (q : Nat × Nat × IPRes) (u : Nat × BT) : Prop :=
  u.1 = q.1 ∧ (∃ c ∈ m.eths, u.2.1 = m.addr c) ∧ 1 ≤ u.2.2 ∧ u.2.2 ≤ 7 ∧
  (∀ w, q.2.2.tag = some w → u.2.2 = w) ∧
  t.ip.get? u.2 = some ⟨u.2.1, u.2.2, q.2.2.ip, q.2.2.port, q.2.2.strip⟩

/-- A reverse IP tag request is granted by a use of a tag: the vertex is right, the tag is one of those of the
board of the vertex, tag and port are the ones requested if any, and else the port is in the range. -/
def RevGranted (m : Machine) (t : Tags) (q : Nat × Nat × RevRes) (u : Nat × BT) : Prop :=
  u.1 = q.1 ∧ u.2.1 = m.addr q.2.1 ∧ 1 ≤ u.2.2 ∧ u.2.2 ≤ 7 ∧
  (∀ w, q.2.2.tag = some w → u.2.2 = w) ∧
  ∃ p, t.rev.get? u.2 = some ⟨u.2.1, u.2.2, some p⟩ ∧
    (∀ w, q.2.2.port = some w → p = w) ∧ (q.2.2.port = none → 17896 ≤ p ∧ p < 18000)

end Pacman.TagAlloc

namespace Pacman.TagAlloc

/-- The board and tag of a request to the store. -/
def Op.key : Op → BT
  | .ip t _ => (t.board, t.tag)
  | .rev t _ => (t.board, t.tag)

/-- The tag of the board is in use. -/
def InUse (t : Tags) (k : BT) : Prop := (t.ip.get? k).isSome = true ∨ (t.rev.get? k).isSome = true

/-- The tag that is requested is in use on a board; all tags if any tag will do. -/
def Taken (m : Machine) (t : Tags) (c : Nat) (want : Option Nat) : Prop :=
  ∀ k, 1 ≤ k → k ≤ 7 → (want = none ∨ want = some k) → InUse t (m.addr c, k)

/-- The ports requested, with the Ethernet chips of the boards. -/
def explicitPorts (rs : List Req) : List (Nat × Nat) :=
  rs.filterMap (fun r => match r with
    | .ip _ _ _ => none
    | .rev _ e r => r.port.map (fun p => (e, p)))

end Pacman.TagAlloc
