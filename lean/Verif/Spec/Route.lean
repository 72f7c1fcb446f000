import Verif.Model.State

/-! Specification vocabulary about routes and route choice. -/

namespace UX

/-- Links `r` (first link first) form a connected path that starts at node `o`. -/
def PathFrom (L : LinkF) : NodeId → List LinkId → Prop
  | _, [] => True
  | o, l :: r => L.startN l = o ∧ PathFrom L (L.endN l) r

/-- The node where a path from `o` ends. -/
def pathEnd (L : LinkF) (o : NodeId) (r : List LinkId) : NodeId :=
  match r.getLast? with
  | some l => L.endN l
  | none => o

/-- Link `l` may be chosen by vehicle `v` at node `n`: it leaves the node, it is preferred if some
link leaving the node is, and it is not to be avoided. -/
def Allowed (W : World) (v : VehId) (n : NodeId) (l : LinkId) : Prop :=
  l ∈ W.N.outlinks n ∧ ((∃ p ∈ W.N.outlinks n, p ∈ W.V.linksPrefer v) → l ∈ W.V.linksPrefer v) ∧
  l ∉ W.V.linksAvoid v

/-- `n` is the start node of a link in the route log of `v`. -/
def Visited (W : World) (v : VehId) (n : NodeId) : Prop :=
  ∃ t l, (t, LogEntry.link l) ∈ W.V.logTLink v ∧ W.L.startN l = n

end UX
