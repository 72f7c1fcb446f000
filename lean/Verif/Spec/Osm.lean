import Verif.Model.Osm
import Mathlib.Logic.Relation

/-!
# What a road network is (C115, C116)
-/

namespace UX
namespace Osm
namespace Spec

/-- Ids name at most one node, and the ends of every link are nodes. -/
structure Sound (N : List ONode × List OLink) : Prop where
  ids : (N.1.map ONode.id).Nodup
  src : ∀ l ∈ N.2, ∃ n ∈ N.1, n.id = l.src
  dst : ∀ l ∈ N.2, ∃ n ∈ N.1, n.id = l.dst

/-- No link leads from a node to itself. -/
def Loopless (links : List OLink) : Prop := ∀ l ∈ links, l.src ≠ l.dst

/-- A link leads from `a` to `b`. -/
def Edge (links : List OLink) (a b : ℕ) : Prop := ∃ l ∈ links, l.src = a ∧ l.dst = b

/-- One can drive from `a` to `b`. -/
def Drive (links : List OLink) : ℕ → ℕ → Prop := Relation.ReflTransGen (Edge links)

/-- `a` and `b` are connected, directions disregarded. -/
def Connected (links : List OLink) : ℕ → ℕ → Prop := Relation.EqvGen (Edge links)

/-- The length of each link is the distance of its ends. -/
def Measured (dist : ℚ × ℚ → ℚ × ℚ → ℚ) (N : List ONode × List OLink) : Prop :=
  ∀ l ∈ N.2, ∃ m ∈ N.1, ∃ n ∈ N.1, m.id = l.src ∧ n.id = l.dst ∧ l.len = dist (m.x, m.y) (n.x, n.y)

end Spec
end Osm
end UX
