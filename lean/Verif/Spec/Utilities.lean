import Verif.Model.Sim
import Verif.Spec.Delay
import Verif.Spec.RouteChoice
import Mathlib.Data.List.Chain

/-!
# Specifications for the utilities (C68–)
-/

namespace UX

/-- Step `k` is the last route update at or before time `t`: updates are every `DELTAT_ROUTE` steps. -/
def LastUpdate (c : Config) (t : ℚ) (k : ℕ) : Prop :=
  k % c.deltatRoute = 0 ∧ (k : ℚ) * c.deltat ≤ t ∧ ∀ j : ℕ, j % c.deltatRoute = 0 → (j : ℚ) * c.deltat ≤ t → j ≤ k

/-- Existing links `p` lead from node `i` to node `k`. -/
structure Way (W : World) (i k : NodeId) (p : List LinkId) : Prop where
  valid : ∀ l ∈ p, l < W.nLinks
  conn : PathFrom W.L i p
  goal : pathEnd W.L i p = k

/-- No two links have the same two ends. -/
def NoParallel (W : World) : Prop :=
  ∀ l < W.nLinks, ∀ k < W.nLinks, W.L.startN l = W.L.startN k → W.L.endN l = W.L.endN k → l = k

/-- Some link leads from `a` to `b`. -/
def Hop (W : World) (a b : NodeId) : Prop := ∃ l < W.nLinks, W.L.startN l = a ∧ W.L.endN l = b

/-- `s` is the end of some link, and `t` can be reached from it. -/
def Connected (W : World) (s t : NodeId) : Prop :=
  (∃ j, Hop W s j ∨ Hop W j s) ∧ Relation.ReflTransGen (Hop W) s t

/-- The nodes visited on a way from `i`. -/
def stops (W : World) (i : NodeId) (p : List LinkId) : List NodeId := i :: p.map W.L.endN

/-- A path of nodes from `s` to `t` along edges of a graph, without repetition. -/
structure SimplePath (g : NodeId → NodeId → Option ℚ) (s t : NodeId) (p : List NodeId) : Prop where
  first : p.head? = some s
  last : p.getLast? = some t
  edges : p.IsChain (fun a b => g a b ≠ none)
  simple : p.Nodup

/-- Cost of a path of nodes. -/
def edgeSum (g : NodeId → NodeId → Option ℚ) : List NodeId → ℚ
  | a :: b :: p => (g a b).getD 0 + edgeSum g (b :: p)
  | _ => 0

/-- What `shortest_simple_paths` yields: all simple paths, each once, by increasing cost. -/
structure AllSimplePaths (g : NodeId → NodeId → Option ℚ) (s t : NodeId) (ps : List (List NodeId)) : Prop where
  mem : ∀ p, p ∈ ps ↔ SimplePath g s t p
  once : ps.Nodup
  sorted : ps.Pairwise (fun p q => edgeSum g p ≤ edgeSum g q)

/-- A path of nodes from `s` to `t` along edges of a graph. -/
structure NodePath (g : NodeId → NodeId → Option ℚ) (s t : NodeId) (p : List NodeId) : Prop where
  first : p.head? = some s
  last : p.getLast? = some t
  edges : p.IsChain (fun a b => g a b ≠ none)

/-- What `all_pairs_dijkstra_path` gives: one path of least cost for every node with an edge and every
node that can be reached from it. -/
structure AllPairs (g : NodeId → NodeId → Option ℚ) (ps : List ((NodeId × NodeId) × List NodeId)) : Prop where
  once : (ps.map Prod.fst).Nodup
  mem : ∀ s t, (s, t) ∈ ps.map Prod.fst ↔
    (∃ j, g s j ≠ none ∨ g j s ≠ none) ∧ Relation.ReflTransGen (fun a b => g a b ≠ none) s t
  path : ∀ s t p, ((s, t), p) ∈ ps → NodePath g s t p
  least : ∀ s t p, ((s, t), p) ∈ ps → ∀ p', NodePath g s t p' → edgeSum g p ≤ edgeSum g p'

end UX
