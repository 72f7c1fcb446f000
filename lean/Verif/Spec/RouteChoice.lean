import Verif.Model.Sim
import Mathlib.Logic.Relation

/-!
# Specifications for route choice (C30–C32)
-/

namespace UX

/-- An edge of cost `q` in a cost matrix: infinite entries and the zeros of a sparse matrix are not
edges. -/
def Edge (c : NodeId → NodeId → Option ℚ) (i j : NodeId) (q : ℚ) : Prop := c i j = some q ∧ q ≠ 0

/-- `k` can be reached from `i` along edges between the first `n` nodes. -/
def Joined (n : ℕ) (c : NodeId → NodeId → Option ℚ) : NodeId → NodeId → Prop :=
  Relation.ReflTransGen (fun i j => i < n ∧ j < n ∧ ∃ q, Edge c i j q)

/-- What an all-pairs shortest-path routine returns: distances, and for every pair the node to go to
next. -/
structure ShortestPaths (n : ℕ) (c : NodeId → NodeId → Option ℚ)
    (dist : NodeId → NodeId → Option ℚ) (next : NodeId → NodeId → Option NodeId) : Prop where
  self : ∀ k < n, dist k k = some 0
  /-- the next node is across an edge, and the distance is realised through it -/
  hop : ∀ i k, i < n → k < n → i ≠ k → Joined n c i k →
    ∃ j q d, j < n ∧ next i k = some j ∧ Edge c i j q ∧ dist j k = some d ∧ dist i k = some (q + d)
  /-- no neighbour offers less -/
  least : ∀ i j k q d, i < n → j < n → k < n → Edge c i j q → dist j k = some d →
    ∃ d', dist i k = some d' ∧ d' ≤ q + d
  /-- pairs that are not connected -/
  apart : ∀ i k, i < n → k < n → ¬ Joined n c i k → dist i k = none ∧ next i k = none

/-- Going from `i` to the next node toward `k`, `s` times. -/
def follow (next : NodeId → NodeId → Option NodeId) (k i : NodeId) : ℕ → Option NodeId
  | 0 => some i
  | s + 1 => (follow next k i s).bind (fun j => next j k)

/-- Following `next` from `i` visits nodes of strictly decreasing distance to `k`, along edges, and
arrives there before `n` hops. -/
def LeadsTo (n : ℕ) (hop : NodeId → NodeId → Prop) (dist : NodeId → NodeId → Option ℚ)
    (next : NodeId → NodeId → Option NodeId) (i k : NodeId) : Prop :=
  ∃ m < n, follow next k i m = some k ∧ ∀ s < m, ∃ a b da db,
    follow next k i s = some a ∧ follow next k i (s + 1) = some b ∧ hop a b ∧
    dist a k = some da ∧ dist b k = some db ∧ db < da

/-- The links from `i` to `j`. -/
def parallel (W : World) (i j : NodeId) : List LinkId :=
  (List.range W.nLinks).filter (fun l => decide (W.L.startN l = i) && decide (W.L.endN l = j))

/-- The cost of one link at time `t`: its latest instantaneous travel time, randomised by its own
factor, plus the toll. -/
def linkCost (W : World) (t : ℚ) (l : LinkId) : ℚ :=
  let q := (W.L.ttInstant l).headD 0
  (if W.cfg.hardDet then q else q * World.noiseFactor W.cfg.duoNoise (W.rng l)) + W.L.toll l t

end UX
