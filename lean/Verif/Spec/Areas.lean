import Verif.Spec.Demand

/-!
# Distances and generated trips (C48, C51, C52)
-/

namespace UX

/-- Squared Euclidean distance of node `n` from the point `(x, y)`. -/
def World.sq (W : World) (n : NodeId) (x y : ℚ) : ℚ := (W.N.x n - x) ^ 2 + (W.N.y n - y) ^ 2

/-- One generated vehicle: origin, destination, departure step. -/
structure Trip where
  orig : NodeId
  dest : NodeId
  step : ℤ
  deriving DecidableEq, Repr

/-- `W'` is `W` with one more vehicle for each entry of `ts`, in order. -/
structure Made (ts : List Trip) (W W' : World) : Prop where
  number : W'.nVeh = W.nVeh + ts.length
  living : W'.living = W.living ++ (List.range ts.length).map (W.nVeh + ·)
  old : ∀ i < W.nVeh, W'.V.orig i = W.V.orig i ∧ W'.V.dest i = W.V.dest i ∧
    W'.V.depTime i = W.V.depTime i ∧ W'.V.state i = W.V.state i ∧ W'.V.name i = W.V.name i
  new : ∀ j t, ts[j]? = some t → W'.V.orig (W.nVeh + j) = t.orig ∧
    W'.V.dest (W.nVeh + j) = some t.dest ∧ W'.V.depTime (W.nVeh + j) = t.step ∧
    W'.V.state (W.nVeh + j) = .home

/-- The trips of the newer demand functions, for `origs` and `dests` the sets of candidates: one
platoon for each full `Δn` of the volume, departures evenly spaced from `t_start` to `t_end`
(both included), every origin and destination a candidate, and no trip to its own origin. -/
structure SmoothTrips (W : World) (origs dests : NodeId → Prop) (ts te volume : ℚ) (trips : List Trip) :
    Prop where
  number : (trips.length : ℤ) = ⌊volume / W.dn⌋
  steps : ∀ (j : ℕ) (t : Trip), trips[j]? = some t →
    t.step = pyInt ((ts + j * ((te - ts) / (trips.length - 1 : ℕ))) / W.dt)
  ends : ∀ t ∈ trips, origs t.orig ∧ dests t.dest ∧ t.orig ≠ t.dest

/-- The candidates of an area: the usable nodes strictly inside; if there is none, the nearest node. -/
def AreaNode (W : World) (usable : NodeId → Prop) (x y r : ℚ) (n : NodeId) : Prop :=
  n < W.nNodes ∧
  ((usable n ∧ W.sq n x y < r ^ 2) ∨
    (∀ m < W.nNodes, ¬ (usable m ∧ W.sq m x y < r ^ 2)) ∧ ∀ m < W.nNodes, W.sq n x y ≤ W.sq m x y)

/-- All pairs of an origin and a destination. -/
def allPairs (os ds : List NodeId) : List (NodeId × NodeId) := os.flatMap fun o => ds.map fun d => (o, d)

/-- Every pair of `pairs` has been given its own departures, all spread in the same way. -/
def PairTrips (a b : ℤ) (q : ℚ) (pairs : List (NodeId × NodeId)) (trips : List Trip) : Prop :=
  ∃ deps : List (List ℤ), deps.length = pairs.length ∧ (∀ s ∈ deps, Spread a b q s) ∧
    trips = (pairs.zip deps).flatMap fun p => p.2.map fun t => ⟨p.1.1, p.1.2, t⟩

end UX
