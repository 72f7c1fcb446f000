import Verif.Model.Build

/-!
# Coordinates and demand between areas (uxsim.py:2057–2310, 2587–2634)

Random choices with `size=n` draw `n` numbers. The warnings of the two older functions are not
modelled.
-/

namespace UX
namespace World

/-- `(node.x-x)**2 + (node.y-y)**2` (uxsim.py:2606, 2632) -/
def nodeSqDist (W : World) (n : NodeId) (x y : ℚ) : ℚ :=
  W.fl (W.fl (W.fl (W.N.x n - x) ^ 2) + W.fl (W.fl (W.N.y n - y) ^ 2))

/-- Loop body of `get_nearest_node` (uxsim.py:2605–2609). -/
def nearestStep (W : World) (x y : ℚ) (b : ℚ × Option NodeId) (n : NodeId) : ℚ × Option NodeId :=
  if W.nodeSqDist n x y < b.1 then (W.nodeSqDist n x y, some n) else b

/-- `get_nearest_node` (uxsim.py:2587–2610). The search starts with `min_dist = 1e10`. -/
def nearestNode (W : World) (x y : ℚ) : Option NodeId :=
  ((List.range W.nNodes).foldl (W.nearestStep x y) (10 ^ 10, none)).2

/-- `get_nodes_in_area` (uxsim.py:2612–2634) -/
def nodesInArea (W : World) (x y r : ℚ) : List NodeId :=
  (List.range W.nNodes).filter (fun n => decide (W.nodeSqDist n x y < W.fl (r ^ 2)))

/-- A query result used as origin or destination. Python does not check for `None`: it would register
vehicles without origin (which fail when they depart) or without destination. In the model this is an
error of the call itself. -/
def someNode : Option NodeId → M NodeId
  | some n => .ok n
  | none => .error .attributeError

/-- `adddemand_point2point` (uxsim.py:2058–2085) -/
def addDemandPoints (W : World) (xo yo xd yd tStart tEnd flow volume : ℚ) : M World := do
  let o ← someNode (W.nearestNode xo yo)
  let d ← someNode (W.nearestNode xd yd)
  W.addDemand (.obj o) (.obj d) tStart tEnd flow volume

/-- Origins that can be left and destinations that can be entered (uxsim.py:2125–2134, 2175–2186,
2233–2244, 2289–2300). -/
def usableOrigs (W : World) (ns : List NodeId) : List NodeId :=
  ns.filter (fun n => decide (W.N.outlinks n ≠ []))

def usableDests (W : World) (ns : List NodeId) : List NodeId :=
  ns.filter (fun n => decide (W.N.inlinks n ≠ []))

/-- `if len(ns) == 0: ns.append(W.get_nearest_node(x, y))` (uxsim.py:2135–2138, 2245–2248) -/
def orNearest (W : World) (ns : List NodeId) (x y : ℚ) : M (List NodeId) :=
  if ns = [] then (someNode (W.nearestNode x y)).map (fun n => [n]) else .ok ns

/-- `for o in origs: for d in dests: adddemand(o, d, …)` (uxsim.py:2144–2146, 2192–2194) -/
def demandPairs (tStart tEnd flow volume : ℚ) : List (NodeId × NodeId) → World → M World
  | [], W => .ok W
  | p :: ps, W => do
    let W1 ← W.addDemand (.obj p.1) (.obj p.2) tStart tEnd flow volume
    demandPairs tStart tEnd flow volume ps W1

/-- Division of the demand among the pairs (uxsim.py:2140–2146, 2188–2194). -/
def demandEach (W : World) (origs dests : List NodeId) (tStart tEnd flow volume : ℚ) : M World := do
  let k : ℕ := origs.length * dests.length
  if k = 0 ∧ (flow ≠ -1 ∨ volume ≠ -1) then throw .zeroDivision
  let flow' := if flow ≠ -1 then W.fl (flow / k) else flow
  let volume' := if volume ≠ -1 then W.fl (volume / k) else volume
  demandPairs tStart tEnd flow' volume' (origs.flatMap fun o => dests.map fun d => (o, d)) W

/-- `adddemand_nodes2nodes` (uxsim.py:2149–2194) -/
def addDemandNodes (W : World) (os ds : List Ref) (tStart tEnd flow volume : ℚ) : M World := do
  let os' ← os.mapM W.getNode
  let ds' ← ds.mapM W.getNode
  W.demandEach (W.usableOrigs os') (W.usableDests ds') tStart tEnd flow volume

/-- `adddemand_area2area` (uxsim.py:2088–2146) -/
def addDemandAreas (W : World) (xo yo ro xd yd rd tStart tEnd flow volume : ℚ) : M World := do
  let os ← W.orNearest (W.usableOrigs (W.nodesInArea xo yo ro)) xo yo
  let ds ← W.orNearest (W.usableDests (W.nodesInArea xd yd rd)) xd yd
  W.demandEach os ds tStart tEnd flow volume

/-- `np.linspace(a, b, n)` -/
def linspace (fl : ℚ → ℚ) (a b : ℚ) (n : ℕ) : List ℚ :=
  (List.range n).map fun i =>
    if i = 0 then a else if i + 1 = n then b else fl (fl (i * fl (fl (b - a) / (n - 1 : ℕ))) + a)

/-- `rng.choice(xs, size=n)` -/
def drawMany {α : Type} (xs : List α) : ℕ → World → M (List α × World)
  | 0, W => .ok ([], W)
  | n + 1, W => do
    let a ← choiceU xs W.draw.1
    let (as, W') ← drawMany xs n W.draw.2
    pure (a :: as, W')

/-- `d2 = d; if o == d: d2 = rng.choice([dd for dd in dests if dd != d])` (uxsim.py:2256–2258,
2307–2309) -/
def otherDest (dests : List NodeId) (o d : NodeId) (W : World) : M (NodeId × World) :=
  if o = d then
    (choiceU (dests.filter (fun e => decide (e ≠ d))) W.draw.1).map (fun d2 => (d2, W.draw.2))
  else .ok (d, W)

/-- `for t, o, d in zip(ts, os, ds): …` (uxsim.py:2255–2259, 2306–2310) -/
def demandOnes (dests : List NodeId) : List (ℚ × NodeId × NodeId) → World → M World
  | [], W => .ok W
  | (t, o, d) :: ps, W => do
    let (d2, W1) ← otherDest dests o d W
    let W2 ← W1.addVehicle { orig := .obj o, dest := some (.obj d2), dep := .sec t }
    demandOnes dests ps W2

/-- Number of platoons (uxsim.py:2229–2231, 2285–2287). -/
def demandSize (W : World) (tStart tEnd flow volume : ℚ) : ℤ :=
  pyInt (W.fl ((if 0 ≤ flow ∧ volume = -1 then W.fl (flow * W.fl (tEnd - tStart)) else volume) / W.dn))

/-- Common part of the two newer functions (uxsim.py:2250–2259, 2301–2310). -/
def demandSmooth (W : World) (origs dests : List NodeId) (tStart tEnd flow volume : ℚ) : M World := do
  let size := W.demandSize tStart tEnd flow volume
  if size < 0 then throw .valueError
  let (os, W1) ← drawMany origs size.toNat W
  let (ds, W2) ← drawMany dests size.toNat W1
  demandOnes dests ((linspace W.fl tStart tEnd size.toNat).zip (os.zip ds)) W2

/-- `adddemand_nodes2nodes2` (uxsim.py:2263–2310) -/
def addDemandNodes2 (W : World) (os ds : List Ref) (tStart tEnd flow volume : ℚ) : M World := do
  let os' ← os.mapM W.getNode
  let ds' ← ds.mapM W.getNode
  W.demandSmooth (W.usableOrigs os') (W.usableDests ds') tStart tEnd flow volume

/-- `adddemand_area2area2` (uxsim.py:2197–2259) -/
def addDemandAreas2 (W : World) (xo yo ro xd yd rd tStart tEnd flow volume : ℚ) : M World := do
  let os ← W.orNearest (W.usableOrigs (W.nodesInArea xo yo ro)) xo yo
  let ds ← W.orNearest (W.usableDests (W.nodesInArea xd yd rd)) xd yd
  W.demandSmooth os ds tStart tEnd flow volume

end World
end UX
